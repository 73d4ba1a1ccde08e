import Verif.Neu.Model

/-!
# The mixed problem reproduces polynomials: the variational core
-/

namespace Verif.Neu
open Verif.Mesh Verif.Dof Verif.Quad Verif.Fem Verif.Form Verif.Asm Verif.Phys Verif.Gal Verif.Bnd Verif.Reg Verif.Dir Verif.Gauss

section
variable {close : Pt ℝ → Pt ℝ → Bool} {B : Base ℝ} {e : ET} {sf : Bool} {s : St ℝ} {D : DH} {V : DV ℝ} {rect : Nat → Bool}
variable {n n1 j : Nat} {rc : List ((ℝ × ℝ) × ℝ)} {re : List (ℝ × ℝ)} {k kf : Kernel (Pt ℝ)} {κ p : Poly}
variable {em : CN → Fin 4 → Finset Nat} {d : List (Nat × ℝ)} {rob neu : List (Kernel (Pt ℝ) × Nat)}

/-- The local form of a side term. -/
noncomputable def edgeB (e : ET) (rc : List ((ℝ × ℝ) × ℝ)) (re : List (ℝ × ℝ)) (j : Nat) (q : QCell) (v x : Nat → ℝ) (y : Kernel (Pt ℝ) × Nat) : ℝ :=
  ∑ a ∈ Finset.range (nd2 e), ∑ i ∈ Finset.range (nd2 e), v a * val (evalBil y.1 ⟨e, [0]⟩ ⟨e, [0]⟩ .ds (some y.2) rc re q a i j) * x i

noncomputable def edgeL (e : ET) (rc : List ((ℝ × ℝ) × ℝ)) (re : List (ℝ × ℝ)) (j : Nat) (q : QCell) (v : Nat → ℝ) (y : Kernel (Pt ℝ) × Nat) : ℝ :=
  ∑ a ∈ Finset.range (nd2 e), v a * val (evalLin y.1 ⟨e, [0]⟩ .ds (some y.2) rc re q a j)

theorem total2_mixed (hB : B.WF) (hP : Plain B) (hR : Ready B e sf s D) (k : Kernel (Pt ℝ)) (rob : List (Kernel (Pt ℝ) × Nat)) (v x : Nat → ℝ) :
    total2 (contribs e (mixedBil k rob) rc re j (meshCellsM em rect sf s D)) v x =
      ((leaves sf s).map (fun c => bilC e k rc re j (qcellM em rect s c) (fun a => v (dofAt D c a)) (fun a => x (dofAt D c a)) +
        (rob.map (edgeB e rc re j (qcellM em rect s c) (fun a => v (dofAt D c a)) (fun a => x (dofAt D c a)))).sum)).sum := by
  unfold total2 contribs meshCellsM
  simp only [List.map_map]
  congr 1
  refine List.map_congr_left (fun c hc => ?_)
  obtain ⟨h1, h2, _⟩ := row_leaf hB hP hR hc
  simp only [Function.comp, mixedBil, laplace, List.map_cons, List.sum_cons, List.cons_append, List.nil_append, List.map_map]
  rw [localBilin_range, localBilin_range, h1, ← add_assoc]
  congr 1
  · unfold bilC
    congr 1
    · refine Finset.sum_congr rfl (fun a ha => Finset.sum_congr rfl (fun i hi => ?_))
      rw [h2 a (Finset.mem_range.1 ha), h2 i (Finset.mem_range.1 hi)]
    · refine Finset.sum_congr rfl (fun a ha => Finset.sum_congr rfl (fun i hi => ?_))
      rw [h2 a (Finset.mem_range.1 ha), h2 i (Finset.mem_range.1 hi)]
  · congr 1
    refine List.map_congr_left (fun y _ => ?_)
    simp only [Function.comp]
    rw [localBilin_range, h1]
    unfold edgeB
    refine Finset.sum_congr rfl (fun a ha => Finset.sum_congr rfl (fun i hi => ?_))
    rw [h2 a (Finset.mem_range.1 ha), h2 i (Finset.mem_range.1 hi)]

theorem total1_mixed (hB : B.WF) (hP : Plain B) (hR : Ready B e sf s D) (k : Kernel (Pt ℝ)) (neu : List (Kernel (Pt ℝ) × Nat)) (v : Nat → ℝ) :
    total1 (loads e (mixedLin k neu) rc re j (meshCellsM em rect sf s D)) v =
      ((leaves sf s).map (fun c => linC e k rc re j (qcellM em rect s c) (fun a => v (dofAt D c a)) +
        (neu.map (edgeL e rc re j (qcellM em rect s c) (fun a => v (dofAt D c a)))).sum)).sum := by
  unfold total1 loads meshCellsM
  simp only [List.map_map]
  congr 1
  refine List.map_congr_left (fun c hc => ?_)
  obtain ⟨h1, h2, _⟩ := row_leaf hB hP hR hc
  simp only [Function.comp, mixedLin, source, List.map_cons, List.sum_cons, List.cons_append, List.nil_append, List.map_map]
  rw [localLin_range, h1]
  congr 1
  · unfold linC
    refine Finset.sum_congr rfl (fun a ha => ?_)
    rw [h2 a (Finset.mem_range.1 ha)]
  · congr 1
    refine List.map_congr_left (fun y _ => ?_)
    simp only [Function.comp]
    rw [localLin_range, h1]
    unfold edgeL
    refine Finset.sum_congr rfl (fun a ha => ?_)
    rw [h2 a (Finset.mem_range.1 ha)]

theorem kval_poly {k : Kernel (Pt ℝ)} {η : Poly} (h : IsPoly k j η) (x : ℝ × ℝ) : kval k j x = ev η x := by
  obtain ⟨S, hS, h⟩ := h
  unfold kval
  rw [hS]
  exact h _

theorem E_cont (i : Fin 4) : Continuous (fun r : ℝ => E i r) := by
  fin_cases i <;> simp only [E] <;> fun_prop

theorem sideSum_cont (q : QD ℝ) {l : List (Kernel (Pt ℝ) × Nat)} (hl : ∀ y ∈ l, ∃ η, IsPoly y.1 j η) (m : Finset Nat) (i : Fin 4) :
    Continuous (fun r : ℝ => sideSum l j m (F q (E i r))) := by
  induction l with
  | nil => simp [sideSum]; exact continuous_const
  | cons y l ih =>
    obtain ⟨η, hη⟩ := hl y List.mem_cons_self
    have h1 := ih (fun z hz => hl z (List.mem_cons_of_mem _ hz))
    simp only [sideSum, List.map_cons, List.sum_cons] at h1 ⊢
    refine Continuous.add ?_ h1
    split_ifs
    · simp only [kval_poly hη]
      exact (ev_cont η).comp ((cont_F q).comp (E_cont i))
    · exact continuous_const

/-- Several side terms. -/
theorem sum_edges (q : QD ℝ) (m : Fin 4 → Finset Nat) (W : Fin 4 → ℝ → ℝ) (hW : ∀ i, Continuous (W i)) (l : List (Kernel (Pt ℝ) × Nat))
    (Φ : Kernel (Pt ℝ) × Nat → ℝ) (h : ∀ y ∈ l, ∃ η, IsPoly y.1 j η ∧
      Φ y = ∑ i : Fin 4, if y.2 ∈ m i then sideLen q i * ∫ r in (0 : ℝ)..1, ev η (F q (E i r)) * W i r else 0) :
    (l.map Φ).sum = ∑ i : Fin 4, sideLen q i * ∫ r in (0 : ℝ)..1, sideSum l j (m i) (F q (E i r)) * W i r := by
  induction l with
  | nil => simp [sideSum]
  | cons y l ih =>
    obtain ⟨η, hη, hy⟩ := h y List.mem_cons_self
    rw [List.map_cons, List.sum_cons, ih (fun z hz => h z (List.mem_cons_of_mem _ hz)), hy, ← Finset.sum_add_distrib]
    refine Finset.sum_congr rfl (fun i _ => ?_)
    have c1 : Continuous (fun r : ℝ => sideSum l j (m i) (F q (E i r)) * W i r) :=
      (sideSum_cont q (fun z hz => (h z (List.mem_cons_of_mem _ hz)).imp (fun _ h => h.1)) _ i).mul (hW i)
    have c2 : Continuous (fun r : ℝ => ev η (F q (E i r)) * W i r) := ((ev_cont η).comp ((cont_F q).comp (E_cont i))).mul (hW i)
    split_ifs with hm
    · rw [← mul_add, ← intervalIntegral.integral_add (c2.intervalIntegrable _ _) (c1.intervalIntegrable _ _)]
      congr 2
      funext r
      simp only [sideSum, List.map_cons, List.sum_cons, if_pos hm, kval_poly hη]
      ring
    · rw [zero_add]
      congr 2
      funext r
      simp only [sideSum, List.map_cons, List.sum_cons, if_neg hm, zero_add]

theorem normal_len (q : QD ℝ) (i : Fin 4) : sideLen q i * (normal q i).1 = (q.v (i + 1)).y - (q.v i).y ∧
    sideLen q i * (normal q i).2 = -((q.v (i + 1)).x - (q.v i).x) := by
  by_cases h : sideLen q i = 0
  · have h0 : ((q.v (i + 1)).x - (q.v i).x) ^ 2 + ((q.v (i + 1)).y - (q.v i).y) ^ 2 = 0 := by
      have := Real.sqrt_eq_zero'.1 h
      nlinarith [sq_nonneg ((q.v (i + 1)).x - (q.v i).x), sq_nonneg ((q.v (i + 1)).y - (q.v i).y)]
    have hx : (q.v (i + 1)).x - (q.v i).x = 0 := by nlinarith [sq_nonneg ((q.v (i + 1)).x - (q.v i).x), sq_nonneg ((q.v (i + 1)).y - (q.v i).y)]
    have hy : (q.v (i + 1)).y - (q.v i).y = 0 := by nlinarith [sq_nonneg ((q.v (i + 1)).x - (q.v i).x), sq_nonneg ((q.v (i + 1)).y - (q.v i).y)]
    simp [h, hx, hy]
  · unfold normal
    constructor
    · exact mul_div_cancel₀ _ h
    · exact mul_div_cancel₀ _ h

theorem corner_v (q : QD ℝ) (i : Fin 4) : Phys.corner q i = q.v i := by
  fin_cases i <;> rfl

theorem v_next (q : QD ℝ) (i : Fin 4) : q.v (i + 1 : Fin 4) = q.v ((i : Nat) + 1) := by
  fin_cases i <;> rfl

/-- The flux through a side is the integral of the normal component. -/
theorem flux_normal (q : QD ℝ) (P Q W : ℝ × ℝ → ℝ) (i : Fin 4) : sideFlux q P Q W i =
    sideLen q i * ∫ r in (0 : ℝ)..1, (P (F q (E i r)) * (normal q i).1 + Q (F q (E i r)) * (normal q i).2) * W (E i r) := by
  obtain ⟨h1, h2⟩ := normal_len q i
  unfold sideFlux
  rw [← intervalIntegral.integral_const_mul]
  congr 1
  funext r
  rw [corner_v, corner_v, v_next, ← h1]
  have : (q.v ((i : Nat) + 1)).x - (q.v i).x = -(sideLen q i * (normal q i).2) := by rw [h2]; ring
  rw [this]
  ring

/-- Test functions: single-valued, zero at the dofs with Dirichlet values. -/
def ZeroAt (d : List (Nat × ℝ)) (v : Nat → ℝ) : Prop := ∀ a, (Dir.look d a).isSome → v a = 0

open Classical in
/-- The values of `p` solve the discrete problem. -/
theorem consistent (h : Setting close B e sf s D V rect) (hd : Mixed B sf s e D em d n n1 j rc re k kf rob neu κ p) {v : Nat → ℝ}
    (hS : Single B sf s e D v) (hv : ZeroAt d v) :
    total2 (contribs e (mixedBil k rob) rc re j (meshCellsM em rect sf s D)) v (coeffs V p) =
      total1 (loads e (mixedLin kf neu) rc re j (meshCellsM em rect sf s D)) v := by
  rw [total2_mixed h.wf h.plain h.ready.ready, total1_mixed h.wf h.plain h.ready.ready, ← sub_eq_zero]
  have hs := h.ready.ready.uses.uses.reach
  have hi := hs.inv h.wf
  obtain ⟨S, hSz, hk⟩ := hd.data.diff
  obtain ⟨Sf, hSf, hf⟩ := hd.data.load
  have hfl := flux_boundary h.wf h.plain hs h.roots h.full hS (ev_cont (κ * dx p)) (ev_cont (κ * dy p))
  rw [← sub_eq_zero, ← Gal.map_sub] at hfl
  rw [← Gal.map_sub, ← hfl]
  congr 1
  refine List.map_congr_left (fun c hc => ?_)
  have hcm := (hi.mem c).2 ((Dof.mem_leaves hi c).1 hc).1
  have key := cell_consistent hd.data.rule2 hd.data.five hd.data.rule1 e (deg_pos h.cont) hd.data.order hSz hSf hd.data.degp hd.data.degk hk hf (qcellM em rect s c)
    (Fn.cell_convex h.wf h.convex hs hcm) (upright_cell h.wf h.rect hs hcm) (fun a => v (dofAt D c a))
  have e1 : ∀ i : Fin 4, sideFlux (quadOf B c) (ev (κ * dx p)) (ev (κ * dy p)) (feFn e D v c) i =
      sideFlux (cellQ s c) (ev (κ * dx p)) (ev (κ * dy p)) (feFn e D v c) i := fun i => (flux_same (cellQ_eq h.wf hs c hcm) _ _ _ i).symm
  simp only [e1]
  have e2 : bilC e k rc re j (qcellM em rect s c) (fun a => v (dofAt D c a)) (fun a => coeffs V p (dofAt D c a)) -
      linC e kf rc re j (qcellM em rect s c) (fun a => v (dofAt D c a)) =
      ∑ i : Fin 4, sideFlux (cellQ s c) (ev (κ * dx p)) (ev (κ * dy p)) (feFn e D v c) i := by
    refine Eq.trans ?_ key
    unfold bilC linC
    congr 2
    · refine Finset.sum_congr rfl (fun a _ => Finset.sum_congr rfl (fun i hi => ?_))
      simp only
      rw [coeffs_at h hc (Finset.mem_range.1 hi)]
      rfl
    · refine Finset.sum_congr rfl (fun a _ => Finset.sum_congr rfl (fun i hi => ?_))
      simp only
      rw [coeffs_at h hc (Finset.mem_range.1 hi)]
      rfl
  have cV : ∀ i : Fin 4, Continuous (fun r : ℝ => feFn e D v c (E i r)) := fun i => (W_cont (fe_mem e (fun a => v (dofAt D c a)))).comp (E_cont i)
  have cp : ∀ i : Fin 4, Continuous (fun r : ℝ => ev p (F (cellQ s c) (E i r))) := fun i => (ev_cont p).comp ((cont_F _).comp (E_cont i))
  have e3 : (rob.map (edgeB e rc re j (qcellM em rect s c) (fun a => v (dofAt D c a)) (fun a => coeffs V p (dofAt D c a)))).sum =
      ∑ i : Fin 4, sideLen (cellQ s c) i * ∫ r in (0 : ℝ)..1, sideSum rob j (em c i) (F (cellQ s c) (E i r)) *
        (feFn e D v c (E i r) * ev p (F (cellQ s c) (E i r))) := by
    refine sum_edges (cellQ s c) (em c) (fun i r => feFn e D v c (E i r) * ev p (F (cellQ s c) (E i r))) (fun i => (cV i).mul (cp i)) rob _ (fun y hy => ?_)
    obtain ⟨η, h1, h2, _⟩ := hd.robs y hy
    refine ⟨η, h1, (edge_bil hd.data.rule2 hd.data.rule1 hd.five1 h1 e h2 y.2 (qcellM em rect s c) _ _).trans ?_⟩
    refine Finset.sum_congr rfl (fun i _ => ?_)
    have : ∀ r : ℝ, interp2 e (fun a => coeffs V p (dofAt D c a)) (E i r) = ev p (F (cellQ s c) (E i r)) := fun r => coeffs_fn h hd.data.degp hc (E i r)
    simp only [this, mul_assoc]
    rfl
  have e4 : (neu.map (edgeL e rc re j (qcellM em rect s c) (fun a => v (dofAt D c a)))).sum =
      ∑ i : Fin 4, sideLen (cellQ s c) i * ∫ r in (0 : ℝ)..1, sideSum neu j (em c i) (F (cellQ s c) (E i r)) * feFn e D v c (E i r) := by
    refine sum_edges (cellQ s c) (em c) (fun i r => feFn e D v c (E i r)) cV neu _ (fun y hy => ?_)
    obtain ⟨η, h1, h2⟩ := hd.neus y hy
    exact ⟨η, h1, (edge_lin hd.data.rule2 hd.data.rule1 hd.five1 h1 e h2 y.2 (qcellM em rect s c) _)⟩
  rw [e3, e4]
  have e5 : ∀ a b x y : ℝ, a + x - (b + y) = a - b - (y - x) := fun a b x y => by ring
  rw [e5, e2]
  congr 1
  rw [← Finset.sum_sub_distrib]
  refine Finset.sum_congr rfl (fun i _ => ?_)
  have c1 : Continuous (fun r : ℝ => sideSum neu j (em c i) (F (cellQ s c) (E i r)) * feFn e D v c (E i r)) := (sideSum_cont (j := j) (cellQ s c) (l := neu) (fun y hy => (hd.neus y hy).imp (fun _ h => h.1)) (em c i) i).mul (cV i)
  have c2 : Continuous (fun r : ℝ => sideSum rob j (em c i) (F (cellQ s c) (E i r)) * (feFn e D v c (E i r) * ev p (F (cellQ s c) (E i r)))) := (sideSum_cont (j := j) (cellQ s c) (l := rob) (fun y hy => (hd.robs y hy).imp (fun _ h => h.1)) (em c i) i).mul ((cV i).mul (cp i))
  rw [← mul_sub, ← intervalIntegral.integral_sub (c1.intervalIntegrable _ _) (c2.intervalIntegrable _ _)]
  by_cases hb : OnBoundary B c i
  · rw [if_pos hb, flux_normal]
    congr 1
    refine intervalIntegral.integral_congr (fun r hr => ?_)
    rw [Set.uIcc_of_le zero_le_one] at hr
    rcases hd.side c hc i hb with hF | hN
    · have h0 : feFn e D v c (E i r) = 0 := fe_side h.cont _ i (fun q hq hn => hv _ (hF q hq hn)) r
      simp only [h0]
      ring
    · have := hN r hr.1 hr.2
      simp only [← this, ev_mul]
      ring
  · rw [if_neg hb]
    have z : ∀ (l : List (Kernel (Pt ℝ) × Nat)), (∀ y ∈ l, y ∈ rob ++ neu) → ∀ x, sideSum l j (em c i) x = 0 := by
      intro l hl x
      unfold sideSum
      refine List.sum_eq_zero ?_
      simp only [List.mem_map]
      rintro _ ⟨y, hy, rfl⟩
      rw [if_neg (hd.inner c hc i hb y (hl y hy))]
    simp only [z rob (fun y hy => List.mem_append_left _ hy), z neu (fun y hy => List.mem_append_right _ hy), zero_mul, sub_zero,
      intervalIntegral.integral_zero, mul_zero]

end
end Verif.Neu
