import Verif.Cea.Local

/-!
# Galerkin orthogonality
-/

namespace Verif.Cea
open Verif.Mesh Verif.Dof Verif.Quad Verif.Fem Verif.Form Verif.Asm Verif.Phys Verif.Bnd Verif.Reg Verif.Dir Verif.Gauss Verif.Gal MeasureTheory

section
variable {close : Pt ℝ → Pt ℝ → Bool} {B : Base ℝ} {e : ET} {sf : Bool} {s : St ℝ} {D : DH} {V : DV ℝ} {rect : Nat → Bool}
variable {n n1 j : Nat} {rc : List ((ℝ × ℝ) × ℝ)} {re : List (ℝ × ℝ)} {k kf : Kernel (Pt ℝ)} {κ f : Poly}

/-! ### Cells -/

theorem par_at (hA : Par B) {f : Nat} (hf : f < B.n) (p : List (Fin 4)) : hDx (quadAt B f p) = 0 ∧ hDy (quadAt B f p) = 0 := by
  induction p with
  | nil => exact hA f hf
  | cons k p ih =>
    obtain ⟨h1, h2⟩ := ih
    show hDx ((quadAt B f p).child ∅ k) = 0 ∧ hDy ((quadAt B f p).child ∅ k) = 0
    unfold hDx hDy at *
    fin_cases k <;> simp only [child_0, child_1, child_2, child_3, mid, QD.center] <;> constructor <;> linarith

theorem par_cell (hB : B.WF) (hA : Par B) (hs : MReach B s) {c : CN} (hc : c ∈ s.cells) : hDx (cellQ s c) = 0 ∧ hDy (cellQ s c) = 0 := by
  have hi := hs.inv hB
  have hf := CEx_root hi c.2 c.1 ((hi.mem c).1 hc)
  obtain ⟨h0, h1, h2, h3⟩ := cellQ_eq hB hs c hc
  have := par_at hA hf c.2
  unfold hDx hDy at *
  rw [h0, h1, h2, h3]
  exact this

theorem leaf_mem (h : Setting close B e sf s D V rect) {c : CN} (hc : c ∈ leaves sf s) : c ∈ s.cells := by
  have hi := h.ready.ready.uses.uses.reach.inv h.wf
  exact (hi.mem c).2 ((Dof.mem_leaves hi c).1 hc).1

theorem leaf_convex (h : Setting close B e sf s D V rect) {c : CN} (hc : c ∈ leaves sf s) : ConvexCCW (cellQ s c) :=
  Fn.cell_convex h.wf h.convex h.ready.ready.uses.uses.reach (leaf_mem h hc)

theorem leaf_root (h : Setting close B e sf s D V rect) {c : CN} (hc : c ∈ leaves sf s) : c.1 < B.n := by
  have hi := h.ready.ready.uses.uses.reach.inv h.wf
  exact CEx_root hi c.2 c.1 ((hi.mem c).1 (leaf_mem h hc))

theorem in_region {q : QD ℝ} (hq : ConvexCCW q) {z : ℝ × ℝ} (hz : Dof.InSq z) : F q z ∈ Quad.region q := by
  rw [← image_F q hq]
  exact ⟨z, ⟨⟨hz.1, hz.2.1⟩, hz.2.2.1, hz.2.2.2⟩, rfl⟩

/-- A leaf lies in the domain. -/
theorem leaf_dom (h : Setting close B e sf s D V rect) {c : CN} (hc : c ∈ leaves sf s) {z : ℝ × ℝ} (hz : Dof.InSq z) :
    F (cellQ s c) z ∈ Dom B := by
  refine ⟨c.1, leaf_root h hc, ?_⟩
  rw [F_same (cellQ_eq h.wf h.ready.ready.uses.uses.reach c (leaf_mem h hc))]
  rw [show quadAt B c.1 c.2 = quadOf B c from rfl, F_cell]
  exact in_region (h.convex c.1 (leaf_root h hc)) (climb_insq c.2 hz)

theorem open_sq {z : ℝ × ℝ} (hz : InOpen z) : Dof.InSq z := ⟨hz.1.le, hz.2.1.le, hz.2.2.1.le, hz.2.2.2.le⟩

/-! ### What `solve` returns -/

/-- Whatever `solve` returns is admissible and solves the discrete problem. -/
theorem galerkin (h : Setting close B e sf s D V rect) {g : Pt ℝ → ℝ} {H C : List (Linsys.Con ℝ)}
    (hh : setHanging sf s e D [] = some (H, C)) {d : List (Nat × ℝ)} (hD : BndDict B sf s e D g d) {keep fuel}
    {ord : List ℕ → List ℕ} (ho : SetOrder ord) (ha : Ascending ord) {y u : List ℝ}
    (hr : Solved e k kf rc re j rect sf s D H d keep fuel ord y u) :
    Admissible B sf s e D g (fun a => u.getD a 0) ∧ ∀ v, Single B sf s e D v → ZeroBnd B sf s e D v →
      total2 (contribs e (laplace k) rc re j (meshCells rect sf s D)) v (fun a => u.getD a 0) =
        total1 (loads e (source kf) rc re j (meshCells rect sf s D)) v := by
  obtain ⟨af2, af1, A, ub, b, x0, h2, h1, hA, hb, hx, _, hs, hu⟩ := hr.run
  have hO := dict_level h hh hD
  obtain ⟨_, ⟨hC, hDir⟩, hsol⟩ := C54_solve_partial hO (contribs_same _ _ _ _ _ _) (fun r => (uses2_iff h k r).trans (uses1_iff h kf r).symm)
    h2 h1 ho ha hA hb (fun x0' hx' => by rw [hx] at hx'; cases hx'; exact hs) hu
  obtain ⟨_, hnd, _⟩ := setHanging_spec h.wf h.plain h.cont h.ready.ready hh
  refine ⟨⟨?_, ?_⟩, ?_⟩
  · exact C62_implies_continuous h.wf h.plain h.cont h.ready.ready hh _ (conforms_iff H d hnd (aff_zero h hh) _ hC)
  · intro c hc a ha hb
    have hv := (row_leaf h.wf h.plain h.ready.ready hc).2.2 a ha
    have hl : (consOf H d).dir (dofAt D c a) = some (g (place s e c a)) := (hD.2 _ _).2 ⟨c, hc, a, ha, hv, hb, rfl⟩
    have hng : (consOf H d).hng (dofAt D c a) = none := by
      show Option.map _ _ = none
      rw [Option.map_eq_none_iff, List.find?_eq_none]
      intro x hx
      have := C66_not_hanging h.wf h.plain h.cont h.ready.ready hh c a _ ha hv hb x hx
      simpa using this
    have := hDir _ _ hng hl
    simpa using this
  · intro v hv hz
    exact hsol v ((test_iff h hh hD v).2 ⟨hv, hz⟩)

theorem Admissible.diff {g : Pt ℝ → ℝ} {U W : Nat → ℝ} (hU : Admissible B sf s e D g U) (hW : Admissible B sf s e D g W) :
    Single B sf s e D (fun a => U a - W a) ∧ ZeroBnd B sf s e D (fun a => U a - W a) := by
  constructor
  · intro c hc c' hc' z z' hz hz' hsame
    rw [fe_sub, fe_sub, hU.single c hc c' hc' z z' hz hz' hsame, hW.single c hc c' hc' z z' hz hz' hsame]
  · intro c hc a ha hB
    simp only
    rw [hU.bnd c hc a ha hB, hW.bnd c hc a ha hB, sub_self]

/-! ### The energy in reference coordinates -/

/-- The energy product on the leaves, in reference coordinates. -/
noncomputable def prodE (κ : Poly) (q : QD ℝ) (e : ET) (v x : Nat → ℝ) : ℝ :=
  ∫ r in Gauss.sq, det q ⟨r.1, r.2⟩ * ev κ (F q r) * (gx q e v r * gx q e x r + gy q e v r * gy q e x r)

/-- The product of the gradient of the solution with that of a finite element function. -/
noncomputable def prodU (κ : Poly) (u : ℝ × ℝ → ℝ) (q : QD ℝ) (e : ET) (v : Nat → ℝ) : ℝ :=
  ∫ r in Gauss.sq, det q ⟨r.1, r.2⟩ * ev κ (F q r) * (px u (F q r) * gx q e v r + py u (F q r) * gy q e v r)

theorem total2_exact (h : Setting close B e sf s D V rect) (hA : Par B) (hp : Problem e n n1 j rc re k kf κ f) (v x : Nat → ℝ) :
    total2 (contribs e (laplace k) rc re j (meshCells rect sf s D)) v x =
      ((leaves sf s).map (fun c => prodE κ (cellQ s c) e (fun a => v (dofAt D c a)) (fun a => x (dofAt D c a)))).sum := by
  rw [total2_leaves h.wf h.plain h.ready.ready]
  congr 1
  refine List.map_congr_left (fun c hc => ?_)
  have hs := h.ready.ready.uses.uses.reach
  obtain ⟨hx, hy⟩ := par_cell h.wf hA hs (leaf_mem h hc)
  exact bil_exact hp (qcell rect s c) (leaf_convex h hc) (upright_cell h.wf h.rect hs (leaf_mem h hc)) hx hy _ _

theorem total1_exact (h : Setting close B e sf s D V rect) (hA : Par B) (hp : Problem e n n1 j rc re k kf κ f) (v : Nat → ℝ) :
    total1 (loads e (source kf) rc re j (meshCells rect sf s D)) v =
      ((leaves sf s).map (fun c => ∫ r in Gauss.sq, det (cellQ s c) ⟨r.1, r.2⟩ * (ev f (F (cellQ s c) r) * feFn e D v c r))).sum := by
  rw [total1_leaves h.wf h.plain h.ready.ready]
  congr 1
  refine List.map_congr_left (fun c hc => ?_)
  obtain ⟨hx, hy⟩ := par_cell h.wf hA h.ready.ready.uses.uses.reach (leaf_mem h hc)
  exact lin_exact hp (qcell rect s c) hx hy _

/-! ### The classical solution -/

theorem smooth_px {u : ℝ × ℝ → ℝ} (hu : ContDiff ℝ 2 u) : ContDiff ℝ 1 (px u) ∧ ContDiff ℝ 1 (py u) := by
  have h1 : ContDiff ℝ 1 (fderiv ℝ u) := hu.fderiv_right (by norm_num)
  exact ⟨h1.clm_apply contDiff_const, h1.clm_apply contDiff_const⟩

theorem smooth_flux {u : ℝ × ℝ → ℝ} (hu : ContDiff ℝ 1 u) (κ : Poly) : ContDiff ℝ 1 (fun z => ev κ z * u z) := by
  refine ContDiff.mul ?_ hu
  have : ev κ = fun z => ∑ m ∈ κ.support, κ.coeff m * (z.1 ^ m 0 * z.2 ^ m 1) := funext (ev_sum κ)
  rw [this]
  fun_prop

theorem cont_px {u : ℝ × ℝ → ℝ} (hu : ContDiff ℝ 1 u) : Continuous (px u) ∧ Continuous (py u) := by
  have h1 : Continuous (fderiv ℝ u) := hu.continuous_fderiv (by norm_num)
  exact ⟨h1.clm_apply continuous_const, h1.clm_apply continuous_const⟩

/-- The weak form of the equation. -/
theorem weak (h : Setting close B e sf s D V rect) (hA : Par B) {u : ℝ × ℝ → ℝ} (hu : Classical κ f u (Dom B)) {v : Nat → ℝ}
    (hS : Single B sf s e D v) (hv : ZeroBnd B sf s e D v) :
    ((leaves sf s).map (fun c => prodU κ u (cellQ s c) e (fun a => v (dofAt D c a)))).sum =
      ((leaves sf s).map (fun c => ∫ r in Gauss.sq, det (cellQ s c) ⟨r.1, r.2⟩ * (ev f (F (cellQ s c) r) * feFn e D v c r))).sum := by
  have hs := h.ready.ready.uses.uses.reach
  obtain ⟨s1, s2⟩ := smooth_px hu.smooth
  have P1 := smooth_flux s1 κ
  have Q1 := smooth_flux s2 κ
  have key := flux_total h.wf h.plain hs h.cont h.roots h.full hS hv P1.continuous Q1.continuous
  rw [← sub_eq_zero, ← key, ← Gal.map_sub]
  congr 1
  refine List.map_congr_left (fun c hc => ?_)
  have hcx := leaf_convex h hc
  have hq := cellQ_eq h.wf hs c (leaf_mem h hc)
  have e1 : ∀ i : Fin 4, sideFlux (quadOf B c) (fun z => ev κ z * px u z) (fun z => ev κ z * py u z) (feFn e D v c) i =
      sideFlux (cellQ s c) (fun z => ev κ z * px u z) (fun z => ev κ z * py u z) (feFn e D v c) i := fun i => (flux_same hq _ _ _ i).symm
  simp only [e1]
  set v' : Nat → ℝ := fun a => v (dofAt D c a) with hv'
  have hfe : feFn e D v c = interp2 e v' := rfl
  rw [hfe, ← cell_flux (cellQ s c) (fun z => grad_of (P1.differentiable (by norm_num) z)) (fun z => grad_of (Q1.differentiable (by norm_num) z))
    (grad_fe e v') (cont_px P1).1 (cont_px Q1).2 (W_cont (Vs_mem e v')) (W_cont (Vt_mem e v'))]
  unfold prodU
  obtain ⟨hx, hy⟩ := par_cell h.wf hA hs (leaf_mem h hc)
  have cF := cont_F (cellQ s c)
  have i1 : Continuous (fun r : ℝ × ℝ => det (cellQ s c) ⟨r.1, r.2⟩ * ev κ (F (cellQ s c) r) * (px u (F (cellQ s c) r) * gx (cellQ s c) e v' r +
      py u (F (cellQ s c) r) * gy (cellQ s c) e v' r)) := by
    exact (((continuous_det _).mul ((ev_cont κ).comp cF))).mul (((s1.continuous.comp cF).mul (W_cont (gx_mem hx hy e v').1)).add
      ((s2.continuous.comp cF).mul (W_cont (gx_mem hx hy e v').2)))
  have i2 : Continuous (fun r : ℝ × ℝ => det (cellQ s c) ⟨r.1, r.2⟩ * (ev f (F (cellQ s c) r) * interp2 e v' r)) :=
    (continuous_det _).mul (((ev_cont f).comp cF).mul (W_cont (fe_mem e v')))
  rw [← integral_sub (cont_int i1) (cont_int i2)]
  unfold Gauss.sq
  rw [← setIntegral_congr_set sq_ae, ← setIntegral_congr_set sq_ae]
  refine setIntegral_congr_fun (measurableSet_Ioo.prod measurableSet_Ioo) ?_
  rintro r ⟨⟨a, b⟩, d, d'⟩
  have hr : InOpen r := ⟨a, b, d, d'⟩
  obtain ⟨g1, g2⟩ := det_gx (det_ne hcx hr) e v'
  have := hu.eq _ (leaf_dom h hc (open_sq hr))
  simp only
  rw [← this, ← g1, ← g2]
  ring

/-- **Galerkin orthogonality.** -/
theorem orthogonal (h : Setting close B e sf s D V rect) (hA : Par B) (hp : Problem e n n1 j rc re k kf κ f) {u : ℝ × ℝ → ℝ}
    (hu : Classical κ f u (Dom B)) {U v : Nat → ℝ} (hS : Single B sf s e D v) (hv : ZeroBnd B sf s e D v)
    (hU : total2 (contribs e (laplace k) rc re j (meshCells rect sf s D)) v U = total1 (loads e (source kf) rc re j (meshCells rect sf s D)) v) :
    ((leaves sf s).map (fun c => prodE κ (cellQ s c) e (fun a => v (dofAt D c a)) (fun a => U (dofAt D c a)))).sum =
      ((leaves sf s).map (fun c => prodU κ u (cellQ s c) e (fun a => v (dofAt D c a)))).sum := by
  rw [weak h hA hu hS hv, ← total1_exact h hA hp, ← hU, total2_exact h hA hp]

end
end Verif.Cea
