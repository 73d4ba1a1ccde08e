import Verif.Gal.Model

/-!
# The discrete problem reproduces polynomials
-/

namespace Verif.Gal
open Verif.Mesh Verif.Dof Verif.Quad Verif.Fem Verif.Form Verif.Asm Verif.Phys Verif.Bnd Verif.Reg Verif.Dir Verif.Gauss

section
variable {close : Pt ℝ → Pt ℝ → Bool} {B : Base ℝ} {e : ET} {sf : Bool} {s : St ℝ} {D : DH} {V : DV ℝ} {rect : Nat → Bool}

theorem upright_cell (hB : B.WF) (hA : RectOk rect B) (hs : MReach B s) {c : CN} (hc : c ∈ s.cells) (h : rect c.1 = true) : Upright (cellQ s c) := by
  have hi := hs.inv hB
  have hf := CEx_root hi c.2 c.1 ((hi.mem c).1 hc)
  have key : ∀ p : List (Fin 4), Upright (quadAt B c.1 p) := by
    intro p
    induction p with
    | nil => exact hA c.1 hf h
    | cons k p ih =>
      obtain ⟨h1, h2, h3, h4⟩ := ih
      show Upright ((quadAt B c.1 p).child ∅ k)
      unfold Upright
      fin_cases k <;> simp only [child_0, child_1, child_2, child_3, mid, QD.center] <;> refine ⟨?_, ?_, ?_, ?_⟩ <;> linarith
  obtain ⟨h0, h1, h2, h3⟩ := cellQ_eq hB hs c hc
  unfold Upright
  rw [h0, h1, h2, h3]
  exact key c.2

theorem F_same {a b : QD ℝ} (h : SameVerts a b) (z : ℝ × ℝ) : F a z = F b z := by
  rw [F_phys, F_phys, phys_same h]

theorem flux_same {a b : QD ℝ} (h : SameVerts a b) (P Q U : ℝ × ℝ → ℝ) (i : Fin 4) : sideFlux a P Q U i = sideFlux b P Q U i := by
  rw [sideFlux_eq, sideFlux_eq]
  unfold integrand
  simp only [F_same h]

/-- The dofs of a leaf. -/
theorem row_leaf (hB : B.WF) (hP : Plain B) (hR : Ready B e sf s D) {c : CN} (hc : c ∈ leaves sf s) :
    ((rowOf D c).getD []).length = nd2 e ∧ (∀ a < nd2 e, ((rowOf D c).getD []).getD a 0 = dofAt D c a) ∧
      ∀ a < nd2 e, Dof.val D c a = some (dofAt D c a) := by
  have hi := hR.uses.uses.reach.inv hB
  obtain ⟨h1, h2, _⟩ := (Dof.mem_leaves hi c).1 hc
  have hv := hR.val hB h1 h2
  have hl := (hR.uses.uses.snd hB hP).1
  obtain ⟨row, hrow⟩ := rowOf_ex hl (Phys.nd2_pos e) hv
  rw [hrow]
  have hval : ∀ a < nd2 e, Dof.val D c a = some (dofAt D c a) := by
    intro a ha
    obtain ⟨b, hb⟩ := Option.ne_none_iff_exists'.1 (hv a ha)
    unfold dofAt
    rw [hb]
    rfl
  refine ⟨rowOf_len hl hrow, fun a ha => ?_, hval⟩
  have := (rowOf_val hrow a _).2 (hval a ha)
  simp only [Option.getD_some]
  rw [List.getD_eq_getElem?_getD, this]
  rfl

variable {n n1 j : Nat} {rc : List ((ℝ × ℝ) × ℝ)} {re : List (ℝ × ℝ)}

/-- The local bilinear form of a leaf. -/
noncomputable def bilC (e : ET) (k : Kernel (Pt ℝ)) (rc : List ((ℝ × ℝ) × ℝ)) (re : List (ℝ × ℝ)) (j : Nat) (q : QCell) (v x : Nat → ℝ) : ℝ :=
  (∑ a ∈ Finset.range (nd2 e), ∑ i ∈ Finset.range (nd2 e), v a * val (evalBil k ⟨e, [1, 0]⟩ ⟨e, [1, 0]⟩ .dx none rc re q a i j) * x i) +
  (∑ a ∈ Finset.range (nd2 e), ∑ i ∈ Finset.range (nd2 e), v a * val (evalBil k ⟨e, [1, 1]⟩ ⟨e, [1, 1]⟩ .dx none rc re q a i j) * x i)

noncomputable def linC (e : ET) (k : Kernel (Pt ℝ)) (rc : List ((ℝ × ℝ) × ℝ)) (re : List (ℝ × ℝ)) (j : Nat) (q : QCell) (v : Nat → ℝ) : ℝ :=
  ∑ a ∈ Finset.range (nd2 e), v a * val (evalLin k ⟨e, [0]⟩ .dx none rc re q a j)

/-- What a form sees of a leaf. -/
noncomputable def qcell (rect : Nat → Bool) (s : St ℝ) (c : CN) : QCell := ⟨cellQ s c, rect c.1, fun _ => ∅, fun _ => ∅⟩

theorem bilC_sub (e : ET) (k : Kernel (Pt ℝ)) (q : QCell) (v x y : Nat → ℝ) :
    bilC e k rc re j q v (fun a => x a - y a) = bilC e k rc re j q v x - bilC e k rc re j q v y := by
  unfold bilC
  simp only [mul_sub, Finset.sum_sub_distrib]
  ring

theorem total2_leaves (hB : B.WF) (hP : Plain B) (hR : Ready B e sf s D) (k : Kernel (Pt ℝ)) (v x : Nat → ℝ) :
    total2 (contribs e (laplace k) rc re j (meshCells rect sf s D)) v x =
      ((leaves sf s).map (fun c => bilC e k rc re j (qcell rect s c) (fun a => v (dofAt D c a)) (fun a => x (dofAt D c a)))).sum := by
  unfold total2 contribs meshCells
  simp only [List.map_map]
  congr 1
  refine List.map_congr_left (fun c hc => ?_)
  obtain ⟨h1, h2, _⟩ := row_leaf hB hP hR hc
  simp only [Function.comp, laplace, List.map_cons, List.map_nil, List.sum_cons, List.sum_nil, add_zero]
  rw [localBilin_range, localBilin_range, h1]
  unfold bilC
  congr 1
  · refine Finset.sum_congr rfl (fun a ha => Finset.sum_congr rfl (fun i hi => ?_))
    rw [h2 a (Finset.mem_range.1 ha), h2 i (Finset.mem_range.1 hi)]
    rfl
  · refine Finset.sum_congr rfl (fun a ha => Finset.sum_congr rfl (fun i hi => ?_))
    rw [h2 a (Finset.mem_range.1 ha), h2 i (Finset.mem_range.1 hi)]
    rfl

theorem localLin_range (dofs : List ℕ) (M : ℕ → ℝ) (v : ℕ → ℝ) :
    localLin dofs M v = ∑ a ∈ Finset.range dofs.length, v (dofs.getD a 0) * M a := by
  unfold localLin
  rw [← Fin.sum_univ_eq_sum_range (fun a => v (dofs.getD a 0) * M a)]
  refine Finset.sum_congr rfl (fun a _ => ?_)
  simp

theorem total1_leaves (hB : B.WF) (hP : Plain B) (hR : Ready B e sf s D) (k : Kernel (Pt ℝ)) (v : Nat → ℝ) :
    total1 (loads e (source k) rc re j (meshCells rect sf s D)) v =
      ((leaves sf s).map (fun c => linC e k rc re j (qcell rect s c) (fun a => v (dofAt D c a)))).sum := by
  unfold total1 loads meshCells
  simp only [List.map_map]
  congr 1
  refine List.map_congr_left (fun c hc => ?_)
  obtain ⟨h1, h2, _⟩ := row_leaf hB hP hR hc
  simp only [Function.comp, source, List.map_cons, List.map_nil, List.sum_cons, List.sum_nil, add_zero]
  rw [localLin_range, h1]
  unfold linC
  refine Finset.sum_congr rfl (fun a ha => ?_)
  rw [h2 a (Finset.mem_range.1 ha)]
  rfl

/-! ### Definiteness -/

/-- A function with constant coefficients on a leaf is constant there. -/
theorem fe_const (e : ET) (k : ℝ) (U : Nat → ℝ) (h : ∀ a < nd2 e, U a = k) (z : ℝ × ℝ) : interp2 e U z = k := by
  have h1 : interp2 e U z = interp2 e (fun a => k) z := by
    unfold interp2
    congr 1
    refine List.map_congr_left (fun a ha => ?_)
    simp only
    rw [h a (List.mem_range.1 ha)]
  rw [h1]
  have := Fn.interp_W (K := ℝ) e (g := fun _ => k) (Fn.W_const _ _ k) z
  exact this

theorem det_int (q : QD ℝ) : ∫ r in Gauss.sq, det q ⟨r.1, r.2⟩ = q.area := by
  obtain ⟨r, hr, hA⟩ := C33_area 1 (by omega) (by omega) q
  have hr' : r = tensor (rule01 1) := by
    unfold rule2 at hr
    rw [show Gauss.isqrt (1 ^ 2) = 1 from Nat.sqrt_eq' 1, if_pos (by decide)] at hr
    exact (Except.ok.inj hr).symm
  subst hr'
  rw [← hA]
  have h := apply_map2 q (tensor (rule01 1)) (fun _ _ => 1)
  simp only [mul_one] at h
  have hm : (fun p : ℝ × ℝ => Quad.det q ⟨p.1, p.2⟩) ∈ W (2 * 1 - 1) (2 * 1 - 1) := W_mono (by omega) (by omega) (det_mem q)
  rw [tensor_exact_W _ _ (rule01_exact_le5 1 (by omega) (by omega)) hm] at h
  simp only [apply, mul_one] at h
  exact h.symm

/-- If the functions of the leaves are constant, single-valued and zero on the boundary, they are zero: no part of the domain is without
boundary. -/
theorem const_zero (hB : B.WF) (hP : Plain B) (hC : Fn.Convex B) (he : torn e = false) (hR : Ready B e sf s D) (hr : RootsIn B sf s)
    (hf : sf = false ∨ (RootedFlag B s ∧ FullFlag s)) {w : Nat → ℝ} (hS : Single B sf s e D w) (hw : ZeroBnd B sf s e D w)
    (hc : ∀ c ∈ leaves sf s, ∀ a < nd2 e, ∀ i < nd2 e, w (dofAt D c a) = w (dofAt D c i)) :
    ∀ c ∈ leaves sf s, ∀ a < nd2 e, w (dofAt D c a) = 0 := by
  have hs := hR.uses.uses.reach
  have hi := hs.inv hB
  set w2 : Nat → ℝ := fun d => w d ^ 2 with hw2
  have hfn : ∀ c ∈ leaves sf s, ∀ z, feFn e D w2 c z = (w (dofAt D c 0)) ^ 2 := by
    intro c hcl z
    refine fe_const e _ _ (fun a ha => ?_) z
    rw [hw2]
    simp only
    rw [hc c hcl a ha 0 (Phys.nd2_pos e)]
  have hfn1 : ∀ c ∈ leaves sf s, ∀ z, feFn e D w c z = w (dofAt D c 0) := by
    intro c hcl z
    exact fe_const e _ _ (fun a ha => hc c hcl a ha 0 (Phys.nd2_pos e)) z
  have hS2 : Single B sf s e D w2 := by
    intro c hcl c' hcl' z z' hz hz' hsame
    rw [hfn c hcl, hfn c' hcl', ← hfn1 c hcl z, ← hfn1 c' hcl' z', hS c hcl c' hcl' z z' hz hz' hsame]
  have hz2 : ZeroBnd B sf s e D w2 := by
    intro c hcl p hp hb
    rw [hw2]
    simp only
    rw [hw c hcl p hp hb]
    ring
  have key := flux_total (P := fun z => z.1) (Q := fun _ => 0) hB hP hs he hr hf hS2 hz2 continuous_fst continuous_const
  have gP : ∀ z : ℝ × ℝ, HasGrad (fun z => z.1) 1 0 z := by
    intro z
    unfold HasGrad
    simp
    exact hasFDerivAt_fst
  have gQ : ∀ z : ℝ × ℝ, HasGrad (fun _ => (0 : ℝ)) 0 0 z := grad_const 0
  have hcell : ∀ c ∈ leaves sf s, ∑ i : Fin 4, sideFlux (quadOf B c) (fun z => z.1) (fun _ => 0) (feFn e D w2 c) i =
      w (dofAt D c 0) ^ 2 * ∫ r in Gauss.sq, det (quadOf B c) ⟨r.1, r.2⟩ := by
    intro c hcl
    have hV : feFn e D w2 c = fun _ => w (dofAt D c 0) ^ 2 := funext (hfn c hcl)
    rw [hV, ← cell_flux (quadOf B c) (P := fun z => z.1) (Q := fun _ => 0) (V := fun _ => w (dofAt D c 0) ^ 2) (Px := fun _ => 1) (Py := fun _ => 0)
      (Qx := fun _ => 0) (Qy := fun _ => 0) (Vs := fun _ => 0) (Vt := fun _ => 0) gP gQ (grad_const _)
      continuous_const continuous_const continuous_const continuous_const, ← MeasureTheory.integral_const_mul]
    congr 1
    funext r
    ring
  have hpos : ∀ c ∈ leaves sf s, 0 < ∫ r in Gauss.sq, det (quadOf B c) ⟨r.1, r.2⟩ := by
    intro c hcl
    have hcx := Fn.quadAt_convex hC (CEx_root hi c.2 c.1 ((Dof.mem_leaves hi c).1 hcl).1) c.2
    rw [det_int]
    exact area_pos _ hcx
  have hnn := sum_zero (leaves sf s) (fun c => ∑ i : Fin 4, sideFlux (quadOf B c) (fun z => z.1) (fun _ => 0) (feFn e D w2 c) i)
    (fun c hcl => by
      rw [hcell c hcl]
      exact mul_nonneg (sq_nonneg _) (hpos c hcl).le) key
  intro c hcl a ha
  have := hnn c hcl
  rw [hcell c hcl] at this
  rcases mul_eq_zero.1 this with h0 | h0
  · rw [hc c hcl a ha 0 (Phys.nd2_pos e)]
    exact pow_eq_zero_iff (two_ne_zero) |>.1 h0
  · exact absurd h0 (hpos c hcl).ne'

end
end Verif.Gal
