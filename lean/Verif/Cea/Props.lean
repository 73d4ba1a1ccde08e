import Verif.Cea.Core

/-!
# C78: the computed solution is the best approximation

For the problem `−div(κ∇u) = f` with polynomial `κ` and `f` on a mesh of parallelograms (any refinement, any hanging nodes), whatever `assemble`
and `solve` return is, among all continuous finite element functions with the same values at the boundary nodes, the one with the smallest
energy and the one closest to any classical solution in the energy norm.
-/

namespace Verif.Cea
open Verif.Mesh Verif.Dof Verif.Quad Verif.Fem Verif.Form Verif.Asm Verif.Phys Verif.Bnd Verif.Reg Verif.Dir Verif.Gauss Verif.Gal MeasureTheory

section
variable {close : Pt ℝ → Pt ℝ → Bool} {B : Base ℝ} {e : ET} {sf : Bool} {s : St ℝ} {D : DH} {V : DV ℝ} {rect : Nat → Bool}
variable {n n1 j : Nat} {rc : List ((ℝ × ℝ) × ℝ)} {re : List (ℝ × ℝ)} {k kf : Kernel (Pt ℝ)} {κ f : Poly}

theorem lsum_add {α : Type} (l : List α) (f g : α → ℝ) : (l.map (fun a => f a + g a)).sum = (l.map f).sum + (l.map g).sum := by
  induction l with
  | nil => simp
  | cons a l ih =>
    simp only [List.map_cons, List.sum_cons, ih]
    ring

theorem lsum_mul {α : Type} (l : List α) (f : α → ℝ) (x : ℝ) : (l.map (fun a => x * f a)).sum = x * (l.map f).sum :=
  List.sum_map_mul_left ..

theorem int_add {f g : ℝ × ℝ → ℝ} (hf : Continuous f) (hg : Continuous g) :
    ∫ r in Gauss.sq, (f r + g r) = (∫ r in Gauss.sq, f r) + ∫ r in Gauss.sq, g r := integral_add (cont_int hf) (cont_int hg)

theorem int_sub {f g : ℝ × ℝ → ℝ} (hf : Continuous f) (hg : Continuous g) :
    ∫ r in Gauss.sq, (f r - g r) = (∫ r in Gauss.sq, f r) - ∫ r in Gauss.sq, g r := integral_sub (cont_int hf) (cont_int hg)

theorem int_mul (x : ℝ) (f : ℝ × ℝ → ℝ) : ∫ r in Gauss.sq, x * f r = x * ∫ r in Gauss.sq, f r := integral_const_mul _ _

theorem cmul (x : ℝ) {f : ℝ × ℝ → ℝ} (hf : Continuous f) : Continuous (fun r => x * f r) := continuous_const.mul hf

/-- The error on a cell in reference coordinates. -/
noncomputable def errC (κ : Poly) (u : ℝ × ℝ → ℝ) (q : QD ℝ) (e : ET) (v : Nat → ℝ) : ℝ :=
  ∫ r in Gauss.sq, det q ⟨r.1, r.2⟩ * ev κ (F q r) * ((gx q e v r - px u (F q r)) ^ 2 + (gy q e v r - py u (F q r)) ^ 2)

theorem errE_ref (h : Setting close B e sf s D V rect) {U : Nat → ℝ} {w : CN → ℝ × ℝ → ℝ} (hw : IsFn sf s e D U w) (κ : Poly) (u : ℝ × ℝ → ℝ) :
    errE κ sf s u w = ((leaves sf s).map (fun c => errC κ u (cellQ s c) e (fun a => U (dofAt D c a)))).sum := by
  unfold errE errC
  congr 1
  refine List.map_congr_left (fun c hc => ?_)
  refine cell_integral (leaf_convex h hc) _ _ (fun r hr => ?_)
  obtain ⟨h1, h2⟩ := fn_grad (leaf_convex h hc) (hw c hc) (v := fun a => U (dofAt D c a)) hr
  rw [h1, h2]
  ring

theorem distE_ref (h : Setting close B e sf s D V rect) {U W : Nat → ℝ} {w w' : CN → ℝ × ℝ → ℝ} (hw : IsFn sf s e D U w) (hw' : IsFn sf s e D W w')
    (κ : Poly) : distE κ sf s w w' = ((leaves sf s).map (fun c => prodE κ (cellQ s c) e (fun a => U (dofAt D c a) - W (dofAt D c a))
      (fun a => U (dofAt D c a) - W (dofAt D c a)))).sum := by
  unfold distE prodE
  congr 1
  refine List.map_congr_left (fun c hc => ?_)
  refine cell_integral (leaf_convex h hc) _ _ (fun r hr => ?_)
  obtain ⟨h1, h2⟩ := fn_grad (leaf_convex h hc) (hw c hc) (v := fun a => U (dofAt D c a)) hr
  obtain ⟨h3, h4⟩ := fn_grad (leaf_convex h hc) (hw' c hc) (v := fun a => W (dofAt D c a)) hr
  obtain ⟨h5, h6⟩ := gx_sub (cellQ s c) e (fun a => U (dofAt D c a)) (fun a => W (dofAt D c a)) r
  rw [h1, h2, h3, h4, h5, h6]
  ring

/-- The square of a difference on one cell. -/
theorem err_split (hA : Par B) (h : Setting close B e sf s D V rect) {u : ℝ × ℝ → ℝ} (hu : ContDiff ℝ 2 u) (κ : Poly) {c : CN} (hc : c ∈ leaves sf s)
    (U W : Nat → ℝ) : errC κ u (cellQ s c) e W = errC κ u (cellQ s c) e U + prodE κ (cellQ s c) e (fun a => W a - U a) (fun a => W a - U a) +
      2 * (prodE κ (cellQ s c) e (fun a => W a - U a) U - prodU κ u (cellQ s c) e (fun a => W a - U a)) := by
  obtain ⟨hx, hy⟩ := par_cell h.wf hA h.ready.ready.uses.uses.reach (leaf_mem h hc)
  set q := cellQ s c
  have cF := cont_F q
  obtain ⟨s1, s2⟩ := smooth_px hu
  have cg : ∀ v, Continuous (gx q e v) ∧ Continuous (gy q e v) := fun v => ⟨W_cont (gx_mem hx hy e v).1, W_cont (gx_mem hx hy e v).2⟩
  have ck : Continuous (fun r : ℝ × ℝ => det q ⟨r.1, r.2⟩ * ev κ (F q r)) := (continuous_det _).mul ((ev_cont κ).comp cF)
  have cx := s1.continuous.comp cF
  have cy := s2.continuous.comp cF
  have iE : ∀ v x, Continuous (fun r : ℝ × ℝ => det q ⟨r.1, r.2⟩ * ev κ (F q r) * (gx q e v r * gx q e x r + gy q e v r * gy q e x r)) := fun v x =>
    ck.mul (((cg v).1.mul (cg x).1).add ((cg v).2.mul (cg x).2))
  have iU : ∀ v, Continuous (fun r : ℝ × ℝ => det q ⟨r.1, r.2⟩ * ev κ (F q r) * (px u (F q r) * gx q e v r + py u (F q r) * gy q e v r)) := fun v =>
    ck.mul ((cx.mul (cg v).1).add (cy.mul (cg v).2))
  have iR : ∀ v, Continuous (fun r : ℝ × ℝ => det q ⟨r.1, r.2⟩ * ev κ (F q r) * ((gx q e v r - px u (F q r)) ^ 2 + (gy q e v r - py u (F q r)) ^ 2)) :=
    fun v => ck.mul ((((cg v).1.sub cx).pow 2).add (((cg v).2.sub cy).pow 2))
  unfold errC prodE prodU
  rw [← int_sub (iE (fun a => W a - U a) U) (iU (fun a => W a - U a)), ← int_mul, ← int_add (iR U) (iE (fun a => W a - U a) (fun a => W a - U a)),
    ← int_add]
  rotate_left
  · exact (iR U).add (iE (fun a => W a - U a) (fun a => W a - U a))
  · exact continuous_const.mul ((iE (fun a => W a - U a) U).sub (iU (fun a => W a - U a)))
  congr 1
  funext r
  obtain ⟨h5, h6⟩ := gx_sub q e W U r
  rw [h5, h6]
  ring

/-- The theorem of Pythagoras, for any admissible solution of the discrete problem. -/
theorem pythagoras (h : Setting close B e sf s D V rect) (hA : Par B) (hp : Problem e n n1 j rc re k kf κ f) {u : ℝ × ℝ → ℝ}
    (hu : Classical κ f u (Dom B)) {g : Pt ℝ → ℝ} {U W : Nat → ℝ} (hU : Admissible B sf s e D g U)
    (hsol : ∀ v, Single B sf s e D v → ZeroBnd B sf s e D v →
      total2 (contribs e (laplace k) rc re j (meshCells rect sf s D)) v U = total1 (loads e (source kf) rc re j (meshCells rect sf s D)) v)
    (hW : Admissible B sf s e D g W) {w w' : CN → ℝ × ℝ → ℝ} (hw : IsFn sf s e D U w) (hw' : IsFn sf s e D W w') :
    errE κ sf s u w' = errE κ sf s u w + distE κ sf s w' w := by
  obtain ⟨d1, d2⟩ := hW.diff hU
  have ho := orthogonal h hA hp hu d1 d2 (hsol _ d1 d2)
  rw [errE_ref h hw, errE_ref h hw', distE_ref h hw' hw]
  have e1 : (leaves sf s).map (fun c => errC κ u (cellQ s c) e (fun a => W (dofAt D c a))) = (leaves sf s).map (fun c =>
      (errC κ u (cellQ s c) e (fun a => U (dofAt D c a)) + prodE κ (cellQ s c) e (fun a => W (dofAt D c a) - U (dofAt D c a))
        (fun a => W (dofAt D c a) - U (dofAt D c a))) + 2 * (prodE κ (cellQ s c) e (fun a => W (dofAt D c a) - U (dofAt D c a))
        (fun a => U (dofAt D c a)) - prodU κ u (cellQ s c) e (fun a => W (dofAt D c a) - U (dofAt D c a)))) :=
    List.map_congr_left (fun c hc => err_split hA h hu.smooth κ hc _ _)
  rw [e1, lsum_add, lsum_add, lsum_mul, Gal.map_sub, ho]
  ring

/-- The energy on a cell in reference coordinates. -/
theorem energy_ref (h : Setting close B e sf s D V rect) (hA : Par B) {U : Nat → ℝ} {w : CN → ℝ × ℝ → ℝ} (hw : IsFn sf s e D U w) (κ f : Poly) :
    energy κ f sf s w = 1 / 2 * ((leaves sf s).map (fun c => prodE κ (cellQ s c) e (fun a => U (dofAt D c a)) (fun a => U (dofAt D c a)))).sum -
      ((leaves sf s).map (fun c => ∫ r in Gauss.sq, det (cellQ s c) ⟨r.1, r.2⟩ * (ev f (F (cellQ s c) r) * feFn e D U c r))).sum := by
  unfold energy
  rw [← lsum_mul, ← Gal.map_sub]
  congr 1
  refine List.map_congr_left (fun c hc => ?_)
  obtain ⟨hx, hy⟩ := par_cell h.wf hA h.ready.ready.uses.uses.reach (leaf_mem h hc)
  set q := cellQ s c with hq
  set U' : Nat → ℝ := fun a => U (dofAt D c a) with hU'
  have cF := cont_F q
  have cg : ∀ v, Continuous (gx q e v) ∧ Continuous (gy q e v) := fun v => ⟨W_cont (gx_mem hx hy e v).1, W_cont (gx_mem hx hy e v).2⟩
  have ck : Continuous (fun r : ℝ × ℝ => det q ⟨r.1, r.2⟩ * ev κ (F q r)) := (continuous_det _).mul ((ev_cont κ).comp cF)
  have i1 : Continuous (fun r : ℝ × ℝ => det q ⟨r.1, r.2⟩ * ev κ (F q r) * (gx q e U' r * gx q e U' r + gy q e U' r * gy q e U' r)) :=
    ck.mul (((cg U').1.mul (cg U').1).add ((cg U').2.mul (cg U').2))
  have i2 : Continuous (fun r : ℝ × ℝ => det q ⟨r.1, r.2⟩ * (ev f (F q r) * interp2 e U' r)) :=
    (continuous_det _).mul (((ev_cont f).comp cF).mul (W_cont (fe_mem e U')))
  have hfe : feFn e D U c = interp2 e U' := rfl
  rw [hfe]
  unfold prodE
  rw [← int_mul, ← int_sub (cmul (1 / 2) i1) i2]
  refine cell_integral (leaf_convex h hc) _ _ (fun r hr => ?_)
  obtain ⟨h1, h2⟩ := fn_grad (leaf_convex h hc) (hw c hc) (v := U') hr
  rw [h1, h2, hw c hc r hr, hfe]
  ring

theorem prodE_sub (hA : Par B) (h : Setting close B e sf s D V rect) (κ : Poly) {c : CN} (hc : c ∈ leaves sf s)
    (U W : Nat → ℝ) : 1 / 2 * prodE κ (cellQ s c) e W W = 1 / 2 * prodE κ (cellQ s c) e U U +
      (1 / 2 * prodE κ (cellQ s c) e (fun a => W a - U a) (fun a => W a - U a) + prodE κ (cellQ s c) e (fun a => W a - U a) U) := by
  obtain ⟨hx, hy⟩ := par_cell h.wf hA h.ready.ready.uses.uses.reach (leaf_mem h hc)
  set q := cellQ s c
  have cF := cont_F q
  have cg : ∀ v, Continuous (gx q e v) ∧ Continuous (gy q e v) := fun v => ⟨W_cont (gx_mem hx hy e v).1, W_cont (gx_mem hx hy e v).2⟩
  have ck : Continuous (fun r : ℝ × ℝ => det q ⟨r.1, r.2⟩ * ev κ (F q r)) := (continuous_det _).mul ((ev_cont κ).comp cF)
  have iE : ∀ v x, Continuous (fun r : ℝ × ℝ => det q ⟨r.1, r.2⟩ * ev κ (F q r) * (gx q e v r * gx q e x r + gy q e v r * gy q e x r)) := fun v x =>
    ck.mul (((cg v).1.mul (cg x).1).add ((cg v).2.mul (cg x).2))
  unfold prodE
  rw [← int_mul, ← int_mul, ← int_mul, ← int_add (cmul (1 / 2) (iE (fun a => W a - U a) (fun a => W a - U a))) (iE (fun a => W a - U a) U),
    ← int_add]
  rotate_left
  · exact cmul (1 / 2) (iE U U)
  · exact (cmul (1 / 2) (iE (fun a => W a - U a) (fun a => W a - U a))).add (iE (fun a => W a - U a) U)
  congr 1
  funext r
  obtain ⟨h5, h6⟩ := gx_sub q e W U r
  rw [h5, h6]
  ring

theorem energy_split (h : Setting close B e sf s D V rect) (hA : Par B) (hp : Problem e n n1 j rc re k kf κ f) {g : Pt ℝ → ℝ} {U W : Nat → ℝ}
    (hU : Admissible B sf s e D g U)
    (hsol : ∀ v, Single B sf s e D v → ZeroBnd B sf s e D v →
      total2 (contribs e (laplace k) rc re j (meshCells rect sf s D)) v U = total1 (loads e (source kf) rc re j (meshCells rect sf s D)) v)
    (hW : Admissible B sf s e D g W) {w w' : CN → ℝ × ℝ → ℝ} (hw : IsFn sf s e D U w) (hw' : IsFn sf s e D W w') :
    energy κ f sf s w' = energy κ f sf s w + 1 / 2 * distE κ sf s w' w := by
  obtain ⟨d1, d2⟩ := hW.diff hU
  have ho := hsol _ d1 d2
  rw [total2_exact h hA hp, total1_exact h hA hp] at ho
  rw [energy_ref h hA hw, energy_ref h hA hw', distE_ref h hw' hw]
  have e1 : (leaves sf s).map (fun c => 1 / 2 * prodE κ (cellQ s c) e (fun a => W (dofAt D c a)) (fun a => W (dofAt D c a))) =
      (leaves sf s).map (fun c => 1 / 2 * prodE κ (cellQ s c) e (fun a => U (dofAt D c a)) (fun a => U (dofAt D c a)) +
      (1 / 2 * prodE κ (cellQ s c) e (fun a => W (dofAt D c a) - U (dofAt D c a)) (fun a => W (dofAt D c a) - U (dofAt D c a)) +
        prodE κ (cellQ s c) e (fun a => W (dofAt D c a) - U (dofAt D c a)) (fun a => U (dofAt D c a)))) :=
    List.map_congr_left (fun c hc => prodE_sub hA h κ hc _ _)
  have e2 : (leaves sf s).map (fun c => ∫ r in Gauss.sq, det (cellQ s c) ⟨r.1, r.2⟩ * (ev f (F (cellQ s c) r) * feFn e D (fun a => W a - U a) c r)) =
      (leaves sf s).map (fun c => (∫ r in Gauss.sq, det (cellQ s c) ⟨r.1, r.2⟩ * (ev f (F (cellQ s c) r) * feFn e D W c r)) -
        ∫ r in Gauss.sq, det (cellQ s c) ⟨r.1, r.2⟩ * (ev f (F (cellQ s c) r) * feFn e D U c r)) := by
    refine List.map_congr_left (fun c _ => ?_)
    have i2 : ∀ U, Continuous (fun r : ℝ × ℝ => det (cellQ s c) ⟨r.1, r.2⟩ * (ev f (F (cellQ s c) r) * feFn e D U c r)) := fun U =>
      (continuous_det _).mul (((ev_cont f).comp (cont_F _)).mul (W_cont (fe_mem e (fun a => U (dofAt D c a)))))
    rw [← int_sub (i2 W) (i2 U)]
    congr 1
    funext r
    rw [fe_sub]
    ring
  rw [e2, Gal.map_sub] at ho
  rw [← lsum_mul, e1, lsum_add, lsum_add, lsum_mul, lsum_mul]
  linarith

/-- The distance of two functions is not negative. -/
theorem dist_nonneg' (h : Setting close B e sf s D V rect) (hk : ∀ p ∈ Dom B, 0 ≤ ev κ p) {U W : Nat → ℝ} {w w' : CN → ℝ × ℝ → ℝ} (hw : IsFn sf s e D U w)
    (hw' : IsFn sf s e D W w') : 0 ≤ distE κ sf s w w' := by
  rw [distE_ref h hw hw']
  refine List.sum_nonneg (fun x hx => ?_)
  obtain ⟨c, hc, rfl⟩ := List.mem_map.1 hx
  unfold prodE
  refine setIntegral_nonneg (measurableSet_Icc.prod measurableSet_Icc) ?_
  rintro r ⟨⟨a, b⟩, d, d'⟩
  have hd := C21_det_pos _ (leaf_convex h hc) ⟨r.1, r.2⟩ a b d d'
  have := hk _ (leaf_dom h hc (z := r) ⟨a, b, d, d'⟩)
  refine mul_nonneg (mul_nonneg hd.le this) ?_
  exact add_nonneg (mul_self_nonneg _) (mul_self_nonneg _)

end
end Verif.Cea
