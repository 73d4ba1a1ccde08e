import Verif.Cea.Spec

/-!
# One parallelogram: quadrature is exact
-/

namespace Verif.Cea
open Verif.Mesh Verif.Dof Verif.Quad Verif.Fem Verif.Form Verif.Asm Verif.Phys Verif.Bnd Verif.Reg Verif.Dir Verif.Gauss Verif.Gal MeasureTheory
open scoped Topology

/-! ### Gradients -/

theorem grad_px {w : ℝ × ℝ → ℝ} {a b : ℝ} {p : ℝ × ℝ} (h : HasGrad w a b p) : px w p = a ∧ py w p = b := by
  have := HasFDerivAt.fderiv h
  unfold px py
  rw [this]
  simp

theorem grad_of {w : ℝ × ℝ → ℝ} {p : ℝ × ℝ} (h : DifferentiableAt ℝ w p) : HasGrad w (px w p) (py w p) p := by
  unfold HasGrad
  refine h.hasFDerivAt.congr_fderiv ?_
  apply ContinuousLinearMap.ext
  intro v
  have : v = v.1 • ((1, 0) : ℝ × ℝ) + v.2 • ((0, 1) : ℝ × ℝ) := by
    ext <;> simp
  unfold px py
  conv_lhs => rw [this, map_add, map_smul, map_smul]
  simp
  ring

/-- The gradient of a finite element function in physical coordinates. -/
noncomputable def gx (q : QD ℝ) (e : ET) (v : Nat → ℝ) (r : ℝ × ℝ) : ℝ :=
  Vs e v r * (jacP2R q ⟨r.1, r.2⟩).1.1 + Vt e v r * (jacP2R q ⟨r.1, r.2⟩).2.1
noncomputable def gy (q : QD ℝ) (e : ET) (v : Nat → ℝ) (r : ℝ × ℝ) : ℝ :=
  Vs e v r * (jacP2R q ⟨r.1, r.2⟩).1.2 + Vt e v r * (jacP2R q ⟨r.1, r.2⟩).2.2

theorem det_gx {q : QD ℝ} {r : ℝ × ℝ} (hd : det q ⟨r.1, r.2⟩ ≠ 0) (e : ET) (v : Nat → ℝ) :
    det q ⟨r.1, r.2⟩ * gx q e v r = Vs e v r * jyt q ⟨r.1, r.2⟩ - Vt e v r * jys q ⟨r.1, r.2⟩ ∧
    det q ⟨r.1, r.2⟩ * gy q e v r = Vt e v r * jxs q ⟨r.1, r.2⟩ - Vs e v r * jxt q ⟨r.1, r.2⟩ := by
  unfold gx gy
  simp only [jacP2R]
  constructor <;> field_simp <;> ring

theorem det_ne {q : QD ℝ} (hc : ConvexCCW q) {r : ℝ × ℝ} (hr : InOpen r) : det q ⟨r.1, r.2⟩ ≠ 0 :=
  (C21_det_pos q hc ⟨r.1, r.2⟩ hr.1.le hr.2.1.le hr.2.2.1.le hr.2.2.2.le).ne'

theorem fn_grad {q : QD ℝ} (hc : ConvexCCW q) {e : ET} {v : Nat → ℝ} {w : ℝ × ℝ → ℝ} (hw : ∀ z, InOpen z → w (F q z) = interp2 e v z)
    {r : ℝ × ℝ} (hr : InOpen r) : px w (F q r) = gx q e v r ∧ py w (F q r) = gy q e v r := by
  refine grad_px (grad_physical q r (det_ne hc hr) (grad_fe e v r) ?_)
  filter_upwards [isOpen_inOpen.mem_nhds hr] with z hz using hw z hz

theorem field_gx (c : QCell) (hc : ConvexCCW c.q) (hrect : c.rect = true → Upright c.q) (e : ET) (v : Nat → ℝ) {r : ℝ × ℝ} (hr : InOpen r) :
    fieldAt c ⟨e, [1, 0]⟩ v r = gx c.q e v r ∧ fieldAt c ⟨e, [1, 1]⟩ v r = gy c.q e v r := by
  have hd := det_ne hc hr
  obtain ⟨h1, h2⟩ := det_gx hd e v
  constructor
  · exact mul_left_cancel₀ hd ((field_x c hc hrect e v hr).trans h1.symm)
  · exact mul_left_cancel₀ hd ((field_y c hc hrect e v hr).trans h2.symm)

/-! ### Parallelograms -/

theorem par_jac {q : QD ℝ} (hx : hDx q = 0) (hy : hDy q = 0) (r : Pt ℝ) :
    jxs q r = jxs q ⟨0, 0⟩ ∧ jys q r = jys q ⟨0, 0⟩ ∧ jxt q r = jxt q ⟨0, 0⟩ ∧ jyt q r = jyt q ⟨0, 0⟩ := by
  refine ⟨?_, ?_, ?_, ?_⟩
  · simp only [jxs, hDx] at hx ⊢; linear_combination r.y * hx
  · simp only [jys, hDy] at hy ⊢; linear_combination r.y * hy
  · simp only [jxt, hDx] at hx ⊢; linear_combination r.x * hx
  · simp only [jyt, hDy] at hy ⊢; linear_combination r.x * hy

theorem par_det {q : QD ℝ} (hx : hDx q = 0) (hy : hDy q = 0) (r : Pt ℝ) : det q r = det q ⟨0, 0⟩ ∧ jacP2R q r = jacP2R q ⟨0, 0⟩ := by
  obtain ⟨a1, a2, a3, a4⟩ := par_jac hx hy r
  have hd : det q r = det q ⟨0, 0⟩ := by
    unfold Quad.det
    rw [a1, a2, a3, a4]
  refine ⟨hd, ?_⟩
  unfold jacP2R
  rw [hd, a1, a2, a3, a4]

theorem gx_mem {q : QD ℝ} (hx : hDx q = 0) (hy : hDy q = 0) (e : ET) (v : Nat → ℝ) : gx q e v ∈ W (deg e) (deg e) ∧ gy q e v ∈ W (deg e) (deg e) := by
  have h1 : Vs e v ∈ W (deg e) (deg e) := W_mono (by omega) le_rfl (Vs_mem e v)
  have h2 : Vt e v ∈ W (deg e) (deg e) := W_mono le_rfl (by omega) (Vt_mem e v)
  have key : ∀ a b : ℝ, (fun r => Vs e v r * a + Vt e v r * b) ∈ W (deg e) (deg e) := fun a b => by
    have := W_add (W_smul a h1) (W_smul b h2)
    simpa only [mul_comm] using this
  constructor
  · have : gx q e v = fun r => Vs e v r * (jacP2R q ⟨0, 0⟩).1.1 + Vt e v r * (jacP2R q ⟨0, 0⟩).2.1 := by
      funext r
      unfold gx
      rw [(par_det hx hy _).2]
    rw [this]
    exact key _ _
  · have : gy q e v = fun r => Vs e v r * (jacP2R q ⟨0, 0⟩).1.2 + Vt e v r * (jacP2R q ⟨0, 0⟩).2.2 := by
      funext r
      unfold gy
      rw [(par_det hx hy _).2]
    rw [this]
    exact key _ _

theorem gx_sub (q : QD ℝ) (e : ET) (u v : Nat → ℝ) (r : ℝ × ℝ) : gx q e (fun a => u a - v a) r = gx q e u r - gx q e v r ∧
    gy q e (fun a => u a - v a) r = gy q e u r - gy q e v r := by
  unfold gx gy Vs Vt
  simp only [sub_mul, Finset.sum_sub_distrib]
  constructor <;> ring

section
variable {n n1 j : Nat} {rc : List ((ℝ × ℝ) × ℝ)} {re : List (ℝ × ℝ)} {e : ET} {k kf : Kernel (Pt ℝ)} {κ f : Poly}

/-- The local stiffness matrix is the exact one. -/
theorem bil_exact (hp : Problem e n n1 j rc re k kf κ f) (c : QCell) (hc : ConvexCCW c.q) (hrect : c.rect = true → Upright c.q)
    (hx : hDx c.q = 0) (hy : hDy c.q = 0) (v x : Nat → ℝ) :
    bilC e k rc re j c v x = ∫ r in Gauss.sq, det c.q ⟨r.1, r.2⟩ * ev κ (F c.q r) * (gx c.q e v r * gx c.q e x r + gy c.q e v r * gy c.q e x r) := by
  obtain ⟨S, hS, hk⟩ := hp.diff
  have hv1 : ∀ j < 2, ValidDer (Basis.mk e [1, j]).der := fun j hj => Or.inr (Or.inl ⟨j, hj, rfl⟩)
  unfold bilC
  rw [bil_fields hp.rule2 hp.rule1 hS (hv1 0 (by omega)) (hv1 0 (by omega)), bil_fields hp.rule2 hp.rule1 hS (hv1 1 (by omega)) (hv1 1 (by omega))]
  have hd : (fun r : ℝ × ℝ => det c.q ⟨r.1, r.2⟩ * ev κ (F c.q r)) ∈ W κ.totalDegree κ.totalDegree := by
    have : (fun r : ℝ × ℝ => det c.q ⟨r.1, r.2⟩ * ev κ (F c.q r)) = fun r => det c.q ⟨0, 0⟩ * ev κ (F c.q r) := by
      funext r
      rw [(par_det hx hy _).1]
    rw [this]
    exact W_smul _ (ev_F_mem c.q le_rfl)
  have hdeg := hp.degk
  have m1 : (fun r : ℝ × ℝ => det c.q ⟨r.1, r.2⟩ * ev κ (F c.q r) * (gx c.q e v r * gx c.q e x r)) ∈ W (2 * n - 1) (2 * n - 1) :=
    W_mono (by omega) (by omega) (W_mul hd (W_mul (gx_mem hx hy e v).1 (gx_mem hx hy e x).1))
  have m2 : (fun r : ℝ × ℝ => det c.q ⟨r.1, r.2⟩ * ev κ (F c.q r) * (gy c.q e v r * gy c.q e x r)) ∈ W (2 * n - 1) (2 * n - 1) :=
    W_mono (by omega) (by omega) (W_mul hd (W_mul (gx_mem hx hy e v).2 (gx_mem hx hy e x).2))
  rw [cell_int hp.rule2 hp.five rfl _ _ m1, cell_int hp.rule2 hp.five rfl _ _ m2,
    ← integral_add (cont_int (W_cont m1)) (cont_int (W_cont m2))]
  · congr 1
    funext r
    ring
  · intro r w hr
    rw [hk, (field_gx c hc hrect e v hr).2, (field_gx c hc hrect e x hr).2]
    simp only [F]
    ring
  · intro r w hr
    rw [hk, (field_gx c hc hrect e v hr).1, (field_gx c hc hrect e x hr).1]
    simp only [F]
    ring

/-- The local load vector is the exact one. -/
theorem lin_exact (hp : Problem e n n1 j rc re k kf κ f) (c : QCell) (hx : hDx c.q = 0) (hy : hDy c.q = 0) (v : Nat → ℝ) :
    linC e kf rc re j c v = ∫ r in Gauss.sq, det c.q ⟨r.1, r.2⟩ * (ev f (F c.q r) * interp2 e v r) := by
  obtain ⟨S, hS, hk⟩ := hp.load
  unfold linC
  rw [lin_field hp.rule2 hp.rule1 hS (t := ⟨e, [0]⟩) (Or.inl rfl)]
  have hdeg := hp.degf
  have m1 : (fun r : ℝ × ℝ => det c.q ⟨r.1, r.2⟩ * (ev f (F c.q r) * interp2 e v r)) ∈ W (2 * n - 1) (2 * n - 1) := by
    have : (fun r : ℝ × ℝ => det c.q ⟨r.1, r.2⟩ * (ev f (F c.q r) * interp2 e v r)) = fun r => det c.q ⟨0, 0⟩ * (ev f (F c.q r) * interp2 e v r) := by
      funext r
      rw [(par_det hx hy _).1]
    rw [this]
    exact W_mono (by omega) (by omega) (W_smul _ (W_mul (ev_F_mem c.q le_rfl) (fe_mem e v)))
  rw [cell_int hp.rule2 hp.five rfl _ _ m1]
  intro r w hr
  rw [hk, field_val c e v hr]
  simp only [F]
  ring

end

/-- An integral over a cell in reference coordinates. -/
theorem cell_integral {q : QD ℝ} (hc : ConvexCCW q) (g G : ℝ × ℝ → ℝ) (h : ∀ r, InOpen r → det q ⟨r.1, r.2⟩ * g (F q r) = G r) :
    ∫ p in Quad.region q, g p = ∫ r in Gauss.sq, G r := by
  rw [C21_change_of_variables q hc g]
  unfold Gauss.sq
  rw [← setIntegral_congr_set sq_ae, ← setIntegral_congr_set sq_ae]
  refine setIntegral_congr_fun (measurableSet_Ioo.prod measurableSet_Ioo) ?_
  rintro r ⟨⟨a, b⟩, d, f⟩
  exact h r ⟨a, b, d, f⟩

end Verif.Cea
