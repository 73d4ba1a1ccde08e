import Verif.Cea.Best
import Verif.Cea.Nested

/-!
# The maximum principle for bilinear elements in two dimensions

The computation of C69 (`Assembler.assemble`, `solve`; assembler.py 2340-2440, 3711-3776) with the element `Q1` on a mesh of rectangles without hanging nodes.
-/

namespace Verif.Max2
open Verif.Mesh Verif.Dof Verif.Quad Verif.Fem Verif.Form Verif.Asm Verif.Phys Verif.Bnd Verif.Reg Verif.Dir Verif.Gauss Verif.Gal Verif.Cea MeasureTheory

/-! ## Specification -/

/-- Every initial cell is a rectangle, in any position, whose longer side is at most `√2` times as long as the shorter one. -/
def NearSquare (B : Base ℝ) : Prop := ∀ f < B.n, let q := rootQ B f
  hDx q = 0 ∧ hDy q = 0 ∧ (q.v1.x - q.v0.x) * (q.v3.x - q.v0.x) + (q.v1.y - q.v0.y) * (q.v3.y - q.v0.y) = 0 ∧
  (q.v1.x - q.v0.x) ^ 2 + (q.v1.y - q.v0.y) ^ 2 ≤ 2 * ((q.v3.x - q.v0.x) ^ 2 + (q.v3.y - q.v0.y) ^ 2) ∧
  (q.v3.x - q.v0.x) ^ 2 + (q.v3.y - q.v0.y) ^ 2 ≤ 2 * ((q.v1.x - q.v0.x) ^ 2 + (q.v1.y - q.v0.y) ^ 2)

/-! ## One cell -/

theorem vs_q1 (v : Nat → ℝ) (r : ℝ × ℝ) : Vs .Q1 v r = (v 1 - v 0) * (1 - r.2) + (v 2 - v 3) * r.2 := by
  have h : nd2 .Q1 = 4 := rfl
  simp only [Vs, h, Finset.sum_range_succ, Finset.sum_range_zero, Ns]
  have e : ∀ i < 4, ∀ x : ℝ × ℝ, Fem.val (dphi2 .Q1 i x 0) = ([-(1 - x.2), 1 - x.2, x.2, -x.2] : List ℝ).getD i 0 := by
    intro i hi x
    rw [dphi2_tb0 .Q1 i hi]
    interval_cases i <;> simp [bix, bi2, Fem.val, tb, pTab, pxTab]
  rw [e 0 (by omega), e 1 (by omega), e 2 (by omega), e 3 (by omega)]
  simp
  ring

theorem vt_q1 (v : Nat → ℝ) (r : ℝ × ℝ) : Vt .Q1 v r = (v 3 - v 0) * (1 - r.1) + (v 2 - v 1) * r.1 := by
  have h : nd2 .Q1 = 4 := rfl
  simp only [Vt, h, Finset.sum_range_succ, Finset.sum_range_zero, Nt]
  have e : ∀ i < 4, ∀ x : ℝ × ℝ, Fem.val (dphi2 .Q1 i x 1) = ([-(1 - x.1), -x.1, x.1, 1 - x.1] : List ℝ).getD i 0 := by
    intro i hi x
    rw [dphi2_tb1 .Q1 i hi]
    interval_cases i <;> simp [bix, bi2, Fem.val, tb, pTab, pxTab]
  rw [e 0 (by omega), e 1 (by omega), e 2 (by omega), e 3 (by omega)]
  simp
  ring

theorem fe_q1 (v : Nat → ℝ) (r : ℝ × ℝ) : interp2 .Q1 v r =
    v 0 * ((1 - r.1) * (1 - r.2)) + v 1 * (r.1 * (1 - r.2)) + v 2 * (r.1 * r.2) + v 3 * ((1 - r.1) * r.2) := by
  have h : nd2 .Q1 = 4 := rfl
  rw [interp_sum]
  simp only [h, Finset.sum_range_succ, Finset.sum_range_zero]
  have e : ∀ i < 4, ∀ x : ℝ × ℝ, Fem.val (phi2 .Q1 i x) = ([(1 - x.1) * (1 - x.2), x.1 * (1 - x.2), x.1 * x.2, (1 - x.1) * x.2] : List ℝ).getD i 0 := by
    intro i hi x
    rw [phi2_tb .Q1 i hi]
    interval_cases i <;> simp [bix, bi2, Fem.val, tb, pTab]
  rw [e 0 (by omega), e 1 (by omega), e 2 (by omega), e 3 (by omega)]
  simp

theorem line_int (p q p' q' : ℝ) : ∫ y in (0 : ℝ)..1, (p * (1 - y) + q * y) * (p' * (1 - y) + q' * y) =
    (p * p' + q * q') / 3 + (p * q' + q * p') / 6 := by
  have h : ∀ y ∈ Set.uIcc (0 : ℝ) 1, HasDerivAt (fun y : ℝ => p * p' * y + (p * (q' - p') + (q - p) * p') * y ^ 2 / 2 + (q - p) * (q' - p') * y ^ 3 / 3)
      ((p * (1 - y) + q * y) * (p' * (1 - y) + q' * y)) y := by
    intro y _
    have h1 : HasDerivAt (fun y : ℝ => y) 1 y := hasDerivAt_id y
    have h2 : HasDerivAt (fun y : ℝ => y ^ 2) (2 * y) y := by simpa using hasDerivAt_pow 2 y
    have h3 : HasDerivAt (fun y : ℝ => y ^ 3) (3 * y ^ 2) y := by simpa using hasDerivAt_pow 3 y
    have := ((h1.const_mul (p * p')).fun_add ((h2.const_mul (p * (q' - p') + (q - p) * p')).div_const 2)).fun_add ((h3.const_mul ((q - p) * (q' - p'))).div_const 3)
    exact this.congr_deriv (by ring)
  rw [intervalIntegral.integral_eq_sub_of_hasDerivAt h (Continuous.intervalIntegrable (by fun_prop) _ _)]
  ring

theorem int_s (p q p' q' : ℝ) : ∫ r in Gauss.sq, (p * (1 - r.2) + q * r.2) * (p' * (1 - r.2) + q' * r.2) =
    (p * p' + q * q') / 3 + (p * q' + q * p') / 6 := by
  rw [sq_iter (by fun_prop)]
  simp only [line_int]
  simp

theorem int_t (p q p' q' : ℝ) : ∫ r in Gauss.sq, (p * (1 - r.1) + q * r.1) * (p' * (1 - r.1) + q' * r.1) =
    (p * p' + q * q') / 3 + (p * q' + q * p') / 6 := by
  rw [sq_iter (by fun_prop)]
  simp only [intervalIntegral.integral_const, sub_zero, one_smul]
  exact line_int p q p' q'

/-- The local stiffness matrix of a rectangle. -/
theorem prod_rect {q : QD ℝ} (hc : ConvexCCW q) (hx : hDx q = 0) (hy : hDy q = 0)
    (hr : jxs q ⟨0, 0⟩ * jxt q ⟨0, 0⟩ + jys q ⟨0, 0⟩ * jyt q ⟨0, 0⟩ = 0) (c0 : ℝ) (v x : Nat → ℝ) :
    prodE (MvPolynomial.C c0) q .Q1 v x = c0 / det q ⟨0, 0⟩ *
      ((jxt q ⟨0, 0⟩ ^ 2 + jyt q ⟨0, 0⟩ ^ 2) * (((v 1 - v 0) * (x 1 - x 0) + (v 2 - v 3) * (x 2 - x 3)) / 3 + ((v 1 - v 0) * (x 2 - x 3) + (v 2 - v 3) * (x 1 - x 0)) / 6) +
       (jxs q ⟨0, 0⟩ ^ 2 + jys q ⟨0, 0⟩ ^ 2) * (((v 3 - v 0) * (x 3 - x 0) + (v 2 - v 1) * (x 2 - x 1)) / 3 + ((v 3 - v 0) * (x 2 - x 1) + (v 2 - v 1) * (x 3 - x 0)) / 6)) := by
  have hd : det q ⟨0, 0⟩ ≠ 0 := (C21_det_pos q hc ⟨0, 0⟩ le_rfl zero_le_one le_rfl zero_le_one).ne'
  have key : ∀ r : ℝ × ℝ, det q ⟨r.1, r.2⟩ * ev (MvPolynomial.C c0) (F q r) * (gx q .Q1 v r * gx q .Q1 x r + gy q .Q1 v r * gy q .Q1 x r) =
      c0 / det q ⟨0, 0⟩ * (jxt q ⟨0, 0⟩ ^ 2 + jyt q ⟨0, 0⟩ ^ 2) * (((v 1 - v 0) * (1 - r.2) + (v 2 - v 3) * r.2) * ((x 1 - x 0) * (1 - r.2) + (x 2 - x 3) * r.2)) +
      c0 / det q ⟨0, 0⟩ * (jxs q ⟨0, 0⟩ ^ 2 + jys q ⟨0, 0⟩ ^ 2) * (((v 3 - v 0) * (1 - r.1) + (v 2 - v 1) * r.1) * ((x 3 - x 0) * (1 - r.1) + (x 2 - x 1) * r.1)) := by
    intro r
    have hdr : det q ⟨r.1, r.2⟩ ≠ 0 := by rw [(par_det hx hy _).1]; exact hd
    obtain ⟨a1, a2⟩ := det_gx hdr .Q1 v
    obtain ⟨b1, b2⟩ := det_gx hdr .Q1 x
    obtain ⟨j1, j2, j3, j4⟩ := par_jac hx hy (⟨r.1, r.2⟩ : Pt ℝ)
    rw [(par_det hx hy _).1, j2, j4] at a1 b1
    rw [(par_det hx hy _).1, j1, j3] at a2 b2
    rw [(par_det hx hy _).1]
    rw [← vs_q1 v r, ← vs_q1 x r, ← vt_q1 v r, ← vt_q1 x r]
    have hev : ev (MvPolynomial.C c0) (F q r) = c0 := by simp [ev]
    rw [hev]
    rw [div_mul_eq_mul_div, div_mul_eq_mul_div, div_mul_eq_mul_div, div_mul_eq_mul_div, ← add_div, eq_div_iff hd]
    generalize gx q .Q1 v r = g1 at *
    generalize gy q .Q1 v r = g2 at *
    generalize gx q .Q1 x r = g3 at *
    generalize gy q .Q1 x r = g4 at *
    linear_combination c0 * (det q ⟨0, 0⟩ * g3 * a1 + (Vs .Q1 v r * jyt q ⟨0, 0⟩ - Vt .Q1 v r * jys q ⟨0, 0⟩) * b1 +
      det q ⟨0, 0⟩ * g4 * a2 + (Vt .Q1 v r * jxs q ⟨0, 0⟩ - Vs .Q1 v r * jxt q ⟨0, 0⟩) * b2) -
      c0 * (Vs .Q1 v r * Vt .Q1 x r + Vt .Q1 v r * Vs .Q1 x r) * hr
  unfold prodE
  simp only [key]
  rw [integral_add (cont_int (by fun_prop)) (cont_int (by fun_prop)), integral_const_mul, integral_const_mul, int_s, int_t]
  ring

/-- The negative part. -/
noncomputable def neg (U : Nat → ℝ) (a : Nat) : ℝ := max (-(U a)) 0

theorem neg_prod (U : Nat → ℝ) (a b : Nat) : (neg U b - neg U a) * (U b - U a) ≤ -((neg U b - neg U a) * (neg U b - neg U a)) := by
  unfold neg
  rcases le_total (-(U a)) 0 with h1 | h1 <;> rcases le_total (-(U b)) 0 with h2 | h2
  · rw [max_eq_right h1, max_eq_right h2]; nlinarith
  · rw [max_eq_right h1, max_eq_left h2]; nlinarith
  · rw [max_eq_left h1, max_eq_right h2]; nlinarith
  · rw [max_eq_left h1, max_eq_left h2]; nlinarith

/-- The two sides of a cell. -/
structure Near (q : QD ℝ) : Prop where
  hx : hDx q = 0
  hy : hDy q = 0
  perp : jxs q ⟨0, 0⟩ * jxt q ⟨0, 0⟩ + jys q ⟨0, 0⟩ * jyt q ⟨0, 0⟩ = 0
  wide : jxs q ⟨0, 0⟩ ^ 2 + jys q ⟨0, 0⟩ ^ 2 ≤ 2 * (jxt q ⟨0, 0⟩ ^ 2 + jyt q ⟨0, 0⟩ ^ 2)
  high : jxt q ⟨0, 0⟩ ^ 2 + jyt q ⟨0, 0⟩ ^ 2 ≤ 2 * (jxs q ⟨0, 0⟩ ^ 2 + jys q ⟨0, 0⟩ ^ 2)

theorem near_root {B : Base ℝ} (h : NearSquare B) {f : Nat} (hf : f < B.n) : Near (rootQ B f) := by
  obtain ⟨h1, h2, h3, h4, h5⟩ := h f hf
  have e1 : jxs (rootQ B f) ⟨0, 0⟩ = (rootQ B f).v1.x - (rootQ B f).v0.x := by simp [jxs]; ring
  have e2 : jys (rootQ B f) ⟨0, 0⟩ = (rootQ B f).v1.y - (rootQ B f).v0.y := by simp [jys]; ring
  have e3 : jxt (rootQ B f) ⟨0, 0⟩ = (rootQ B f).v3.x - (rootQ B f).v0.x := by simp [jxt]; ring
  have e4 : jyt (rootQ B f) ⟨0, 0⟩ = (rootQ B f).v3.y - (rootQ B f).v0.y := by simp [jyt]; ring
  exact ⟨h1, h2, by rw [e1, e2, e3, e4]; exact h3, by rw [e1, e2, e3, e4]; exact h4, by rw [e1, e2, e3, e4]; exact h5⟩

theorem Near.child {q : QD ℝ} (h : Near q) {k : Fin 4} (h1 : hDx (q.child ∅ k) = 0) (h2 : hDy (q.child ∅ k) = 0) : Near (q.child ∅ k) := by
  obtain ⟨a, b, c, d⟩ := child_jac h.hx h.hy k
  refine ⟨h1, h2, ?_, ?_, ?_⟩ <;> rw [a, b, c, d]
  · linear_combination (1 / 4) * h.perp
  · have := h.wide; nlinarith
  · have := h.high; nlinarith

theorem NearSquare.par {B : Base ℝ} (h : NearSquare B) : Par B := fun f hf => ⟨(h f hf).1, (h f hf).2.1⟩

theorem near_at {B : Base ℝ} (h : NearSquare B) {f : Nat} (hf : f < B.n) (p : List (Fin 4)) : Near (quadAt B f p) := by
  induction p with
  | nil => exact near_root h hf
  | cons k p ih =>
    obtain ⟨hx, hy⟩ := par_at h.par hf (k :: p)
    exact ih.child hx hy

theorem Near.same {a b : QD ℝ} (h : SameVerts a b) (hb : Near b) : Near a := by
  obtain ⟨e1, e2, e3, e4⟩ := jac_same h ⟨0, 0⟩
  obtain ⟨h0, h1, h2, h3⟩ := h
  refine ⟨?_, ?_, ?_, ?_, ?_⟩
  · have := hb.hx; unfold hDx at this ⊢; rwa [h0, h1, h2, h3]
  · have := hb.hy; unfold hDy at this ⊢; rwa [h0, h1, h2, h3]
  · rw [e1, e2, e3, e4]; exact hb.perp
  · rw [e1, e2, e3, e4]; exact hb.wide
  · rw [e1, e2, e3, e4]; exact hb.high

/-- The off-diagonal entries of the local matrix are not positive. -/
theorem cell_le {q : QD ℝ} (hc : ConvexCCW q) (h : Near q) {c0 : ℝ} (h0 : 0 < c0) (U : Nat → ℝ) :
    prodE (MvPolynomial.C c0) q .Q1 (neg U) U ≤ -prodE (MvPolynomial.C c0) q .Q1 (neg U) (neg U) := by
  have hd : 0 < det q ⟨0, 0⟩ := C21_det_pos q hc ⟨0, 0⟩ le_rfl zero_le_one le_rfl zero_le_one
  rw [prod_rect hc h.hx h.hy h.perp, prod_rect hc h.hx h.hy h.perp, ← mul_neg]
  refine mul_le_mul_of_nonneg_left ?_ (div_pos h0 hd).le
  have w1 := h.wide
  have w2 := h.high
  have p0 : 0 ≤ jxs q ⟨0, 0⟩ ^ 2 + jys q ⟨0, 0⟩ ^ 2 := by positivity
  have p1 : 0 ≤ jxt q ⟨0, 0⟩ ^ 2 + jyt q ⟨0, 0⟩ ^ 2 := by positivity
  generalize jxs q ⟨0, 0⟩ ^ 2 + jys q ⟨0, 0⟩ ^ 2 = A at *
  generalize jxt q ⟨0, 0⟩ ^ 2 + jyt q ⟨0, 0⟩ ^ 2 = Bb at *
  have a1 : 0 ≤ Bb / 3 - A / 6 := by linarith
  have a2 : 0 ≤ A / 3 - Bb / 6 := by linarith
  have a3 : 0 ≤ (A + Bb) / 6 := by linarith
  have n01 := mul_le_mul_of_nonneg_left (neg_prod U 0 1) a1
  have n32 := mul_le_mul_of_nonneg_left (neg_prod U 3 2) a1
  have n03 := mul_le_mul_of_nonneg_left (neg_prod U 0 3) a2
  have n12 := mul_le_mul_of_nonneg_left (neg_prod U 1 2) a2
  have n02 := mul_le_mul_of_nonneg_left (neg_prod U 0 2) a3
  have n13 := mul_le_mul_of_nonneg_left (neg_prod U 1 3) a3
  nlinarith [n01, n32, n03, n12, n02, n13]

end Verif.Max2
