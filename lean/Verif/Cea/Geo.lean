import Verif.Cea.Core

/-!
# The size of the cells of a refined mesh of parallelograms
-/

namespace Verif.Cea
open Verif.Mesh Verif.Dof Verif.Quad Verif.Fem Verif.Form Verif.Asm Verif.Phys Verif.Bnd Verif.Reg Verif.Dir Verif.Gauss Verif.Gal MeasureTheory

/-- Bounds of the two Jacobians of a cell. -/
structure Sized (q : QD ℝ) (A G : ℝ) : Prop where
  xs : |jxs q ⟨0, 0⟩| ≤ A
  xt : |jxt q ⟨0, 0⟩| ≤ A
  ys : |jys q ⟨0, 0⟩| ≤ A
  yt : |jyt q ⟨0, 0⟩| ≤ A
  i11 : |(jacP2R q ⟨0, 0⟩).1.1| ≤ G
  i12 : |(jacP2R q ⟨0, 0⟩).1.2| ≤ G
  i21 : |(jacP2R q ⟨0, 0⟩).2.1| ≤ G
  i22 : |(jacP2R q ⟨0, 0⟩).2.2| ≤ G

theorem child_jac {q : QD ℝ} (hx : hDx q = 0) (hy : hDy q = 0) (k : Fin 4) :
    jxs (q.child ∅ k) ⟨0, 0⟩ = jxs q ⟨0, 0⟩ / 2 ∧ jys (q.child ∅ k) ⟨0, 0⟩ = jys q ⟨0, 0⟩ / 2 ∧
    jxt (q.child ∅ k) ⟨0, 0⟩ = jxt q ⟨0, 0⟩ / 2 ∧ jyt (q.child ∅ k) ⟨0, 0⟩ = jyt q ⟨0, 0⟩ / 2 := by
  unfold hDx at hx
  unfold hDy at hy
  unfold jxs jys jxt jyt
  fin_cases k <;> simp only [child_0, child_1, child_2, child_3, mid, QD.center] <;> refine ⟨?_, ?_, ?_, ?_⟩ <;> linarith

theorem child_det {q : QD ℝ} (hx : hDx q = 0) (hy : hDy q = 0) (k : Fin 4) : det (q.child ∅ k) ⟨0, 0⟩ = det q ⟨0, 0⟩ / 4 := by
  obtain ⟨a, b, c, d⟩ := child_jac hx hy k
  unfold Quad.det
  rw [a, b, c, d]
  ring

theorem Sized.child {q : QD ℝ} {A G : ℝ} (h : Sized q A G) (hx : hDx q = 0) (hy : hDy q = 0) (k : Fin 4) : Sized (q.child ∅ k) (A / 2) (G * 2) := by
  obtain ⟨a, b, c, d⟩ := child_jac hx hy k
  have hd := child_det hx hy k
  obtain ⟨h1, h2, h3, h4, h5, h6, h7, h8⟩ := h
  have two : ∀ x y : ℝ, x / 2 / (y / 4) = x / y * 2 := fun x y => by ring
  have m2 : ∀ x y : ℝ, |x| ≤ y → |x * 2| ≤ y * 2 := fun x y h => by
    rw [abs_mul, abs_two]
    linarith
  have d2 : ∀ x y : ℝ, |x| ≤ y → |x / 2| ≤ y / 2 := fun x y h => by
    rw [abs_div, abs_two]
    linarith
  refine ⟨?_, ?_, ?_, ?_, ?_, ?_, ?_, ?_⟩
  · rw [a]; exact d2 _ _ h1
  · rw [c]; exact d2 _ _ h2
  · rw [b]; exact d2 _ _ h3
  · rw [d]; exact d2 _ _ h4
  · simp only [jacP2R] at h5 ⊢; rw [d, hd, two]; exact m2 _ _ h5
  · simp only [jacP2R] at h6 ⊢; rw [c, hd, ← neg_div, two]; exact m2 _ _ h6
  · simp only [jacP2R] at h7 ⊢; rw [b, hd, ← neg_div, two]; exact m2 _ _ h7
  · simp only [jacP2R] at h8 ⊢; rw [a, hd, two]; exact m2 _ _ h8

theorem Sized.mono {q : QD ℝ} {A G A' G' : ℝ} (h : Sized q A G) (hA : A ≤ A') (hG : G ≤ G') : Sized q A' G' :=
  ⟨h.1.trans hA, h.2.trans hA, h.3.trans hA, h.4.trans hA, h.5.trans hG, h.6.trans hG, h.7.trans hG, h.8.trans hG⟩

theorem sized_ex (q : QD ℝ) : ∃ A, 0 ≤ A ∧ Sized q A A := by
  refine ⟨|jxs q ⟨0, 0⟩| + |jxt q ⟨0, 0⟩| + |jys q ⟨0, 0⟩| + |jyt q ⟨0, 0⟩| + |(jacP2R q ⟨0, 0⟩).1.1| + |(jacP2R q ⟨0, 0⟩).1.2| +
    |(jacP2R q ⟨0, 0⟩).2.1| + |(jacP2R q ⟨0, 0⟩).2.2|, by positivity, ?_⟩
  have := abs_nonneg (jxs q ⟨0, 0⟩)
  have := abs_nonneg (jxt q ⟨0, 0⟩)
  have := abs_nonneg (jys q ⟨0, 0⟩)
  have := abs_nonneg (jyt q ⟨0, 0⟩)
  have := abs_nonneg (jacP2R q ⟨0, 0⟩).1.1
  have := abs_nonneg (jacP2R q ⟨0, 0⟩).1.2
  have := abs_nonneg (jacP2R q ⟨0, 0⟩).2.1
  have := abs_nonneg (jacP2R q ⟨0, 0⟩).2.2
  constructor <;> linarith

theorem bound_ex (n : Nat) (p : Nat → ℝ → Prop) (hm : ∀ f x y, p f x → x ≤ y → p f y) (h : ∀ f < n, ∃ A, 0 ≤ A ∧ p f A) : ∃ A, 0 ≤ A ∧ ∀ f < n, p f A := by
  induction n with
  | zero => exact ⟨0, le_rfl, fun f hf => absurd hf (Nat.not_lt_zero _)⟩
  | succ n ih =>
    obtain ⟨A, h0, hA⟩ := ih (fun f hf => h f (by omega))
    obtain ⟨A', h0', hA'⟩ := h n (by omega)
    refine ⟨max A A', le_max_of_le_left h0, fun f hf => ?_⟩
    rcases Nat.lt_succ_iff_lt_or_eq.1 hf with h1 | rfl
    · exact hm _ _ _ (hA f h1) (le_max_left _ _)
    · exact hm _ _ _ hA' (le_max_right _ _)

/-- A cell of level `l` has `2⁻ˡ` times the size of its initial cell. -/
theorem sized_mesh {B : Base ℝ} (hA : Par B) : ∃ A, 0 ≤ A ∧ ∀ f < B.n, ∀ p, Sized (quadAt B f p) (A * (1 / 2) ^ p.length) (A * 2 ^ p.length) := by
  obtain ⟨A, h0, h⟩ := bound_ex B.n (fun f x => Sized (rootQ B f) x x) (fun f x y h hxy => h.mono hxy hxy) (fun f _ => sized_ex (rootQ B f))
  refine ⟨A, h0, fun f hf p => ?_⟩
  induction p with
  | nil =>
    have := h f hf
    exact this.mono (by simp) (by simp)
  | cons k p ih =>
    obtain ⟨hx, hy⟩ := par_at hA hf p
    have := ih.child hx hy k
    refine this.mono (le_of_eq ?_) (le_of_eq ?_)
    · rw [List.length_cons, pow_succ]; ring
    · rw [List.length_cons, pow_succ]; ring

theorem jac_same {a b : QD ℝ} (h : SameVerts a b) (r : Pt ℝ) : jxs a r = jxs b r ∧ jys a r = jys b r ∧ jxt a r = jxt b r ∧ jyt a r = jyt b r := by
  obtain ⟨h0, h1, h2, h3⟩ := h
  unfold jxs jys jxt jyt
  rw [h0, h1, h2, h3]
  exact ⟨rfl, rfl, rfl, rfl⟩

theorem Sized.same {a b : QD ℝ} (h : SameVerts a b) {A G : ℝ} (hs : Sized b A G) : Sized a A G := by
  obtain ⟨e1, e2, e3, e4⟩ := jac_same h ⟨0, 0⟩
  have e5 : Quad.det a ⟨0, 0⟩ = Quad.det b ⟨0, 0⟩ := by
    unfold Quad.det
    rw [e1, e2, e3, e4]
  have e6 : jacP2R a ⟨0, 0⟩ = jacP2R b ⟨0, 0⟩ := by
    unfold jacP2R
    rw [e1, e2, e3, e4, e5]
  obtain ⟨h1, h2, h3, h4, h5, h6, h7, h8⟩ := hs
  refine ⟨?_, ?_, ?_, ?_, ?_, ?_, ?_, ?_⟩
  · rwa [e1]
  · rwa [e3]
  · rwa [e2]
  · rwa [e4]
  all_goals rwa [e6]

/-- Two points of a cell. -/
theorem sized_dist {q : QD ℝ} {A G : ℝ} (h : Sized q A G) (hA : 0 ≤ A) (hx : hDx q = 0) (hy : hDy q = 0) {z z' : ℝ × ℝ} (hz : Dof.InSq z) (hz' : Dof.InSq z') :
    ‖F q z - F q z'‖ ≤ 2 * A := by
  obtain ⟨a1, a2, a3, a4⟩ := hz
  obtain ⟨b1, b2, b3, b4⟩ := hz'
  have e1 : (F q z - F q z').1 = jxs q ⟨0, 0⟩ * (z.1 - z'.1) + jxt q ⟨0, 0⟩ * (z.2 - z'.2) := by
    simp only [F, Prod.fst_sub, toPhys, jxs, jxt, hDx] at hx ⊢
    linear_combination (z.1 * z.2 - z'.1 * z'.2) * hx
  have e2 : (F q z - F q z').2 = jys q ⟨0, 0⟩ * (z.1 - z'.1) + jyt q ⟨0, 0⟩ * (z.2 - z'.2) := by
    simp only [F, Prod.snd_sub, toPhys, jys, jyt, hDy] at hy ⊢
    linear_combination (z.1 * z.2 - z'.1 * z'.2) * hy
  have key : ∀ x y d d' : ℝ, |x| ≤ A → |y| ≤ A → |d| ≤ 1 → |d'| ≤ 1 → |x * d + y * d'| ≤ 2 * A := by
    intro x y d d' hx hy hd hd'
    calc |x * d + y * d'| ≤ |x * d| + |y * d'| := abs_add_le _ _
      _ = |x| * |d| + |y| * |d'| := by rw [abs_mul, abs_mul]
      _ ≤ A * 1 + A * 1 := add_le_add (mul_le_mul hx hd (abs_nonneg _) hA) (mul_le_mul hy hd' (abs_nonneg _) hA)
      _ = 2 * A := by ring
  have hd : |z.1 - z'.1| ≤ 1 := abs_le.2 ⟨by linarith, by linarith⟩
  have hd' : |z.2 - z'.2| ≤ 1 := abs_le.2 ⟨by linarith, by linarith⟩
  rw [Prod.norm_def, max_le_iff, Real.norm_eq_abs, Real.norm_eq_abs, e1, e2]
  exact ⟨key _ _ _ _ h.xs h.xt hd hd', key _ _ _ _ h.ys h.yt hd hd'⟩

end Verif.Cea
