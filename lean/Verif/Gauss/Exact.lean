import Verif.Gauss.Model
import Mathlib.Analysis.SpecialFunctions.Integrals.Basic
import Mathlib.Algebra.Polynomial.Eval.Degree
import Mathlib.Algebra.Polynomial.Degree.Lemmas
import Mathlib.Topology.Algebra.Polynomial
import Mathlib.Tactic.IntervalCases
import Mathlib.Tactic.LinearCombination

/-! # C32: exactness of the Gauss rules -/

namespace Verif.Gauss

open Polynomial

/-- The rule integrates all polynomials up to degree `N` over `[0,1]` exactly. -/
def Exact (r : List (ℝ × ℝ)) (N : Nat) : Prop :=
  ∀ P : ℝ[X], P.natDegree ≤ N → apply r (fun x => P.eval x) = ∫ x in (0 : ℝ)..1, P.eval x

theorem apply_add {X : Type} (r : List (X × ℝ)) (f g : X → ℝ) :
    apply r (fun x => f x + g x) = apply r f + apply r g := by
  induction r with
  | nil => simp [apply]
  | cons a r ih =>
    simp only [apply, List.map_cons, List.sum_cons] at ih ⊢
    rw [ih]; ring

theorem apply_smul {X : Type} (r : List (X × ℝ)) (c : ℝ) (f : X → ℝ) :
    apply r (fun x => c * f x) = c * apply r f := by
  induction r with
  | nil => simp [apply]
  | cons a r ih =>
    simp only [apply, List.map_cons, List.sum_cons] at ih ⊢
    rw [ih]; ring

theorem apply_sum {X ι : Type} (r : List (X × ℝ)) (s : Finset ι) (f : ι → X → ℝ) :
    apply r (fun x => ∑ i ∈ s, f i x) = ∑ i ∈ s, apply r (f i) := by
  classical
  induction s using Finset.induction_on with
  | empty =>
    simp only [Finset.sum_empty]
    induction r with
    | nil => simp [apply]
    | cons a r ih => simp [apply]
  | insert a s ha ih =>
    rw [Finset.sum_insert ha, ← ih, ← apply_add]
    congr 1
    funext x
    rw [Finset.sum_insert ha]

/-- Moment conditions are enough. -/
theorem moments_poly (r : List (ℝ × ℝ)) (N : Nat) (a b : ℝ)
    (h : ∀ k ≤ N, apply r (fun x => x ^ k) = ∫ x in a..b, x ^ k) (P : ℝ[X]) (hP : P.natDegree ≤ N) :
    apply r (fun x => P.eval x) = ∫ x in a..b, P.eval x := by
  have e : ∀ x, P.eval x = ∑ k ∈ Finset.range (N + 1), P.coeff k * x ^ k := fun x =>
    Polynomial.eval_eq_sum_range' (by omega) x
  simp only [e]
  rw [apply_sum, intervalIntegral.integral_finsetSum]
  · refine Finset.sum_congr rfl (fun k hk => ?_)
    rw [apply_smul, h k (by have := Finset.mem_range.1 hk; omega), intervalIntegral.integral_const_mul]
  · intro k _
    exact (Continuous.intervalIntegrable (by fun_prop) _ _)

theorem rule01_exact (n N : Nat)
    (h : ∀ k ≤ N, apply (raw n) (fun x => x ^ k) = ∫ x in (-1 : ℝ)..1, x ^ k) : Exact (rule01 n) N := by
  intro P hP
  have h1 : apply (rule01 n) (fun x => P.eval x) =
      0.5 * apply (raw n) (fun x => (P.comp (C 0.5 + C 0.5 * X)).eval x) := by
    rw [← apply_smul]
    simp only [apply, rule01, List.map_map, Function.comp_def, eval_comp, eval_add, eval_C, eval_mul, eval_X]
    congr 1
    apply List.map_congr_left
    intro q _
    ring
  have hd : (P.comp (C 0.5 + C 0.5 * X : ℝ[X])).natDegree ≤ N := by
    refine le_trans natDegree_comp_le ?_
    have : (C 0.5 + C 0.5 * X : ℝ[X]).natDegree ≤ 1 := by compute_degree
    calc _ ≤ P.natDegree * 1 := Nat.mul_le_mul_left _ this
      _ ≤ N := by omega
  rw [h1, moments_poly (raw n) N _ _ h _ hd]
  have h2 := intervalIntegral.integral_comp_mul_add (fun y => P.eval y) (c := (0.5 : ℝ)) (by norm_num) 0.5 (a := -1) (b := 1)
  simp only [eval_comp, eval_add, eval_C, eval_mul, eval_X]
  have h3 : ∀ x : ℝ, (0.5 : ℝ) + 0.5 * x = 0.5 * x + 0.5 := fun x => by ring
  simp only [h3]
  rw [h2, smul_eq_mul]
  norm_num
  ring

theorem raw_moments1 (k : Nat) (hk : k ≤ 1) : apply (raw 1) (fun x => x ^ k) = ∫ x in (-1 : ℝ)..1, x ^ k := by
  rw [integral_pow]
  interval_cases k <;> norm_num [apply, raw]

theorem raw_moments2 (k : Nat) (hk : k ≤ 3) : apply (raw 2) (fun x => x ^ k) = ∫ x in (-1 : ℝ)..1, x ^ k := by
  rw [integral_pow]
  have h : (-1 / √3) ^ 2 = (1 : ℝ) / 3 := by rw [div_pow, Real.sq_sqrt (by norm_num)]; norm_num
  simp only [apply, raw, List.map_cons, List.map_nil, List.sum_cons, List.sum_nil]
  generalize (-1 / √3 : ℝ) = a at h ⊢
  interval_cases k
  · norm_num
  · norm_num
  · norm_num; linear_combination 2 * h
  · norm_num; ring

theorem raw_moments3 (k : Nat) (hk : k ≤ 5) : apply (raw 3) (fun x => x ^ k) = ∫ x in (-1 : ℝ)..1, x ^ k := by
  rw [integral_pow]
  have h : (√(3 / 5)) ^ 2 = (3 : ℝ) / 5 := Real.sq_sqrt (by norm_num)
  simp only [apply, raw, List.map_cons, List.map_nil, List.sum_cons, List.sum_nil, neg_neg]
  generalize (√(3 / 5) : ℝ) = a at h ⊢
  have h4 : a ^ 4 = 9 / 25 := by rw [show a ^ 4 = (a ^ 2) ^ 2 by ring, h]; norm_num
  interval_cases k
  · norm_num
  · norm_num
  · norm_num; linear_combination 10 / 9 * h
  · norm_num; ring
  · norm_num; linear_combination 10 / 9 * h4
  · norm_num; ring

theorem raw_moments4 (k : Nat) (hk : k ≤ 7) : apply (raw 4) (fun x => x ^ k) = ∫ x in (-1 : ℝ)..1, x ^ k := by
  rw [integral_pow]
  have hs : √(6 / 5) ^ 2 = (6 : ℝ) / 5 := Real.sq_sqrt (by norm_num)
  have hs0 : 0 < √(6 / 5 : ℝ) := Real.sqrt_pos.2 (by norm_num)
  have hs1 : √(6 / 5 : ℝ) < 3 / 2 := by rw [Real.sqrt_lt' (by norm_num)]; norm_num
  have ha : √((3 + 2 * √(6 / 5)) / 7) ^ 2 = (3 + 2 * √(6 / 5)) / 7 := Real.sq_sqrt (by positivity)
  have hb : √((3 - 2 * √(6 / 5)) / 7) ^ 2 = (3 - 2 * √(6 / 5)) / 7 := Real.sq_sqrt (by
    apply div_nonneg <;> linarith)
  have hw : 1 / (6 * √(6 / 5)) = 5 / 36 * √(6 / 5 : ℝ) := by
    rw [div_eq_iff (by positivity)]; linear_combination (-(5 : ℝ) / 6) * hs
  simp only [apply, raw, List.map_cons, List.map_nil, List.sum_cons, List.sum_nil, neg_neg, hw]
  generalize √((3 + 2 * √(6 / 5)) / 7) = a at ha ⊢
  generalize √((3 - 2 * √(6 / 5)) / 7) = b at hb ⊢
  generalize √(6 / 5 : ℝ) = s at *
  have a4 : a ^ 4 = ((3 + 2 * s) / 7) ^ 2 := by rw [← ha]; ring
  have b4 : b ^ 4 = ((3 - 2 * s) / 7) ^ 2 := by rw [← hb]; ring
  have a6 : a ^ 6 = ((3 + 2 * s) / 7) ^ 3 := by rw [← ha]; ring
  have b6 : b ^ 6 = ((3 - 2 * s) / 7) ^ 3 := by rw [← hb]; ring
  interval_cases k
  · norm_num; ring
  · norm_num
  · norm_num
    have : s * (3 + 2 * s) - s * (3 - 2 * s) = 24 / 5 := by linear_combination 4 * hs
    linear_combination 2 * (0.5 - 5 / 36 * s) * ha + 2 * (0.5 + 5 / 36 * s) * hb - 5 / 18 / 7 * this
  · norm_num; ring
  · norm_num
    linear_combination 2 * (0.5 - 5 / 36 * s) * a4 + 2 * (0.5 + 5 / 36 * s) * b4 + 4 / 147 * hs
  · norm_num; ring
  · norm_num
    linear_combination 2 * (0.5 - 5 / 36 * s) * a6 + 2 * (0.5 + 5 / 36 * s) * b6 + (- 40/ 9 / 343 * s^2 + 2 / 49 + 68 / 1029) * hs
  · norm_num; ring

theorem raw_moments5 (k : Nat) (hk : k ≤ 9) : apply (raw 5) (fun x => x ^ k) = ∫ x in (-1 : ℝ)..1, x ^ k := by
  rw [integral_pow]
  have hs : √(5 / 14) ^ 2 = (5 : ℝ) / 14 := Real.sq_sqrt (by norm_num)
  have hs0 : 0 < √(5 / 14 : ℝ) := Real.sqrt_pos.2 (by norm_num)
  have hs1 : √(5 / 14 : ℝ) < 1 := by rw [Real.sqrt_lt' (by norm_num)]; norm_num
  have ha : (√(5 + 4 * √(5 / 14)) / 3) ^ 2 = (5 + 4 * √(5 / 14)) / 9 := by
    rw [div_pow, Real.sq_sqrt (by positivity)]; norm_num
  have hb : (√(5 - 4 * √(5 / 14)) / 3) ^ 2 = (5 - 4 * √(5 / 14)) / 9 := by
    rw [div_pow, Real.sq_sqrt (by linarith)]; norm_num
  have hw : 13 / (180 * √(5 / 14)) = 91 / 450 * √(5 / 14 : ℝ) := by
    rw [div_eq_iff (by positivity)]; linear_combination (-(182 : ℝ) / 5) * hs
  simp only [apply, raw, List.map_cons, List.map_nil, List.sum_cons, List.sum_nil, neg_div, neg_neg, hw]
  generalize √(5 + 4 * √(5 / 14)) / 3 = a at ha ⊢
  generalize √(5 - 4 * √(5 / 14)) / 3 = b at hb ⊢
  generalize √(5 / 14 : ℝ) = s at *
  have a4 : a ^ 4 = ((5 + 4 * s) / 9) ^ 2 := by rw [← ha]; ring
  have b4 : b ^ 4 = ((5 - 4 * s) / 9) ^ 2 := by rw [← hb]; ring
  have a6 : a ^ 6 = ((5 + 4 * s) / 9) ^ 3 := by rw [← ha]; ring
  have b6 : b ^ 6 = ((5 - 4 * s) / 9) ^ 3 := by rw [← hb]; ring
  have a8 : a ^ 8 = ((5 + 4 * s) / 9) ^ 4 := by rw [← ha]; ring
  have b8 : b ^ 8 = ((5 - 4 * s) / 9) ^ 4 := by rw [← hb]; ring
  have s4 : s ^ 4 = 25 / 196 := by rw [show s ^ 4 = (s ^ 2) ^ 2 by ring, hs]; norm_num
  interval_cases k
  · norm_num; ring
  · norm_num
  · norm_num
    linear_combination 2 * (161 / 450 - 91 / 450 * s) * ha + 2 * (161 / 450 + 91 / 450 * s) * hb - 728 / 2025 * hs
  · norm_num; ring
  · norm_num
    linear_combination 2 * (161 / 450 - 91 / 450 * s) * a4 + 2 * (161 / 450 + 91 / 450 * s) * b4 - 2128 / 18225 * hs
  · norm_num; ring
  · norm_num
    linear_combination 2 * (161 / 450 - 91 / 450 * s) * a6 + 2 * (161 / 450 + 91 / 450 * s) * b6 + 56 / 405 * hs - 11648 / 164025 * s4
  · norm_num; ring
  · norm_num
    linear_combination 2 * (161 / 450 - 91 / 450 * s) * a8 + 2 * (161 / 450 + 91 / 450 * s) * b8 + (16352/59049) * hs + (-50176/492075) * s4
  · norm_num; ring

end Verif.Gauss
