import Verif.Fem.Elements
import Mathlib.Analysis.Calculus.Deriv.Mul
import Mathlib.Analysis.Calculus.Deriv.Pow
import Mathlib.Analysis.Calculus.Deriv.Add

/-!
# The derivative tables are the derivatives (C29); derivative requests (C45)
-/

namespace Verif.Fem

theorem hasDerivAt_cubic (a b c d x : ℝ) :
    HasDerivAt (fun x => a * x ^ 3 + b * x ^ 2 + c * x + d) (3 * a * x ^ 2 + 2 * b * x + c) x := by
  have h3 := (hasDerivAt_pow 3 x).const_mul a
  have h2 := (hasDerivAt_pow 2 x).const_mul b
  have h1 := (hasDerivAt_id x).const_mul c
  have h := ((h3.add h2).add h1).add_const d
  refine h.congr_deriv ?_
  simp
  ring

/-- A function that is a cubic polynomial, with the derivative claimed. -/
theorem deriv_of_cubic {f : ℝ → ℝ} {y x : ℝ} (a b c d : ℝ) (hf : ∀ t, f t = a * t ^ 3 + b * t ^ 2 + c * t + d)
    (hy : y = 3 * a * x ^ 2 + 2 * b * x + c) : HasDerivAt f y x := by
  have : f = fun t => a * t ^ 3 + b * t ^ 2 + c * t + d := funext hf
  rw [this, hy]
  exact hasDerivAt_cubic a b c d x

/-- Coefficients of the entries of `p`, highest degree first. -/
noncomputable def pc : ET → List (ℝ × ℝ × ℝ × ℝ)
  | .DQ0 => [(0, 0, 0, 1)]
  | .Q1 | .DQ1 => [(0, 0, -1, 1), (0, 0, 1, 0)]
  | .Q2 | .DQ2 => [(0, 2, -3, 1), (0, 2, -1, 0), (0, -4, 4, 0)]
  | .Q3 | .DQ3 => [(-(9 / 2), 9, -(11 / 2), 1), (9 / 2, -(9 / 2), 1, 0), (27 / 2, -(45 / 2), 9, 0),
      (-(27 / 2), 18, -(9 / 2), 0)]

theorem tb_deriv (e : ET) (i : Nat) (hi : i < np e) (x : ℝ) :
    HasDerivAt (tb (pTab e) i) (tb (pxTab e) i x) x := by
  refine deriv_of_cubic ((pc e).getD i 0).1 ((pc e).getD i 0).2.1 ((pc e).getD i 0).2.2.1
    ((pc e).getD i 0).2.2.2 ?_ ?_
  · intro t
    cases e <;> simp only [np, deg] at hi <;> interval_cases i <;> simp [tb, pTab, pc] <;> ring
  · cases e <;> simp only [np, deg] at hi <;> interval_cases i <;> simp [tb, pxTab, pc] <;> ring

theorem tb_deriv2 (e : ET) (i : Nat) (hi : i < np e) (x : ℝ) :
    HasDerivAt (tb (pxTab e) i) (tb (pxxTab e) i x) x := by
  refine deriv_of_cubic 0 (3 * ((pc e).getD i 0).1) (2 * ((pc e).getD i 0).2.1) ((pc e).getD i 0).2.2.1 ?_ ?_
  · intro t
    cases e <;> simp only [np, deg] at hi <;> interval_cases i <;> simp [tb, pxTab, pc] <;> ring
  · cases e <;> simp only [np, deg] at hi <;> interval_cases i <;> simp [tb, pxxTab, pc] <;> ring

/-- `dphi` is the derivative of `phi`, `d2phi` the derivative of `dphi` (one dimension). -/
theorem C29_derivatives1 (e : ET) (n : Nat) (hn : n < nd1 e) (x : ℝ) :
    HasDerivAt (fun t => val (phi1 e n t)) (val (dphi1 e n x)) x ∧
    HasDerivAt (fun t => val (dphi1 e n t)) (val (d2phi1 e n x)) x := by
  have h := hn
  rw [nd1_eq] at h
  simp only [phi1_tb e n hn, dphi1_tb e n hn, d2phi1_tb e n hn, val]
  exact ⟨tb_deriv e n h x, tb_deriv2 e n h x⟩

/-- `dphi(n, x, v)` is the partial derivative of `phi(n, x)` in variable `v` (two dimensions). -/
theorem C29_gradient2 (e : ET) (n : Nat) (hn : n < nd2 e) (x y : ℝ) :
    HasDerivAt (fun t => val (phi2 e n (t, y))) (val (dphi2 e n (x, y) 0)) x ∧
    HasDerivAt (fun t => val (phi2 e n (x, t))) (val (dphi2 e n (x, y) 1)) y := by
  obtain ⟨h1, h2⟩ := bix_lt e n hn
  simp only [phi2_tb e n hn, dphi2_tb0 e n hn, dphi2_tb1 e n hn, val]
  exact ⟨(tb_deriv e _ h1 x).mul_const _, (tb_deriv e _ h2 y).const_mul _⟩

theorem d2phi2_tb {K : Type} [Field K] [CharZero K] (e : ET) (n : Nat) (h : n < nd2 e) (x : K × K) :
    d2phi2 e n x 0 0 = .ok (tb (pxxTab e) (bix e n).1 x.1 * tb (pTab e) (bix e n).2 x.2) ∧
    d2phi2 e n x 0 1 = .ok (tb (pxTab e) (bix e n).1 x.1 * tb (pxTab e) (bix e n).2 x.2) ∧
    d2phi2 e n x 1 0 = .ok (tb (pxTab e) (bix e n).1 x.1 * tb (pxTab e) (bix e n).2 x.2) ∧
    d2phi2 e n x 1 1 = .ok (tb (pTab e) (bix e n).1 x.1 * tb (pxxTab e) (bix e n).2 x.2) := by
  obtain ⟨h1, h2⟩ := bix_lt e n h
  have a1 := look_tb (pTab e : List (K → K)) (by rw [pTab_len]; exact h1) x.1
  have a2 := look_tb (pxTab e : List (K → K)) (by rw [pxTab_len]; exact h1) x.1
  have a3 := look_tb (pxxTab e : List (K → K)) (by rw [pxxTab_len]; exact h1) x.1
  have b1 := look_tb (pTab e : List (K → K)) (by rw [pTab_len]; exact h2) x.2
  have b2 := look_tb (pxTab e : List (K → K)) (by rw [pxTab_len]; exact h2) x.2
  have b3 := look_tb (pxxTab e : List (K → K)) (by rw [pxxTab_len]; exact h2) x.2
  refine ⟨?_, ?_, ?_, ?_⟩ <;> unfold d2phi2 <;> rw [if_pos h, bix_some e n h] <;>
    simp [a1, a2, a3, b1, b2, b3, mulE]

/-- `d2phi(n, x, (v, w))` is the derivative of `dphi(n, x, v)` in variable `w`. -/
theorem C29_hessian2 (e : ET) (n : Nat) (hn : n < nd2 e) (x y : ℝ) (v : Nat) (hv : v < 2) :
    HasDerivAt (fun t => val (dphi2 e n (t, y) v)) (val (d2phi2 e n (x, y) v 0)) x ∧
    HasDerivAt (fun t => val (dphi2 e n (x, t) v)) (val (d2phi2 e n (x, y) v 1)) y := by
  obtain ⟨h1, h2⟩ := bix_lt e n hn
  obtain ⟨a, b, c, d⟩ := d2phi2_tb e n hn (x, y)
  interval_cases v
  · rw [a, b]
    simp only [dphi2_tb0 e n hn, val]
    exact ⟨(tb_deriv2 e _ h1 x).mul_const _, (tb_deriv e _ h2 y).const_mul _⟩
  · rw [c, d]
    simp only [dphi2_tb1 e n hn, val]
    exact ⟨(tb_deriv e _ h1 x).mul_const _, (tb_deriv2 e _ h2 y).const_mul _⟩

/-- Non-vacuity: the derivative of the first cubic at 0 is `-11/2`. -/
example : dphi1 .Q3 0 (0 : ℝ) = .ok (-(11 / 2)) := by
  rw [dphi1_tb .Q3 0 (by decide)]
  simp [tb, pxTab]

/-! ### C45 -/

/-- The strings documented: a letter followed by at most two of the letters `x`, `y`.  The result is the
order of the derivative followed by the variables (0 for `x`, 1 for `y`). -/
def varOf (c : Char) : Option Nat := if c = 'x' then some 0 else if c = 'y' then some 1 else none

/-- All requests are answered with order and variables, in the order given, and everything else is
rejected with an exception. -/
theorem C45_parse (s : List Char) :
    parseDer s = match s with
      | [] => .error .exception
      | _ :: vs => if vs.length ≤ 2 ∧ ∀ v ∈ vs, (varOf v).isSome then
          .ok (vs.length :: vs.filterMap varOf) else .error .exception := by
  rcases s with _ | ⟨c, _ | ⟨a, _ | ⟨b, _ | ⟨d, l⟩⟩⟩⟩
  · rfl
  · rfl
  · by_cases h1 : a = 'x'
    · subst h1; rfl
    · by_cases h2 : a = 'y'
      · subst h2; rfl
      · simp [parseDer, varOf, h1, h2]
  · by_cases h1 : a = 'x'
    · subst h1
      by_cases h3 : b = 'x'
      · subst h3; rfl
      · by_cases h4 : b = 'y'
        · subst h4; rfl
        · simp [parseDer, varOf, h3, h4]
    · by_cases h2 : a = 'y'
      · subst h2
        by_cases h3 : b = 'x'
        · subst h3; rfl
        · by_cases h4 : b = 'y'
          · subst h4; rfl
          · simp [parseDer, varOf, h3, h4]
      · simp [parseDer, varOf, h1, h2]
  · simp [parseDer]

example : parseDer "uyx".toList = .ok [2, 1, 0] ∧ parseDer "uz".toList = .error .exception ∧
    parseDer "uxyx".toList = .error .exception := by decide

end Verif.Fem
