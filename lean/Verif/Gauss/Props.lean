import Verif.Gauss.Exact

/-! # C32: the constructor of `GaussRule` -/

namespace Verif.Gauss

open Polynomial

theorem rule01_exact_le5 (n : Nat) (h1 : 1 ≤ n) (h5 : n ≤ 5) : Exact (rule01 n) (2 * n - 1) := by
  refine rule01_exact n _ ?_
  intro k hk
  interval_cases n
  · exact raw_moments1 k hk
  · exact raw_moments2 k hk
  · exact raw_moments3 k hk
  · exact raw_moments4 k hk
  · exact raw_moments5 k hk

/-- The `n`-point rule on the interval, `n = 1, ..., 5`, has `n` points and integrates every
polynomial of degree at most `2n-1` exactly. -/
theorem C32_exact1 (n : Nat) (h1 : 1 ≤ n) (h5 : n ≤ 5) :
    ∃ r, rule1 n = .ok r ∧ r.length = n ∧
      ∀ P : ℝ[X], P.natDegree ≤ 2 * n - 1 →
        (r.map (fun q => q.2 * P.eval q.1)).sum = ∫ x in (0 : ℝ)..1, P.eval x := by
  refine ⟨rule01 n, ?_, ?_, rule01_exact_le5 n h1 h5⟩
  · unfold rule1
    rw [if_pos]
    interval_cases n <;> decide
  · interval_cases n <;> simp [rule01, raw]

theorem apply_tensor (r : List (ℝ × ℝ)) (f : ℝ × ℝ → ℝ) :
    apply (tensor r) f = apply r (fun x => apply r (fun y => f (x, y))) := by
  have gen : ∀ l : List (ℝ × ℝ), apply (l.flatMap (fun p => r.map (fun q => ((p.1, q.1), p.2 * q.2)))) f
      = apply l (fun x => apply r (fun y => f (x, y))) := by
    intro l
    induction l with
    | nil => simp [apply]
    | cons p l ih =>
      have e : apply (r.map (fun q => ((p.1, q.1), p.2 * q.2))) f = p.2 * apply r (fun y => f (p.1, y)) := by
        rw [← apply_smul]
        simp only [apply, List.map_map, Function.comp_def]
        congr 1
        apply List.map_congr_left
        intro q _
        ring
      simp only [apply] at ih e ⊢
      rw [List.flatMap_cons, List.map_append, List.sum_append, ih, e]
      simp
  exact gen r

/-- The polynomial with coefficients `c a b`, of degree at most `N` in each variable. -/
noncomputable def bipoly (N : Nat) (c : Nat → Nat → ℝ) (x y : ℝ) : ℝ :=
  ∑ a ∈ Finset.range (N + 1), ∑ b ∈ Finset.range (N + 1), c a b * x ^ a * y ^ b

theorem exact_pow (r : List (ℝ × ℝ)) (N : Nat) (h : Exact r N) (k : Nat) (hk : k ≤ N) :
    apply r (fun x => x ^ k) = ∫ x in (0 : ℝ)..1, x ^ k := by
  have := h (X ^ k) (by rw [natDegree_X_pow]; exact hk)
  simpa using this

theorem tensor_exact (r : List (ℝ × ℝ)) (N : Nat) (h : Exact r N) (c : Nat → Nat → ℝ) :
    apply (tensor r) (fun p => bipoly N c p.1 p.2) =
      ∫ x in (0 : ℝ)..1, ∫ y in (0 : ℝ)..1, bipoly N c x y := by
  rw [apply_tensor]
  have inner : ∀ x : ℝ, apply r (fun y => bipoly N c x y) = ∫ y in (0 : ℝ)..1, bipoly N c x y := by
    intro x
    unfold bipoly
    rw [apply_sum, intervalIntegral.integral_finsetSum]
    · refine Finset.sum_congr rfl (fun a _ => ?_)
      rw [apply_sum, intervalIntegral.integral_finsetSum]
      · refine Finset.sum_congr rfl (fun b hb => ?_)
        rw [apply_smul, exact_pow r N h b (by have := Finset.mem_range.1 hb; omega),
          intervalIntegral.integral_const_mul]
      · intro b _
        exact (Continuous.intervalIntegrable (by fun_prop) _ _)
    · intro a _
      exact (Continuous.intervalIntegrable (by fun_prop) _ _)
  simp only [inner]
  have e : ∀ x : ℝ, (∫ y in (0 : ℝ)..1, bipoly N c x y) =
      ∑ a ∈ Finset.range (N + 1), (∑ b ∈ Finset.range (N + 1), c a b * ∫ y in (0 : ℝ)..1, y ^ b) * x ^ a := by
    intro x
    rw [← inner x]
    unfold bipoly
    rw [apply_sum]
    refine Finset.sum_congr rfl (fun a _ => ?_)
    rw [apply_sum, Finset.sum_mul]
    refine Finset.sum_congr rfl (fun b hb => ?_)
    rw [apply_smul, exact_pow r N h b (by have := Finset.mem_range.1 hb; omega)]
    ring
  simp only [e]
  rw [apply_sum, intervalIntegral.integral_finsetSum]
  · refine Finset.sum_congr rfl (fun a ha => ?_)
    rw [apply_smul, exact_pow r N h a (by have := Finset.mem_range.1 ha; omega),
      intervalIntegral.integral_const_mul]
  · intro a _
    exact (Continuous.intervalIntegrable (by fun_prop) _ _)

/-- The rule with `n^2` points on the square, `n = 1, ..., 5`, is exact for all polynomials in two
variables of degree at most `2n-1` in each. -/
theorem C32_exact2 (n : Nat) (h1 : 1 ≤ n) (h5 : n ≤ 5) :
    ∃ r, rule2 (n ^ 2) = .ok r ∧ r.length = n ^ 2 ∧
      ∀ c : Nat → Nat → ℝ, (r.map (fun q => q.2 * bipoly (2 * n - 1) c q.1.1 q.1.2)).sum =
        ∫ x in (0 : ℝ)..1, ∫ y in (0 : ℝ)..1, bipoly (2 * n - 1) c x y := by
  have hs : isqrt (n ^ 2) = n := Nat.sqrt_eq' n
  refine ⟨tensor (rule01 n), ?_, ?_, tensor_exact _ _ (rule01_exact_le5 n h1 h5)⟩
  · unfold rule2
    rw [hs, if_pos]
    interval_cases n <;> decide
  · interval_cases n <;> simp [tensor, rule01, raw]

/-- Nodes lie strictly inside, weights are positive and sum to 1, for every order that is accepted. -/
theorem C32_weights1 (n : Nat) (r : List (ℝ × ℝ)) (h : rule1 n = .ok r) :
    (r.map (·.2)).sum = 1 ∧ ∀ q ∈ r, 0 < q.2 ∧ 0 < q.1 ∧ q.1 < 1 := by
  unfold rule1 at h
  split_ifs at h with hm
  obtain rfl := Except.ok.inj h
  have key : ∀ q ∈ raw n, 0 < q.2 ∧ -1 < q.1 ∧ q.1 < 1 := by
    have s3 : 1 < √(3 : ℝ) := by rw [Real.lt_sqrt (by norm_num)]; norm_num
    have s35 : 0 < √(3 / 5 : ℝ) ∧ √(3 / 5 : ℝ) < 1 :=
      ⟨Real.sqrt_pos.2 (by norm_num), by rw [Real.sqrt_lt' (by norm_num)]; norm_num⟩
    have s65 : 1 < √(6 / 5 : ℝ) ∧ √(6 / 5 : ℝ) < 3 / 2 :=
      ⟨by rw [Real.lt_sqrt (by norm_num)]; norm_num, by rw [Real.sqrt_lt' (by norm_num)]; norm_num⟩
    have s514 : 1 / 2 < √(5 / 14 : ℝ) ∧ √(5 / 14 : ℝ) < 1 :=
      ⟨by rw [Real.lt_sqrt (by norm_num)]; norm_num, by rw [Real.sqrt_lt' (by norm_num)]; norm_num⟩
    have lt1 : ∀ x : ℝ, x < 1 → √x < 1 := fun x hx => by
      rw [Real.sqrt_lt' (by norm_num)]; simpa using hx
    have lt3 : ∀ x : ℝ, x < 9 → √x < 3 := fun x hx => by
      rw [Real.sqrt_lt' (by norm_num)]; linarith
    have nn : ∀ x : ℝ, 0 ≤ √x := Real.sqrt_nonneg
    simp only [List.mem_cons, List.not_mem_nil, or_false] at hm
    rcases hm with rfl | rfl | rfl | rfl | rfl | rfl
    · simp [raw]
    · have : 0 < 1 / √(3 : ℝ) ∧ 1 / √(3 : ℝ) < 1 :=
        ⟨by positivity, by rw [div_lt_one (by positivity)]; exact s3⟩
      intro q hq
      simp only [raw, List.mem_cons, List.not_mem_nil, or_false] at hq
      rcases hq with rfl | rfl <;> simp only [neg_div, neg_neg] <;> refine ⟨by norm_num, ?_, ?_⟩ <;> linarith
    · intro q hq
      simp only [raw, List.mem_cons, List.not_mem_nil, or_false] at hq
      rcases hq with rfl | rfl | rfl <;> simp only [neg_neg] <;> refine ⟨by norm_num, ?_, ?_⟩ <;> linarith
    · have a := lt1 ((3 + 2 * √(6 / 5)) / 7) (by rw [div_lt_one (by norm_num)]; linarith)
      have b := lt1 ((3 - 2 * √(6 / 5)) / 7) (by rw [div_lt_one (by norm_num)]; linarith)
      have a0 := nn ((3 + 2 * √(6 / 5)) / 7)
      have b0 := nn ((3 - 2 * √(6 / 5)) / 7)
      have w : 0 < 1 / (6 * √(6 / 5 : ℝ)) ∧ 1 / (6 * √(6 / 5 : ℝ)) < 0.5 :=
        ⟨by have := s65.1; positivity, by rw [div_lt_iff₀ (by linarith)]; linarith⟩
      intro q hq
      simp only [raw, List.mem_cons, List.not_mem_nil, or_false] at hq
      rcases hq with rfl | rfl | rfl | rfl <;> simp only [neg_neg] <;> refine ⟨?_, ?_, ?_⟩ <;> linarith
    · have a := lt3 (5 + 4 * √(5 / 14)) (by linarith)
      have b := lt3 (5 - 4 * √(5 / 14)) (by linarith)
      have a0 := nn (5 + 4 * √(5 / 14))
      have b0 := nn (5 - 4 * √(5 / 14))
      have w : 0 < 13 / (180 * √(5 / 14 : ℝ)) ∧ 13 / (180 * √(5 / 14 : ℝ)) < 161 / 450 :=
        ⟨by have := s514.1; positivity, by rw [div_lt_iff₀ (by linarith)]; linarith⟩
      intro q hq
      simp only [raw, List.mem_cons, List.not_mem_nil, or_false] at hq
      rcases hq with rfl | rfl | rfl | rfl | rfl <;> simp only [neg_div, neg_neg] <;> refine ⟨?_, ?_, ?_⟩ <;> linarith
    · intro q hq
      simp only [raw, List.mem_cons, List.not_mem_nil, or_false] at hq
      rcases hq with rfl | rfl | rfl | rfl | rfl | rfl <;> norm_num
  refine ⟨?_, ?_⟩
  · simp only [List.mem_cons, List.not_mem_nil, or_false] at hm
    rcases hm with rfl | rfl | rfl | rfl | rfl | rfl <;> simp [rule01, raw] <;> norm_num <;> ring
  · intro q hq
    obtain ⟨p, hp, rfl⟩ := List.mem_map.1 hq
    obtain ⟨a, b, c⟩ := key p hp
    refine ⟨by linarith, by linarith, by linarith⟩

/-- All other orders are refused. -/
theorem C32_orders (n : Nat) : ((∃ r, rule1 n = .ok r) ↔ 1 ≤ n ∧ n ≤ 6) ∧
    ((∃ r, rule2 n = .ok r) ↔ ∃ k, 1 ≤ k ∧ k ≤ 6 ∧ n = k ^ 2) := by
  constructor
  · unfold rule1
    split_ifs with h
    · simp only [List.mem_cons, List.not_mem_nil, or_false] at h
      exact ⟨fun _ => by omega, fun _ => ⟨_, rfl⟩⟩
    · simp only [List.mem_cons, List.not_mem_nil, or_false] at h
      exact ⟨fun ⟨r, hr⟩ => by simp at hr, fun h' => by omega⟩
  · unfold rule2
    split_ifs with h
    · simp only [List.mem_cons, List.not_mem_nil, or_false] at h
      refine ⟨fun _ => ?_, fun _ => ⟨_, rfl⟩⟩
      rcases h with rfl | rfl | rfl | rfl | rfl | rfl
      exacts [⟨1, by omega⟩, ⟨2, by omega⟩, ⟨3, by omega⟩, ⟨4, by omega⟩, ⟨5, by omega⟩, ⟨6, by omega⟩]
    · refine ⟨fun ⟨r, hr⟩ => by simp at hr, fun ⟨k, h1, h2, h3⟩ => absurd ?_ h⟩
      subst h3
      interval_cases k <;> decide

/-- The two-dimensional weights sum to 1, and all nodes are in the square. -/
theorem C32_weights2 (n : Nat) (r : List ((ℝ × ℝ) × ℝ)) (h : rule2 n = .ok r) :
    (r.map (·.2)).sum = 1 ∧ ∀ q ∈ r, 0 < q.2 ∧ 0 < q.1.1 ∧ q.1.1 < 1 ∧ 0 < q.1.2 ∧ q.1.2 < 1 := by
  obtain ⟨k, h1, h6, rfl⟩ := (C32_orders n).2.1 ⟨r, h⟩
  unfold rule2 at h
  split_ifs at h with hm
  rw [show isqrt (k ^ 2) = k from Nat.sqrt_eq' k] at h
  obtain rfl := Except.ok.inj h
  have hr : rule1 k = .ok (rule01 k) := by
    unfold rule1; rw [if_pos]; interval_cases k <;> decide
  obtain ⟨hsum, hpos⟩ := C32_weights1 k _ hr
  refine ⟨?_, ?_⟩
  · have := apply_tensor (rule01 k) (fun _ => 1)
    simp only [apply, mul_one] at this
    rw [this, ← hsum]
    congr 1
    apply List.map_congr_left
    intro q _
    rw [hsum, mul_one]
  · intro q hq
    obtain ⟨a, ha, hq⟩ := List.mem_flatMap.1 hq
    obtain ⟨b, hb, rfl⟩ := List.mem_map.1 hq
    obtain ⟨p1, p2, p3⟩ := hpos a ha
    obtain ⟨q1, q2, q3⟩ := hpos b hb
    exact ⟨mul_pos p1 q1, p2, p3, q2, q3⟩

/-! ### Order 6: ten decimals -/

theorem rule6_moments (k : Nat) (hk : k ≤ 11) :
    |apply (rule01 6) (fun x => x ^ k) - ∫ x in (0 : ℝ)..1, x ^ k| ≤ 1 / 10 ^ 9 := by
  rw [integral_pow, abs_le]
  simp only [apply, rule01, raw, List.map_cons, List.map_nil, List.sum_cons, List.sum_nil]
  interval_cases k <;> norm_num

/-- With six points the rule is given with ten decimals: up to degree 11 the error is at most `1e-9` times
the sum of the absolute values of the coefficients. -/
theorem C32_order6_partial : ∃ r, rule1 6 = .ok r ∧ ∀ P : ℝ[X], P.natDegree ≤ 11 →
    |(r.map (fun q => q.2 * P.eval q.1)).sum - ∫ x in (0 : ℝ)..1, P.eval x| ≤
      1 / 10 ^ 9 * ∑ k ∈ Finset.range 12, |P.coeff k| := by
  refine ⟨rule01 6, by unfold rule1; rw [if_pos (by decide)], fun P hP => ?_⟩
  have e : ∀ x, P.eval x = ∑ k ∈ Finset.range 12, P.coeff k * x ^ k := fun x =>
    Polynomial.eval_eq_sum_range' (by omega) x
  have : (apply (rule01 6) (fun x => P.eval x) - ∫ x in (0 : ℝ)..1, P.eval x) =
      ∑ k ∈ Finset.range 12, P.coeff k * (apply (rule01 6) (fun x => x ^ k) - ∫ x in (0 : ℝ)..1, x ^ k) := by
    simp only [e, mul_sub, Finset.sum_sub_distrib]
    rw [apply_sum, intervalIntegral.integral_finsetSum]
    · simp only [apply_smul, intervalIntegral.integral_const_mul]
    · intro k _
      exact (Continuous.intervalIntegrable (by fun_prop) _ _)
  show |apply (rule01 6) (fun x => P.eval x) - _| ≤ _
  rw [this, Finset.mul_sum]
  refine le_trans (Finset.abs_sum_le_sum_abs _ _) (Finset.sum_le_sum (fun k hk => ?_))
  rw [abs_mul, mul_comm]
  exact mul_le_mul_of_nonneg_right (rule6_moments k (by have := Finset.mem_range.1 hk; omega)) (abs_nonneg _)

/-- It is not exact: already `x^2` is integrated with an error. -/
theorem C32_order6_violated : ∃ r, rule1 6 = .ok r ∧
    (r.map (fun q => q.2 * (X ^ 2 : ℝ[X]).eval q.1)).sum ≠ ∫ x in (0 : ℝ)..1, (X ^ 2 : ℝ[X]).eval x := by
  refine ⟨rule01 6, by unfold rule1; rw [if_pos (by decide)], ?_⟩
  simp only [eval_pow, eval_X]
  rw [integral_pow]
  simp only [rule01, raw, List.map_cons, List.map_nil, List.sum_cons, List.sum_nil]
  norm_num

/-- Triangles, named in the documentation, are not available. -/
theorem C32_triangle_violated (n : Nat) : ¬ ∃ r, ruleTri n = .ok r := by
  rintro ⟨r, h⟩
  simp [ruleTri] at h

/-- The hypotheses are met: a cubic with the two-point rule. -/
example : (X ^ 3 - 2 * X : ℝ[X]).natDegree ≤ 2 * 2 - 1 := by
  have : (X ^ 3 - 2 * X : ℝ[X]).natDegree ≤ 3 := by compute_degree
  exact this

end Verif.Gauss
