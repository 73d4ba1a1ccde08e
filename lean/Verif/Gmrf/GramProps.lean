import Verif.Gmrf.Gram

/-!
# C57: covariance matrices of the kernels are positive semidefinite

`Covariance.assemble` evaluates the kernel at all pairs of points `(x_i, x_j)` (gmrf.py 655-660) and
relies on the matrix being a covariance matrix.
-/

namespace Verif.Gmrf

open MeasureTheory Set

/-- Every valid stationary kernel of a Euclidean distance has positive semidefinite matrices. -/
theorem eval_psd {ι : Type} [Fintype ι] (s : Stat) (hs : s.Valid)
    (h1 : ∀ sgm nu l, s = .matern sgm nu l → sgm ^ 2 = 1) (p : ι → ℝ × ℝ) :
    Psd fun i j => s.eval (norm2 (p i - p j)) := by
  cases s with
  | gaussian sgm l =>
    simp only [Stat.Valid] at hs
    refine ((gauss_psd p (show 0 ≤ 1 / (2 * l ^ 2) by positivity)).smul (sq_nonneg sgm)).congr
      fun i j => ?_
    simp only [Stat.eval, gaussianK]
    rw [norm2_sq]
    congr 2; ring
  | exponential sgm l =>
    simp only [Stat.Valid] at hs
    refine ((laplace_psd p (show 0 ≤ 1 / l by positivity)).smul (sq_nonneg sgm)).congr
      fun i j => ?_
    simp only [Stat.eval, exponentialK]
    congr 2; ring
  | matern sgm nu l => exact matern_psd p (h1 sgm nu l rfl) hs.1 hs.2
  | rational a => exact rational_psd p hs

/-- **C57** (1D). For all points `x_1, ..., x_n` and every valid stationary kernel without
periodicity (Matern only with `σ² = 1`), the matrix `k(x_i,x_j)` is symmetric positive semidefinite. -/
theorem C57_gram_1d_partial {n : ℕ} (s : Stat) (hs : s.Valid)
    (h1 : ∀ sgm nu l, s = .matern sgm nu l → sgm ^ 2 = 1) (M : Option ℝ) (box : Option (ℝ × ℝ))
    (x : Fin n → ℝ) (K : Matrix (Fin n) (Fin n) ℝ)
    (h : ∀ i j, stat1 s (x i) (x j) M false box = .ok (K i j)) : K.PosSemidef := by
  have := eval_psd s hs h1 (fun i => (Real.sqrt (M.getD 1) * x i, 0))
  rw [psd_iff] at this
  convert this using 1
  ext i j
  obtain ⟨d, hd, hk⟩ := stat1_ok (h i j)
  rw [Matrix.of_apply, hk, C42_formula_1d _ _ _ _ _ hd, norm2_eq]
  congr 1
  simp only [Prod.mk_sub_mk, sub_zero, ← mul_sub]
  rw [show (Real.sqrt (M.getD 1) * (x i - x j)) ^ 2 + (0 : ℝ) ^ 2
    = (Real.sqrt (M.getD 1) * (x i - x j)) ^ 2 by ring, Real.sqrt_sq_eq_abs, abs_mul,
    abs_of_nonneg (Real.sqrt_nonneg _)]

/-- **C57** (2D). The same in the plane, without anisotropy or with an anisotropy matrix without
off-diagonal entries. -/
theorem C57_gram_2d_partial {n : ℕ} (s : Stat) (hs : s.Valid)
    (h1 : ∀ sgm nu l, s = .matern sgm nu l → sgm ^ 2 = 1)
    (M : Option (Matrix (Fin 2) (Fin 2) ℝ)) (hM : ∀ m, M = some m → m 0 1 = 0)
    (box : Option ((ℝ × ℝ) × (ℝ × ℝ))) (x : Fin n → ℝ × ℝ) (K : Matrix (Fin n) (Fin n) ℝ)
    (h : ∀ i j, stat2 s (x i) (x j) M false box = .ok (K i j)) : K.PosSemidef := by
  cases M with
  | none =>
    have := eval_psd s hs h1 x
    rw [psd_iff] at this
    convert this using 1
    ext i j
    obtain ⟨d, hd, hk⟩ := stat2_ok (h i j)
    rw [C42_formula_2d] at hd
    rw [Matrix.of_apply, hk, Except.ok.inj hd]
  | some m =>
    have h01 := hM m rfl
    have := eval_psd s hs h1
      (fun i => (Real.sqrt (m 0 0) * (x i).1, Real.sqrt (m 1 1) * (x i).2))
    rw [psd_iff] at this
    convert this using 1
    ext i j
    obtain ⟨d, hd, hk⟩ := stat2_ok (h i j)
    have hpsd : m.PosSemidef := ((C42_total_2d _ _ (some m) false box).mp ⟨_, hd⟩).2 m rfl
    obtain ⟨hsy, h0, h2, -⟩ := psd_entries hpsd
    simp only [dist2, bind, Except.bind, Bool.false_eq_true, if_false, hpsd, if_true,
      Except.ok.injEq] at hd
    rw [Matrix.of_apply, hk, ← hd, norm2_eq]
    congr 2
    simp only [quadForm, ← hsy, h01, Prod.fst_sub, Prod.snd_sub]
    have e1 := abs_mul_abs_self ((x i).1 - (x j).1)
    have e2 := abs_mul_abs_self ((x i).2 - (x j).2)
    have s1 := Real.sq_sqrt h0
    have s2 := Real.sq_sqrt h2
    linear_combination m 0 0 * e1 + m 1 1 * e2 - ((x i).1 - (x j).1) ^ 2 * s1
      - ((x i).2 - (x j).2) ^ 2 * s2

/-- **C57.** `constant` with `sgm >= 0` and `linear` (without anisotropy, with `M >= 0` in 1D, with
positive semidefinite `M` in 2D) give positive semidefinite matrices. -/
theorem C57_gram_linear {n : ℕ} (sgm : ℝ) :
    (0 ≤ sgm → (Matrix.of fun _ _ : Fin n => constantK sgm).PosSemidef) ∧
    (∀ (x : Fin n → ℝ) (M : Option ℝ), (∀ m, M = some m → 0 ≤ m) →
      (Matrix.of fun i j => linear1 (x i) (x j) sgm M).PosSemidef) ∧
    (∀ (x : Fin n → ℝ × ℝ) (M : Option (Matrix (Fin 2) (Fin 2) ℝ)),
      (∀ m, M = some m → m.PosSemidef) →
      (Matrix.of fun i j => linear2 (x i) (x j) sgm M).PosSemidef) := by
  have hc : Psd fun _ _ : Fin n => sgm ^ 2 :=
    (Psd.rank_one fun _ => sgm).congr fun i j => by ring
  refine ⟨fun h => ?_, fun x M hM => ?_, fun x M hM => ?_⟩
  · rw [← psd_iff]
    exact ((Psd.rank_one fun _ : Fin n => 1).smul h).congr fun i j => by simp [constantK]
  · rw [← psd_iff]
    cases M with
    | none => exact hc.add (Psd.rank_one x)
    | some m =>
      exact ((Psd.rank_one x).smul (hM m rfl)).congr fun i j => by simp only [linear1]; ring
  · rw [← psd_iff]
    cases M with
    | none =>
      exact (hc.add ((Psd.rank_one fun i => (x i).1).add (Psd.rank_one fun i => (x i).2))).congr
        fun i j => rfl
    | some m =>
      refine hc.add ?_
      obtain ⟨hs, -, -, hq⟩ := psd_entries (hM m rfl)
      refine ⟨fun i j => by simp only [hs]; ring, fun c => ?_⟩
      refine (hq (∑ i, c i * (x i).1) (∑ i, c i * (x i).2)).trans_eq ?_
      simp only [qf, quadForm, mul_add, Finset.sum_add_distrib]
      have key : ∀ (a b : Fin n → ℝ) (t : ℝ),
          (∑ i, c i * a i) * (t * ∑ j, c j * b j) = ∑ i, ∑ j, c i * (a i * (t * b j)) * c j := by
        intro a b t
        rw [Finset.mul_sum, Finset.sum_mul_sum]
        refine Finset.sum_congr rfl fun i _ => Finset.sum_congr rfl fun j _ => ?_
        ring
      rw [key, key, key, key, ← Finset.sum_add_distrib, ← Finset.sum_add_distrib,
        ← Finset.sum_add_distrib]
      refine Finset.sum_congr rfl fun i _ => ?_
      rw [← Finset.sum_add_distrib, ← Finset.sum_add_distrib, ← Finset.sum_add_distrib]
      refine Finset.sum_congr rfl fun j _ => ?_
      ring

/-! ## Violations -/

/-- A `4 × 4` matrix with entries `1, a, a, a⁴` (arranged as a cycle) is not positive semidefinite
if `3/4 <= a < 1`. -/
theorem cycle_not_psd {a : ℝ} (h1 : 3 / 4 ≤ a) (h2 : a < 1) (K : Matrix (Fin 4) (Fin 4) ℝ)
    (hK : K = !![1, a, a ^ 4, a; a, 1, a, a ^ 4; a ^ 4, a, 1, a; a, a ^ 4, a, 1]) :
    ¬ K.PosSemidef := by
  intro h
  have := h.dotProduct_mulVec_nonneg ![1, -1, 1, -1]
  subst hK
  simp [dotProduct, Matrix.mulVec, Fin.sum_univ_four] at this
  have h3 : 0 < a + a ^ 2 + a ^ 3 - 1 := by nlinarith [sq_nonneg a, pow_pos (show 0 < a by linarith) 3]
  nlinarith [mul_pos (show 0 < 1 - a by linarith) h3]

/-- **C57** fails for periodic kernels, also for points in the box: four equidistant points of the
unit circle with the Gaussian kernel. -/
theorem C57_periodic_violated : ∃ (x : Fin 4 → ℝ) (K : Matrix (Fin 4) (Fin 4) ℝ),
    (∀ i, InBox1 (0, 1) (x i)) ∧
    (∀ i j, stat1 (.gaussian 1 1) (x i) (x j) none true (some (0, 1)) = .ok (K i j)) ∧
    ¬ K.PosSemidef := by
  set a := Real.exp (-(1 / 32)) with ha
  have ha4 : a ^ 4 = Real.exp (-(1 / 8)) := by
    rw [ha, ← Real.exp_nat_mul]; norm_num
  have b1 : 3 / 4 ≤ a := by
    have := Real.add_one_le_exp (-(1 / 32 : ℝ)); rw [← ha] at this; linarith
  have b2 : a < 1 := by
    rw [ha, ← Real.exp_zero]; exact Real.exp_lt_exp.mpr (by norm_num)
  refine ⟨![0, 1 / 4, 1 / 2, 3 / 4],
    !![1, a, a ^ 4, a; a, 1, a, a ^ 4; a ^ 4, a, 1, a; a, a ^ 4, a, 1], ?_, ?_,
    cycle_not_psd b1 b2 _ rfl⟩
  · intro i; fin_cases i <;> constructor <;> norm_num
  · intro i j
    simp only [stat1, dist1, bind, Except.bind, pure, Except.pure, if_true, Stat.eval, gaussianK,
      Except.ok.injEq]
    fin_cases i <;> fin_cases j <;> simp [ha4] <;> norm_num [abs_of_neg, abs_of_pos, ha] <;>
      norm_num [abs_of_neg, abs_of_pos, min_def]

/-- **C57** fails for anisotropy with off-diagonal entries: with `M = [[1,1],[1,1]]` and the corners
of a square. -/
theorem C57_aniso_violated : ∃ (M : Matrix (Fin 2) (Fin 2) ℝ) (x : Fin 4 → ℝ × ℝ)
    (K : Matrix (Fin 4) (Fin 4) ℝ), M.PosSemidef ∧
    (∀ i j, stat2 (.gaussian 1 2) (x i) (x j) (some M) false none = .ok (K i j)) ∧
    ¬ K.PosSemidef := by
  have hM := psd_sign 1 (by norm_num)
  set a := Real.exp (-(1 / 8)) with ha
  have ha4 : a ^ 4 = Real.exp (-(1 / 2)) := by
    rw [ha, ← Real.exp_nat_mul]; norm_num
  have b1 : 3 / 4 ≤ a := by
    have := Real.add_one_le_exp (-(1 / 8 : ℝ)); rw [← ha] at this; linarith
  have b2 : a < 1 := by
    rw [ha, ← Real.exp_zero]; exact Real.exp_lt_exp.mpr (by norm_num)
  refine ⟨!![1, 1; 1, 1], ![(0, 0), (1, 0), (1, 1), (0, 1)],
    !![1, a, a ^ 4, a; a, 1, a, a ^ 4; a ^ 4, a, 1, a; a, a ^ 4, a, 1], hM, ?_,
    cycle_not_psd b1 b2 _ rfl⟩
  intro i j
  simp only [stat2, dist2, bind, Except.bind, pure, Except.pure, Bool.false_eq_true, if_false, hM,
    if_true, Stat.eval, gaussianK, Except.ok.injEq]
  rw [Real.sq_sqrt ((psd_entries hM).2.2.2 _ _)]
  fin_cases i <;> fin_cases j <;> simp [ha4, quadForm] <;> norm_num [ha]

/-- The Bessel integral for `ν = 1` at `z = 1/2`. -/
theorem bessel_lower : 1 / 4 < besselI 1 (1 / 2) := by
  have h1 : IntegrableOn (fun t : ℝ => Real.exp (-t - (1 / 2) ^ 2 / (4 * t)) * t ^ ((1 : ℝ) - 1))
      (Ioi 0) := besselIntegrable (1 / 2) one_pos
  have hsub : Ioi (1 / 4 : ℝ) ⊆ Ioi 0 := Ioi_subset_Ioi (by norm_num)
  have h2 : ∫ t in Ioi (1 / 4 : ℝ), Real.exp (-(1 / 4)) * Real.exp (-t) ≤ besselI 1 (1 / 2) := by
    refine le_trans ?_ (setIntegral_mono_set h1 ?_ hsub.eventuallyLE)
    · refine setIntegral_mono_on ?_ (h1.mono_set hsub) measurableSet_Ioi ?_
      · exact (integrableOn_exp_neg_Ioi (1 / 4)).const_mul _
      · intro t ht
        have ht' : (1 / 4 : ℝ) < t := ht
        rw [sub_self, Real.rpow_zero, mul_one, ← Real.exp_add]
        apply Real.exp_le_exp.mpr
        have : (1 / 2 : ℝ) ^ 2 / (4 * t) ≤ 1 / 4 := by
          rw [div_le_iff₀ (by linarith)]; nlinarith
        linarith
    · refine (ae_restrict_iff' measurableSet_Ioi).mpr (Filter.Eventually.of_forall fun t ht => ?_)
      exact (bessel_bound ht).1
  rw [integral_const_mul, integral_exp_neg_Ioi, ← Real.exp_add] at h2
  have h3 := Real.add_one_le_exp (-(1 / 4 : ℝ) + -(1 / 4))
  linarith

/-- **C57** fails for the Matern kernel with `σ = 2`: covariance larger than the variance `1` that is
put on the diagonal. -/
theorem C57_matern_violated : ∃ (x : Fin 2 → ℝ) (K : Matrix (Fin 2) (Fin 2) ℝ),
    (∀ i j, stat1 (.matern 2 1 (Real.sqrt 2)) (x i) (x j) none false none = .ok (K i j)) ∧
    ¬ K.PosSemidef := by
  set v := maternK 2 1 (Real.sqrt 2) (1 / 2) with hv
  have hv1 : 1 < v := by
    rw [hv, matern_eq one_pos (by positivity) (by norm_num), Real.Gamma_one, div_one]
    have : Real.sqrt (2 * 1) * (1 / 2) / Real.sqrt 2 = 1 / 2 := by
      rw [mul_one]
      have : Real.sqrt 2 ≠ 0 := by positivity
      field_simp
    rw [this]
    linarith [bessel_lower]
  refine ⟨![0, 1 / 2], !![1, v; v, 1], ?_, ?_⟩
  · have e0 : maternK 2 1 (Real.sqrt 2) 0 = 1 := by simp [maternK]
    intro i j
    simp only [stat1, dist1, bind, Except.bind, pure, Except.pure, Bool.false_eq_true, if_false,
      Stat.eval, Except.ok.injEq]
    fin_cases i <;> fin_cases j
    · simpa using e0
    · simp only [Fin.zero_eta, Fin.mk_one, Matrix.cons_val_zero, Matrix.cons_val_one]
      rw [abs_of_neg (by norm_num)]; simp [hv]
    · simp only [Fin.zero_eta, Fin.mk_one, Matrix.cons_val_zero, Matrix.cons_val_one]
      rw [abs_of_pos (by norm_num)]; simp [hv]
    · simpa using e0
  · intro h
    have := h.dotProduct_mulVec_nonneg ![1, -1]
    simp [dotProduct, Matrix.mulVec, Fin.sum_univ_two] at this
    linarith

/-! ## The hypotheses are satisfiable -/

example : ∃ K : Matrix (Fin 3) (Fin 3) ℝ, ∀ i j,
    stat2 (.exponential 2 (1 / 10)) (![(0, 0), (1, 2), (3, 1)] i) (![(0, 0), (1, 2), (3, 1)] j)
      none false none = .ok (K i j) :=
  ⟨Matrix.of fun i j => (Stat.exponential 2 (1 / 10)).eval
      (norm2 (![(0, 0), (1, 2), (3, 1)] i - ![(0, 0), (1, 2), (3, 1)] j)),
    fun i j => by rw [stat2, C42_formula_2d]; rfl⟩

example : ∃ K : Matrix (Fin 3) (Fin 3) ℝ, ∀ i j,
    stat1 (.matern (-1) 2 3) (![0, 1, 3] i) (![0, 1, 3] j) none false none = .ok (K i j) :=
  ⟨Matrix.of fun i j => (Stat.matern (-1) 2 3).eval |(![0, 1, 3] : Fin 3 → ℝ) i - ![0, 1, 3] j|,
    fun i j => rfl⟩

end Verif.Gmrf
