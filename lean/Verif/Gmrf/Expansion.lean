import Verif.Gmrf.FieldProps

/-!
# C59 (Karhunen-Loeve samples) and C60 (discretized covariance operators)
-/

namespace Verif.Gmrf

open Matrix Verif.Spd

variable {n m : ℕ}

/-! ## C59 -/

/-- The part of the covariance carried by the eigenpairs `imin..imax` (counted from the largest):
`Σ d_l v_l v_l'`. -/
noncomputable def partCov (o : Eigen n) (imin imax : ℕ) : Mat n n :=
  ∑ l : Fin n, if imin ≤ l ∧ (l : ℕ) ≤ imax then
    o.d l • vecMulVec (fun i => o.V i l) (fun i => o.V i l) else 0

/-- **C59.** `KL_sample()` with the whole range is `sample()` for the same `z`, given or drawn. -/
theorem C59_full (f : Field n) (o : Eigen n) (hf : f.cov = some (.eig o)) (hn : 0 < n)
    (z : Mat n m) :
    f.klSampleRandom 0 none z = f.sample .covariance z ∧
      f.klSample 0 none z = f.sample .covariance z := by
  have key : ∀ (i : Fin n) (j : Fin m),
      (∑ l : Fin n, o.V i l * (Real.sqrt (o.d l) * z l j)) = (o.V *
        (diagonal (fun i => Real.sqrt (o.d i)) * z)) i j := by
    intro i j
    rw [Matrix.mul_apply]
    simp only [diagonal_mul]
  constructor
  · simp only [Field.klSampleRandom, hf, Option.getD_none, Nat.not_lt_zero, if_false,
      show ¬ n ≤ n - 1 by omega, Field.sample, Op.sqrtDot, Eigen.sqrtDot, Bool.false_eq_true, bind,
      Except.bind, pure, Except.pure, Except.ok.injEq]
    ext i j
    rw [Matrix.add_apply, ← key, of_apply]
    congr 1
    refine Finset.sum_congr rfl fun l _ => ?_
    rw [if_pos ⟨Nat.zero_le _, by omega⟩]
  · have h1 : ¬ (n ≠ n - 1 - 0 + 1) := by omega
    have h2 : ¬ (min (n - 1 + 1) n - 0 ≠ n - 1 + 1 - 0) := by
      rw [show n - 1 + 1 = n by omega]; simp
    simp only [Field.klSample, hf, Option.getD_none, Nat.not_lt_zero, if_false,
      show ¬ n ≤ n - 1 by omega, h1, h2, Field.sample, Op.sqrtDot, Eigen.sqrtDot,
      Bool.false_eq_true, bind, Except.bind, pure, Except.pure, Except.ok.injEq]
    ext i j
    rw [Matrix.add_apply, ← key, of_apply]
    congr 1
    refine Finset.sum_congr rfl fun l _ => ?_
    rw [dif_pos ⟨Nat.zero_le _, by omega, l.2⟩]

/-- **C59.** The expansion over `imin..imax` is `mean + S z` with `S S'` the part of the covariance
carried by these eigenpairs. -/
theorem C59_law (f : Field n) (C : Mat n n) (M : Option (Mat n n)) (delta : Option ℝ) (o : Eigen n)
    (h : Eigen.Init C M delta o) (hf : f.cov = some (.eig o)) (imin imax : ℕ) (h1 : imin ≤ imax)
    (h2 : imax < n) :
    ∃ S : Mat n n, S * Sᵀ = partCov o imin imax ∧ ∀ (m : ℕ) (z : Mat n m),
      f.klSampleRandom imin (some imax) z = .ok (S * z + tile f.mean m) := by
  refine ⟨o.V * diagonal (fun l : Fin n => if imin ≤ (l : ℕ) ∧ (l : ℕ) ≤ imax then Real.sqrt (o.d l) else 0),
    ?_, fun m z => ?_⟩
  · rw [Matrix.transpose_mul, diagonal_transpose, Matrix.mul_assoc, ← Matrix.mul_assoc (diagonal _),
      diagonal_mul_diagonal]
    ext i j
    rw [Matrix.mul_apply, partCov, Matrix.sum_apply]
    refine Finset.sum_congr rfl fun l _ => ?_
    rw [diagonal_mul, transpose_apply]
    by_cases hl : imin ≤ (l : ℕ) ∧ (l : ℕ) ≤ imax
    · simp only [hl, and_self, if_true, Matrix.smul_apply, vecMulVec_apply, smul_eq_mul]
      rw [Real.mul_self_sqrt (init_nonneg h l)]; ring
    · simp [hl]
  · simp only [Field.klSampleRandom, hf, Option.getD_some, not_lt.mpr h1, not_le.mpr h2, if_false,
      Except.ok.injEq]
    ext i j
    rw [Matrix.add_apply, of_apply, Matrix.mul_assoc, Matrix.mul_apply]
    congr 1
    refine Finset.sum_congr rfl fun l _ => ?_
    rw [diagonal_mul]
    split_ifs <;> simp

/-- **C59.** Splitting the range: the fluctuations of `imin..j` and `j+1..imax` (same random numbers)
add up to those of `imin..imax`. -/
theorem C59_split (f : Field n) (o : Eigen n) (hf : f.cov = some (.eig o)) (imin j imax : ℕ)
    (h1 : imin ≤ j) (h2 : j < imax) (h3 : imax < n) (z : Mat n m) :
    ∃ X Y Z, f.klSampleRandom imin (some j) z = .ok X ∧
      f.klSampleRandom (j + 1) (some imax) z = .ok Y ∧
      f.klSampleRandom imin (some imax) z = .ok Z ∧
      (X - tile f.mean m) + (Y - tile f.mean m) = Z - tile f.mean m := by
  refine ⟨Matrix.of fun i b => (∑ l : Fin n, if imin ≤ (l : ℕ) ∧ (l : ℕ) ≤ j then
        o.V i l * (Real.sqrt (o.d l) * z l b) else 0) + tile f.mean m i b,
    Matrix.of fun i b => (∑ l : Fin n, if j + 1 ≤ (l : ℕ) ∧ (l : ℕ) ≤ imax then
        o.V i l * (Real.sqrt (o.d l) * z l b) else 0) + tile f.mean m i b,
    Matrix.of fun i b => (∑ l : Fin n, if imin ≤ (l : ℕ) ∧ (l : ℕ) ≤ imax then
        o.V i l * (Real.sqrt (o.d l) * z l b) else 0) + tile f.mean m i b, ?_, ?_, ?_, ?_⟩
  · simp only [Field.klSampleRandom, hf, Option.getD_some, show ¬ j < imin by omega,
      show ¬ n ≤ j by omega, if_false]
  · simp only [Field.klSampleRandom, hf, Option.getD_some, show ¬ imax < j + 1 by omega,
      show ¬ n ≤ imax by omega, if_false]
  · simp only [Field.klSampleRandom, hf, Option.getD_some, show ¬ imax < imin by omega,
      show ¬ n ≤ imax by omega, if_false]
  · ext a b
    simp only [Matrix.add_apply, Matrix.sub_apply, of_apply, add_sub_cancel_right]
    rw [← Finset.sum_add_distrib]
    refine Finset.sum_congr rfl fun l _ => ?_
    by_cases ha : imin ≤ (l : ℕ) ∧ (l : ℕ) ≤ j
    · rw [if_pos ha, if_neg (by omega), if_pos (by omega), add_zero]
    · by_cases hb : j + 1 ≤ (l : ℕ) ∧ (l : ℕ) ≤ imax
      · rw [if_neg ha, if_pos hb, if_pos (by omega), zero_add]
      · rw [if_neg ha, if_neg hb, if_neg (by omega), zero_add]

/-- **C59** with explicit random numbers, range starting at `0`: rows `0..imax` of `z` are the
coefficients. -/
theorem C59_explicit_partial (f : Field n) (o : Eigen n) (hf : f.cov = some (.eig o)) (imax : ℕ)
    (h2 : imax < n) (z : Mat n m) :
    f.klSample 0 (some imax) (Matrix.of fun (l : Fin (imax + 1)) j => z ⟨l, by omega⟩ j)
      = f.klSampleRandom 0 (some imax) z := by
  have h1 : ¬ (imax + 1 ≠ imax - 0 + 1) := by omega
  have h3 : ¬ (min (imax + 1) (imax + 1) - 0 ≠ imax + 1 - 0) := by simp
  simp only [Field.klSample, Field.klSampleRandom, hf, Option.getD_some, Nat.not_lt_zero, if_false,
    not_le.mpr h2, h1, h3, Except.ok.injEq]
  ext i j
  simp only [of_apply]
  congr 1
  refine Finset.sum_congr rfl fun l _ => ?_
  by_cases hl : (l : ℕ) ≤ imax
  · rw [dif_pos ⟨Nat.zero_le _, hl, by omega⟩, if_pos ⟨Nat.zero_le _, hl⟩]
  · rw [dif_neg (by omega), if_neg (by omega)]

/-- **C59** fails for explicit random numbers and a range not starting at `0`: whatever `z`, an
exception is raised (either `z` has the wrong number of rows, or the slice of `z` does). -/
theorem C59_explicit_violated {r : ℕ} (f : Field n) (imin imax : ℕ) (h0 : 0 < imin)
    (z : Mat r m) (X : Mat n m) : f.klSample imin (some imax) z ≠ .ok X := by
  unfold Field.klSample
  split
  · simp only [Option.getD_some]
    split_ifs with a b c d
    · simp
    · simp
    · simp
    · simp
    · exfalso
      push Not at c d
      omega
  · simp

/-! ## C60 -/

theorem gen_inv {M V : Mat n n} (h : Vᵀ * M * V = 1) : V * Vᵀ * M = 1 ∧ M * (V * Vᵀ) = 1 := by
  have h1 : V * (Vᵀ * M) = 1 := mul_eq_one_comm.mp h
  have h2 : M * (V * Vᵀ) = 1 := mul_eq_one_comm.mp (by rw [Matrix.mul_assoc]; exact h1)
  exact ⟨by rw [Matrix.mul_assoc]; exact h1, h2⟩

theorem gen_repr {C M : Mat n n} {delta : Option ℝ} {o : Eigen n}
    (h : Eigen.Init C (some M) delta o) :
    ∃ a : Fin n → ℝ, M⁻¹ * C * M⁻¹ = spec o.V a ∧ (∀ i, o.d i = max (a i) o.delta) ∧
      M⁻¹ = o.V * o.Vᵀ := by
  obtain ⟨h0, hV, a, hC, hd⟩ := init_gen h
  obtain ⟨h1, h2⟩ := gen_inv hV
  have hMi : M⁻¹ = o.V * o.Vᵀ := Matrix.inv_eq_right_inv h2
  refine ⟨a, ?_, hd, hMi⟩
  rw [hMi, spec]
  calc o.V * o.Vᵀ * C * (o.V * o.Vᵀ) = o.V * o.Vᵀ * (C * o.V) * o.Vᵀ := by
        simp only [Matrix.mul_assoc]
    _ = (o.V * o.Vᵀ * M) * o.V * diagonal a * o.Vᵀ := by rw [hC]; simp only [Matrix.mul_assoc]
    _ = _ := by rw [h1, Matrix.one_mul]

/-- **C60 (general).** The generalized decomposition of `(C, M)` represents `M^{-1} C M^{-1}` with its
`M`-generalized eigenvalues raised to the lower bound: at least that matrix, and equal to it if
`C - delta M` is positive semidefinite.  Samples have this covariance. -/
theorem C60_generalized (C M : Mat n n) (delta : Option ℝ) (o : Eigen n)
    (h : Eigen.Init C (some M) delta o) (f : Field n) (hf : f.cov = some (.eig o)) :
    (o.reconstruct - M⁻¹ * C * M⁻¹).PosSemidef ∧ HasLaw f .covariance o.reconstruct ∧
    ((C - o.delta • M).PosSemidef →
      o.reconstruct = M⁻¹ * C * M⁻¹ ∧ HasLaw f .covariance (M⁻¹ * C * M⁻¹)) := by
  obtain ⟨a, ha, hd, hMi⟩ := gen_repr h
  have hlaw := (C58_sample_eig f C (some M) delta o h hf).1
  have heq : (C - o.delta • M).PosSemidef → o.reconstruct = M⁻¹ * C * M⁻¹ := by
    intro hp
    rw [ha, reconstruct_eq]
    congr 1; funext i
    rw [hd]
    apply max_eq_left
    obtain ⟨-, hV, a', hC, hd'⟩ := init_gen h
    have h1 : o.Vᴴ * (C - o.delta • M) * o.V = diagonal fun i => a i - o.delta := by
      rw [conjTranspose_eq_transpose_of_trivial]
      have hsp : o.Vᵀ * C * o.V = diagonal a := by
        obtain ⟨h1, h2⟩ := gen_inv hV
        have hC' : C = M * spec o.V a * M := by
          rw [← ha, hMi]
          calc C = (M * (o.V * o.Vᵀ)) * C * (o.V * o.Vᵀ * M) := by
                rw [h1, h2, Matrix.one_mul, Matrix.mul_one]
            _ = _ := by simp only [Matrix.mul_assoc]
        rw [hC', spec]
        calc o.Vᵀ * (M * (o.V * diagonal a * o.Vᵀ) * M) * o.V
            = (o.Vᵀ * M * o.V) * diagonal a * (o.Vᵀ * M * o.V) := by simp only [Matrix.mul_assoc]
          _ = _ := by rw [hV, Matrix.one_mul, Matrix.mul_one]
      rw [Matrix.mul_sub, Matrix.sub_mul, hsp, Matrix.mul_smul, Matrix.smul_mul, hV]
      ext i j
      by_cases hij : i = j <;> simp [hij, Matrix.one_apply]
    have h2 := hp.conjTranspose_mul_mul_same o.V
    rw [h1] at h2
    have := h2.diag_nonneg (i := i)
    simpa using this
  refine ⟨?_, hlaw, fun hp => ⟨heq hp, heq hp ▸ hlaw⟩⟩
  rw [ha, reconstruct_eq, spec_sub]
  exact spec_psd _ _ fun i => by rw [hd]; exact sub_nonneg.mpr (le_max_left _ _)

/-- **C60.** `Covariance(..,discretization='interpolation')`: for a symmetric mass matrix, samples of
the field have the nodal covariance `K_ij = k(x_i,x_j)` (raised where below the lower bound, exactly
`K` if it is not). -/
theorem C60_interpolation (K M : Mat n n) (hM : Mᵀ = M) (o : Eigen n) (h : CovInterp K M o)
    (f : Field n) (hf : f.cov = some (.eig o)) :
    (o.reconstruct - K).PosSemidef ∧ HasLaw f .covariance o.reconstruct ∧
    ((K - o.delta • M⁻¹).PosSemidef → HasLaw f .covariance K) := by
  have hu : IsUnit M.det := by
    obtain ⟨-, hV, -⟩ := init_gen h
    exact Matrix.isUnit_det_of_right_inverse (gen_inv hV).2
  have hK : M⁻¹ * (M * (K * Mᵀ)) * M⁻¹ = K := by
    rw [hM, ← Matrix.mul_assoc, Matrix.nonsing_inv_mul _ hu, Matrix.one_mul, Matrix.mul_assoc,
      Matrix.mul_nonsing_inv _ hu, Matrix.mul_one]
  have := C60_generalized _ M none o h f hf
  rw [hK] at this
  refine ⟨this.1, this.2.1, fun hp => (this.2.2 ?_).2⟩
  have h1 := hp.conjTranspose_mul_mul_same M
  rw [conjTranspose_eq_transpose_of_trivial, hM] at h1
  convert h1 using 1
  rw [hM, Matrix.mul_sub, Matrix.sub_mul, Matrix.mul_smul, Matrix.smul_mul,
    Matrix.mul_nonsing_inv _ hu, Matrix.one_mul, Matrix.mul_assoc]

/-- **C60.** `discretization='galerkin'`: samples have the nodal covariance `M^{-1} B M^{-1}` of the
L2-projected kernel. -/
theorem C60_galerkin (B M : Mat n n) (o : Eigen n) (h : CovGalerkin B M o)
    (hlow : (B - o.delta • M).PosSemidef) (f : Field n) (hf : f.cov = some (.eig o)) :
    HasLaw f .covariance (M⁻¹ * B * M⁻¹) :=
  ((C60_generalized B M none o h f hf).2.2 hlow).2

/-- The generalized decomposition exists for every symmetric `C` and positive definite `M`. -/
theorem C60_exists (C M : Mat n n) (hC : Cᵀ = C) (hM : M.PosDef) (delta : Option ℝ)
    (hd : ∀ x, delta = some x → 0 ≤ x) : ∃ o, Eigen.Init C (some M) delta o := by
  obtain ⟨oc, hoc⟩ := C41_exists M hM false
  obtain ⟨rfl, W, hW⟩ := init_posDef M false oc hoc hM
  have hut : IsUnit Wᵀ.det := by rw [Matrix.det_transpose]; exact hW.unit
  set C' : Mat n n := W⁻¹ * C * Wᵀ⁻¹ with hC'
  have hC't : C'ᵀ = C' := by
    rw [hC', Matrix.transpose_mul, Matrix.transpose_mul, hC, Matrix.transpose_nonsing_inv,
      Matrix.transpose_transpose, Matrix.transpose_nonsing_inv, Matrix.mul_assoc]
  obtain ⟨o, ho⟩ := C40_exists C' hC't (some 0) (by rintro x ⟨⟩; exact le_rfl)
  obtain ⟨-, d, V, -, he, -⟩ := ho
  obtain ⟨dl, hdl⟩ : ∃ dl, lowerBound C delta = .ok dl := by
    unfold lowerBound
    cases delta with
    | none =>
      refine ⟨Real.sqrt machineEps * frobenius C, ?_⟩
      have : Real.sqrt machineEps * frobenius C ≥ 0 :=
        mul_nonneg (Real.sqrt_nonneg _) (Real.sqrt_nonneg _)
      simp [this]
    | some x => exact ⟨x, by simp [hd x rfl]⟩
  refine ⟨_, dl, d, Wᵀ⁻¹ * V, hdl, ⟨he.sorted, ?_, ?_⟩, rfl⟩
  · rw [← hW.fact, Matrix.transpose_mul, Matrix.transpose_nonsing_inv, Matrix.transpose_transpose]
    calc Vᵀ * W⁻¹ * (W * Wᵀ) * (Wᵀ⁻¹ * V) = Vᵀ * (W⁻¹ * W) * (Wᵀ * Wᵀ⁻¹) * V := by
          simp only [Matrix.mul_assoc]
      _ = 1 := by
          rw [Matrix.nonsing_inv_mul _ hW.unit, Matrix.mul_nonsing_inv _ hut, Matrix.mul_one,
            Matrix.mul_one, he.ortho]
  · rw [← hW.fact]
    calc C * (Wᵀ⁻¹ * V) = W * W⁻¹ * C * Wᵀ⁻¹ * V := by
          rw [Matrix.mul_nonsing_inv _ hW.unit, Matrix.one_mul, Matrix.mul_assoc]
      _ = W * (C' * V) := by rw [hC']; simp only [Matrix.mul_assoc]
      _ = W * (Wᵀ * Wᵀ⁻¹) * V * diagonal d := by
          rw [he.eig, Matrix.mul_nonsing_inv _ hut, Matrix.mul_one, Matrix.mul_assoc]
      _ = _ := by simp only [Matrix.mul_assoc]

/-! ## The hypotheses are satisfiable -/

/-- A field with covariance given by an eigendecomposition of a positive definite matrix. -/
theorem example_matrix : (!![2, 1; 1, 2] : Mat 2 2).PosDef := by
  refine Matrix.PosDef.of_dotProduct_mulVec_pos ?_ ?_
  · ext i j; fin_cases i <;> fin_cases j <;> simp [Matrix.conjTranspose_apply]
  · intro v hv
    have : star v ⬝ᵥ (!![2, 1; 1, 2] : Mat 2 2).mulVec v = v 0 ^ 2 + v 1 ^ 2 + (v 0 + v 1) ^ 2 := by
      simp [dotProduct, Matrix.mulVec, Fin.sum_univ_two]; ring
    rw [this]
    by_cases h0 : v 0 = 0
    · have h1 : v 1 ≠ 0 := fun h1 => hv (by ext i; fin_cases i <;> simp [h0, h1])
      positivity
    · positivity

example : ∃ (f : Field 2) (o : Eigen 2), Eigen.Init !![2, 1; 1, 2] none none o ∧
    f.cov = some (.eig o) ∧ HasLaw f .covariance o.reconstruct := by
  obtain ⟨o, ho⟩ := C40_exists (!![2, 1; 1, 2] : Mat 2 2)
    (by ext i j; fin_cases i <;> fin_cases j <;> simp) none (by simp)
  exact ⟨⟨0, some (.eig o), none⟩, o, ho, rfl, (C58_sample_eig _ _ _ _ o ho rfl).1⟩

example : ∃ (f : Field 2) (o : Cholesky 2), Cholesky.Init !![2, 1; 1, 2] true o ∧
    f.prec = some (.chol o) ∧ ConditionsTo f .precision (!![2, 1; 1, 2] : Mat 2 2)⁻¹ ∧
    IsUnit ((!![1, 0] : Mat 1 2) * (!![2, 1; 1, 2] : Mat 2 2)⁻¹ * (!![1, 0] : Mat 1 2)ᵀ).det := by
  obtain ⟨o, ho⟩ := C41_exists _ example_matrix true
  refine ⟨⟨0, none, some (.chol o)⟩, o, ho, rfl,
    (C43_sample_law_chol _ _ example_matrix true o ho).2 rfl, ?_⟩
  refine C43_sample_regular _ example_matrix.inv _ ?_
  refine LinearIndependent.of_subsingleton 0 ?_
  intro h
  have := congrFun h 0
  simp [Matrix.row] at this

/-- A conditioned field to which the violation applies. -/
example : ∃ (f : Field 2) (c : Conditioned 2), f.ConditionField .covariance (!![1, 0] : Mat 1 2) 0 c ∧
    1 / 1000 < frobenius c.kcnd := by
  obtain ⟨o, ho⟩ := C41_exists (1 : Mat 2 2) Matrix.PosDef.one false
  have hC : o.C = 1 := ho.1
  have hK : (Op.chol o).dot (!![1, 0] : Mat 1 2)ᵀ = .ok (!![1; 0] : Mat 2 1) := by
    simp only [Op.dot, Cholesky.dot, hC, Matrix.one_mul]
    congr 1
    ext i j; fin_cases i <;> fin_cases j <;> simp
  have hW : (!![1, 0] : Mat 1 2) * (!![1; 0] : Mat 2 1) = 1 := by
    ext i j; fin_cases i; fin_cases j; simp [Matrix.mul_apply, Fin.sum_univ_two]
  have hk : (1 : Mat 2 2) * (((1 : Mat 2 2) - (!![1; 0] : Mat 2 1) * ((1 : Mat 1 1)⁻¹
      * (!![1; 0] : Mat 2 1)ᵀ)) * (1 : Mat 2 2)ᵀ) = !![0, 0; 0, 1] := by
    rw [inv_one, Matrix.one_mul, Matrix.one_mul, Matrix.transpose_one, Matrix.mul_one]
    ext i j; fin_cases i <;> fin_cases j <;>
      simp [Matrix.mul_apply, Matrix.vecMul, dotProduct]
  obtain ⟨q, hq⟩ := C40_exists (!![0, 0; 0, 1] : Mat 2 2)
    (by ext i j; fin_cases i <;> fin_cases j <;> simp) none (by simp)
  have hlin : ∀ (m : ℕ) (r : Mat 1 m), linSolve ((!![1, 0] : Mat 1 2) * (!![1; 0] : Mat 2 1)) r
      = .ok ((1 : Mat 1 1)⁻¹ * r) := by
    intro m r
    rw [hW, linSolve, if_pos (by simp)]
  refine ⟨⟨0, some (.chol o), none⟩, ⟨0, !![0, 0; 0, 1], q⟩,
    ⟨.chol o, !![1; 0], (1 : Mat 1 1)⁻¹ * ((!![1, 0] : Mat 1 2) * (0 : Mat 2 1) - 0),
      (1 : Mat 1 1)⁻¹ * (!![1; 0] : Mat 2 1)ᵀ, rfl, hK, hlin _ _, hlin _ _, ?_, ?_, hq⟩, ?_⟩
  · rw [Matrix.mul_zero, sub_zero, Matrix.mul_zero, Matrix.mul_zero, Matrix.mul_zero, sub_zero]
  · show _ = (1 : Mat 2 2) * ((o.C - _) * _)
    rw [hC]; exact hk.symm
  · simp only [Spd.frobenius, Fin.sum_univ_two]; norm_num

example : ∃ (K M : Mat 2 2) (o : Eigen 2), Mᵀ = M ∧ CovInterp K M o := by
  obtain ⟨o, ho⟩ := C60_exists ((!![2, 1; 1, 2] : Mat 2 2) * ((1 : Mat 2 2) * (!![2, 1; 1, 2])ᵀ))
    !![2, 1; 1, 2] (by rw [Matrix.one_mul, Matrix.transpose_mul, Matrix.transpose_transpose])
    example_matrix none (by simp)
  exact ⟨1, !![2, 1; 1, 2], o, by ext i j; fin_cases i <;> fin_cases j <;> simp, ho⟩

end Verif.Gmrf
