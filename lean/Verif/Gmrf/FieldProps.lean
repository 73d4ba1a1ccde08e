import Verif.Gmrf.Field
import Verif.Spd.EigenProps
import Mathlib.Algebra.Order.Star.Real
import Mathlib.Tactic.NoncommRing

/-!
# C43 (conditioned fields), C58 (law of the samples)
-/

namespace Verif.Gmrf

open Matrix Verif.Spd

variable {n k m : ℕ}

/-! ## Specification -/

/-- The samples of the field are `mean + S z` with `S S' = K`: for standard normal `z` they are
distributed as `N(mean, K)`. -/
def HasLaw (f : Field n) (mode : Mode) (K : Mat n n) : Prop :=
  ∃ S : Mat n n, S * Sᵀ = K ∧ ∀ (m : ℕ) (z : Mat n m), f.sample mode z = .ok (S * z + tile f.mean m)

/-- Documented conditional mean `mu - K A' (A K A')^{-1} (A mu - e)` (gmrf.py 1386). -/
noncomputable def condMean (K : Mat n n) (A : Mat k n) (mu : Mat n m) (e : Mat k m) : Mat n m :=
  mu - K * Aᵀ * ((A * K * Aᵀ)⁻¹ * (A * mu - e))

/-- Documented conditional covariance `K - K A' (A K A')^{-1} A K` (gmrf.py 1388). -/
noncomputable def condCov (K : Mat n n) (A : Mat k n) : Mat n n :=
  K - K * Aᵀ * ((A * K * Aᵀ)⁻¹ * (A * K))

/-! ## The conditional mean and covariance are what they should be -/

theorem condMean_constraint (K : Mat n n) (A : Mat k n) (mu : Mat n m) (e : Mat k m)
    (h : IsUnit (A * K * Aᵀ).det) : A * condMean K A mu e = e := by
  unfold condMean
  rw [Matrix.mul_sub, ← Matrix.mul_assoc, ← Matrix.mul_assoc, ← Matrix.mul_assoc,
    Matrix.mul_nonsing_inv _ h, Matrix.one_mul]
  abel

theorem condCov_constraint (K : Mat n n) (A : Mat k n) (h : IsUnit (A * K * Aᵀ).det) :
    A * condCov K A = 0 := by
  unfold condCov
  have : A * (K * Aᵀ * ((A * K * Aᵀ)⁻¹ * (A * K)))
      = (A * K * Aᵀ) * (A * K * Aᵀ)⁻¹ * (A * K) := by simp only [Matrix.mul_assoc]
  rw [Matrix.mul_sub, this, Matrix.mul_nonsing_inv _ h, Matrix.one_mul, sub_self]

theorem condCov_factor_aux (S K : Mat n n) (hK : S * Sᵀ = K) (A : Mat k n)
    (h : IsUnit (A * K * Aᵀ).det) :
    (S - K * Aᵀ * ((A * K * Aᵀ)⁻¹ * (A * S)))
      * (S - K * Aᵀ * ((A * K * Aᵀ)⁻¹ * (A * S)))ᵀ = condCov K A := by
  have hKt : Kᵀ = K := by rw [← hK, Matrix.transpose_mul, Matrix.transpose_transpose]
  have hWt : (A * K * Aᵀ)ᵀ = A * K * Aᵀ := by
    rw [Matrix.transpose_mul, Matrix.transpose_mul, hKt, Matrix.transpose_transpose,
      Matrix.mul_assoc]
  unfold condCov
  have h1 : (A * K * Aᵀ)⁻¹ * (A * K * Aᵀ) = 1 := Matrix.nonsing_inv_mul _ h
  have hWi : (A * K * Aᵀ)⁻¹ᵀ = (A * K * Aᵀ)⁻¹ := by rw [Matrix.transpose_nonsing_inv, hWt]
  generalize (A * K * Aᵀ)⁻¹ = V at h1 hWi ⊢
  have hT : (S - K * Aᵀ * (V * (A * S)))ᵀ = Sᵀ - Sᵀ * (Aᵀ * (V * (A * K))) := by
    simp only [Matrix.transpose_sub, Matrix.transpose_mul, Matrix.transpose_transpose, hKt, hWi,
      Matrix.mul_assoc]
  have e1 : S * (Sᵀ * (Aᵀ * (V * (A * K)))) = K * Aᵀ * (V * (A * K)) := by
    rw [← Matrix.mul_assoc, hK, ← Matrix.mul_assoc]
  have e2 : K * Aᵀ * (V * (A * S)) * Sᵀ = K * Aᵀ * (V * (A * K)) := by
    rw [← hK]; simp only [Matrix.mul_assoc]
  have e3 : K * Aᵀ * (V * (A * S)) * (Sᵀ * (Aᵀ * (V * (A * K)))) = K * Aᵀ * (V * (A * K)) := by
    calc K * Aᵀ * (V * (A * S)) * (Sᵀ * (Aᵀ * (V * (A * K))))
        = K * Aᵀ * (V * (A * (S * Sᵀ) * Aᵀ) * (V * (A * K))) := by
          simp only [Matrix.mul_assoc]
      _ = _ := by rw [hK, h1, Matrix.one_mul]
  rw [hT, Matrix.sub_mul, Matrix.mul_sub, Matrix.mul_sub, e1, e2, e3, hK]
  abel

/-- If `K = S S'`, the conditional covariance is `B B'` with `B = S - K A' (A K A')^{-1} A S`. -/
theorem condCov_factor (S : Mat n n) (A : Mat k n) (h : IsUnit (A * (S * Sᵀ) * Aᵀ).det) :
    (S - S * Sᵀ * Aᵀ * ((A * (S * Sᵀ) * Aᵀ)⁻¹ * (A * S)))
      * (S - S * Sᵀ * Aᵀ * ((A * (S * Sᵀ) * Aᵀ)⁻¹ * (A * S)))ᵀ = condCov (S * Sᵀ) A :=
  condCov_factor_aux S _ rfl A h

theorem mul_transpose_psd (B : Mat n n) : (B * Bᵀ).PosSemidef := by
  have := Matrix.posSemidef_self_mul_conjTranspose B
  rwa [conjTranspose_eq_transpose_of_trivial] at this

theorem condCov_psd (S : Mat n n) (A : Mat k n) (h : IsUnit (A * (S * Sᵀ) * Aᵀ).det) :
    (condCov (S * Sᵀ) A).PosSemidef := by
  rw [← condCov_factor S A h]; exact mul_transpose_psd _

/-! ## The field's samples (C58) -/

/-- The covariance represented by an operator in mode covariance. -/
structure CovLaw (f : Field n) (mode : Mode) (S : Mat n n) : Prop where
  smp : ∀ (m : ℕ) (z : Mat n m), f.sample mode z = .ok (S * z + tile f.mean m)
  kat : ∀ (k : ℕ) (A : Mat k n), f.kat mode A = .ok (S * Sᵀ * Aᵀ)

theorem sqrt_diag_sq {V : Mat n n} {d : Fin n → ℝ} (h : ∀ i, 0 ≤ d i) :
    V * diagonal (fun i => Real.sqrt (d i)) * (V * diagonal fun i => Real.sqrt (d i))ᵀ
      = V * (diagonal d * Vᵀ) := by
  rw [Matrix.transpose_mul, diagonal_transpose]
  calc V * diagonal (fun i => Real.sqrt (d i)) * (diagonal (fun i => Real.sqrt (d i)) * Vᵀ)
      = V * (diagonal (fun i => Real.sqrt (d i)) * diagonal (fun i => Real.sqrt (d i)) * Vᵀ) := by
        simp only [Matrix.mul_assoc]
    _ = _ := by
        rw [diagonal_mul_diagonal]
        congr 3; funext i; exact Real.mul_self_sqrt (h i)

theorem init_nonneg {C : Mat n n} {M : Option (Mat n n)} {delta : Option ℝ} {o : Eigen n}
    (h : Eigen.Init C M delta o) : ∀ i, 0 ≤ o.d i := by
  intro i
  cases M with
  | none =>
    obtain ⟨h0, -, -, a, -, -, hd⟩ := init_std h
    rw [hd]; exact le_trans h0 (le_max_right _ _)
  | some M =>
    obtain ⟨h0, -, a, -, hd⟩ := init_gen h
    rw [hd]; exact le_trans h0 (le_max_right _ _)

theorem covLaw_eig {f : Field n} {C : Mat n n} {M : Option (Mat n n)} {delta : Option ℝ}
    {o : Eigen n} (h : Eigen.Init C M delta o) (hf : f.cov = some (.eig o)) :
    CovLaw f .covariance (o.V * diagonal fun i => Real.sqrt (o.d i)) ∧
      (o.V * diagonal fun i => Real.sqrt (o.d i)) * (o.V * diagonal fun i => Real.sqrt (o.d i))ᵀ
        = o.reconstruct := by
  have hs := sqrt_diag_sq (V := o.V) (init_nonneg h)
  refine ⟨⟨fun m z => ?_, fun k A => ?_⟩, hs⟩
  · simp only [Field.sample, hf, Op.sqrtDot, Eigen.sqrtDot, Bool.false_eq_true, if_false, bind,
      Except.bind, pure, Except.pure, Matrix.mul_assoc]
  · simp only [Field.kat, hf, Op.dot]
    rw [dot_eq, hs]; rfl

theorem covLaw_chol {f : Field n} {C : Mat n n} {sp : Bool} {o : Cholesky n}
    (h : Cholesky.Init C sp o) (hC : C.PosDef) (hf : f.cov = some (.chol o)) :
    ∃ S, CovLaw f .covariance S ∧ S * Sᵀ = C := by
  obtain ⟨rfl, W, hW⟩ := init_posDef C sp o h hC
  refine ⟨W, ⟨fun m z => ?_, fun k A => ?_⟩, hW.fact⟩
  · simp only [Field.sample, hf, Op.sqrtDot, hW.dot, bind, Except.bind, pure, Except.pure]
  · simp only [Field.kat, hf, Op.dot, Cholesky.dot, hW.fact]

theorem inv_factor {W Q : Mat n n} (hu : IsUnit W.det) (h : W * Wᵀ = Q) :
    Wᵀ⁻¹ * (Wᵀ⁻¹)ᵀ = Q⁻¹ := by
  rw [← h, Matrix.transpose_nonsing_inv, Matrix.transpose_transpose, Matrix.mul_inv_rev]

theorem precLaw_chol {f : Field n} {Q : Mat n n} {sp : Bool} {o : Cholesky n}
    (h : Cholesky.Init Q sp o) (hQ : Q.PosDef) (hf : f.prec = some (.chol o)) :
    ∃ S, CovLaw f .precision S ∧ S * Sᵀ = Q⁻¹ := by
  obtain ⟨rfl, W, hW⟩ := init_posDef Q sp o h hQ
  have hi := inv_factor hW.unit hW.fact
  refine ⟨Wᵀ⁻¹, ⟨fun m z => ?_, fun k A => ?_⟩, hi⟩
  · simp only [Field.sample, hf, Op.sqrtSolveT, hW.slvT, lift, bind, Except.bind, pure, Except.pure]
  · simp only [Field.kat, hf, Op.solve, hW.full, lift, hi]

theorem eps_lt_sqrt {x : ℝ} (h : machineEps < x) : machineEps < Real.sqrt x := by
  have h0 := machineEps_pos
  have h1 : machineEps < 1 := by unfold machineEps; norm_num
  apply Real.lt_sqrt_of_sq_lt
  nlinarith

theorem precLaw_eig {f : Field n} {Q : Mat n n} {delta : Option ℝ} {o : Eigen n}
    (h : Eigen.Init Q none delta o) (hd : machineEps < o.delta ∨ (Q - machineEps • (1 : Mat n n)).PosDef)
    (hf : f.prec = some (.eig o)) :
    ∃ S, CovLaw f .precision S ∧ S * Sᵀ = o.reconstruct⁻¹ := by
  obtain ⟨h0, -, hV, a, -, hC, hda⟩ := init_std h
  have hVV := ortho_comm hV
  have hbig : ∀ i, machineEps < o.d i := by
    intro i
    rw [hda]
    rcases hd with h1 | h1
    · exact lt_of_lt_of_le h1 (le_max_right _ _)
    · refine lt_of_lt_of_le ?_ (le_max_left _ _)
      rw [hC, ← spec_const hV, spec_sub] at h1
      have h2 : (o.Vᴴ * spec o.V (fun i => a i - machineEps) * o.V).PosDef := by
        refine h1.conjTranspose_mul_mul_same ?_
        exact Matrix.mulVec_injective_of_isUnit
          ((Matrix.isUnit_iff_isUnit_det _).mpr (Matrix.isUnit_det_of_left_inverse hV))
      have h3 : o.Vᴴ * spec o.V (fun i => a i - machineEps) * o.V
          = diagonal fun i => a i - machineEps := by
        rw [conjTranspose_eq_transpose_of_trivial, spec]
        calc o.Vᵀ * (o.V * diagonal (fun i => a i - machineEps) * o.Vᵀ) * o.V
            = (o.Vᵀ * o.V) * diagonal (fun i => a i - machineEps) * (o.Vᵀ * o.V) := by
              simp only [Matrix.mul_assoc]
          _ = _ := by rw [hV, Matrix.one_mul, Matrix.mul_one]
      rw [h3] at h2
      have := h2.diag_pos (i := i)
      simp only [diagonal_apply_eq] at this
      linarith
  have hpos : ∀ i, 0 < o.d i := fun i => machineEps_pos.trans (hbig i)
  have hri : o.reconstruct⁻¹ = spec o.V fun i => 1 / o.d i := by
    apply Matrix.inv_eq_right_inv
    rw [reconstruct_eq, spec_mul hV]
    have : (fun i => o.d i * (1 / o.d i)) = fun _ => (1 : ℝ) := by
      funext i; have := (hpos i).ne'; field_simp
    rw [this, spec_const hV, one_smul]
  set S : Mat n n := o.V * diagonal (fun i => 1 / Real.sqrt (o.d i)) with hS
  have hSS : S * Sᵀ = o.reconstruct⁻¹ := by
    rw [hri, hS, Matrix.transpose_mul, diagonal_transpose, spec]
    calc o.V * diagonal (fun i => 1 / Real.sqrt (o.d i))
          * (diagonal (fun i => 1 / Real.sqrt (o.d i)) * o.Vᵀ)
        = o.V * (diagonal (fun i => 1 / Real.sqrt (o.d i))
            * diagonal (fun i => 1 / Real.sqrt (o.d i))) * o.Vᵀ := by simp only [Matrix.mul_assoc]
      _ = _ := by
        rw [diagonal_mul_diagonal]
        congr 3; funext i
        rw [div_mul_div_comm, one_mul, Real.mul_self_sqrt (hpos i).le]
  refine ⟨S, ⟨fun m z => ?_, fun k A => ?_⟩, hSS⟩
  · have e : diagPinv (fun i => Real.sqrt (o.d i)) none
        = .ok (diagonal fun i => 1 / Real.sqrt (o.d i)) := by
      simp only [diagPinv]
      congr 2; funext i
      rw [if_pos]
      rw [abs_of_nonneg (Real.sqrt_nonneg _)]
      exact eps_lt_sqrt (hbig i)
    simp only [Field.sample, hf, Op.sqrtSolveT, Eigen.sqrtSolve, e, lift, bind, Except.bind, pure,
      Except.pure, if_true]
    rw [hS, Matrix.mul_assoc]
  · have e : diagPinv o.d none = .ok (diagonal fun i => 1 / o.d i) := by
      simp only [diagPinv]
      congr 2; funext i
      rw [if_pos]
      rw [abs_of_pos (hpos i)]
      exact hbig i
    simp only [Field.kat, hf, Op.solve, Eigen.solve, e, lift, bind, Except.bind, pure, Except.pure]
    rw [hSS, hri, spec]
    simp only [Matrix.mul_assoc]

/-- **C58.** Samples from an eigendecomposition (plain or generalized, any lower bound) are
`mean + S z` with `S S'` the matrix represented by the decomposition; if `C` is at least the lower
bound this is `C`. -/
theorem C58_sample_eig (f : Field n) (C : Mat n n) (M : Option (Mat n n)) (delta : Option ℝ)
    (o : Eigen n) (h : Eigen.Init C M delta o) (hf : f.cov = some (.eig o)) :
    HasLaw f .covariance o.reconstruct ∧
      (M = none → (C - o.delta • (1 : Mat n n)).PosSemidef → HasLaw f .covariance C) := by
  obtain ⟨hl, hs⟩ := covLaw_eig h hf
  refine ⟨⟨_, hs, hl.smp⟩, ?_⟩
  rintro rfl hC
  refine ⟨_, ?_, hl.smp⟩
  rw [hs, C40_reconstruct C delta o h hC]

/-- **C58.** Samples from a Cholesky decomposition of a positive definite covariance, dense or
sparse, have that covariance; with a positive definite precision `Q` (mode `'precision'`), they have
covariance `Q^{-1}`. -/
theorem C58_sample_chol (f : Field n) (C : Mat n n) (hC : C.PosDef) (sp : Bool) (o : Cholesky n)
    (h : Cholesky.Init C sp o) :
    (f.cov = some (.chol o) → HasLaw f .covariance C) ∧
      (f.prec = some (.chol o) → HasLaw f .precision C⁻¹) := by
  refine ⟨fun hf => ?_, fun hf => ?_⟩
  · obtain ⟨S, hl, hs⟩ := covLaw_chol h hC hf
    exact ⟨S, hs, hl.smp⟩
  · obtain ⟨S, hl, hs⟩ := precLaw_chol h hC hf
    exact ⟨S, hs, hl.smp⟩

/-- **C58.** Samples from an eigendecomposition of the precision whose represented eigenvalues exceed
the machine epsilon have the inverse of the represented matrix as covariance. -/
theorem C58_sample_prec_eig (f : Field n) (Q : Mat n n) (delta : Option ℝ) (o : Eigen n)
    (h : Eigen.Init Q none delta o)
    (hd : machineEps < o.delta ∨ (Q - machineEps • (1 : Mat n n)).PosDef)
    (hf : f.prec = some (.eig o)) : HasLaw f .precision o.reconstruct⁻¹ := by
  obtain ⟨S, hl, hs⟩ := precLaw_eig h hd hf
  exact ⟨S, hs, hl.smp⟩

/-! ## Conditioning (C43) -/

theorem linSolve_ok {W : Mat k k} {r U : Mat k m} (h : linSolve W r = .ok U) :
    IsUnit W.det ∧ U = W⁻¹ * r := by
  unfold linSolve at h
  split_ifs at h with hu
  exact ⟨hu, (Except.ok.inj h).symm⟩

theorem bind_ok {α β : Type} {x : Except FErr α} {f : α → Except FErr β} {b : β}
    (h : (x >>= f) = .ok b) : ∃ a, x = .ok a ∧ f a = .ok b := by
  cases x with
  | error e => cases h
  | ok a => exact ⟨a, rfl, h⟩

/-- **C43.** Whenever `condition(A,e,output='sample')` with hard constraints returns, the samples
satisfy the observations exactly: `A X = e`.  For every field, mode, decomposition, `A`, `e`, `z`. -/
theorem C43_sample_constraint (f : Field n) (mode : Mode) (A : Mat k n) (e : Mat k m) (z X : Mat n m)
    (h : f.conditionSample mode A e z = .ok X) : A * X = e := by
  unfold Field.conditionSample at h
  obtain ⟨KAT, hK, h⟩ := bind_ok h
  obtain ⟨Xs, hX, h⟩ := bind_ok h
  obtain ⟨U, hU, h⟩ := bind_ok h
  obtain ⟨hu, rfl⟩ := linSolve_ok hU
  have := Except.ok.inj h
  rw [← this, Matrix.one_mul, Matrix.mul_sub, ← Matrix.mul_assoc, ← Matrix.mul_assoc,
    Matrix.mul_nonsing_inv _ hu, Matrix.one_mul]
  abel

/-- Selecting entries: `A X = e` for `A` given by indices says `X[idx] = e`. -/
theorem C43_sample_pointwise (f : Field n) (mode : Mode) (idx : Fin k → Fin n) (e : Mat k m)
    (z X : Mat n m) (h : f.conditionSample mode (selection idx) e z = .ok X) (i : Fin k)
    (j : Fin m) : X (idx i) j = e i j := by
  have := congrFun (congrFun (C43_sample_constraint f mode _ e z X h) i) j
  rw [← this]
  simp [selection, Matrix.mul_apply]

/-- `condition(..,output='sample')` for a field with samples `mean + S z`. -/
theorem conditionSample_eq {f : Field n} {mode : Mode} {S : Mat n n} (hl : CovLaw f mode S)
    (A : Mat k n) (e : Mat k m) (z : Mat n m) :
    (IsUnit (A * (S * Sᵀ) * Aᵀ).det → f.conditionSample mode A e z
      = .ok (condMean (S * Sᵀ) A (tile f.mean m) e
        + (S - S * Sᵀ * Aᵀ * ((A * (S * Sᵀ) * Aᵀ)⁻¹ * (A * S))) * z)) ∧
    (¬ IsUnit (A * (S * Sᵀ) * Aᵀ).det → f.conditionSample mode A e z = .error .linalg) := by
  have hassoc : A * (S * Sᵀ * Aᵀ) = A * (S * Sᵀ) * Aᵀ := by rw [← Matrix.mul_assoc]
  constructor
  · intro hu
    unfold Field.conditionSample
    rw [hl.kat, hl.smp]
    simp only [bind, Except.bind, linSolve, hassoc, hu, if_true, pure, Except.pure, Matrix.one_mul,
      Except.ok.injEq]
    unfold condMean
    set W := A * (S * Sᵀ) * Aᵀ
    rw [Matrix.sub_mul, Matrix.mul_add, Matrix.mul_sub, Matrix.mul_sub, Matrix.mul_sub,
      Matrix.mul_sub, Matrix.mul_add, Matrix.mul_add]
    simp only [Matrix.mul_assoc]
    abel
  · intro hu
    unfold Field.conditionSample
    rw [hl.kat, hl.smp]
    simp only [bind, Except.bind, linSolve, hassoc, hu, if_false]

/-- What conditioning by sampling must do for a field with covariance `K`. -/
structure ConditionsTo (f : Field n) (mode : Mode) (K : Mat n n) : Prop where
  law : ∀ (k : ℕ) (A : Mat k n), IsUnit (A * K * Aᵀ).det →
    ∃ B : Mat n n, B * Bᵀ = condCov K A ∧ ∀ (m : ℕ) (e : Mat k m) (z : Mat n m),
      f.conditionSample mode A e z = .ok (condMean K A (tile f.mean m) e + B * z)
  singular : ∀ (k : ℕ) (A : Mat k n), ¬ IsUnit (A * K * Aᵀ).det →
    ∀ (m : ℕ) (e : Mat k m) (z : Mat n m), f.conditionSample mode A e z = .error .linalg
  mean : ∀ (k : ℕ) (A : Mat k n), IsUnit (A * K * Aᵀ).det → ∀ (m : ℕ) (e : Mat k m),
    A * condMean K A (tile f.mean m) e = e
  cov : ∀ (k : ℕ) (A : Mat k n), IsUnit (A * K * Aᵀ).det →
    (condCov K A).PosSemidef ∧ A * condCov K A = 0

theorem conditionsTo {f : Field n} {mode : Mode} {S : Mat n n} (hl : CovLaw f mode S) :
    ConditionsTo f mode (S * Sᵀ) := by
  refine ⟨fun k A hu => ⟨_, condCov_factor S A hu, fun m e z => ?_⟩, fun k A hu m e z => ?_,
    fun k A hu m e => condMean_constraint _ _ _ _ hu,
    fun k A hu => ⟨condCov_psd S A hu, condCov_constraint _ _ hu⟩⟩
  · exact (conditionSample_eq hl A e z).1 hu
  · exact (conditionSample_eq hl A e z).2 hu

/-- **C43.** Conditioning a field given by an eigendecomposition of its covariance: the samples are
`m + B z` where `m` is the documented conditional mean (`A m = e`) and `B B'` the documented
conditional covariance (positive semidefinite, `A B B' = 0`) of the represented covariance; it raises
`LinAlgError` exactly when `A K A'` is singular. -/
theorem C43_sample_law_eig (f : Field n) (C : Mat n n) (M : Option (Mat n n)) (delta : Option ℝ)
    (o : Eigen n) (h : Eigen.Init C M delta o) (hf : f.cov = some (.eig o)) :
    ConditionsTo f .covariance o.reconstruct := by
  obtain ⟨hl, hs⟩ := covLaw_eig h hf
  rw [← hs]; exact conditionsTo hl

/-- **C43.** The same for Cholesky decompositions of a positive definite covariance or precision. -/
theorem C43_sample_law_chol (f : Field n) (C : Mat n n) (hC : C.PosDef) (sp : Bool) (o : Cholesky n)
    (h : Cholesky.Init C sp o) :
    (f.cov = some (.chol o) → ConditionsTo f .covariance C) ∧
      (f.prec = some (.chol o) → ConditionsTo f .precision C⁻¹) := by
  refine ⟨fun hf => ?_, fun hf => ?_⟩
  · obtain ⟨S, hl, hs⟩ := covLaw_chol h hC hf
    rw [← hs]; exact conditionsTo hl
  · obtain ⟨S, hl, hs⟩ := precLaw_chol h hC hf
    rw [← hs]; exact conditionsTo hl

/-- **C43.** The same for an eigendecomposition of the precision above the machine epsilon. -/
theorem C43_sample_law_prec_eig (f : Field n) (Q : Mat n n) (delta : Option ℝ) (o : Eigen n)
    (h : Eigen.Init Q none delta o)
    (hd : machineEps < o.delta ∨ (Q - machineEps • (1 : Mat n n)).PosDef)
    (hf : f.prec = some (.eig o)) : ConditionsTo f .precision o.reconstruct⁻¹ := by
  obtain ⟨S, hl, hs⟩ := precLaw_eig h hd hf
  rw [← hs]; exact conditionsTo hl

/-- For a positive definite covariance and linearly independent observations the inverse exists. -/
theorem C43_sample_regular (K : Mat n n) (hK : K.PosDef) (A : Mat k n)
    (hA : LinearIndependent ℝ A.row) : IsUnit (A * K * Aᵀ).det := by
  have hinj : Function.Injective A.vecMul := Matrix.vecMul_injective_iff.mpr hA
  have := hK.mul_mul_conjTranspose_same (B := A) hinj
  rw [conjTranspose_eq_transpose_of_trivial] at this
  exact (Matrix.isUnit_iff_isUnit_det _).mp this.isUnit

/-! ## The conditioned field -/

/-- **C43** (`output='field'`).  The mean of the returned field satisfies the observations, for every
field and decomposition.  If `dot` represents the stored matrix `C` (Cholesky decomposition; or
eigendecomposition with `C` at least the lower bound) and `C` is a covariance, the conditional covariance handed
to the new field is the documented one: symmetric, positive semidefinite, `A K' = 0`.
(Missing: the new field raises its zero eigenvalues, see `C43_field_covariance_violated`.) -/
theorem C43_field_partial (f : Field n) (A : Mat k n) (e : Mat k 1) (c : Conditioned n)
    (h : f.ConditionField .covariance A e c) :
    A * c.mean = e ∧
    ∀ K, f.cov = some K → (∀ (j : ℕ) (b : Mat n j), K.dot b = .ok (K.getMatrix * b)) →
      K.getMatrix.PosSemidef →
      c.mean = condMean K.getMatrix A f.mean e ∧ c.kcnd = condCov K.getMatrix A ∧
      A * c.kcnd = 0 ∧ c.kcnd.PosSemidef := by
  obtain ⟨K, KAT, w, U, hK, hkat, hw, hU, hm, hc, -⟩ := h
  obtain ⟨hu, rfl⟩ := linSolve_ok hw
  obtain ⟨-, rfl⟩ := linSolve_ok hU
  constructor
  · rw [hm, Matrix.one_mul, Matrix.mul_sub, ← Matrix.mul_assoc, ← Matrix.mul_assoc,
      Matrix.mul_nonsing_inv _ hu, Matrix.one_mul]
    abel
  · intro K' hK' hdot hpsd
    have hKK : K = K' := by rw [hK] at hK'; exact Option.some.inj hK'
    subst hKK
    set C := K.getMatrix with hCdef
    have hCt : Cᵀ = C := by
      have := hpsd.1
      rwa [IsHermitian, conjTranspose_eq_transpose_of_trivial] at this
    have hkat' : KAT = C * Aᵀ := by
      simp only [Field.kat, hK, hdot] at hkat
      exact (Except.ok.inj hkat).symm
    subst hkat'
    have hW : A * (C * Aᵀ) = A * C * Aᵀ := by rw [Matrix.mul_assoc]
    rw [hW] at hu
    have hcc : c.kcnd = condCov C A := by
      rw [hc, Matrix.transpose_one, Matrix.mul_one, Matrix.one_mul, condCov, hW,
        Matrix.transpose_mul, Matrix.transpose_transpose, hCt]
    refine ⟨?_, hcc, ?_, ?_⟩
    · rw [hm, Matrix.one_mul, condMean, hW]
    · rw [hcc]; exact condCov_constraint C A hu
    · rw [hcc]
      -- `C = S S'` with the square root of the spectral theorem
      obtain ⟨o, ho⟩ := C40_exists C hCt (some 0) (by rintro x ⟨⟩; exact le_rfl)
      have hd : o.delta = 0 := (init_std ho).2.1 0 rfl
      have hr : o.reconstruct = C := C40_reconstruct C (some 0) o ho (by rw [hd]; simpa using hpsd)
      have hs := sqrt_diag_sq (V := o.V) (init_nonneg ho)
      have hr' : o.V * (diagonal o.d * o.Vᵀ) = C := hr
      rw [hr'] at hs
      rw [← hs] at hu ⊢
      exact condCov_psd _ A hu

/-- The factors kept by `update_support` when all represented eigenvalues exceed `1e-12`. -/
theorem conditioned_cov_eq (c : Conditioned n) (hall : ∀ i, |c.eig.d i| > 1 / 10 ^ 12) :
    c.covariance = c.eig.reconstruct := by
  ext a b
  simp only [Conditioned.covariance, Conditioned.support, Conditioned.reduced, Eigen.reconstruct]
  rw [Matrix.mul_apply, Matrix.mul_apply]
  simp only [mul_diagonal, diagonal_mul, transpose_apply, of_apply]
  have : ∀ i, i ∈ c.idx := fun i => by
    simp only [Conditioned.idx, Finset.mem_filter, Finset.mem_univ, true_and]
    exact hall i
  rw [← (Equiv.subtypeUnivEquiv this).sum_comp (fun x => c.eig.V a x * (c.eig.d x * c.eig.V b x))]
  refine Finset.sum_congr rfl fun i _ => ?_
  simp only [Equiv.subtypeUnivEquiv_apply]
  ring

/-- **C43** fails for `output='field'`: whenever the conditional covariance is not tiny (Frobenius
norm above `1/1000`) and `A` is not zero, the covariance of the returned field has `A K' ≠ 0`:
the eigenvalues that must be zero are raised to `sqrt(eps) ‖K'‖` and the support is not reduced. -/
theorem C43_field_covariance_violated (f : Field n) (A : Mat k n) (hA : A ≠ 0) (e : Mat k 1)
    (c : Conditioned n) (h : f.ConditionField .covariance A e c)
    (hbig : 1 / 1000 < frobenius c.kcnd) : A * c.covariance ≠ 0 := by
  obtain ⟨K, KAT, w, U, -, -, -, -, -, -, hI⟩ := h
  have hdel : c.eig.delta = Real.sqrt machineEps * frobenius c.kcnd := by
    obtain ⟨dl, d, V, hl, -, ho⟩ := hI
    rw [ho]
    unfold lowerBound at hl
    simp only at hl
    split_ifs at hl
    exact (Except.ok.inj hl).symm
  have hsq : Real.sqrt machineEps = 1 / 2 ^ 26 := by
    rw [machineEps, show (1 : ℝ) / 2 ^ 52 = (1 / 2 ^ 26) ^ 2 by norm_num,
      Real.sqrt_sq (by norm_num)]
  have hpos : (1 : ℝ) / 10 ^ 12 < c.eig.delta := by
    rw [hdel, hsq]
    nlinarith
  obtain ⟨h0, -, hV, a, -, hC, hda⟩ := init_std hI
  have hd : ∀ i, c.eig.delta ≤ c.eig.d i := fun i => by rw [hda]; exact le_max_right _ _
  have hcov := conditioned_cov_eq c fun i => by
    have := hd i
    rw [abs_of_pos (by linarith [show (0 : ℝ) < 1 / 10 ^ 12 by norm_num])]
    linarith
  rw [hcov]
  intro hz
  apply hA
  have hu : IsUnit c.eig.reconstruct.det := by
    have : c.eig.reconstruct * spec c.eig.V (fun i => 1 / c.eig.d i) = 1 := by
      rw [reconstruct_eq, spec_mul hV]
      have : (fun i => c.eig.d i * (1 / c.eig.d i)) = fun _ => (1 : ℝ) := by
        funext i
        have : c.eig.d i ≠ 0 := by
          have := hd i
          have : 0 < c.eig.d i := by linarith [show (0 : ℝ) < 1 / 10 ^ 12 by norm_num]
          exact this.ne'
        field_simp
      rw [this, spec_const hV, one_smul]
    exact Matrix.isUnit_det_of_right_inverse this
  calc A = A * (c.eig.reconstruct * c.eig.reconstruct⁻¹) := by
        rw [Matrix.mul_nonsing_inv _ hu, Matrix.mul_one]
    _ = 0 := by rw [← Matrix.mul_assoc, hz, Matrix.zero_mul]

/-- **C43** fails for `output='field'`: the returned field cannot be sampled at all (`TypeError`). -/
theorem C43_field_sample_violated {s m : ℕ} (c : Conditioned n) (D : Mat s s) (z : Mat s m) :
    c.sample D z = .error .type := rfl

end Verif.Gmrf
