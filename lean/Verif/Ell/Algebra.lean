import Verif.Ell.Model

/-!
# The precision matrix of an elliptic field
-/

namespace Verif.Ell
open Matrix

variable {n : Nat} {K M Q S : Matrix (Fin n) (Fin n) ℝ} {m : Fin n → ℝ}

theorem unit_left {A B : Matrix (Fin n) (Fin n) ℝ} (h : IsUnit (A * B)) : IsUnit A := by
  rw [isUnit_iff_isUnit_det, det_mul] at h
  exact (isUnit_iff_isUnit_det _).2 (isUnit_of_mul_isUnit_left h)

theorem pow_sym (h : (M * S)ᵀ = M * S) (hM : Mᵀ = M) (γ : Nat) : (S ^ γ)ᵀ * M = M * S ^ γ := by
  rw [transpose_mul, hM] at h
  induction γ with
  | zero => simp
  | succ γ ih => rw [pow_succ, transpose_mul, mul_assoc, ih, ← mul_assoc, h, mul_assoc, ← pow_succ', ← pow_succ]

/-- The precision matrix is `M (M⁻¹K)^γ`. -/
theorem solves_eq (hM : M.PosDef) {γ : Nat} (h : Solves K M γ Q) : Q = M * (M⁻¹ * K) ^ γ := by
  obtain ⟨hQ, S, h1, h2, h3⟩ := h
  have hMt : Mᵀ = M := by simpa [IsHermitian, conjTranspose_eq_transpose_of_trivial] using hM.1
  have hMS : (M * S)ᵀ = M * S := by simpa [IsHermitian, conjTranspose_eq_transpose_of_trivial] using h2.1
  have uM : IsUnit M.det := (isUnit_iff_isUnit_det _).1 hM.isUnit
  have uQ : IsUnit Q.det := (isUnit_iff_isUnit_det _).1 hQ
  have uS : IsUnit (S ^ γ).det := by
    have : IsUnit (M * S).det := (isUnit_iff_isUnit_det _).1 h2.isUnit
    rw [det_mul] at this
    rw [det_pow]
    exact (isUnit_of_mul_isUnit_right this).pow _
  have uSt : IsUnit (S ^ γ)ᵀ.det := by rw [det_transpose]; exact uS
  have e1 : (S ^ γ)ᵀ * M * S ^ γ = Q := by
    have h4 : ((S ^ γ)ᵀ)⁻¹ * Q * (S ^ γ)⁻¹ = M := by
      rw [← nonsing_inv_nonsing_inv M uM, ← h3, Matrix.mul_inv_rev, Matrix.mul_inv_rev, nonsing_inv_nonsing_inv Q uQ, mul_assoc]
    rw [← h4, ← mul_assoc, ← mul_assoc, Matrix.mul_nonsing_inv _ uSt, one_mul, mul_assoc, Matrix.nonsing_inv_mul _ uS, mul_one]
  rw [← e1, pow_sym hMS hMt, mul_assoc, ← pow_add, ← two_mul, pow_mul, pow_two, h1]

/-- There is a root. -/
theorem root (hK : K.PosDef) (hm : ∀ i, 0 < m i) : ∃ S, S * S = (diagonal m)⁻¹ * K ∧ (diagonal m * S).PosDef := by
  open scoped MatrixOrder in
  set D : Matrix (Fin n) (Fin n) ℝ := diagonal (fun i => Real.sqrt (m i)) with hD
  set E : Matrix (Fin n) (Fin n) ℝ := diagonal (fun i => (Real.sqrt (m i))⁻¹) with hE
  have s0 : ∀ i, Real.sqrt (m i) ≠ 0 := fun i => (Real.sqrt_pos.2 (hm i)).ne'
  have DE : D * E = 1 := by rw [hD, hE, diagonal_mul_diagonal]; simp [s0]
  have ED : E * D = 1 := by rw [hD, hE, diagonal_mul_diagonal]; simp [s0]
  have DD : D * D = diagonal m := by
    rw [hD, diagonal_mul_diagonal]
    congr 1
    funext i
    exact Real.mul_self_sqrt (hm i).le
  have Dt : Dᵀ = D := diagonal_transpose _
  have Et : Eᵀ = E := diagonal_transpose _
  have hinv : (diagonal m)⁻¹ = E * E := by
    refine Matrix.inv_eq_right_inv ?_
    rw [← DD, mul_assoc, ← mul_assoc D E E, DE, one_mul, DE]
  have uE : IsUnit E := ⟨⟨E, D, ED, DE⟩, rfl⟩
  have uD : IsUnit D := ⟨⟨D, E, DE, ED⟩, rfl⟩
  have hT : (E * K * E).PosDef := by
    have := (Matrix.IsUnit.posDef_star_left_conjugate_iff uE).2 hK
    rwa [star_eq_conjTranspose, conjTranspose_eq_transpose_of_trivial, Et] at this
  set T := CFC.sqrt (E * K * E) with hTd
  have hT0 : (0 : Matrix (Fin n) (Fin n) ℝ) ≤ E * K * E := hT.posSemidef.nonneg
  have TT : T * T = E * K * E := CFC.sqrt_mul_sqrt_self _ hT0
  have Tpsd : T.PosSemidef := (CFC.sqrt_nonneg (E * K * E)).posSemidef
  have uT : IsUnit T := by
    have := hT.isUnit
    rw [← TT] at this
    exact unit_left this
  have Tpd : T.PosDef := Tpsd.posDef_iff_isUnit.2 uT
  refine ⟨E * T * D, ?_, ?_⟩
  · rw [hinv]
    calc E * T * D * (E * T * D) = E * T * (D * E) * T * D := by simp only [mul_assoc]
      _ = E * (T * T) * D := by rw [DE, mul_one]; simp only [mul_assoc]
      _ = E * E * K * (E * D) := by rw [TT]; simp only [mul_assoc]
      _ = E * E * K := by rw [ED, mul_one]
  · have : diagonal m * (E * T * D) = D * T * D := by
      rw [← DD]
      calc D * D * (E * T * D) = D * (D * E) * T * D := by simp only [mul_assoc]
        _ = D * T * D := by rw [DE, mul_one]
    rw [this]
    have := (Matrix.IsUnit.posDef_star_left_conjugate_iff uD).2 Tpd
    rwa [star_eq_conjTranspose, conjTranspose_eq_transpose_of_trivial, Dt] at this

theorem diag_pd (hm : ∀ i, 0 < m i) : (diagonal m).PosDef := Matrix.PosDef.diagonal hm

/-- For every exponent there is exactly one precision matrix. -/
theorem solves_iff (hK : K.PosDef) (hm : ∀ i, 0 < m i) (γ : Nat) :
    Solves K (diagonal m) γ Q ↔ Q = diagonal m * ((diagonal m)⁻¹ * K) ^ γ := by
  refine ⟨solves_eq (diag_pd hm), fun h => ?_⟩
  have hM := diag_pd hm
  obtain ⟨S, h1, h2⟩ := root hK hm
  have uM : IsUnit (diagonal m).det := (isUnit_iff_isUnit_det _).1 hM.isUnit
  have hMt : (diagonal m)ᵀ = diagonal m := diagonal_transpose _
  have hMS : (diagonal m * S)ᵀ = diagonal m * S := by simpa [IsHermitian, conjTranspose_eq_transpose_of_trivial] using h2.1
  have uS : IsUnit (S ^ γ).det := by
    have : IsUnit (diagonal m * S).det := (isUnit_iff_isUnit_det _).1 h2.isUnit
    rw [det_mul] at this
    rw [det_pow]
    exact (isUnit_of_mul_isUnit_right this).pow _
  have uSt : IsUnit (S ^ γ)ᵀ.det := by rw [det_transpose]; exact uS
  have e : Q = (S ^ γ)ᵀ * diagonal m * S ^ γ := by
    rw [h, pow_sym hMS hMt, mul_assoc, ← pow_add, ← two_mul, pow_mul, pow_two, h1]
  refine ⟨?_, S, h1, h2, ?_⟩
  · rw [isUnit_iff_isUnit_det, e, det_mul, det_mul]
    exact (uSt.mul uM).mul uS
  · rw [e, Matrix.mul_inv_rev, Matrix.mul_inv_rev]
    rw [← mul_assoc, ← mul_assoc, Matrix.mul_nonsing_inv _ uS, one_mul, mul_assoc, Matrix.nonsing_inv_mul _ uSt, mul_one]

/-- One round of the loop. -/
theorem step (hK : Kᵀ = K) (hm : ∀ i, 0 < m i) {R : Matrix (Fin n) (Fin n) ℝ} {p : Nat} (h : R * Rᵀ = diagonal m * ((diagonal m)⁻¹ * K) ^ p) :
    (K * diagonal (fun i => 1 / m i) * R) * (K * diagonal (fun i => 1 / m i) * R)ᵀ = diagonal m * ((diagonal m)⁻¹ * K) ^ (p + 2) := by
  have hM := diag_pd hm
  have uM : IsUnit (diagonal m).det := (isUnit_iff_isUnit_det _).1 hM.isUnit
  have hi : diagonal (fun i => 1 / m i) = (diagonal m)⁻¹ := by
    symm
    refine Matrix.inv_eq_right_inv ?_
    rw [diagonal_mul_diagonal]
    simp [fun i => (hm i).ne']
  rw [transpose_mul, transpose_mul, hK, diagonal_transpose, hi]
  calc K * (diagonal m)⁻¹ * R * (Rᵀ * ((diagonal m)⁻¹ * K)) = K * (diagonal m)⁻¹ * (R * Rᵀ) * ((diagonal m)⁻¹ * K) := by simp only [mul_assoc]
    _ = (diagonal m * ((diagonal m)⁻¹ * K)) * ((diagonal m)⁻¹ * diagonal m) * ((diagonal m)⁻¹ * K) ^ p * ((diagonal m)⁻¹ * K) := by
      rw [h, ← mul_assoc (diagonal m) (diagonal m)⁻¹ K, Matrix.mul_nonsing_inv _ uM, one_mul]
      simp only [mul_assoc]
    _ = _ := by
      rw [Matrix.nonsing_inv_mul _ uM, mul_one, mul_assoc, mul_assoc, ← pow_succ, ← pow_succ']

theorem unit_pow (hK : K.PosDef) (hm : ∀ i, 0 < m i) (p : Nat) : IsUnit (diagonal m * ((diagonal m)⁻¹ * K) ^ p) := by
  have uM := (diag_pd hm).isUnit
  refine uM.mul (IsUnit.pow _ (IsUnit.mul ?_ hK.isUnit))
  exact (isUnit_nonsing_inv_iff).2 uM

/-- The loop: the result has the next exponent with the right parity. -/
theorem loop_spec {ch : Cholmod n} (hc : ch.Spec) (hK : K.PosDef) (hm : ∀ i, 0 < m i) (γ count : Nat) (R : Matrix (Fin n) (Fin n) ℝ)
    (h : R * Rᵀ = diagonal m * ((diagonal m)⁻¹ * K) ^ count) (hp : count % 2 = (γ + 1) % 2) (hle : count ≤ γ + 1) :
    ∃ R', loop ch K m γ count R = .ok R' ∧ R' * R'ᵀ = diagonal m * ((diagonal m)⁻¹ * K) ^ (γ + 1) := by
  induction hd : γ - count using Nat.strong_induction_on generalizing count R with
  | _ d ih =>
    have hKt : Kᵀ = K := by simpa [IsHermitian, conjTranspose_eq_transpose_of_trivial] using hK.1
    unfold loop
    by_cases hlt : count < γ
    · rw [if_pos hlt]
      have hst := step hKt hm h
      have hu : IsUnit (K * diagonal (fun i => 1 / m i) * R) := by
        have := unit_pow hK hm (count + 2)
        rw [← hst] at this
        exact unit_left this
      obtain ⟨R', hR'⟩ := hc.aat_ok _ hu
      rw [hR']
      simp only
      exact ih (γ - (count + 2)) (by omega) (count + 2) R' ((hc.aat _ _ hR').trans hst) (by omega) (by omega) rfl
    · rw [if_neg hlt]
      have : count = γ + 1 := by omega
      exact ⟨R, rfl, this ▸ h⟩

theorem factor_spec {ch : Cholmod n} (hc : ch.Spec) (hK : K.PosDef) (hm : ∀ i, 0 < m i) (γ : Nat) :
    ∃ R, factor ch K m γ = .ok R ∧ R * Rᵀ = diagonal m * ((diagonal m)⁻¹ * K) ^ (γ + 1) := by
  have hKt : Kᵀ = K := by simpa [IsHermitian, conjTranspose_eq_transpose_of_trivial] using hK.1
  have uM : IsUnit (diagonal m).det := (isUnit_iff_isUnit_det _).1 (diag_pd hm).isUnit
  have e1 : K = diagonal m * ((diagonal m)⁻¹ * K) ^ 1 := by rw [pow_one, ← mul_assoc, Matrix.mul_nonsing_inv _ uM, one_mul]
  unfold factor
  by_cases h0 : γ % 2 = 0
  · rw [if_pos h0]
    obtain ⟨R, hR⟩ := hc.chol_ok K hK
    rw [hR]
    exact loop_spec hc hK hm γ 1 R ((hc.chol _ _ hR).trans e1) (by omega) (by omega)
  · rw [if_neg h0]
    have hs : diagonal (fun i => 1 / Real.sqrt (m i)) * diagonal (fun i => 1 / Real.sqrt (m i)) = (diagonal m)⁻¹ := by
      symm
      refine Matrix.inv_eq_right_inv ?_
      rw [diagonal_mul_diagonal, diagonal_mul_diagonal, ← diagonal_one]
      congr 1
      funext i
      have := Real.mul_self_sqrt (hm i).le
      have h1 : Real.sqrt (m i) ≠ 0 := (Real.sqrt_pos.2 (hm i)).ne'
      field_simp
      rw [pow_two]; linarith
    have e2 : (K * diagonal (fun i => 1 / Real.sqrt (m i))) * (K * diagonal (fun i => 1 / Real.sqrt (m i)))ᵀ =
        diagonal m * ((diagonal m)⁻¹ * K) ^ 2 := by
      rw [transpose_mul, hKt, diagonal_transpose, pow_two, ← mul_assoc (diagonal m), ← pow_one ((diagonal m)⁻¹ * K), ← e1, pow_one, ← hs]
      simp only [mul_assoc]
    have hu : IsUnit (K * diagonal (fun i => 1 / Real.sqrt (m i))) := by
      have := unit_pow hK hm 2
      rw [← e2] at this
      exact unit_left this
    obtain ⟨R, hR⟩ := hc.aat_ok _ hu
    rw [hR]
    exact loop_spec hc hK hm γ 2 R ((hc.aat _ _ hR).trans e2) (by omega) (by omega)

/-- Different exponents have different precision matrices, unless the operator is the identity. -/
theorem solves_succ (hK : K.PosDef) (hm : ∀ i, 0 < m i) {γ : Nat} (h : Solves K (diagonal m) γ Q) (h' : Solves K (diagonal m) (γ + 1) Q) :
    K = diagonal m := by
  have uM := (isUnit_iff_isUnit_det _).1 (diag_pd hm).isUnit
  have e := ((solves_iff hK hm _).1 h).symm.trans ((solves_iff hK hm _).1 h')
  rw [pow_succ, ← mul_assoc] at e
  have hu := unit_pow hK hm γ
  have e2 : (1 : Matrix (Fin n) (Fin n) ℝ) = (diagonal m)⁻¹ * K := hu.mul_left_cancel (by rw [mul_one]; exact e)
  have := congrArg (diagonal m * ·) e2
  simp only [mul_one, ← mul_assoc, Matrix.mul_nonsing_inv _ uM, one_mul] at this
  exact this.symm

end Verif.Ell
