import Verif.Spd.Spec
import Mathlib.LinearAlgebra.Matrix.Block
import Mathlib.Analysis.Matrix.LDL
import Mathlib.Algebra.Order.Star.Real

/-!
# C41: `CholeskyDecomposition` of a positive definite matrix
-/

set_option linter.unusedSectionVars false

namespace Verif.Spd

open Matrix

variable {n m : ℕ}

theorem det_lower (A : Mat n n) (h : ∀ i j, i < j → A i j = 0) : A.det = ∏ i, A i i :=
  det_of_isLowerTriangular A (fun _ _ hij => h _ _ hij)

theorem det_upper (A : Mat n n) (h : ∀ i j, j < i → A i j = 0) : A.det = ∏ i, A i i :=
  det_of_isUpperTriangular (fun _ _ hij => h _ _ hij)

theorem triPart_lower (A : Mat n n) (u : Bool) (i j : Fin n) (h : i < j) :
    triPart A true u i j = 0 := by
  have h1 : i ≠ j := h.ne
  have h2 : ¬ j < i := not_lt.mpr h.le
  simp [triPart, h1, h2]

theorem triPart_upper (A : Mat n n) (u : Bool) (i j : Fin n) (h : j < i) :
    triPart A false u i j = 0 := by
  have h1 : i ≠ j := h.ne'
  have h2 : ¬ i < j := not_lt.mpr h.le
  simp [triPart, h1, h2]

theorem triPart_det (A : Mat n n) (lo u : Bool) (h : ∀ i, triPart A lo u i i ≠ 0) :
    IsUnit (triPart A lo u).det := by
  cases lo
  · rw [det_upper _ (triPart_upper A u)]
    exact isUnit_iff_ne_zero.mpr (Finset.prod_ne_zero_iff.mpr fun i _ => h i)
  · rw [det_lower _ (triPart_lower A u)]
    exact isUnit_iff_ne_zero.mpr (Finset.prod_ne_zero_iff.mpr fun i _ => h i)

/-- A triangular matrix is its own triangular part. -/
theorem triPart_self (A : Mat n n) (lo u : Bool)
    (ht : ∀ i j, (if lo then i < j else j < i) → A i j = 0) (hu : u = true → ∀ i, A i i = 1) :
    triPart A lo u = A := by
  ext i j
  unfold triPart
  simp only [of_apply]
  by_cases hij : i = j
  · subst hij
    cases u with
    | false => simp
    | true => simp [hu rfl i]
  · rw [if_neg hij]
    cases lo with
    | true =>
      by_cases h : j < i
      · simp [h]
      · simp only [if_true, h, if_false]
        exact (ht i j (by simp; omega)).symm
    | false =>
      by_cases h : i < j
      · simp [h]
      · simp only [Bool.false_eq_true, if_false, h]
        exact (ht i j (by simp; omega)).symm

/-- Solving with a genuinely triangular, nonsingular matrix. -/
theorem solveTri_eq (A : Mat n n) (b : Mat n m) (lo u : Bool)
    (ht : ∀ i j, (if lo then i < j else j < i) → A i j = 0) (hu : u = true → ∀ i, A i i = 1)
    (hd : ∀ i, A i i ≠ 0) :
    IsUnit A.det ∧ solveTri A b lo u = .ok (A⁻¹ * b) := by
  have hs := triPart_self A lo u ht hu
  have h := triPart_det A lo u (by rw [hs]; exact hd)
  rw [hs] at h
  refine ⟨h, ?_⟩
  unfold solveTri
  rw [hs, if_pos hd]

/-- `I[p,:]`. -/
theorem rowsP_eq (p : Equiv.Perm (Fin n)) (b : Mat n m) :
    Cholesky.rowsP p b = Cholesky.rowsP p (1 : Mat n n) * b := by
  ext i j
  simp [Cholesky.rowsP, Matrix.mul_apply, Matrix.one_apply]

theorem rowsPt_eq (p : Equiv.Perm (Fin n)) (b : Mat n m) :
    Cholesky.rowsPt p b = (Cholesky.rowsP p (1 : Mat n n))ᵀ * b := by
  ext i j
  simp only [Cholesky.rowsPt, Cholesky.rowsP, of_apply, Matrix.mul_apply, transpose_apply,
    Matrix.one_apply]
  rw [Finset.sum_eq_single (p.symm i)]
  · simp
  · intro k _ hk
    rw [if_neg, zero_mul]
    intro he; exact hk (by rw [← he]; simp)
  · simp

theorem rowsP_ortho (p : Equiv.Perm (Fin n)) :
    (Cholesky.rowsP p (1 : Mat n n))ᵀ * Cholesky.rowsP p (1 : Mat n n) = 1 := by
  rw [← rowsPt_eq]
  ext i j
  simp only [Cholesky.rowsPt, Cholesky.rowsP, of_apply]
  rw [Equiv.apply_symm_apply]

/-- What a non-degenerate object computes: there is a square root `W` of `C`. -/
structure SqrtOf (o : Cholesky n) (W : Mat n n) : Prop where
  unit : IsUnit W.det
  fact : W * Wᵀ = o.C
  recon : ∀ dg, o.reconstruct dg = W * Wᵀ
  dot : ∀ (m : ℕ) (b : Mat n m), o.sqrtDot b false = W * b
  dotT : ∀ (m : ℕ) (b : Mat n m), o.sqrtDot b true = Wᵀ * b
  slv : ∀ (m : ℕ) (b : Mat n m), o.sqrtSolve b false = .ok (W⁻¹ * b)
  slvT : ∀ (m : ℕ) (b : Mat n m), o.sqrtSolve b true = .ok (Wᵀ⁻¹ * b)
  full : ∀ (m : ℕ) (b : Mat n m), o.solve b = .ok (o.C⁻¹ * b)

theorem sqrt_full (o : Cholesky n) (L : Mat n n) (h : Chol o.C L) (hf : o.f = .full L) :
    SqrtOf o L := by
  have hne : ∀ i, L i i ≠ 0 := fun i => (h.pos i).ne'
  have hl : ∀ (m : ℕ) (b : Mat n m), IsUnit L.det ∧ solveTri L b true false = .ok (L⁻¹ * b) :=
    fun m b => solveTri_eq L b true false (fun i j hij => h.lower i j (by simpa using hij))
      (by simp) hne
  have hu : ∀ (m : ℕ) (b : Mat n m), IsUnit Lᵀ.det ∧ solveTri Lᵀ b false false
      = .ok (Lᵀ⁻¹ * b) :=
    fun m b => solveTri_eq Lᵀ b false false
      (fun i j hij => h.lower j i (by simpa using hij)) (by simp) hne
  have hU := (hl 0 (Matrix.of fun _ j => j.elim0)).1
  refine ⟨hU, h.fact, ?_, ?_, ?_, ?_, ?_, ?_⟩
  · intro dg; simp [Cholesky.reconstruct, hf]
  · intro m b; simp [Cholesky.sqrtDot, hf]
  · intro m b; simp [Cholesky.sqrtDot, hf]
  · intro m b; simp [Cholesky.sqrtSolve, hf, (hl m b).2]
  · intro m b; simp [Cholesky.sqrtSolve, hf, (hu m b).2]
  · intro m b
    simp only [Cholesky.solve, hf, (hl m b).2]
    show solveTri Lᵀ (L⁻¹ * b) false false = _
    rw [(hu m _).2, ← h.fact, Matrix.mul_inv_rev, Matrix.mul_assoc]

theorem sqrt_sparse (o : Cholesky n) (p : Equiv.Perm (Fin n)) (L : Mat n n)
    (h : Cholmod o.C p L) (hf : o.f = .sparse p L) :
    SqrtOf o ((Cholesky.rowsP p (1 : Mat n n))ᵀ * L) := by
  have hne : ∀ i, L i i ≠ 0 := fun i => (h.pos i).ne'
  have hl : ∀ (m : ℕ) (b : Mat n m), IsUnit L.det ∧ solveTri L b true false = .ok (L⁻¹ * b) :=
    fun m b => solveTri_eq L b true false (fun i j hij => h.lower i j (by simpa using hij))
      (by simp) hne
  have hu : ∀ (m : ℕ) (b : Mat n m), IsUnit Lᵀ.det ∧ solveTri Lᵀ b false false
      = .ok (Lᵀ⁻¹ * b) :=
    fun m b => solveTri_eq Lᵀ b false false
      (fun i j hij => h.lower j i (by simpa using hij)) (by simp) hne
  have hU := (hl 0 (Matrix.of fun _ j => j.elim0)).1
  set Q := Cholesky.rowsP p (1 : Mat n n) with hQ
  have hQQ : Qᵀ * Q = 1 := rowsP_ortho p
  have hQQ' : Q * Qᵀ = 1 := mul_eq_one_comm.mp hQQ
  have hQi : Q⁻¹ = Qᵀ := Matrix.inv_eq_right_inv hQQ'
  have hQti : Qᵀ⁻¹ = Q := Matrix.inv_eq_right_inv hQQ
  have hfact : Qᵀ * L * (Qᵀ * L)ᵀ = o.C := by
    rw [Matrix.transpose_mul, Matrix.transpose_transpose]
    calc Qᵀ * L * (Lᵀ * Q) = Qᵀ * (L * Lᵀ) * Q := by simp only [Matrix.mul_assoc]
      _ = Qᵀ * (Q * o.C * Qᵀ) * Q := by
        rw [h.fact]
        congr 2
        ext i j
        simp [hQ, Cholesky.rowsP, Matrix.mul_apply, Matrix.one_apply]
      _ = (Qᵀ * Q) * o.C * (Qᵀ * Q) := by simp only [Matrix.mul_assoc]
      _ = o.C := by rw [hQQ, Matrix.one_mul, Matrix.mul_one]
  refine ⟨?_, hfact, ?_, ?_, ?_, ?_, ?_, ?_⟩
  · rw [Matrix.det_mul]
    exact (Matrix.isUnit_det_of_left_inverse hQQ').mul hU
  · intro dg
    simp only [Cholesky.reconstruct, hf]
    rw [← hQ]
  · intro m b
    simp only [Cholesky.sqrtDot, hf, Bool.false_eq_true, if_false]
    rw [rowsPt_eq, ← hQ, Matrix.mul_assoc]
  · intro m b
    simp only [Cholesky.sqrtDot, hf, if_true]
    rw [rowsP_eq, ← hQ, Matrix.transpose_mul, Matrix.transpose_transpose, Matrix.mul_assoc]
  · intro m b
    simp only [Cholesky.sqrtSolve, hf, Bool.false_eq_true, if_false]
    rw [(hl m _).2, rowsP_eq, ← hQ, Matrix.mul_inv_rev, hQti, Matrix.mul_assoc]
  · intro m b
    simp only [Cholesky.sqrtSolve, hf, if_true, (hu m _).2]
    show Except.ok (Cholesky.rowsPt p (Lᵀ⁻¹ * b)) = _
    rw [rowsPt_eq, ← hQ, Matrix.transpose_mul, Matrix.transpose_transpose, Matrix.mul_inv_rev, hQi,
      Matrix.mul_assoc]
  · intro m b
    simp only [Cholesky.solve, hf]

theorem init_posDef (C : Mat n n) (sp : Bool) (o : Cholesky n) (h : Cholesky.Init C sp o)
    (hC : C.PosDef) : o.C = C ∧ ∃ W, SqrtOf o W := by
  obtain ⟨rfl, ⟨-, -, L, hL, hf⟩ | ⟨-, -, p, L, hL, hf⟩ | ⟨hn, -⟩⟩ := h
  · exact ⟨rfl, L, sqrt_full o L hL hf⟩
  · exact ⟨rfl, _, sqrt_sparse o p L hL hf⟩
  · exact absurd hC hn

/-- **C41.** For every positive definite matrix, dense or sparse, `reconstruct` returns it. -/
theorem C41_reconstruct (C : Mat n n) (sp : Bool) (o : Cholesky n) (h : Cholesky.Init C sp o)
    (hC : C.PosDef) (dg : Bool) : o.reconstruct dg = C := by
  obtain ⟨rfl, W, hW⟩ := init_posDef C sp o h hC
  rw [hW.recon, hW.fact]

/-- **C41.** `dot` multiplies by the matrix, `solve` succeeds and inverts `dot` on both sides. -/
theorem C41_solve (C : Mat n n) (sp : Bool) (o : Cholesky n) (h : Cholesky.Init C sp o)
    (hC : C.PosDef) (b : Mat n m) :
    o.dot b = C * b ∧ o.solve (o.dot b) = .ok b ∧ ∃ x, o.solve b = .ok x ∧ o.dot x = b := by
  obtain ⟨rfl, W, hW⟩ := init_posDef C sp o h hC
  have hu : IsUnit o.C.det := (Matrix.isUnit_iff_isUnit_det _).mp hC.isUnit
  refine ⟨rfl, ?_, _, hW.full m b, ?_⟩
  · rw [hW.full, Cholesky.dot, ← Matrix.mul_assoc, Matrix.nonsing_inv_mul _ hu, Matrix.one_mul]
  · rw [Cholesky.dot, ← Matrix.mul_assoc, Matrix.mul_nonsing_inv _ hu, Matrix.one_mul]

/-- **C41.** `sqrt_dot` composed with its transpose is `dot`; the transposed call is the adjoint. -/
theorem C41_sqrt_dot (C : Mat n n) (sp : Bool) (o : Cholesky n) (h : Cholesky.Init C sp o)
    (hC : C.PosDef) (b c : Mat n m) :
    o.sqrtDot (o.sqrtDot b true) false = o.dot b ∧
      (o.sqrtDot b false)ᵀ * c = bᵀ * o.sqrtDot c true := by
  obtain ⟨rfl, W, hW⟩ := init_posDef C sp o h hC
  constructor
  · rw [hW.dotT, hW.dot, Cholesky.dot, ← hW.fact, Matrix.mul_assoc]
  · rw [hW.dotT, hW.dot, Matrix.transpose_mul, Matrix.mul_assoc]

/-- **C41.** `sqrt_solve` succeeds and inverts `sqrt_dot` on both sides, plain and transposed. -/
theorem C41_sqrt_solve (C : Mat n n) (sp : Bool) (o : Cholesky n) (h : Cholesky.Init C sp o)
    (hC : C.PosDef) (tr : Bool) (b : Mat n m) :
    o.sqrtSolve (o.sqrtDot b tr) tr = .ok b ∧
      ∃ x, o.sqrtSolve b tr = .ok x ∧ o.sqrtDot x tr = b := by
  obtain ⟨rfl, W, hW⟩ := init_posDef C sp o h hC
  have hut : IsUnit Wᵀ.det := by rw [Matrix.det_transpose]; exact hW.unit
  cases tr
  · refine ⟨?_, _, hW.slv m b, ?_⟩
    · rw [hW.dot, hW.slv, ← Matrix.mul_assoc, Matrix.nonsing_inv_mul _ hW.unit, Matrix.one_mul]
    · rw [hW.dot, ← Matrix.mul_assoc, Matrix.mul_nonsing_inv _ hW.unit, Matrix.one_mul]
  · refine ⟨?_, _, hW.slvT m b, ?_⟩
    · rw [hW.dotT, hW.slvT, ← Matrix.mul_assoc, Matrix.nonsing_inv_mul _ hut, Matrix.one_mul]
    · rw [hW.dotT, ← Matrix.mul_assoc, Matrix.mul_nonsing_inv _ hut, Matrix.one_mul]

/-- **C41.** The factor the contracts ask for exists for every positive definite matrix, so the
constructor's contract can be met and the theorems above are not vacuous. -/
theorem C41_exists (C : Mat n n) (hC : C.PosDef) (sp : Bool) : ∃ o, Cholesky.Init C sp o := by
  have hL : ∃ L, Chol C L := by
    have hinv := LDL.invertibleLowerInv hC
    have hlow : ∀ i j, i < j → LDL.lower hC i j = 0 := by
      have : BlockTriangular (LDL.lowerInv hC)⁻¹ OrderDual.toDual :=
        blockTriangular_inv_of_blockTriangular (fun i j hij => LDL.lowerInv_triangular hC hij)
      intro i j hij
      exact this hij
    have hfac := LDL.lower_conj_diag hC
    rw [conjTranspose_eq_transpose_of_trivial] at hfac
    set A := LDL.lower hC
    have hAu : IsUnit A := by
      have : Invertible (LDL.lowerInv hC)⁻¹ := inferInstance
      exact isUnit_of_invertible (LDL.lowerInv hC)⁻¹
    have hAd : ∀ i, A i i ≠ 0 := by
      have h1 := (Matrix.isUnit_iff_isUnit_det A).mp hAu
      rw [det_lower A hlow, isUnit_iff_ne_zero, Finset.prod_ne_zero_iff] at h1
      exact fun i => h1 i (Finset.mem_univ i)
    have hdp : ∀ i, 0 < LDL.diagEntries hC i := by
      have h1 : (diagonal (LDL.diagEntries hC)).PosDef := by
        have h2 : (LDL.lowerInv hC * C * (LDL.lowerInv hC)ᴴ).PosDef :=
          hC.mul_mul_conjTranspose_same (by
            have : IsUnit (LDL.lowerInv hC) := isUnit_of_invertible _
            exact Matrix.vecMul_injective_of_isUnit this)
        rw [← LDL.diag_eq_lowerInv_conj] at h2
        exact h2
      exact fun i => by simpa using h1.diag_pos (i := i)
    let s : Fin n → ℝ := fun i => Real.sqrt (LDL.diagEntries hC i) * SignType.sign (A i i)
    have hss : ∀ i, s i * s i = LDL.diagEntries hC i := by
      intro i
      have h1 : Real.sqrt (LDL.diagEntries hC i) * Real.sqrt (LDL.diagEntries hC i)
          = LDL.diagEntries hC i := Real.mul_self_sqrt (hdp i).le
      have h2 : ((SignType.sign (A i i) : SignType) : ℝ) * (SignType.sign (A i i) : SignType) = 1 := by
        rcases lt_or_gt_of_ne (hAd i) with h | h
        · simp [sign_neg h]
        · simp [sign_pos h]
      calc s i * s i = (Real.sqrt (LDL.diagEntries hC i) * Real.sqrt (LDL.diagEntries hC i)) *
            (((SignType.sign (A i i) : SignType) : ℝ) * (SignType.sign (A i i) : SignType)) := by
              simp only [s]; ring
        _ = _ := by rw [h1, h2, mul_one]
    refine ⟨A * diagonal s, ?_, ?_, ?_⟩
    · intro i j hij; rw [mul_diagonal, hlow i j hij, zero_mul]
    · intro i
      rw [mul_diagonal]
      have h1 : 0 < Real.sqrt (LDL.diagEntries hC i) := Real.sqrt_pos.mpr (hdp i)
      have h2 : 0 < A i i * (SignType.sign (A i i) : SignType) := by
        rcases lt_or_gt_of_ne (hAd i) with h | h
        · simp [sign_neg h]; linarith
        · simp [sign_pos h]; linarith
      calc (0 : ℝ) < Real.sqrt (LDL.diagEntries hC i) * (A i i * (SignType.sign (A i i) : SignType))
            := mul_pos h1 h2
        _ = _ := by simp only [s]; ring
    · rw [Matrix.transpose_mul, diagonal_transpose]
      calc A * diagonal s * (diagonal s * Aᵀ) = A * (diagonal s * diagonal s) * Aᵀ := by
            simp only [Matrix.mul_assoc]
        _ = A * LDL.diag hC * Aᵀ := by
            rw [diagonal_mul_diagonal, LDL.diag]; congr 3; funext i; exact hss i
        _ = C := hfac
  obtain ⟨L, hL⟩ := hL
  cases sp
  · exact ⟨⟨C, .full L⟩, rfl, .inl ⟨hC, rfl, L, hL, rfl⟩⟩
  · exact ⟨⟨C, .sparse (Equiv.refl _) L⟩, rfl, .inr (.inl ⟨hC, rfl, Equiv.refl _, L,
      ⟨hL.lower, hL.pos, by rw [hL.fact]; rfl⟩, rfl⟩)⟩

end Verif.Spd
