import Verif.Spd.Modchol

/-!
# C41: the operations of a degenerate `CholeskyDecomposition`

`L, D, P, D0` are the stored factors; the matrix the object stands for is `C + E = L D L'`
(see `C41_modchol`).
-/

set_option linter.unusedSectionVars false

namespace Verif.Spd

open Matrix

variable {n m : ℕ}

theorem eyeCols_mul (p : Equiv.Perm (Fin n)) (A : Mat n m) (i : Fin n) (j : Fin m) :
    (eyeCols p * A) i j = A (p.symm i) j := by
  rw [Matrix.mul_apply, Finset.sum_eq_single (p.symm i)]
  · simp [eyeCols]
  · intro k _ hk
    simp only [eyeCols, of_apply]
    rw [if_neg, zero_mul]
    intro he; apply hk; rw [he]; simp
  · simp

theorem eyeCols_ortho (p : Equiv.Perm (Fin n)) : (eyeCols p)ᵀ * eyeCols p = 1 := by
  ext i j
  rw [Matrix.mul_apply, Finset.sum_eq_single (p i)]
  · simp [eyeCols, Matrix.one_apply]
  · intro k _ hk; simp [eyeCols, hk]
  · simp

theorem diagonal_of (D : Mat n n) (h : ∀ i j, i ≠ j → D i j = 0) : D = diagonal fun i => D i i := by
  ext i j
  by_cases hij : i = j
  · subst hij; simp
  · rw [h i j hij, diagonal_apply_ne _ hij]

/-- **C41 (degenerate, partial).** If no `2 × 2` pivot was used (`D0` diagonal) and the row
interchanges compose to an involution (`P` symmetric), `solve(b)` solves `(C + E) x = b` for
`C ≠ 0`.  Missing: the other pivot orders and block sizes, for which `solve` is wrong
(`C41_solve_blocks_violated`, `C41_solve_perm_violated`). -/
theorem C41_modified_solve_partial (C : Mat n n) (o : Cholesky n) (L D P D0 : Mat n n)
    (hM : ModChol C none L D P D0) (ho : o.f = .modified L D P D0) (hC : C ≠ 0)
    (hP : Pᵀ = P) (hdiag : ∀ i j, i ≠ j → D0 i j = 0) (b : Mat n m) :
    ∃ x, o.solve b = .ok x ∧ L * D * Lᵀ * x = b := by
  obtain ⟨hCs, dl, p, hdl, hl, hloop, rfl⟩ := hM
  obtain ⟨rfl, hd0, hdpos⟩ := modDelta_ok hdl
  obtain ⟨h1, h2, h3, h4, h5⟩ := modLoop_spec hl hloop
  have hdp := hdpos hC
  have hDd := diagonal_of D (h5 hdiag)
  have hDpos : ∀ i, 0 < D i i := by
    intro i
    have := h2.diag_nonneg (i := i)
    simp at this
    linarith
  have hinv : ∀ i, p (p i) = i := by
    intro i
    have := congrFun (congrFun hP (p i)) i
    simp only [transpose_apply, eyeCols, of_apply] at this
    by_contra hne
    rw [if_neg (fun h => hne h.symm)] at this
    simp at this
  have hsymm : ∀ i, p.symm i = p i := fun i => by
    rw [Equiv.symm_apply_eq]; exact (hinv i).symm
  set P := eyeCols p with hPdef
  have hPP : P * P = 1 := by have := eyeCols_ortho p; rw [← hPdef, hP] at this; exact this
  have hPL : ∀ i j, (P * L) i j = L (p i) j := by
    intro i j; rw [hPdef, eyeCols_mul, hsymm]
  have hlow : ∀ i j, i < j → (P * L) i j = 0 := fun i j hij => by rw [hPL]; exact hl.lower i j hij
  have hone : ∀ i, (P * L) i i = 1 := fun i => by rw [hPL]; exact hl.unit i
  obtain ⟨hu1, hs1⟩ := solveTri_eq (P * L) (P * b) true true
    (fun i j hij => hlow i j (by simpa using hij)) (fun _ => hone)
    (fun i => by rw [hone]; exact one_ne_zero)
  obtain ⟨hu2, hs2⟩ := solveTri_eq (P * L)ᵀ
    (diagonal (fun i => 1 / D i i) * ((P * L)⁻¹ * (P * b))) false true
    (fun i j hij => hlow j i (by simpa using hij)) (fun _ => hone)
    (fun i => by rw [transpose_apply, hone]; exact one_ne_zero)
  refine ⟨Pᵀ * ((P * L)ᵀ⁻¹ * (diagonal (fun i => 1 / D i i) * ((P * L)⁻¹ * (P * b)))), ?_, ?_⟩
  · simp only [Cholesky.solve, ho]
    show (do let y ← solveTri (P * L) (P * b) true true; _) = _
    rw [hs1]
    show (do let x ← solveTri (P * L)ᵀ _ false true; _) = _
    rw [hs2]; rfl
  · have hinvD : D * diagonal (fun i => 1 / D i i) = 1 := by
      conv_lhs => enter [1]; rw [hDd]
      rw [diagonal_mul_diagonal, ← diagonal_one]
      congr 1; funext i
      have := (hDpos i).ne'
      field_simp
    have hLt : Lᵀ * Pᵀ * (P * L)ᵀ⁻¹ = 1 := by
      rw [← Matrix.transpose_mul]; exact Matrix.mul_nonsing_inv _ hu2
    have hL : L * (P * L)⁻¹ * P = 1 := by
      have : P * L * (P * L)⁻¹ = 1 := Matrix.mul_nonsing_inv _ hu1
      calc L * (P * L)⁻¹ * P = (P * P) * L * (P * L)⁻¹ * P := by rw [hPP, Matrix.one_mul]
        _ = P * (P * L * (P * L)⁻¹) * P := by simp only [Matrix.mul_assoc]
        _ = 1 := by rw [this, Matrix.mul_one, hPP]
    calc _ = L * D * (Lᵀ * Pᵀ * (P * L)ᵀ⁻¹) * (diagonal (fun i => 1 / D i i) *
            ((P * L)⁻¹ * (P * b))) := by simp only [Matrix.mul_assoc]
      _ = L * (D * diagonal (fun i => 1 / D i i)) * (P * L)⁻¹ * (P * b) := by
          rw [hLt]; simp only [Matrix.mul_assoc, Matrix.one_mul]
      _ = (L * (P * L)⁻¹ * P) * b := by rw [hinvD]; simp only [Matrix.mul_assoc, Matrix.one_mul]
      _ = b := by rw [hL, Matrix.one_mul]

/-- **C41 (degenerate, partial).** If no interchange was made (`P = I`), `reconstruct(True)` returns
`C`, `reconstruct()` returns `C + E = L D L'`; if also no `2 × 2` pivot was used, `sqrt_dot` composed
with its transpose multiplies by `C + E`, and for `C ≠ 0` the transposed `sqrt_solve` inverts the
transposed `sqrt_dot`.  Missing: interchanges (`C41_reconstruct_violated`) and the untransposed
`sqrt_solve` (`C41_sqrt_solve_violated`). -/
theorem C41_modified_sqrt_partial (C : Mat n n) (o : Cholesky n) (L D P D0 : Mat n n)
    (hM : ModChol C none L D P D0) (ho : o.f = .modified L D P D0) (hP : P = 1) :
    o.reconstruct true = C ∧ o.reconstruct false = L * D * Lᵀ ∧
    ((∀ i j, i ≠ j → D0 i j = 0) → ∀ (m : ℕ) (b : Mat n m),
      o.sqrtDot (o.sqrtDot b true) false = L * D * Lᵀ * b ∧
      (C ≠ 0 → o.sqrtSolve (o.sqrtDot b true) true = .ok b ∧
        ∃ x, o.sqrtSolve b true = .ok x ∧ o.sqrtDot x true = b)) := by
  obtain ⟨hCs, dl, p, hdl, hl, hloop, hPp⟩ := hM
  obtain ⟨rfl, hd0, hdpos⟩ := modDelta_ok hdl
  obtain ⟨h1, h2, h3, h4, h5⟩ := modLoop_spec hl hloop
  refine ⟨?_, ?_, fun hdiag m b => ⟨?_, fun hC => ?_⟩⟩
  · simp only [Cholesky.reconstruct, ho, hP, if_true]
    rw [← hl.fact]; simp only [Matrix.transpose_one, Matrix.one_mul, Matrix.mul_one, Matrix.mul_assoc]
  · simp only [Cholesky.reconstruct, ho, hP, Bool.false_eq_true, if_false]
    simp only [Matrix.transpose_one, Matrix.one_mul, Matrix.mul_one, Matrix.mul_assoc]
  · have hDd := diagonal_of D (h5 hdiag)
    have hDnn : ∀ i, 0 ≤ D i i := by
      intro i
      have := h2.diag_nonneg (i := i)
      simp at this
      linarith
    simp only [Cholesky.sqrtDot, ho, hP, if_true, Bool.false_eq_true, if_false, Matrix.transpose_one,
      Matrix.one_mul]
    have hss : diagonal (fun i => Real.sqrt (D i i)) * diagonal (fun i => Real.sqrt (D i i)) = D := by
      conv_rhs => rw [hDd]
      rw [diagonal_mul_diagonal]
      congr 1; funext i; exact Real.mul_self_sqrt (hDnn i)
    calc _ = L * (diagonal (fun i => Real.sqrt (D i i)) * diagonal (fun i => Real.sqrt (D i i)))
          * Lᵀ * b := by simp only [Matrix.mul_assoc]
      _ = _ := by rw [hss]
  · have hdp := hdpos hC
    have hDpos : ∀ i, 0 < D i i := by
      intro i
      have := h2.diag_nonneg (i := i)
      simp at this
      linarith
    have hpid : ∀ i, p i = i := by
      intro i
      have := congrFun (congrFun (hP ▸ hPp : (1 : Mat n n) = eyeCols p) (p i)) i
      simp only [eyeCols, of_apply, if_true] at this
      by_contra hne
      rw [Matrix.one_apply_ne hne] at this
      exact zero_ne_one this
    set S := diagonal (fun i => Real.sqrt (D i i)) with hS
    have hent : ∀ i j, (S * Lᵀ) i j = Real.sqrt (D i i) * L j i := by
      intro i j; rw [hS, diagonal_mul, transpose_apply]
    have hlow : ∀ i j, i < j → L i j = 0 := fun i j hij => by
      have := hl.lower i j hij; rwa [hpid] at this
    have hone : ∀ i, L i i = 1 := fun i => by have := hl.unit i; rwa [hpid] at this
    have hs : ∀ c : Mat n m, IsUnit (S * Lᵀ).det ∧ solveTri (S * Lᵀ) c false false
        = .ok ((S * Lᵀ)⁻¹ * c) := fun c => solveTri_eq (S * Lᵀ) c false false
      (fun i j hij => by rw [hent, hlow j i (by simpa using hij), mul_zero]) (by simp)
      (fun i => by rw [hent, hone, mul_one]; exact (Real.sqrt_pos.mpr (hDpos i)).ne')
    have hu := (hs b).1
    have hslv : ∀ c : Mat n m, o.sqrtSolve c true = .ok ((S * Lᵀ)⁻¹ * c) := by
      intro c
      simp only [Cholesky.sqrtSolve, ho, hP, if_true]
      show (do let x ← solveTri (S * Lᵀ) c false false; _) = _
      rw [(hs c).2]
      show Except.ok ((1 : Mat n n)ᵀ * ((S * Lᵀ)⁻¹ * c)) = _
      rw [Matrix.transpose_one, Matrix.one_mul]
    have hdt : ∀ c : Mat n m, o.sqrtDot c true = S * Lᵀ * c := by
      intro c
      simp only [Cholesky.sqrtDot, ho, hP, if_true, Matrix.one_mul, Matrix.mul_assoc]
      rw [← hS]
    refine ⟨?_, _, hslv b, ?_⟩
    · rw [hdt, hslv, ← Matrix.mul_assoc, Matrix.nonsing_inv_mul _ hu, Matrix.one_mul]
    · rw [hdt, ← Matrix.mul_assoc, Matrix.mul_nonsing_inv _ hu, Matrix.one_mul]

/-- **C41.** For any pivot order without `2 × 2` blocks, `sqrt_dot` composed with its transpose
multiplies by what `reconstruct()` returns (which need not be `C + E`). -/
theorem C41_modified_consistent (C : Mat n n) (o : Cholesky n) (L D P D0 : Mat n n)
    (hM : ModChol C none L D P D0) (ho : o.f = .modified L D P D0)
    (hdiag : ∀ i j, i ≠ j → D0 i j = 0) (b : Mat n m) :
    o.sqrtDot (o.sqrtDot b true) false = o.reconstruct false * b := by
  obtain ⟨hCs, dl, p, hdl, hl, hloop, hPp⟩ := hM
  obtain ⟨rfl, hd0, hdpos⟩ := modDelta_ok hdl
  obtain ⟨h1, h2, h3, h4, h5⟩ := modLoop_spec hl hloop
  have hDd := diagonal_of D (h5 hdiag)
  have hDnn : ∀ i, 0 ≤ D i i := by
    intro i
    have := h2.diag_nonneg (i := i)
    simp at this
    linarith
  simp only [Cholesky.sqrtDot, Cholesky.reconstruct, ho, if_true, Bool.false_eq_true, if_false]
  have hss : diagonal (fun i => Real.sqrt (D i i)) * diagonal (fun i => Real.sqrt (D i i)) = D := by
    conv_rhs => rw [hDd]
    rw [diagonal_mul_diagonal]
    congr 1; funext i; exact Real.mul_self_sqrt (hDnn i)
  calc _ = Pᵀ * L * (diagonal (fun i => Real.sqrt (D i i)) * diagonal (fun i => Real.sqrt (D i i)))
        * Lᵀ * P * b := by simp only [Matrix.mul_assoc]
    _ = _ := by rw [hss]; simp only [Matrix.mul_assoc]

end Verif.Spd
