import Verif.Spd.ModProps
import Verif.Spd.EigenProps

/-!
# C41: where the degenerate branch departs from the property, and concrete instances
-/

set_option linter.unusedSectionVars false

namespace Verif.Spd

open Matrix

variable {n : ℕ}

theorem eigh_exists (C : Mat n n) (hC : Cᵀ = C) : ∃ d V, Eigh C d V := by
  obtain ⟨o, dl, d, V, -, he, -⟩ := C40_exists C hC none (by simp)
  exact ⟨d, V, he⟩

theorem eigh2_exists (E : Matrix (Fin 2) (Fin 2) ℝ) (hE : Eᵀ = E) : ∃ t U, Eigh2 E t U := by
  obtain ⟨d, V, h⟩ := eigh_exists E hE
  exact ⟨d, V, h.sorted (by decide), h.ortho, h.eig⟩

/-- The loop always terminates with a result. -/
theorem modLoop_total (D : Mat n n) (hD : Dᵀ = D) (delta : ℝ) (r : ℕ) :
    ∀ k W, n - k = r → ∃ W', ModLoop D delta k W W' := by
  induction r using Nat.strong_induction_on with
  | _ r ih =>
    intro k W hr
    by_cases h1 : n ≤ k
    · exact ⟨W, .done h1⟩
    by_cases h2 : k + 1 = n
    · obtain ⟨W', h⟩ := ih (n - (k + 1)) (by omega) (k + 1) _ rfl
      exact ⟨W', .last (by omega) h2 h⟩
    have hk : k + 1 < n := by omega
    by_cases h3 : D ⟨k, by omega⟩ ⟨k + 1, hk⟩ = 0
    · obtain ⟨W', h⟩ := ih (n - (k + 1)) (by omega) (k + 1) _ rfl
      exact ⟨W', .one hk h3 h⟩
    · obtain ⟨t, U, hE⟩ := eigh2_exists (block2 D k hk) (by
        ext a b; exact congrFun (congrFun hD _) _)
      obtain ⟨W', h⟩ := ih (n - (k + 2)) (by omega) (k + 2) _ rfl
      exact ⟨W', .two hk h3 hE h⟩

theorem modChol_of_ldl (C L D0 : Mat n n) (p : Equiv.Perm (Fin n)) (hC : Cᵀ = C)
    (h : Ldl C L D0 p) : ∃ D, ModChol C none L D (eyeCols p) D0 := by
  obtain ⟨D, hD⟩ := modLoop_total D0 h.symm (Real.sqrt machineEps * frobenius C) (n - 0) 0 1 rfl
  exact ⟨D, hC, _, p, rfl, h, hD, rfl⟩

theorem eyeCols_one : eyeCols (1 : Equiv.Perm (Fin n)) = 1 := by
  ext i j; by_cases h : i = j <;> simp [h, eyeCols, Matrix.one_apply]

/-! ### An interchange -/

/-- Rank one, and the second diagonal entry is the pivot. -/
def Cperm : Mat 2 2 := !![1, 10; 10, 100]

theorem ldl_Cperm : Ldl Cperm !![1 / 10, 1; 1, 0] !![100, 0; 0, 0] (Equiv.swap 0 1) where
  fact := by
    ext i j; fin_cases i <;> fin_cases j <;> simp [Cperm, Matrix.mul_apply, Fin.sum_univ_two] <;>
      norm_num
  lower := by intro i j; fin_cases i <;> fin_cases j <;> simp
  unit := by intro i; fin_cases i <;> simp
  symm := by ext i j; fin_cases i <;> fin_cases j <;> simp
  band := by intro i j; fin_cases i <;> fin_cases j <;> simp
  blocks := by intro i j k h1 h2; omega

theorem Cperm_psd : Cperm.PosSemidef := by
  have := posSemidef_vecMulVec_self_star (![1, 10] : Fin 2 → ℝ)
  have e : vecMulVec (![1, 10] : Fin 2 → ℝ) (star ![1, 10]) = Cperm := by
    ext i j; fin_cases i <;> fin_cases j <;> simp [Cperm, vecMulVec_apply]; norm_num
  rwa [e] at this

theorem Cperm_npd : ¬ Cperm.PosDef := by
  intro h
  have := h.dotProduct_mulVec_pos (x := ![10, -1]) (by
    intro h; have := congrFun h 1; simp at this)
  simp [Cperm, Matrix.mulVec, dotProduct, Fin.sum_univ_two] at this
  norm_num at this

/-- **C41 fails for degenerate matrices with an interchange.** `reconstruct(degenerate=True)`, which
should return `C` exactly, returns a permuted matrix: `ldl` returns `C = L D L'` with the
permutation already in `L`, and the code permutes again. -/
theorem C41_reconstruct_violated :
    ¬ ∀ (n : ℕ) (C : Mat n n) (sp : Bool) (o : Cholesky n), C.PosSemidef →
      Cholesky.Init C sp o → o.reconstruct true = C := by
  intro hall
  obtain ⟨D, hD⟩ := modChol_of_ldl Cperm _ _ _ Cperm_psd.isHermitian ldl_Cperm
  have h := hall 2 Cperm false ⟨Cperm, .modified _ D _ _⟩ Cperm_psd
    ⟨rfl, .inr (.inr ⟨Cperm_npd, _, _, _, _, hD, rfl⟩)⟩
  have h0 := congrFun (congrFun h 0) 0
  simp [Cholesky.reconstruct, eyeCols, Cperm, Matrix.mul_apply, Fin.sum_univ_two, Matrix.vecMul,
    dotProduct, Equiv.swap_apply_def] at h0

/-! ### A two-by-two pivot -/

/-- Indefinite, eigenvalues `-75` and `100`. -/
def Cblk : Mat 2 2 := !![37, 84; 84, -12]

theorem ldl_Cblk : Ldl Cblk 1 Cblk 1 where
  fact := by simp
  lower := fun i j h => Matrix.one_apply_ne h.ne
  unit := fun i => Matrix.one_apply_eq i
  symm := by ext i j; fin_cases i <;> fin_cases j <;> simp [Cblk]
  band := by intro i j; fin_cases i <;> fin_cases j <;> simp
  blocks := by intro i j k h1 h2; omega

theorem Cblk_npd : ¬ Cblk.PosDef := by
  intro h
  have := h.diag_pos (i := 1)
  simp [Cblk] at this
  linarith

theorem eigh_Cblk : Eigh2 (block2 Cblk 0 (by omega)) ![-75, 100] !![3 / 5, 4 / 5; -4 / 5, 3 / 5] where
  sorted := by simp; norm_num
  ortho := by
    ext i j; fin_cases i <;> fin_cases j <;> simp [Matrix.mul_apply, Fin.sum_univ_two] <;> norm_num
  eig := by
    ext i j; fin_cases i <;> fin_cases j <;>
      simp [block2, Cblk, Matrix.mul_apply, Fin.sum_univ_two] <;> norm_num

theorem solve_id (o : Cholesky n) (D D0 : Mat n n) (ho : o.f = .modified 1 D 1 D0) {m : ℕ}
    (b : Mat n m) : o.solve b = .ok (diagonal (fun i => 1 / D i i) * b) := by
  have h1 : ∀ c : Mat n m, solveTri (1 : Mat n n) c true true = .ok c := by
    intro c
    have := (solveTri_eq (1 : Mat n n) c true true (fun i j hij => Matrix.one_apply_ne (by
      simp at hij; exact hij.ne)) (fun _ i => Matrix.one_apply_eq i) (by simp)).2
    rw [this, inv_one, Matrix.one_mul]
  have h2 : ∀ c : Mat n m, solveTri (1 : Mat n n) c false true = .ok c := by
    intro c
    have := (solveTri_eq (1 : Mat n n) c false true (fun i j hij => Matrix.one_apply_ne (by
      simp at hij; exact hij.ne')) (fun _ i => Matrix.one_apply_eq i) (by simp)).2
    rw [this, inv_one, Matrix.one_mul]
  simp only [Cholesky.solve, ho, Matrix.one_mul, Matrix.transpose_one]
  rw [h1]
  show (do let x ← solveTri (1 : Mat n n) (diagonal (fun i => 1 / D i i) * b) false true; _) = _
  rw [h2]; rfl

/-- **C41 fails with a `2 × 2` pivot.** `solve` only divides by the diagonal of the block diagonal
`D`, so it does not solve the system with `C + E = L D L'`, even without interchanges. -/
theorem C41_solve_blocks_violated :
    ∃ (C : Mat 2 2) (o : Cholesky 2) (L D P D0 : Mat 2 2) (b x : Mat 2 1),
      Cholesky.Init C false o ∧ o.f = .modified L D P D0 ∧ P = 1 ∧
      o.solve b = .ok x ∧ L * D * Lᵀ * x ≠ b := by
  obtain ⟨D, hD⟩ : ∃ D, ModLoop Cblk (Real.sqrt machineEps * frobenius Cblk) 0 1 D ∧
      D = setBlock2 1 0 (clamp2 (Real.sqrt machineEps * frobenius Cblk) ![-75, 100]
        !![3 / 5, 4 / 5; -4 / 5, 3 / 5]) :=
    ⟨_, .two (by omega) (by simp [Cblk]) eigh_Cblk (.done (by omega)), rfl⟩
  obtain ⟨hD, hDe⟩ := hD
  have hf : frobenius Cblk = 125 := by
    simp only [frobenius, Cblk, Fin.sum_univ_two]
    norm_num
    rw [show (15625 : ℝ) = 125 ^ 2 by norm_num]
    exact Real.sqrt_sq (by norm_num)
  have hs : Real.sqrt machineEps = 1 / 2 ^ 26 := by
    rw [show machineEps = (1 / 2 ^ 26) ^ 2 by unfold machineEps; norm_num]
    exact Real.sqrt_sq (by positivity)
  refine ⟨Cblk, ⟨Cblk, .modified 1 D 1 Cblk⟩, 1, D, 1, Cblk, !![1; 0], _, ?_, rfl, rfl,
    solve_id _ D Cblk rfl _, ?_⟩
  · refine ⟨rfl, .inr (.inr ⟨Cblk_npd, 1, D, 1, Cblk, ⟨?_, _, 1, rfl, ldl_Cblk, hD,
      eyeCols_one.symm⟩, rfl⟩)⟩
    ext i j; fin_cases i <;> fin_cases j <;> simp [Cblk]
  · intro h
    have h1 := congrFun (congrFun h 1) 0
    have e00 : D 0 0 ≠ 0 := by
      rw [hDe, hf, hs]
      simp [setBlock2, clamp2, clamp1, Matrix.mul_apply, Fin.sum_univ_two, Matrix.vecMul, dotProduct,
        diagonal_apply]
      norm_num
    have e10 : D 1 0 ≠ 0 := by
      rw [hDe, hf, hs]
      simp [setBlock2, clamp2, clamp1, Matrix.mul_apply, Fin.sum_univ_two, Matrix.vecMul, dotProduct,
        diagonal_apply]
      norm_num
    simp only [Matrix.one_mul, Matrix.transpose_one, Matrix.mul_one] at h1
    rw [← Matrix.mul_assoc, Matrix.mul_apply, Fin.sum_univ_two, mul_diagonal, mul_diagonal] at h1
    simp at h1
    exact h1.elim e10 e00

/-! ### `sqrt_solve` reads the wrong triangle -/

/-- Rank one, no interchange. -/
def Cones : Mat 2 2 := !![1, 1; 1, 1]

theorem ldl_Cones : Ldl Cones !![1, 0; 1, 1] !![1, 0; 0, 0] 1 where
  fact := by
    ext i j; fin_cases i <;> fin_cases j <;> simp [Cones, Matrix.mul_apply, Fin.sum_univ_two]
  lower := by intro i j; fin_cases i <;> fin_cases j <;> simp
  unit := by intro i; fin_cases i <;> simp
  symm := by ext i j; fin_cases i <;> fin_cases j <;> simp
  band := by intro i j; fin_cases i <;> fin_cases j <;> simp
  blocks := by intro i j k h1 h2; omega

theorem Cones_psd : Cones.PosSemidef := by
  have := posSemidef_vecMulVec_self_star (![1, 1] : Fin 2 → ℝ)
  have e : vecMulVec (![1, 1] : Fin 2 → ℝ) (star ![1, 1]) = Cones := by
    ext i j; fin_cases i <;> fin_cases j <;> simp [Cones, vecMulVec_apply]
  rwa [e] at this

theorem Cones_npd : ¬ Cones.PosDef := by
  intro h
  have := h.dotProduct_mulVec_pos (x := ![1, -1]) (by
    intro h; have := congrFun h 1; simp at this)
  simp [Cones, Matrix.mulVec, dotProduct, Fin.sum_univ_two] at this

/-- A singular positive semidefinite matrix factored without interchanges or `2 × 2` pivots. -/
theorem Cones_factored : ∃ D, ModChol Cones none !![1, 0; 1, 1] D 1 !![1, 0; 0, 0] := by
  obtain ⟨D, hD⟩ := modChol_of_ldl Cones _ _ _ Cones_psd.isHermitian ldl_Cones
  rw [eyeCols_one] at hD
  exact ⟨D, hD⟩

theorem Cones_ne : Cones ≠ 0 := by
  intro h; have := congrFun (congrFun h 0) 0; simp [Cones] at this

/-- **C41 fails for `sqrt_solve` of a degenerate matrix**, even without interchanges and `2 × 2`
pivots: `solve_triangular` is called without `lower=True` on a lower triangular matrix and ignores
everything below the diagonal. -/
theorem C41_sqrt_solve_violated :
    ∃ (C : Mat 2 2) (o : Cholesky 2) (L D D0 : Mat 2 2) (b x : Mat 2 1), C.PosSemidef ∧
      Cholesky.Init C false o ∧ o.f = .modified L D 1 D0 ∧ (∀ i j, i ≠ j → D0 i j = 0) ∧
      o.sqrtSolve (o.sqrtDot b false) false = .ok x ∧ x ≠ b ∧ o.sqrtDot x false ≠ o.sqrtDot b false := by
  obtain ⟨D, hM⟩ := Cones_factored
  let Lo : Mat 2 2 := !![1, 0; 1, 1]
  have hM' := hM
  obtain ⟨hCs, dl, p, hdl, hl, hloop, hPp⟩ := hM'
  obtain ⟨rfl, hd0, hdpos⟩ := modDelta_ok hdl
  obtain ⟨h1, h2, h3, h4, h5⟩ := modLoop_spec hl hloop
  have hdp := hdpos Cones_ne
  have hD0d : ∀ i j : Fin 2, i ≠ j → (!![1, 0; 0, 0] : Mat 2 2) i j = 0 := by
    intro i j; fin_cases i <;> fin_cases j <;> simp
  have hDpos : ∀ i, 0 < Real.sqrt (D i i) := by
    intro i
    have := h2.diag_nonneg (i := i)
    simp at this
    exact Real.sqrt_pos.mpr (by linarith)
  let S : Mat 2 2 := diagonal (fun i => Real.sqrt (D i i))
  have htri : triPart (Lo * S) false false = S := by
    ext i j
    fin_cases i <;> fin_cases j <;> simp [triPart, S, mul_diagonal, Lo]
  have hinv : S * diagonal (fun i => 1 / Real.sqrt (D i i)) = 1 := by
    rw [diagonal_mul_diagonal, ← diagonal_one]
    congr 1; funext i
    have := (hDpos i).ne'
    field_simp
  have hSi : S⁻¹ = diagonal (fun i => 1 / Real.sqrt (D i i)) := Matrix.inv_eq_right_inv hinv
  let o : Cholesky 2 := ⟨Cones, .modified Lo D 1 !![1, 0; 0, 0]⟩
  have hslv : ∀ c : Mat 2 1, o.sqrtSolve c false = .ok (S⁻¹ * c) := by
    intro c
    simp only [Cholesky.sqrtSolve, o, Bool.false_eq_true, if_false, Matrix.one_mul]
    show solveTri (Lo * S) c false false = _
    unfold solveTri
    rw [htri, if_pos]
    intro i
    simp only [S, diagonal_apply_eq]
    exact (hDpos i).ne'
  have hdt : ∀ c : Mat 2 1, o.sqrtDot c false = Lo * (S * c) := by
    intro c
    simp [Cholesky.sqrtDot, o, S, Lo]
  have hx10 : (S⁻¹ * (Lo * (S * (!![1; 0] : Mat 2 1)))) 1 0 ≠ 0 := by
    rw [hSi, diagonal_mul]
    simp [Matrix.mul_apply, Fin.sum_univ_two, S, diagonal_apply, Lo]
    exact ⟨(hDpos 1).ne', (hDpos 0).ne'⟩
  refine ⟨Cones, o, Lo, D, !![1, 0; 0, 0], !![1; 0],
    S⁻¹ * (Lo * (S * (!![1; 0] : Mat 2 1))), Cones_psd,
    ⟨rfl, .inr (.inr ⟨Cones_npd, _, _, _, _, hM, rfl⟩)⟩, rfl, hD0d, ?_, ?_, ?_⟩
  · rw [hdt, hslv]
  · intro h
    have := congrFun (congrFun h 1) 0
    exact hx10 (by rw [this]; simp)
  · intro h
    rw [hdt, hdt] at h
    apply hx10
    have hu : IsUnit Lo.det := ldl_unit hl
    have hSu : IsUnit S.det := Matrix.isUnit_det_of_right_inverse hinv
    have h6 := congrArg (fun A : Mat 2 1 => S⁻¹ * (Lo⁻¹ * A)) h
    simp only [← Matrix.mul_assoc] at h6
    rw [Matrix.mul_assoc S⁻¹ _ Lo, Matrix.nonsing_inv_mul _ hu,
      Matrix.mul_one, Matrix.nonsing_inv_mul _ hSu, Matrix.one_mul, Matrix.one_mul] at h6
    simp only [Matrix.mul_assoc] at h6
    rw [h6]; simp

/-! ### A pivot order that is not an involution -/

/-- Rank two; the pivot order is `[2,0,1]`. -/
noncomputable def Ccyc : Mat 3 3 := !![1 / 10, 1, 0; 1 / 10, 1 / 2, 1; 1, 0, 0] *
    diagonal ![100, 1, 0] * (!![1 / 10, 1, 0; 1 / 10, 1 / 2, 1; 1, 0, 0])ᵀ

/-- The permutation `[2,0,1]`. -/
def pcyc : Equiv.Perm (Fin 3) where
  toFun := ![2, 0, 1]
  invFun := ![1, 2, 0]
  left_inv := by decide
  right_inv := by decide

theorem ldl_Ccyc : Ldl Ccyc !![1 / 10, 1, 0; 1 / 10, 1 / 2, 1; 1, 0, 0]
    (diagonal ![100, 1, 0]) pcyc where
  fact := rfl
  lower := by intro i j; fin_cases i <;> fin_cases j <;> simp [pcyc]
  unit := by intro i; fin_cases i <;> simp [pcyc]
  symm := diagonal_transpose _
  band := by intro i j; fin_cases i <;> fin_cases j <;> simp
  blocks := by intro i j k; fin_cases i <;> fin_cases j <;> fin_cases k <;> simp

theorem Ccyc_psd : Ccyc.PosSemidef := by
  have h := (PosSemidef.diagonal (d := ![(100 : ℝ), 1, 0]) (by
    intro i; fin_cases i <;> simp)).mul_mul_conjTranspose_same
      (!![1 / 10, 1, 0; 1 / 10, 1 / 2, 1; 1, 0, 0] : Mat 3 3)
  rwa [conjTranspose_eq_transpose_of_trivial] at h

theorem Ccyc_npd : ¬ Ccyc.PosDef := by
  intro h
  have h1 := (Matrix.isUnit_iff_isUnit_det _).mp h.isUnit
  rw [Ccyc, Matrix.det_mul, Matrix.det_mul, det_diagonal] at h1
  simp [Fin.prod_univ_three] at h1

/-- Any successful triangular solve satisfies the triangular system. -/
theorem solveTri_sound {m : ℕ} {A : Mat n n} {b x : Mat n m} {lo u : Bool}
    (h : solveTri A b lo u = .ok x) : triPart A lo u * x = b := by
  unfold solveTri at h
  split_ifs at h with hd
  have hx : (triPart A lo u)⁻¹ * b = x := by injection h
  rw [← hx, ← Matrix.mul_assoc, Matrix.mul_nonsing_inv _ (triPart_det A lo u hd), Matrix.one_mul]

/-- **C41 fails when the interchanges compose to a permutation that is not an involution**:
`P.dot(L)` is then not triangular, and `solve` of a positive semidefinite matrix does not solve the
system with `C + E`, even without `2 × 2` pivots. -/
theorem C41_solve_perm_violated :
    ∃ (C : Mat 3 3) (o : Cholesky 3) (L D P D0 : Mat 3 3) (b : Mat 3 1), C.PosSemidef ∧
      Cholesky.Init C false o ∧ o.f = .modified L D P D0 ∧ (∀ i j, i ≠ j → D0 i j = 0) ∧
      ∀ x, o.solve b = .ok x → L * D * Lᵀ * x ≠ b := by
  obtain ⟨D, hM⟩ := modChol_of_ldl Ccyc _ _ _ Ccyc_psd.isHermitian ldl_Ccyc
  have hM' := hM
  obtain ⟨hCs, dl, p, hdl, -, hloop, -⟩ := hM'
  obtain ⟨rfl, hd0, hdpos⟩ := modDelta_ok hdl
  obtain ⟨h1, h2, h3, h4, h5⟩ := modLoop_spec ldl_Ccyc hloop
  have hD0d : ∀ i j : Fin 3, i ≠ j → (diagonal ![100, 1, 0] : Mat 3 3) i j = 0 :=
    fun i j hij => diagonal_apply_ne _ hij
  have hDd := diagonal_of D (h5 hD0d)
  have hne : Ccyc ≠ 0 := by
    intro h
    have := congrFun (congrFun h 2) 2
    simp [Ccyc, Matrix.mul_apply, Fin.sum_univ_three, diagonal_apply, Matrix.vecMul, dotProduct] at this
  have hdp := hdpos hne
  have hDpos : ∀ i, 0 < D i i := by
    intro i
    have := h2.diag_nonneg (i := i)
    simp at this
    linarith
  have hD1 : 1 ≤ D 1 1 := by
    have := h3.diag_nonneg (i := 1)
    simp at this
    linarith
  have hD100 : 100 ≤ D 0 0 := by
    have := h3.diag_nonneg (i := 0)
    simp at this
    linarith
  let L : Mat 3 3 := !![1 / 10, 1, 0; 1 / 10, 1 / 2, 1; 1, 0, 0]
  refine ⟨Ccyc, ⟨Ccyc, .modified L D (eyeCols pcyc) (diagonal ![100, 1, 0])⟩, L, D,
    eyeCols pcyc, diagonal ![100, 1, 0], !![1; 0; 0], Ccyc_psd,
    ⟨rfl, .inr (.inr ⟨Ccyc_npd, _, _, _, _, hM, rfl⟩)⟩, rfl, hD0d, ?_⟩
  intro x hx hsol
  have hPL : eyeCols pcyc * L = !![1 / 10, 1 / 2, 1; 1, 0, 0; 1 / 10, 1, 0] := by
    ext i j
    rw [eyeCols_mul]
    fin_cases i <;> fin_cases j <;> simp [pcyc, L]
  have hPb : eyeCols pcyc * (!![1; 0; 0] : Mat 3 1) = !![0; 0; 1] := by
    ext i j
    rw [eyeCols_mul]
    fin_cases i <;> fin_cases j <;> simp [pcyc]
  simp only [Cholesky.solve] at hx
  rw [hPL, hPb] at hx
  cases hy : solveTri (!![1 / 10, 1 / 2, 1; 1, 0, 0; 1 / 10, 1, 0] : Mat 3 3)
      (!![0; 0; 1] : Mat 3 1) true true with
  | error e => rw [hy] at hx; cases hx
  | ok y =>
    rw [hy] at hx
    have hx' : (do
      let w ← solveTri (!![1 / 10, 1 / 2, 1; 1, 0, 0; 1 / 10, 1, 0] : Mat 3 3)ᵀ
        (diagonal (fun i => 1 / D i i) * y) false true
      pure ((eyeCols pcyc)ᵀ * w) : Except Err (Mat 3 1)) = .ok x := hx
    cases hw : solveTri (!![1 / 10, 1 / 2, 1; 1, 0, 0; 1 / 10, 1, 0] : Mat 3 3)ᵀ
        (diagonal (fun i => 1 / D i i) * y) false true with
    | error e => rw [hw] at hx'; cases hx'
    | ok w =>
      rw [hw] at hx'
      have hxe : (eyeCols pcyc)ᵀ * w = x := by injection hx'
      have sy := solveTri_sound hy
      have sw := solveTri_sound hw
      have y0 := congrFun (congrFun sy 0) 0
      have y1 := congrFun (congrFun sy 1) 0
      have y2 := congrFun (congrFun sy 2) 0
      have w0 := congrFun (congrFun sw 0) 0
      have w1 := congrFun (congrFun sw 1) 0
      have w2 := congrFun (congrFun sw 2) 0
      simp [triPart, Matrix.mul_apply, Fin.sum_univ_three] at y0 y1 y2 w0 w1 w2
      have x0 := congrFun (congrFun hxe 0) 0
      have x1 := congrFun (congrFun hxe 1) 0
      have x2 := congrFun (congrFun hxe 2) 0
      simp [eyeCols, pcyc, Matrix.mul_apply, Fin.sum_univ_three] at x0 x1 x2
      have s2 := congrFun (congrFun hsol 2) 0
      rw [Matrix.mul_assoc, Matrix.mul_assoc, Matrix.mul_apply, Fin.sum_univ_three] at s2
      have e0 : L 2 0 = 1 := by simp [L]
      have e1 : L 2 1 = 0 := by simp [L]
      have e2 : L 2 2 = 0 := by simp [L]
      rw [e0, e1, e2, one_mul, zero_mul, zero_mul, add_zero, add_zero, hDd, diagonal_mul,
        Matrix.mul_apply, Fin.sum_univ_three] at s2
      simp only [transpose_apply] at s2
      have f0 : L 0 0 = 1 / 10 := by simp [L]
      have f1 : L 1 0 = 1 / 10 := by simp [L]
      have f2 : (!![1; 0; 0] : Mat 3 1) 2 0 = 0 := by simp
      rw [f0, f1, e0, f2] at s2
      rcases mul_eq_zero.mp s2 with h0 | h0
      · linarith
      · have hq : 0 < (D 2 2)⁻¹ := inv_pos.mpr (hDpos 2)
        have y1' : y 1 0 = 0 := by linarith
        have y2' : y 2 0 = 1 := by rw [y0, y1'] at y2; linarith
        rw [y2', mul_one] at w2
        rw [y1', mul_zero] at w1
        rw [y0, mul_zero] at w0
        rw [← x0, ← x1, ← x2] at h0
        linarith

/-! ### Hypotheses of the partial theorems are met -/

-- `C41_modified_solve_partial` and `C41_modified_sqrt_partial`: a singular matrix, no interchange
example : ∃ D, ModChol Cones none !![1, 0; 1, 1] D 1 !![1, 0; 0, 0] ∧ Cones ≠ 0 ∧
    (1 : Mat 2 2)ᵀ = 1 ∧ ∀ i j : Fin 2, i ≠ j → (!![1, 0; 0, 0] : Mat 2 2) i j = 0 := by
  obtain ⟨D, h⟩ := Cones_factored
  exact ⟨D, h, Cones_ne, Matrix.transpose_one, by intro i j; fin_cases i <;> fin_cases j <;> simp⟩

-- and one with an interchange
example : ∃ D, ModChol Cperm none !![1 / 10, 1; 1, 0] D (eyeCols (Equiv.swap 0 1)) !![100, 0; 0, 0] ∧
    (eyeCols (Equiv.swap 0 1) : Mat 2 2)ᵀ = eyeCols (Equiv.swap 0 1) := by
  obtain ⟨D, hD⟩ := modChol_of_ldl Cperm _ _ _ Cperm_psd.isHermitian ldl_Cperm
  refine ⟨D, hD, ?_⟩
  ext i j; fin_cases i <;> fin_cases j <;> simp [eyeCols]

-- `C41_solve` etc.: a positive definite matrix, dense and sparse
example (sp : Bool) : ∃ o, Cholesky.Init (!![2, 1; 1, 2] : Mat 2 2) sp o := by
  apply C41_exists
  have h1 : (1 : Mat 2 2).PosDef := PosDef.one
  have h2 := posSemidef_vecMulVec_self_star (![1, 1] : Fin 2 → ℝ)
  have e : (1 : Mat 2 2) + vecMulVec (![1, 1] : Fin 2 → ℝ) (star ![1, 1]) = !![2, 1; 1, 2] := by
    ext i j; fin_cases i <;> fin_cases j <;> simp [vecMulVec_apply] <;> norm_num
  rw [← e]
  exact h1.add_posSemidef h2

end Verif.Spd
