import Verif.Spd.Eigen

/-!
# C40: the operations of `EigenDecomposition` agree

Theorems about `Eigen.Init C none delta o`: any object the constructor can return for the matrix `C`
(no mass matrix) and lower bound `delta`; then the generalized object (`M` given).
-/

set_option linter.unusedSectionVars false

namespace Verif.Spd

open Matrix

variable {n m : ℕ}

theorem dot_eq (o : Eigen n) (b : Mat n m) : o.dot b = o.reconstruct * b := by
  simp [Eigen.dot, Eigen.reconstruct, Matrix.mul_assoc]

theorem solve_ok {o : Eigen n} {b x : Mat n m} {eps : Option ℝ} (h : o.solve b eps = .ok x) :
    0 < tolOf eps ∧
      x = spec o.V (fun i => if |o.d i| > tolOf eps then 1 / o.d i else 0) * b := by
  unfold Eigen.solve at h
  cases hd : diagPinv o.d eps with
  | error e => rw [hd] at h; cases h
  | ok X =>
    rw [hd] at h
    obtain ⟨h0, rfl⟩ := diagPinv_ok hd
    refine ⟨h0, ?_⟩
    have : o.V * (diagonal (fun i => if |o.d i| > tolOf eps then 1 / o.d i else 0) * (o.Vᵀ * b)) = x
      := by injection h
    rw [← this]; simp [spec, Matrix.mul_assoc]

theorem solve_total (o : Eigen n) (b : Mat n m) (eps : Option ℝ) (he : ∀ e, eps = some e → 0 < e) :
    ∃ x, o.solve b eps = .ok x := by
  obtain ⟨X, hX⟩ := (C39_total o.d eps).2 he
  exact ⟨_, by unfold Eigen.solve; rw [hX]; rfl⟩

/-- **C40.** The decomposition exists for every symmetric matrix and every admissible lower bound,
so that the theorems below are not vacuous. -/
theorem C40_exists (C : Mat n n) (hC : Cᵀ = C) (delta : Option ℝ)
    (hd : ∀ x, delta = some x → 0 ≤ x) : ∃ o, Eigen.Init C none delta o := by
  have hH : C.IsHermitian := by
    rw [IsHermitian, conjTranspose_eq_transpose_of_trivial, hC]
  obtain ⟨dl, hdl⟩ : ∃ dl, lowerBound C delta = .ok dl := by
    unfold lowerBound
    cases delta with
    | none =>
      refine ⟨Real.sqrt machineEps * frobenius C, ?_⟩
      have : Real.sqrt machineEps * frobenius C ≥ 0 :=
        mul_nonneg (Real.sqrt_nonneg _) (Real.sqrt_nonneg _)
      simp [this]
    | some x => exact ⟨x, by simp [hd x rfl]⟩
  let U : Mat n n := (hH.eigenvectorUnitary : Matrix (Fin n) (Fin n) ℝ)
  have hU : Uᵀ * U = 1 := by
    have := (Matrix.mem_unitaryGroup_iff'.mp hH.eigenvectorUnitary.2)
    simpa [Matrix.star_eq_conjTranspose, conjTranspose_eq_transpose_of_trivial] using this
  have hE : C * U = U * diagonal hH.eigenvalues := by
    have h1 := hH.spectral_theorem
    rw [Unitary.conjStarAlgAut_apply] at h1
    have h2 : C = U * diagonal hH.eigenvalues * Uᵀ := by
      conv_lhs => rw [h1]
      rfl
    conv_lhs => rw [h2]
    rw [Matrix.mul_assoc, hU, Matrix.mul_one]
  let s := Tuple.sort hH.eigenvalues
  have hs : Monotone (hH.eigenvalues ∘ s) := Tuple.monotone_sort _
  let W : Mat n n := Matrix.of fun i j => U i (s j)
  have hW : Wᵀ * W = 1 := by
    ext i j
    have := congrFun (congrFun hU (s i)) (s j)
    simpa [Matrix.mul_apply, Matrix.one_apply, W] using this
  have hWE : C * W = W * diagonal (hH.eigenvalues ∘ s) := by
    ext i j
    have := congrFun (congrFun hE i) (s j)
    rw [mul_diagonal] at this
    rw [mul_diagonal]
    simpa [Matrix.mul_apply, W] using this
  exact ⟨_, dl, _, W, hdl, ⟨hs, hW, hWE⟩, rfl⟩

/-- **C40 (what is represented).** The matrix represented is `C` with its eigenvalues below the
lower bound `delta` raised to `delta`: same eigenvectors, every eigenvalue `μ` becomes
`max μ delta`.  It is symmetric, at least `delta` and at least `C`. -/
theorem C40_represents (C : Mat n n) (delta : Option ℝ) (o : Eigen n)
    (h : Eigen.Init C none delta o) :
    (∀ μ x, IsEigen C μ x → o.reconstruct *ᵥ x = max μ o.delta • x) ∧
    o.reconstructᵀ = o.reconstruct ∧
    (o.reconstruct - o.delta • 1).PosSemidef ∧ (o.reconstruct - C).PosSemidef := by
  obtain ⟨h0, -, hV, a, -, hC, hd⟩ := init_std h
  rw [reconstruct_eq]
  refine ⟨fun μ x hx => ?_, spec_transpose _ _, ?_, ?_⟩
  · obtain ⟨-, hx⟩ := hx
    rw [hC] at hx
    exact spec_apply_eigen hV a o.d (fun t => max t o.delta) hd hx
  · rw [← spec_const hV, spec_sub]
    exact spec_psd _ _ fun i => by rw [hd]; exact sub_nonneg.mpr (le_max_right _ _)
  · conv => enter [1, 2]; rw [hC]
    rw [spec_sub]
    exact spec_psd _ _ fun i => by rw [hd]; exact sub_nonneg.mpr (le_max_left _ _)

/-- **C40.** If `C ≥ delta` (for `delta=0`: `C` positive semidefinite), `reconstruct` returns `C`. -/
theorem C40_reconstruct (C : Mat n n) (delta : Option ℝ) (o : Eigen n)
    (h : Eigen.Init C none delta o) (hC : (C - o.delta • (1 : Mat n n)).PosSemidef) :
    o.reconstruct = C := by
  obtain ⟨h0, -, hV, a, -, hCa, hd⟩ := init_std h
  rw [reconstruct_eq]
  conv_rhs => rw [hCa]
  rw [hCa, ← spec_const hV, spec_sub, spec_psd_iff hV] at hC
  congr 1; funext i
  rw [hd, max_eq_left (sub_nonneg.mp (hC i))]

/-- **C40.** `dot(b)` is the represented matrix times `b`, and `sqrt_dot` composed with its
transpose is `dot`. -/
theorem C40_dot (C : Mat n n) (delta : Option ℝ) (o : Eigen n) (h : Eigen.Init C none delta o)
    (b : Mat n m) :
    o.dot b = o.reconstruct * b ∧ o.sqrtDot (o.sqrtDot b true) false = o.dot b := by
  obtain ⟨h0, -, hV, a, -, hC, hd⟩ := init_std h
  refine ⟨dot_eq o b, ?_⟩
  have hnn : ∀ i, 0 ≤ o.d i := fun i => by rw [hd]; exact le_trans h0 (le_max_right _ _)
  simp only [Eigen.sqrtDot, Eigen.dot, if_true, Bool.false_eq_true, if_false]
  rw [← Matrix.mul_assoc (diagonal _) (diagonal _), diagonal_mul_diagonal]
  congr 3; funext i
  exact Real.mul_self_sqrt (hnn i)

/-- **C40.** `sqrt_dot(·,transpose)` is the adjoint of `sqrt_dot`. -/
theorem C40_adjoint (o : Eigen n) (x : Mat n m) (y : Mat n m) :
    (o.sqrtDot x false)ᵀ * y = xᵀ * o.sqrtDot y true := by
  simp [Eigen.sqrtDot, Matrix.transpose_mul, Matrix.mul_assoc]

/-- **C40.** If the represented matrix exceeds the tolerance (because the lower bound does or because
`C` does), `solve` inverts `dot` on both sides. -/
theorem C40_solve (C : Mat n n) (delta : Option ℝ) (o : Eigen n) (h : Eigen.Init C none delta o)
    (eps : Option ℝ)
    (hgap : tolOf eps < o.delta ∨ (C - tolOf eps • (1 : Mat n n)).PosDef)
    (b x : Mat n m) (hx : o.solve b eps = .ok x) :
    o.dot x = b ∧ o.solve (o.dot b) eps = .ok b := by
  obtain ⟨h0, -, hV, a, -, hC, hd⟩ := init_std h
  obtain ⟨he, rfl⟩ := solve_ok hx
  have hbig : ∀ i, tolOf eps < o.d i := by
    intro i
    rw [hd]
    rcases hgap with h1 | h1
    · exact lt_of_lt_of_le h1 (le_max_right _ _)
    · refine lt_of_lt_of_le ?_ (le_max_left _ _)
      have h2 := h1.dotProduct_mulVec_pos (col_ne_zero hV i)
      rw [hC, Matrix.sub_mulVec, spec_mulVec_col hV, Matrix.smul_mulVec, one_mulVec,
        ← sub_smul, dotProduct_smul, smul_eq_mul] at h2
      have h3 : star (fun r => o.V r i) ⬝ᵥ (fun r => o.V r i) = 1 := by
        have := congrFun (congrFun hV i) i
        simpa [Matrix.mul_apply, dotProduct] using this
      rw [h3, mul_one] at h2
      linarith
  have hone : ∀ i, o.d i * (if |o.d i| > tolOf eps then 1 / o.d i else 0) = 1 := by
    intro i
    have hp : 0 < o.d i := lt_trans he (hbig i)
    rw [if_pos (by rw [abs_of_pos hp]; exact hbig i)]
    field_simp
  have hi1 : spec o.V o.d * spec o.V (fun i => if |o.d i| > tolOf eps then 1 / o.d i else 0) = 1 := by
    rw [spec_mul hV, show (fun i => o.d i * _) = fun _ => (1 : ℝ) from funext hone, spec_const hV,
      one_smul]
  constructor
  · rw [dot_eq, reconstruct_eq, ← Matrix.mul_assoc, hi1, Matrix.one_mul]
  · obtain ⟨y, hy⟩ := solve_total o (o.dot b) eps (by
      intro e hE; subst hE; exact he)
    rw [hy]
    obtain ⟨-, rfl⟩ := solve_ok hy
    rw [dot_eq, reconstruct_eq, ← Matrix.mul_assoc, mul_eq_one_comm.mp hi1, Matrix.one_mul]

/-- **C40.** In general `solve` applies the Moore-Penrose inverse of the represented matrix, provided
that matrix has no nonzero eigenvalue of modulus `≤ eps`. -/
theorem C40_solve_pinv (C : Mat n n) (delta : Option ℝ) (o : Eigen n)
    (h : Eigen.Init C none delta o) (eps : Option ℝ) (he : ∀ e, eps = some e → 0 < e)
    (hgap : GapBelow o.reconstruct (tolOf eps)) :
    ∃ X, IsMoorePenrose o.reconstruct X ∧ ∀ (m : ℕ) (b : Mat n m), o.solve b eps = .ok (X * b) := by
  obtain ⟨h0, -, hV, a, -, hC, hd⟩ := init_std h
  rw [reconstruct_eq] at hgap ⊢
  refine ⟨spec o.V (fun i => if |o.d i| > tolOf eps then 1 / o.d i else 0), ?_, fun m b => ?_⟩
  · have hg : ∀ i, o.d i = 0 ∨ tolOf eps < |o.d i| := fun i =>
      hgap _ _ ⟨col_ne_zero hV i, spec_mulVec_col hV _ i⟩
    apply spec_mp hV
    · intro i
      rcases hg i with h1 | h1
      · rw [h1]; simp
      · have hx : o.d i ≠ 0 := by
          intro hz
          rw [hz, abs_zero] at h1
          have : 0 < tolOf eps := by
            cases eps with
            | none => exact machineEps_pos
            | some e => exact he e rfl
          linarith
        rw [if_pos h1]; field_simp
    · intro i
      rcases hg i with h1 | h1
      · rw [h1]; simp
      · by_cases hx : o.d i = 0
        · rw [hx]; simp
        · rw [if_pos h1]; field_simp
  · obtain ⟨y, hy⟩ := solve_total o b eps he
    rw [hy]
    obtain ⟨-, rfl⟩ := solve_ok hy
    rfl

/-- **C40.** With `delta = 0` and a positive semidefinite `C` without nonzero eigenvalues of modulus
`≤ eps`, `solve` applies the Moore-Penrose inverse of `C`. -/
theorem C40_solve_psd (C : Mat n n) (hC : C.PosSemidef) (o : Eigen n)
    (h : Eigen.Init C none (some 0) o) (eps : Option ℝ) (he : ∀ e, eps = some e → 0 < e)
    (hgap : GapBelow C (tolOf eps)) :
    ∃ X, IsMoorePenrose C X ∧ ∀ (m : ℕ) (b : Mat n m), o.solve b eps = .ok (X * b) := by
  have hd : o.delta = 0 := (init_std h).2.1 0 rfl
  have hr : o.reconstruct = C := C40_reconstruct C (some 0) o h (by rw [hd]; simpa using hC)
  have := C40_solve_pinv C (some 0) o h eps he (by rw [hr]; exact hgap)
  rwa [hr] at this

/-- **C40.** If the square roots of the represented eigenvalues exceed the tolerance, `sqrt_solve`
inverts `sqrt_dot`, also transposed. -/
theorem C40_sqrt_solve (C : Mat n n) (delta : Option ℝ) (o : Eigen n)
    (h : Eigen.Init C none delta o) (eps : Option ℝ) (he : ∀ e, eps = some e → 0 < e)
    (hgap : tolOf eps < Real.sqrt o.delta) (b : Mat n m) (tr : Bool) :
    o.sqrtSolve (o.sqrtDot b tr) tr eps = .ok b ∧
      ∃ x, o.sqrtSolve b tr eps = .ok x ∧ o.sqrtDot x tr = b := by
  obtain ⟨h0, -, hV, a, -, hC, hd⟩ := init_std h
  obtain ⟨X, hX⟩ := (C39_total (fun i => Real.sqrt (o.d i)) eps).2 he
  obtain ⟨hpos, hXe⟩ := diagPinv_ok hX
  have hbig : ∀ i, tolOf eps < Real.sqrt (o.d i) := fun i =>
    lt_of_lt_of_le hgap (Real.sqrt_le_sqrt (by rw [hd]; exact le_max_right _ _))
  have hinv := (C39_exact _ eps X hX (fun i => .inr (by
    rw [abs_of_nonneg (Real.sqrt_nonneg _)]; exact hbig i))).2 (fun i =>
      (lt_trans hpos (hbig i)).ne')
  have hVV := ortho_comm hV
  cases tr
  · refine ⟨?_, X * (o.Vᵀ * b), ?_, ?_⟩
    · simp only [Eigen.sqrtSolve, Eigen.sqrtDot, hX, Bool.false_eq_true, if_false]
      show Except.ok _ = _
      rw [← Matrix.mul_assoc o.Vᵀ o.V, hV, Matrix.one_mul, ← Matrix.mul_assoc, hinv.2,
        Matrix.one_mul]
    · simp only [Eigen.sqrtSolve, hX, Bool.false_eq_true, if_false]; rfl
    · simp only [Eigen.sqrtDot, Bool.false_eq_true, if_false]
      rw [← Matrix.mul_assoc (diagonal _) X, hinv.1, Matrix.one_mul, ← Matrix.mul_assoc, hVV,
        Matrix.one_mul]
  · refine ⟨?_, o.V * (X * b), ?_, ?_⟩
    · simp only [Eigen.sqrtSolve, Eigen.sqrtDot, hX, if_true]
      show Except.ok _ = _
      rw [← Matrix.mul_assoc X (diagonal _), hinv.2, Matrix.one_mul, ← Matrix.mul_assoc, hVV,
        Matrix.one_mul]
    · simp only [Eigen.sqrtSolve, hX, if_true]; rfl
    · simp only [Eigen.sqrtDot, if_true]
      rw [← Matrix.mul_assoc o.Vᵀ o.V, hV, Matrix.one_mul, ← Matrix.mul_assoc, hinv.1,
        Matrix.one_mul]

/-! ## Rank, range and null space -/

/-- **C40.** Eigenvalues are stored in decreasing order. -/
theorem C40_sorted (C : Mat n n) (delta : Option ℝ) (o : Eigen n)
    (h : Eigen.Init C none delta o) : Antitone o.d := by
  obtain ⟨h0, -, hV, a, ha, hC, hd⟩ := init_std h
  intro i j hij
  rw [hd, hd]; exact max_le_max_right _ (ha hij)

theorem spec_rank {V : Mat n n} (hV : Vᵀ * V = 1) (a : Fin n → ℝ) :
    (spec V a).rank = Fintype.card {i // a i ≠ 0} := by
  have hu : IsUnit V := by
    rw [Matrix.isUnit_iff_isUnit_det]
    exact Matrix.isUnit_det_of_left_inverse hV
  have hut : IsUnit Vᵀ := by
    rw [Matrix.isUnit_iff_isUnit_det]
    exact Matrix.isUnit_det_of_left_inverse (ortho_comm hV)
  rw [spec, Matrix.rank_mul_eq_left_of_isUnit_det _ _ ((Matrix.isUnit_iff_isUnit_det _).mp hut),
    Matrix.rank_mul_eq_right_of_isUnit_det _ _ ((Matrix.isUnit_iff_isUnit_det _).mp hu),
    Matrix.rank_diagonal]

/-- **C40.** `get_rank(tol)` is the rank of the represented matrix if that has no nonzero eigenvalue
of modulus `≤ tol`. -/
theorem C40_rank (C : Mat n n) (delta : Option ℝ) (o : Eigen n) (h : Eigen.Init C none delta o)
    (tol : ℝ) (ht : 0 ≤ tol) (hgap : GapBelow o.reconstruct tol) :
    o.rank tol = o.reconstruct.rank := by
  obtain ⟨h0, -, hV, a, ha, hC, hd⟩ := init_std h
  rw [reconstruct_eq] at hgap ⊢
  rw [spec_rank hV, Eigen.rank, Eigen.rangeIdx, Fintype.card_subtype]
  congr 1
  ext i
  simp only [Finset.mem_filter, Finset.mem_univ, true_and]
  constructor
  · intro hi hz; rw [hz, abs_zero] at hi; linarith
  · intro hi
    exact (hgap _ _ ⟨col_ne_zero hV i, spec_mulVec_col hV _ i⟩).resolve_left hi

/-- **C40.** The columns of `get_nullspace` and `get_range` are orthonormal, mutually orthogonal, and
if the represented matrix has no nonzero eigenvalue of modulus `≤ tol`, then the null space columns
are mapped to zero and together they span: `N N' + R R' = I`. -/
theorem C40_nullspace (C : Mat n n) (delta : Option ℝ) (o : Eigen n)
    (h : Eigen.Init C none delta o) (tol : ℝ) (ht : 0 < tol)
    (hgap : GapBelow o.reconstruct tol) :
    (o.nullspace tol)ᵀ * o.nullspace tol = 1 ∧ (o.range tol)ᵀ * o.range tol = 1 ∧
    (o.range tol)ᵀ * o.nullspace tol = 0 ∧
    o.reconstruct * o.nullspace tol = 0 ∧
    o.nullspace tol * (o.nullspace tol)ᵀ + o.range tol * (o.range tol)ᵀ = 1 := by
  obtain ⟨h0, -, hV, a, ha, hC, hd⟩ := init_std h
  rw [reconstruct_eq] at hgap ⊢
  have hg : ∀ i, o.d i = 0 ∨ tol < |o.d i| := fun i =>
    hgap _ _ ⟨col_ne_zero hV i, spec_mulVec_col hV _ i⟩
  have hn : ∀ i, i ∈ o.nullIdx tol ↔ o.d i = 0 := by
    intro i
    simp only [Eigen.nullIdx, Finset.mem_filter, Finset.mem_univ, true_and]
    constructor
    · intro hi; rcases hg i with h1 | h1
      · exact h1
      · linarith
    · intro hi; rw [hi]; simpa using ht
  have hr : ∀ i, i ∈ o.rangeIdx tol ↔ o.d i ≠ 0 := by
    intro i
    simp only [Eigen.rangeIdx, Finset.mem_filter, Finset.mem_univ, true_and]
    constructor
    · intro hi hz; rw [hz, abs_zero] at hi; linarith
    · intro hi; exact (hg i).resolve_left hi
  have hent : ∀ i j, (∑ r, o.V r i * o.V r j) = if i = j then 1 else 0 := by
    intro i j
    have := congrFun (congrFun hV i) j
    simpa [Matrix.mul_apply, Matrix.one_apply] using this
  refine ⟨?_, ?_, ?_, ?_, ?_⟩
  · ext i j
    simp only [Matrix.mul_apply, transpose_apply, Eigen.nullspace, of_apply, Matrix.one_apply, hent,
      Subtype.ext_iff]
  · ext i j
    simp only [Matrix.mul_apply, transpose_apply, Eigen.range, of_apply, Matrix.one_apply, hent,
      Subtype.ext_iff]
  · ext i j
    simp only [Matrix.mul_apply, transpose_apply, Eigen.range, Eigen.nullspace, of_apply, hent,
      Matrix.zero_apply]
    rw [if_neg]
    intro he
    exact (hr i).1 i.2 (he ▸ (hn j).1 j.2)
  · ext i j
    have h1 := congrFun (spec_mulVec_col hV o.d j.1) i
    rw [(hn j).1 j.2, zero_smul] at h1
    simpa [Matrix.mul_apply, Matrix.mulVec, dotProduct, Eigen.nullspace] using h1
  · ext i j
    have h1 := congrFun (congrFun (ortho_comm hV) i) j
    rw [← h1]
    simp only [Matrix.add_apply, Matrix.mul_apply, transpose_apply, Eigen.range, Eigen.nullspace,
      of_apply]
    rw [Finset.sum_coe_sort (o.nullIdx tol) (fun r => o.V i r * o.V j r),
      Finset.sum_coe_sort (o.rangeIdx tol) (fun r => o.V i r * o.V j r),
      ← Finset.sum_union]
    · apply Finset.sum_congr _ (fun _ _ => rfl)
      ext r
      simp only [Finset.mem_union, Finset.mem_univ, iff_true, hn, hr]
      exact em _
    · rw [Finset.disjoint_left]
      intro r h1 h2
      exact (hr r).1 h2 ((hn r).1 h1)

/-! ## The generalized decomposition -/

theorem init_gen {C M : Mat n n} {delta : Option ℝ} {o : Eigen n}
    (h : Eigen.Init C (some M) delta o) :
    0 ≤ o.delta ∧ o.Vᵀ * M * o.V = 1 ∧
      ∃ a : Fin n → ℝ, C * o.V = M * o.V * diagonal a ∧ ∀ i, o.d i = max (a i) o.delta := by
  obtain ⟨dl, d, V, hl, he, rfl⟩ := h
  obtain ⟨h0, h1⟩ := lowerBound_ok hl
  refine ⟨h0, ?_, fun i => d i.rev, ?_, ?_⟩
  · ext i j
    have := congrFun (congrFun he.ortho i.rev) j.rev
    simp only [postEigh, Matrix.mul_apply, transpose_apply, of_apply, Matrix.one_apply,
      Fin.rev_inj] at this ⊢
    exact this
  · ext i j
    have := congrFun (congrFun he.eig i) j.rev
    rw [mul_diagonal] at this
    rw [mul_diagonal]
    simp only [postEigh, Matrix.mul_apply, of_apply] at this ⊢
    exact this
  · intro i
    simp only [postEigh]
    split
    · rename_i hle; rw [max_eq_right hle]
    · rename_i hle; rw [max_eq_left (le_of_lt (not_le.mp hle))]

/-- **C40 (generalized).** If no eigenvalue was raised (`C - delta M` positive semidefinite) and all
exceed the tolerance, `solve(b)` solves `C x = b` and `solve(b,generalized=True)` solves
`C x = M b`. -/
theorem C40_generalized_solve (C M : Mat n n) (delta : Option ℝ) (o : Eigen n)
    (h : Eigen.Init C (some M) delta o) (eps : Option ℝ)
    (hlow : (C - o.delta • M).PosSemidef) (hgap : (C - tolOf eps • M).PosDef)
    (b x : Mat n m) :
    (o.solve b eps = .ok x → C * x = b) ∧ (o.solveGen M b eps = .ok x → C * x = M * b) := by
  obtain ⟨h0, hV, a, hC, hd⟩ := init_gen h
  have hVu : o.V * (o.Vᵀ * M) = 1 := mul_eq_one_comm.mp hV
  have hMu : M * (o.V * o.Vᵀ) = 1 := mul_eq_one_comm.mp (by rw [Matrix.mul_assoc]; exact hVu)
  have hq : ∀ (s : ℝ) (i : Fin n), (fun r => o.V r i) ⬝ᵥ ((C - s • M) *ᵥ (fun r => o.V r i))
      = a i - s := by
    intro s i
    have h1 : o.Vᵀ * (C - s • M) * o.V = diagonal a - s • (1 : Mat n n) := by
      rw [Matrix.mul_sub, Matrix.sub_mul, Matrix.mul_assoc, hC, ← Matrix.mul_assoc,
        ← Matrix.mul_assoc, hV, Matrix.one_mul, Matrix.mul_smul, Matrix.smul_mul, hV]
    have h2 := congrFun (congrFun h1 i) i
    simp only [Matrix.sub_apply, diagonal_apply_eq, Matrix.smul_apply, one_apply_eq, smul_eq_mul,
      mul_one] at h2
    rw [← h2, Matrix.mul_assoc]
    rfl
  have hne : ∀ i, (fun r => o.V r i) ≠ 0 := by
    intro i hz
    have h1 := congrFun (congrFun hV i) i
    rw [Matrix.mul_apply, one_apply_eq, Finset.sum_eq_zero] at h1
    · exact zero_ne_one h1
    · intro r _; rw [show o.V r i = 0 from congrFun hz r, mul_zero]
  have hle : ∀ i, o.d i = a i := by
    intro i
    have h1 := hlow.dotProduct_mulVec_nonneg (fun r => o.V r i)
    rw [star_trivial, hq] at h1
    rw [hd, max_eq_left (by linarith)]
  have hgt : ∀ i, tolOf eps < o.d i := by
    intro i
    have h1 := hgap.dotProduct_mulVec_pos (hne i)
    rw [star_trivial, hq] at h1
    rw [hle]; linarith
  have hkey : 0 < tolOf eps → ∀ (c : Mat n m), C * (o.V * (diagonal (fun i =>
      if |o.d i| > tolOf eps then 1 / o.d i else 0) * (o.Vᵀ * c))) = c := by
    intro he c
    have hone : diagonal a * diagonal (fun i => if |o.d i| > tolOf eps then 1 / o.d i else 0)
        = (1 : Mat n n) := by
      rw [diagonal_mul_diagonal, ← diagonal_one]
      congr 1; funext i
      have hp : 0 < o.d i := lt_trans he (hgt i)
      rw [if_pos (by rw [abs_of_pos hp]; exact hgt i), hle]
      have : a i ≠ 0 := by rw [hle] at hp; exact hp.ne'
      field_simp
    calc _ = (C * o.V) * diagonal (fun i => if |o.d i| > tolOf eps then 1 / o.d i else 0)
          * o.Vᵀ * c := by simp only [Matrix.mul_assoc]
      _ = M * o.V * (diagonal a * diagonal (fun i => if |o.d i| > tolOf eps then 1 / o.d i else 0))
          * o.Vᵀ * c := by rw [hC]; simp only [Matrix.mul_assoc]
      _ = M * (o.V * o.Vᵀ) * c := by rw [hone]; simp only [Matrix.mul_assoc, Matrix.one_mul]
      _ = c := by rw [hMu, Matrix.one_mul]
  constructor
  · intro hx
    unfold Eigen.solve at hx
    cases hD : diagPinv o.d eps with
    | error e => rw [hD] at hx; cases hx
    | ok X =>
      rw [hD] at hx
      obtain ⟨he, rfl⟩ := diagPinv_ok hD
      have hx' : o.V * (diagonal (fun i => if |o.d i| > tolOf eps then 1 / o.d i else 0)
        * (o.Vᵀ * b)) = x := by injection hx
      rw [← hx', hkey he]
  · intro hx
    unfold Eigen.solveGen at hx
    cases hD : diagPinv o.d eps with
    | error e => rw [hD] at hx; cases hx
    | ok X =>
      rw [hD] at hx
      obtain ⟨he, rfl⟩ := diagPinv_ok hD
      have hx' : o.V * (diagonal (fun i => if |o.d i| > tolOf eps then 1 / o.d i else 0)
        * (o.Vᵀ * (M * b))) = x := by injection hx
      rw [← hx', hkey he]

end Verif.Spd
