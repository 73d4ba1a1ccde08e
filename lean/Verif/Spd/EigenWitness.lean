import Verif.Spd.EigenProps
import Mathlib.Analysis.SpecialFunctions.Pow.Real

/-!
# C40: where the code departs from the property, and concrete instances
-/

namespace Verif.Spd

open Matrix

/-- A singular positive semidefinite matrix. -/
def Cex : Mat 2 2 := !![1, 0; 0, 0]

theorem sqrt_machineEps : Real.sqrt machineEps = 1 / 2 ^ 26 := by
  rw [show machineEps = (1 / 2 ^ 26) ^ 2 by unfold machineEps; norm_num]
  exact Real.sqrt_sq (by positivity)

theorem frob_Cex : frobenius Cex = 1 := by
  simp [frobenius, Cex, Fin.sum_univ_two]

theorem eigh_Cex : Eigh Cex ![0, 1] !![0, 1; 1, 0] where
  sorted := by
    intro i j hij
    fin_cases i <;> fin_cases j <;> simp_all
  ortho := by ext i j; fin_cases i <;> fin_cases j <;> simp [Matrix.mul_apply, Fin.sum_univ_two]
  eig := by
    ext i j; fin_cases i <;> fin_cases j <;> simp [Cex, Matrix.mul_apply, Fin.sum_univ_two]

/-- The object built for `Cex` with the default lower bound `2^-26`. -/
noncomputable def oex : Eigen 2 :=
  ⟨Cex, none, 1 / 2 ^ 26, (postEigh (1 / 2 ^ 26) ![0, 1] !![0, 1; 1, 0]).1,
    (postEigh (1 / 2 ^ 26) ![0, 1] !![0, 1; 1, 0]).2⟩

theorem oex_init : Eigen.Init Cex none none oex := by
  refine ⟨1 / 2 ^ 26, ![0, 1], !![0, 1; 1, 0], ?_, eigh_Cex, rfl⟩
  unfold lowerBound
  simp only [sqrt_machineEps, frob_Cex]
  norm_num

theorem oex_d : oex.d 0 = 1 ∧ oex.d 1 = 1 / 2 ^ 26 := by
  constructor
  · simp [oex, postEigh]
    norm_num
  · simp [oex, postEigh]

theorem oex_V : oex.V = 1 := by
  ext i j; fin_cases i <;> fin_cases j <;> simp [oex, postEigh]

theorem Cex_psd : Cex.PosSemidef := by
  have : Cex = diagonal ![1, 0] := by ext i j; fin_cases i <;> fin_cases j <;> simp [Cex]
  rw [this]
  exact PosSemidef.diagonal (by intro i; fin_cases i <;> simp)

theorem Cex_gap (e : ℝ) (he : e < 1) : GapBelow Cex e := by
  rintro μ x ⟨hx, h⟩
  have h0 := congrFun h 0
  have h1 := congrFun h 1
  simp [Cex, Matrix.mulVec, dotProduct, Fin.sum_univ_two] at h0 h1
  by_cases hx0 : x 0 = 0
  swap
  · right
    have : μ = 1 := by
      have h2 : (μ - 1) * x 0 = 0 := by linarith
      rcases mul_eq_zero.mp h2 with h3 | h3
      · linarith
      · exact absurd h3 hx0
    rw [this]; simpa using he
  · rcases h1 with h1 | h1
    · exact .inl h1
    · exact absurd (by funext i; fin_cases i <;> simp [hx0, h1]) hx

theorem Cex_mp : IsMoorePenrose Cex Cex := by
  constructor <;> ext i j <;> fin_cases i <;> fin_cases j <;>
    simp [Cex, Matrix.mul_apply, Fin.sum_univ_two]

theorem Cex_rank : Cex.rank = 1 := by
  have : Cex = diagonal ![1, 0] := by ext i j; fin_cases i <;> fin_cases j <;> simp [Cex]
  rw [this, Matrix.rank_diagonal, Fintype.card_subtype]
  rw [show (Finset.univ.filter fun i : Fin 2 => (![1, 0] : Fin 2 → ℝ) i ≠ 0) = {0} by
    ext i; fin_cases i <;> simp]
  rfl

/-- **C40 fails by default.** With the default lower bound, `solve` of a singular positive
semidefinite matrix is not its pseudo-inverse: a zero eigenvalue is raised to
`sqrt(eps)*norm(C)`, which is above the cut-off of `solve`, and the component is multiplied by its
reciprocal. -/
theorem C40_pinv_violated :
    ¬ ∀ (n : ℕ) (C : Mat n n) (o : Eigen n), C.PosSemidef → Eigen.Init C none none o →
      GapBelow C (tolOf none) →
      ∃ X, IsMoorePenrose C X ∧ ∀ (m : ℕ) (b : Mat n m), o.solve b none = .ok (X * b) := by
  intro hall
  obtain ⟨X, hX, hs⟩ := hall 2 Cex oex Cex_psd oex_init
    (Cex_gap _ (by simp [tolOf, machineEps]; norm_num))
  have hXe := hX.unique Cex_mp
  subst hXe
  obtain ⟨-, h2⟩ := solve_ok (hs 1 !![0; 1])
  have h3 := congrFun (congrFun h2 1) 0
  have hbig : |oex.d 1| > tolOf none := by
    rw [oex_d.2]; simp [tolOf, machineEps]; norm_num
  simp [Cex, spec, oex_V, Matrix.mul_apply, Fin.sum_univ_two, oex_d.2, tolOf, machineEps] at h3
  norm_num at h3

/-- **C40 fails by default.** With the default lower bound, `get_rank()` (tolerance `1e-13`) of a
singular matrix is not its rank, and `get_nullspace()` is empty. -/
theorem C40_rank_violated :
    ¬ ∀ (n : ℕ) (C : Mat n n) (o : Eigen n), C.PosSemidef → Eigen.Init C none none o →
      GapBelow C (1 / 10 ^ 13) → o.rank (1 / 10 ^ 13) = C.rank := by
  intro hall
  have h := hall 2 Cex oex Cex_psd oex_init (Cex_gap _ (by norm_num))
  rw [Cex_rank] at h
  have : oex.rangeIdx (1 / 10 ^ 13) = Finset.univ := by
    ext i
    simp only [Eigen.rangeIdx, Finset.mem_filter, Finset.mem_univ, true_and, iff_true]
    fin_cases i
    · show |oex.d 0| > _
      rw [oex_d.1]; norm_num
    · show |oex.d 1| > _
      rw [oex_d.2, abs_of_pos (by positivity)]; norm_num
  rw [Eigen.rank, this] at h
  simp at h

/-- The generalized decomposition of `C = [4]`, `M = [4]`: eigenvalue 1, eigenvector `[1/2]`. -/
noncomputable def ogen : Eigen 1 := ⟨!![4], some !![4], 0, ![1], !![1 / 2]⟩

theorem ogen_init : Eigen.Init !![4] (some !![4]) (some 0) ogen := by
  refine ⟨0, ![1], !![1 / 2], by simp [lowerBound], ⟨?_, ?_, ?_⟩, ?_⟩
  · intro i j _; fin_cases i; fin_cases j; simp
  · ext i j; fin_cases i; fin_cases j; simp [Matrix.mul_apply]; norm_num
  · ext i j; fin_cases i; fin_cases j; simp [Matrix.mul_apply]
  · unfold ogen postEigh
    congr 1
    · funext i; fin_cases i; simp; 
    · ext i j; fin_cases i; fin_cases j; simp

/-- **C40 fails with a mass matrix.** For the generalized decomposition `dot(b)` is not `C b`
(it is `M⁻¹ C M⁻¹ b`), `reconstruct` does not return `C`, `solve` does not invert `dot` and
`sqrt_solve` does not invert `sqrt_dot`, although no eigenvalue was modified. -/
theorem C40_generalized_violated :
    ∃ (C M : Mat 1 1) (o : Eigen 1) (b : Mat 1 1), C.PosDef ∧ M.PosDef ∧
      Eigen.Init C (some M) (some 0) o ∧ (C - M).PosSemidef ∧
      o.dot b ≠ C * b ∧ o.reconstruct ≠ C ∧ o.solve (o.dot b) none ≠ .ok b ∧
      o.sqrtSolve (o.sqrtDot b false) false none ≠ .ok b := by
  have hC : (!![4] : Mat 1 1).PosDef := by
    have : (!![4] : Mat 1 1) = diagonal ![4] := by ext i j; fin_cases i; fin_cases j; simp
    rw [this]; exact PosDef.diagonal (by intro i; fin_cases i; simp)
  refine ⟨!![4], !![4], ogen, !![1], hC, hC, ogen_init, by
    rw [sub_self]; exact PosSemidef.zero, ?_, ?_, ?_, ?_⟩
  · intro h
    have := congrFun (congrFun h 0) 0
    simp [ogen, Eigen.dot, Matrix.mul_apply] at this
    norm_num at this
  · intro h
    have := congrFun (congrFun h 0) 0
    simp [ogen, Eigen.reconstruct, Matrix.mul_apply] at this
    norm_num at this
  · intro h
    obtain ⟨-, h2⟩ := solve_ok h
    have := congrFun (congrFun h2 0) 0
    simp [ogen, Eigen.dot, spec, Matrix.mul_apply, tolOf, machineEps, Matrix.vecMul, dotProduct] at this
    norm_num at this
  · intro h
    unfold Eigen.sqrtSolve at h
    obtain ⟨X, hX⟩ := (C39_total (fun i => Real.sqrt (ogen.d i)) none).2 (by simp)
    obtain ⟨-, hXe⟩ := diagPinv_ok hX
    rw [hX] at h
    have h1 : X * (ogen.Vᵀ * ogen.sqrtDot !![1] false) = !![1] := by
      simp only [Bool.false_eq_true, if_false] at h
      injection h
    rw [hXe] at h1
    have := congrFun (congrFun h1 0) 0
    simp [ogen, Eigen.sqrtDot, Matrix.mul_apply, tolOf, machineEps] at this
    norm_num at this

/-! ### Hypotheses of the positive theorems are met -/

-- `C40_solve` with the default lower bound applies to `oex`
example : ∃ (C : Mat 2 2) (o : Eigen 2), Eigen.Init C none none o ∧ tolOf none < o.delta :=
  ⟨Cex, oex, oex_init, by simp [tolOf, machineEps, oex]; norm_num⟩

-- `C40_solve_psd` with a singular matrix
example : ∃ (C : Mat 2 2) (o : Eigen 2), C.PosSemidef ∧ Eigen.Init C none (some 0) o ∧
    GapBelow C (tolOf none) := by
  obtain ⟨o, ho⟩ := C40_exists Cex (by ext i j; fin_cases i <;> fin_cases j <;> simp [Cex]) (some 0)
    (by simp)
  exact ⟨Cex, o, Cex_psd, ho, Cex_gap _ (by simp [tolOf, machineEps]; norm_num)⟩

-- `C40_generalized_solve`
example : Eigen.Init (!![4] : Mat 1 1) (some !![4]) (some 0) ogen ∧
    ((!![4] : Mat 1 1) - ogen.delta • !![4]).PosSemidef ∧
    ((!![4] : Mat 1 1) - tolOf (some (1 / 2)) • !![4]).PosDef := by
  refine ⟨ogen_init, ?_, ?_⟩
  · have : ((!![4] : Mat 1 1) - ogen.delta • !![4]) = diagonal ![4] := by
      ext i j; fin_cases i; fin_cases j; simp [ogen]
    rw [this]; exact PosSemidef.diagonal (by intro i; fin_cases i; simp)
  · have : ((!![4] : Mat 1 1) - tolOf (some (1 / 2)) • !![4]) = diagonal ![2] := by
      ext i j; fin_cases i; fin_cases j; simp [tolOf]; norm_num
    rw [this]; exact PosDef.diagonal (by intro i; fin_cases i; simp)

end Verif.Spd
