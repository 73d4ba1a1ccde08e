import Verif.Spd.Model

/-!
# Specification vocabulary for C39-C41: Moore-Penrose inverse
-/

namespace Verif.Spd

open Matrix

/-- The four Moore-Penrose equations (real matrices): `X` is the pseudo-inverse of `A`. -/
structure IsMoorePenrose {n m : Type} [Fintype n] [Fintype m] (A : Matrix n m ℝ)
    (X : Matrix m n ℝ) : Prop where
  axa : A * X * A = A
  xax : X * A * X = X
  ax : (A * X)ᵀ = A * X
  xa : (X * A)ᵀ = X * A

/-- The Moore-Penrose inverse is unique, so the equations above specify one matrix. -/
theorem IsMoorePenrose.unique {n m : Type} [Fintype n] [Fintype m] {A : Matrix n m ℝ}
    {X Y : Matrix m n ℝ} (hX : IsMoorePenrose A X) (hY : IsMoorePenrose A Y) : X = Y := by
  have h1 : A * X = A * Y := by
    calc A * X = (A * Y * A) * X := by rw [hY.axa]
      _ = (A * Y) * (A * X) := by simp only [Matrix.mul_assoc]
      _ = (A * Y)ᵀ * (A * X)ᵀ := by rw [hY.ax, hX.ax]
      _ = ((A * X) * (A * Y))ᵀ := by rw [← Matrix.transpose_mul]
      _ = ((A * X * A) * Y)ᵀ := by simp only [Matrix.mul_assoc]
      _ = A * Y := by rw [hX.axa, hY.ax]
  have h2 : X * A = Y * A := by
    calc X * A = X * (A * Y * A) := by rw [hY.axa]
      _ = (X * A) * (Y * A) := by simp only [Matrix.mul_assoc]
      _ = (X * A)ᵀ * (Y * A)ᵀ := by rw [hY.xa, hX.xa]
      _ = ((Y * A) * (X * A))ᵀ := by rw [← Matrix.transpose_mul]
      _ = (Y * (A * X * A))ᵀ := by simp only [Matrix.mul_assoc]
      _ = Y * A := by rw [hX.axa, hY.xa]
  calc X = X * (A * X) := by rw [← Matrix.mul_assoc, hX.xax]
    _ = X * A * Y := by rw [h1, Matrix.mul_assoc]
    _ = Y * A * Y := by rw [h2]
    _ = Y := hY.xax

/-- `x` is an eigenvector of `A` with eigenvalue `μ`. -/
def IsEigen {n : ℕ} (A : Mat n n) (μ : ℝ) (x : Fin n → ℝ) : Prop := x ≠ 0 ∧ A *ᵥ x = μ • x

/-- No eigenvalue of `A` is nonzero but of modulus `≤ e`. -/
def GapBelow {n : ℕ} (A : Mat n n) (e : ℝ) : Prop := ∀ μ x, IsEigen A μ x → μ = 0 ∨ e < |μ|

/-- The diagonal with the entries of modulus `≤ e` replaced by zero. -/
noncomputable def cutDiag {n : ℕ} (e : ℝ) (d : Fin n → ℝ) : Fin n → ℝ :=
  fun i => if |d i| ≤ e then 0 else d i

/-- The tolerance in force: the argument or the machine epsilon. -/
noncomputable def tolOf (eps : Option ℝ) : ℝ := eps.getD machineEps

end Verif.Spd
