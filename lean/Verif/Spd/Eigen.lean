import Verif.Spd.Spec
import Mathlib.Analysis.Matrix.Spectrum
import Mathlib.Algebra.Order.Star.Real
import Mathlib.Algebra.Order.Star.Basic

/-!
# C39, C40: pseudo-inverse of a diagonal, eigendecomposition
-/

set_option linter.unusedSectionVars false

namespace Verif.Spd

open Matrix

theorem machineEps_pos : 0 < machineEps := by unfold machineEps; positivity

/-- Every result of `diagPinv` is the diagonal of reciprocals of the entries above the tolerance. -/
theorem diagPinv_ok {n : ℕ} {d : Fin n → ℝ} {eps : Option ℝ} {X : Mat n n}
    (h : diagPinv d eps = .ok X) :
    0 < tolOf eps ∧ X = diagonal fun i => if |d i| > tolOf eps then 1 / d i else 0 := by
  cases eps with
  | none =>
    simp only [diagPinv, Except.ok.injEq] at h
    exact ⟨machineEps_pos, h.symm⟩
  | some e =>
    simp only [diagPinv] at h
    split at h
    · rename_i he
      simp only [Except.ok.injEq] at h
      exact ⟨he, h.symm⟩
    · cases h

theorem mp_diagonal {n : ℕ} (c x : Fin n → ℝ) (h : ∀ i, c i * x i * c i = c i)
    (h' : ∀ i, x i * c i * x i = x i) : IsMoorePenrose (diagonal c) (diagonal x) := by
  constructor <;> simp only [diagonal_mul_diagonal, diagonal_transpose]
  · congr 1; funext i; exact h i
  · congr 1; funext i; exact h' i

theorem cut_mul_inv (e x : ℝ) (he : 0 < e) :
    (if |x| ≤ e then 0 else x) * (if |x| > e then 1 / x else 0) * (if |x| ≤ e then 0 else x)
      = (if |x| ≤ e then 0 else x) := by
  by_cases h : |x| ≤ e
  · simp [h]
  · have hx : x ≠ 0 := by
      rintro rfl; simp at h; linarith
    have h' : |x| > e := not_le.mp h
    simp only [h, h', if_true, if_false]
    field_simp

theorem inv_mul_cut (e x : ℝ) (he : 0 < e) :
    (if |x| > e then 1 / x else 0) * (if |x| ≤ e then 0 else x) * (if |x| > e then 1 / x else 0)
      = (if |x| > e then 1 / x else 0) := by
  by_cases h : |x| ≤ e
  · simp [h, not_lt.mpr h]
  · have hx : x ≠ 0 := by
      rintro rfl; simp at h; linarith
    have h' : |x| > e := not_le.mp h
    simp only [h, h', if_true, if_false]
    field_simp

/-- **C39.** For every diagonal `d` and every tolerance accepted (or the default), the result of
`diagonal_pseudo_inverse` is the Moore-Penrose inverse of the diagonal matrix in which the entries
of modulus `≤ eps` are replaced by zero. -/
theorem C39_pseudo_inverse {n : ℕ} (d : Fin n → ℝ) (eps : Option ℝ) (X : Mat n n)
    (h : diagPinv d eps = .ok X) :
    IsMoorePenrose (diagonal (cutDiag (tolOf eps) d)) X := by
  obtain ⟨he, rfl⟩ := diagPinv_ok h
  exact mp_diagonal _ _ (fun i => cut_mul_inv _ _ he) (fun i => inv_mul_cut _ _ he)

/-- **C39.** If no nonzero entry has modulus `≤ eps`, it is the pseudo-inverse of `diag(d)` itself;
without zero entries it is the inverse. -/
theorem C39_exact {n : ℕ} (d : Fin n → ℝ) (eps : Option ℝ) (X : Mat n n)
    (h : diagPinv d eps = .ok X) (hg : ∀ i, d i = 0 ∨ tolOf eps < |d i|) :
    IsMoorePenrose (diagonal d) X ∧ ((∀ i, d i ≠ 0) → diagonal d * X = 1 ∧ X * diagonal d = 1) := by
  have hc : cutDiag (tolOf eps) d = d := by
    funext i
    obtain ⟨he, -⟩ := diagPinv_ok h
    rcases hg i with h0 | h1
    · simp [cutDiag, h0]
    · simp [cutDiag, not_le.mpr h1]
  refine ⟨hc ▸ C39_pseudo_inverse d eps X h, fun hn => ?_⟩
  obtain ⟨he, rfl⟩ := diagPinv_ok h
  have key : ∀ i, d i * (if |d i| > tolOf eps then 1 / d i else 0) = 1 := by
    intro i
    have h1 : |d i| > tolOf eps := (hg i).resolve_left (hn i)
    rw [if_pos h1]; field_simp [hn i]
  rw [diagonal_mul_diagonal, diagonal_mul_diagonal, ← diagonal_one]
  constructor <;> congr 1 <;> funext i
  · exact key i
  · rw [mul_comm]; exact key i

/-- **C39.** The call fails exactly for an explicit tolerance that is not positive. -/
theorem C39_total {n : ℕ} (d : Fin n → ℝ) (eps : Option ℝ) :
    (∃ X, diagPinv d eps = .ok X) ↔ ∀ e, eps = some e → 0 < e := by
  cases eps with
  | none => simp [diagPinv]
  | some e =>
    by_cases he : 0 < e
    · simp [diagPinv, he]
    · simp [diagPinv, he]

example : ∃ X, diagPinv (n := 3) ![2, 0, -4] none = .ok X := (C39_total _ _).2 (by simp)

/-! ## Functions of a matrix with known orthonormal eigenvectors -/

/-- `V diag(c) V'`. -/
def spec {n : ℕ} (V : Mat n n) (c : Fin n → ℝ) : Mat n n := V * diagonal c * Vᵀ

theorem ortho_comm {n : ℕ} {V : Mat n n} (h : Vᵀ * V = 1) : V * Vᵀ = 1 :=
  mul_eq_one_comm.mp h

theorem spec_mul {n : ℕ} {V : Mat n n} (h : Vᵀ * V = 1) (a b : Fin n → ℝ) :
    spec V a * spec V b = spec V (fun i => a i * b i) := by
  unfold spec
  calc V * diagonal a * Vᵀ * (V * diagonal b * Vᵀ)
      = V * diagonal a * (Vᵀ * V) * diagonal b * Vᵀ := by simp only [Matrix.mul_assoc]
    _ = _ := by rw [h, Matrix.mul_one, Matrix.mul_assoc V, diagonal_mul_diagonal]

theorem spec_transpose {n : ℕ} (V : Mat n n) (a : Fin n → ℝ) : (spec V a)ᵀ = spec V a := by
  simp [spec, Matrix.transpose_mul, Matrix.mul_assoc]

theorem spec_const {n : ℕ} {V : Mat n n} (h : Vᵀ * V = 1) (r : ℝ) :
    spec V (fun _ => r) = r • (1 : Mat n n) := by
  have : diagonal (fun _ : Fin n => r) = r • (1 : Mat n n) := by
    ext i j; by_cases hij : i = j <;> simp [hij, Matrix.one_apply]
  rw [spec, this, Matrix.mul_smul, Matrix.smul_mul, Matrix.mul_one, ortho_comm h]

theorem spec_sub {n : ℕ} (V : Mat n n) (a b : Fin n → ℝ) :
    spec V a - spec V b = spec V (fun i => a i - b i) := by
  unfold spec
  rw [← Matrix.sub_mul, ← Matrix.mul_sub, ← diagonal_sub]

theorem spec_psd {n : ℕ} (V : Mat n n) (a : Fin n → ℝ) (h : ∀ i, 0 ≤ a i) :
    (spec V a).PosSemidef := by
  have := (PosSemidef.diagonal (d := a) (fun i => h i)).mul_mul_conjTranspose_same V
  simpa [spec, conjTranspose_eq_transpose_of_trivial] using this

theorem spec_psd_iff {n : ℕ} {V : Mat n n} (hV : Vᵀ * V = 1) (a : Fin n → ℝ) :
    (spec V a).PosSemidef ↔ ∀ i, 0 ≤ a i := by
  refine ⟨fun h i => ?_, spec_psd V a⟩
  have h2 := h.conjTranspose_mul_mul_same V
  have h3 : Vᴴ * spec V a * V = diagonal a := by
    rw [conjTranspose_eq_transpose_of_trivial, spec]
    calc Vᵀ * (V * diagonal a * Vᵀ) * V = (Vᵀ * V) * diagonal a * (Vᵀ * V) := by
          simp only [Matrix.mul_assoc]
      _ = _ := by rw [hV, Matrix.one_mul, Matrix.mul_one]
  rw [h3] at h2
  simpa using h2.diag_nonneg (i := i)

theorem spec_mulVec_col {n : ℕ} {V : Mat n n} (hV : Vᵀ * V = 1) (a : Fin n → ℝ) (i : Fin n) :
    spec V a *ᵥ (fun r => V r i) = a i • (fun r => V r i) := by
  have h1 : spec V a * V = V * diagonal a := by
    rw [spec, Matrix.mul_assoc, hV, Matrix.mul_one]
  funext r
  have := congrFun (congrFun h1 r) i
  rw [mul_diagonal, Matrix.mul_apply] at this
  simp only [Matrix.mulVec, dotProduct, Pi.smul_apply, smul_eq_mul]
  rw [mul_comm]; exact this

theorem col_ne_zero {n : ℕ} {V : Mat n n} (hV : Vᵀ * V = 1) (i : Fin n) :
    (fun r => V r i) ≠ 0 := by
  intro h
  have := congrFun (congrFun hV i) i
  simp only [Matrix.mul_apply, transpose_apply, one_apply_eq] at this
  rw [Finset.sum_eq_zero] at this
  · exact zero_ne_one this
  · intro r _; rw [congrFun h r]; simp

/-- An eigenvector of `V diag(a) V'` for `μ` only has components along columns with `a i = μ`. -/
theorem spec_eigen {n : ℕ} {V : Mat n n} (hV : Vᵀ * V = 1) (a : Fin n → ℝ) {μ : ℝ} {x : Fin n → ℝ}
    (h : spec V a *ᵥ x = μ • x) (i : Fin n) : (Vᵀ *ᵥ x) i = 0 ∨ a i = μ := by
  have h1 : Vᵀ *ᵥ (spec V a *ᵥ x) = diagonal a *ᵥ (Vᵀ *ᵥ x) := by
    rw [spec, mulVec_mulVec, mulVec_mulVec]
    congr 1
    calc Vᵀ * (V * diagonal a * Vᵀ) = (Vᵀ * V) * diagonal a * Vᵀ := by simp only [Matrix.mul_assoc]
      _ = _ := by rw [hV, Matrix.one_mul]
  rw [h, mulVec_smul] at h1
  have h2 := congrFun h1 i
  rw [mulVec_diagonal, Pi.smul_apply, smul_eq_mul] at h2
  by_cases h0 : (Vᵀ *ᵥ x) i = 0
  · exact .inl h0
  · right; exact (mul_right_cancel₀ h0 h2).symm

theorem spec_apply_eigen {n : ℕ} {V : Mat n n} (hV : Vᵀ * V = 1) (a b : Fin n → ℝ) (f : ℝ → ℝ)
    (hb : ∀ i, b i = f (a i)) {μ : ℝ} {x : Fin n → ℝ} (h : spec V a *ᵥ x = μ • x) :
    spec V b *ᵥ x = f μ • x := by
  have h1 : diagonal b *ᵥ (Vᵀ *ᵥ x) = f μ • (Vᵀ *ᵥ x) := by
    funext i
    rw [mulVec_diagonal, Pi.smul_apply, smul_eq_mul]
    rcases spec_eigen hV a h i with h0 | h0
    · rw [h0]; simp
    · rw [hb, h0]
  rw [spec, Matrix.mul_assoc, ← mulVec_mulVec, ← mulVec_mulVec, h1, mulVec_smul, mulVec_mulVec,
    ortho_comm hV, one_mulVec]

theorem spec_mp {n : ℕ} {V : Mat n n} (hV : Vᵀ * V = 1) (a x : Fin n → ℝ)
    (h : ∀ i, a i * x i * a i = a i) (h' : ∀ i, x i * a i * x i = x i) :
    IsMoorePenrose (spec V a) (spec V x) := by
  constructor
  · rw [spec_mul hV, spec_mul hV]; congr 1; funext i; exact h i
  · rw [spec_mul hV, spec_mul hV]; congr 1; funext i; exact h' i
  · rw [spec_mul hV, spec_transpose]
  · rw [spec_mul hV, spec_transpose]

/-! ## What the constructor stores -/

theorem lowerBound_ok {n : ℕ} {C : Mat n n} {delta : Option ℝ} {dl : ℝ}
    (h : lowerBound C delta = .ok dl) : 0 ≤ dl ∧ ∀ x, delta = some x → dl = x := by
  unfold lowerBound at h
  simp only at h
  cases delta with
  | none =>
    simp only at h
    split_ifs at h with h0
    simp only [Except.ok.injEq] at h
    subst h
    exact ⟨h0, by simp⟩
  | some x =>
    simp only at h
    split_ifs at h with h0
    simp only [Except.ok.injEq] at h
    subst h
    exact ⟨h0, by simp⟩

theorem rev_ortho {n : ℕ} {V : Mat n n} (h : Vᵀ * V = 1) :
    (Matrix.of fun i j : Fin n => V i j.rev)ᵀ * (Matrix.of fun i j : Fin n => V i j.rev) = 1 := by
  ext i j
  have := congrFun (congrFun h i.rev) j.rev
  simp only [Matrix.mul_apply, transpose_apply, of_apply, Matrix.one_apply, Fin.rev_inj] at this ⊢
  exact this

/-- The stored factors of the standard eigendecomposition. -/
theorem init_std {n : ℕ} {C : Mat n n} {delta : Option ℝ} {o : Eigen n}
    (h : Eigen.Init C none delta o) :
    0 ≤ o.delta ∧ (∀ x, delta = some x → o.delta = x) ∧ o.Vᵀ * o.V = 1 ∧
      ∃ a : Fin n → ℝ, Antitone a ∧ C = spec o.V a ∧ ∀ i, o.d i = max (a i) o.delta := by
  obtain ⟨dl, d, V, hl, he, rfl⟩ := h
  obtain ⟨h0, h1⟩ := lowerBound_ok hl
  refine ⟨h0, h1, rev_ortho he.ortho, fun i => d i.rev, ?_, ?_, ?_⟩
  · intro i j hij; exact he.sorted (Fin.rev_le_rev.mpr hij)
  · have hVV := ortho_comm he.ortho
    have hC : C = V * diagonal d * Vᵀ := by
      rw [← he.eig, Matrix.mul_assoc, hVV, Matrix.mul_one]
    rw [hC]
    ext i j
    simp only [spec, postEigh]
    rw [Matrix.mul_apply, Matrix.mul_apply]
    simp only [mul_diagonal, transpose_apply, of_apply]
    exact (Equiv.sum_comp Fin.revPerm (fun x => V i x * d x * V j x)).symm
  · intro i
    simp only [postEigh]
    split
    · rename_i hle; rw [max_eq_right hle]
    · rename_i hle; rw [max_eq_left (le_of_lt (not_le.mp hle))]

theorem reconstruct_eq {n : ℕ} (o : Eigen n) : o.reconstruct = spec o.V o.d := by
  simp [Eigen.reconstruct, spec, Matrix.mul_assoc]

end Verif.Spd
