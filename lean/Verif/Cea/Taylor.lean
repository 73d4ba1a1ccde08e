import Verif.Cea.Core
import Mathlib.Analysis.Calculus.MeanValue
import Mathlib.Analysis.Calculus.FDeriv.Symmetric

/-!
# Taylor's theorem in the plane
-/

namespace Verif.Cea
open Verif.Fem Verif.Gal

/-! ### Partial derivatives -/

theorem px_smooth {w : ℝ × ℝ → ℝ} {m : ℕ} (h : ContDiff ℝ (m + 1 : ℕ) w) : ContDiff ℝ m (px w) ∧ ContDiff ℝ m (py w) := by
  have h1 : ContDiff ℝ m (fderiv ℝ w) := h.fderiv_right (by norm_cast)
  exact ⟨h1.clm_apply contDiff_const, h1.clm_apply contDiff_const⟩

theorem px_iter {w : ℝ × ℝ → ℝ} {m i : ℕ} (h : ContDiff ℝ (m + i : ℕ) w) : ContDiff ℝ m (px^[i] w) ∧ ContDiff ℝ m (py^[i] w) := by
  constructor
  · induction i generalizing w with
    | zero => simpa using h
    | succ i ih => exact ih (px_smooth (m := m + i) h).1
  · induction i generalizing w with
    | zero => simpa using h
    | succ i ih => exact ih (px_smooth (m := m + i) h).2

theorem px_py {w : ℝ × ℝ → ℝ} (h : ContDiff ℝ 2 w) : py (px w) = px (py w) := by
  funext p
  have h1 : DifferentiableAt ℝ (fderiv ℝ w) p := (h.fderiv_right (m := 1) (by norm_num)).differentiable (by norm_num) p
  have hs : IsSymmSndFDerivAt ℝ w p := h.contDiffAt.isSymmSndFDerivAt (by simp)
  have e1 : ∀ v v' : ℝ × ℝ, fderiv ℝ (fun q => fderiv ℝ w q v) p v' = fderiv ℝ (fderiv ℝ w) p v' v := by
    intro v v'
    have := (h1.hasFDerivAt.clm_apply (hasFDerivAt_const v p)).fderiv
    rw [this]
    simp
  show fderiv ℝ (fun q => fderiv ℝ w q (1, 0)) p (0, 1) = fderiv ℝ (fun q => fderiv ℝ w q (0, 1)) p (1, 0)
  rw [e1, e1]
  exact hs _ _

/-- The mixed partial derivatives. -/
noncomputable def jet (u : ℝ × ℝ → ℝ) (i j : ℕ) : ℝ × ℝ → ℝ := px^[i] (py^[j] u)

theorem py_iter {w : ℝ × ℝ → ℝ} {i : ℕ} (h : ContDiff ℝ (i + 1 : ℕ) w) : py (px^[i] w) = px^[i] (py w) := by
  induction i generalizing w with
  | zero => rfl
  | succ i ih =>
    show py (px^[i] (px w)) = px^[i] (px (py w))
    rw [ih (px_smooth (m := i + 1) h).1, px_py (h.of_le (by norm_cast; omega))]

theorem jet_smooth {u : ℝ × ℝ → ℝ} {d i j : ℕ} (h : ContDiff ℝ (d + i + j : ℕ) u) : ContDiff ℝ d (jet u i j) :=
  (px_iter (px_iter (m := d + i) h).2).1

theorem jet_grad {u : ℝ × ℝ → ℝ} {i j : ℕ} (h : ContDiff ℝ (1 + i + j : ℕ) u) (p : ℝ × ℝ) :
    HasGrad (jet u i j) (jet u (i + 1) j p) (jet u i (j + 1) p) p := by
  have h1 := grad_of ((jet_smooth (d := 1) h).differentiable (by norm_num) p)
  have e1 : px (jet u i j) = jet u (i + 1) j := (Function.iterate_succ_apply' px i _).symm
  have e2 : py (jet u i j) = jet u i (j + 1) := by
    unfold jet
    rw [py_iter ((px_iter (m := i + 1) (i := j) (by rw [show i + 1 + j = 1 + i + j by omega]; exact h)).2), Function.iterate_succ_apply' py j]
  rwa [e1, e2] at h1

/-! ### Taylor polynomials -/

open MvPolynomial

/-- The homogeneous part of degree `m` of the Taylor polynomial of the derivative `(i, j)` at `z`. -/
noncomputable def tay (u : ℝ × ℝ → ℝ) (z : ℝ × ℝ) (m i j : ℕ) : Poly :=
  ∑ a ∈ Finset.range (m + 1), C (jet u (i + a) (j + (m - a)) z / (a.factorial * (m - a).factorial)) * ((X 0 - C z.1) ^ a * (X 1 - C z.2) ^ (m - a))

/-- The Taylor polynomial of degree less than `d`. -/
noncomputable def taylor (u : ℝ × ℝ → ℝ) (z : ℝ × ℝ) (d i j : ℕ) : Poly := ∑ m ∈ Finset.range d, tay u z m i j

theorem tay_deg (u : ℝ × ℝ → ℝ) (z : ℝ × ℝ) (m i j : ℕ) : (tay u z m i j).totalDegree ≤ m := by
  refine totalDegree_finsetSum_le (fun a ha => ?_)
  have ha := Finset.mem_range.1 ha
  have hX : ∀ (i : Fin 2) (c : ℝ), (X i - C c : Poly).totalDegree ≤ 1 := fun i c =>
    (totalDegree_sub _ _).trans (max_le (by simp) (by simp))
  refine (totalDegree_mul _ _).trans ?_
  rw [totalDegree_C, zero_add]
  refine (totalDegree_mul _ _).trans ?_
  have h1 := (totalDegree_pow (X 0 - C z.1 : Poly) a).trans (Nat.mul_le_mul le_rfl (hX 0 z.1))
  have h2 := (totalDegree_pow (X 1 - C z.2 : Poly) (m - a)).trans (Nat.mul_le_mul le_rfl (hX 1 z.2))
  omega

theorem taylor_deg (u : ℝ × ℝ → ℝ) (z : ℝ × ℝ) (d i j : ℕ) : (taylor u z (d + 1) i j).totalDegree ≤ d := by
  refine totalDegree_finsetSum_le (fun m hm => (tay_deg u z m i j).trans ?_)
  have := Finset.mem_range.1 hm
  omega

theorem dx_mono (z : ℝ × ℝ) (c : ℝ) (a b : ℕ) : dx (C c * ((X 0 - C z.1) ^ a * (X 1 - C z.2) ^ b) : Poly) =
    C (c * a) * ((X 0 - C z.1) ^ (a - 1) * (X 1 - C z.2) ^ b) := by
  unfold dx
  rw [pderiv_mul, pderiv_mul, pderiv_pow, pderiv_pow]
  simp [pderiv_X]
  ring

theorem dy_mono (z : ℝ × ℝ) (c : ℝ) (a b : ℕ) : dy (C c * ((X 0 - C z.1) ^ a * (X 1 - C z.2) ^ b) : Poly) =
    C (c * b) * ((X 0 - C z.1) ^ a * (X 1 - C z.2) ^ (b - 1)) := by
  unfold dy
  rw [pderiv_mul, pderiv_mul, pderiv_pow, pderiv_pow]
  simp [pderiv_X]
  ring

theorem dx_sum {α : Type} (s : Finset α) (f : α → Poly) : dx (∑ a ∈ s, f a) = ∑ a ∈ s, dx (f a) := map_sum _ _ _
theorem dy_sum {α : Type} (s : Finset α) (f : α → Poly) : dy (∑ a ∈ s, f a) = ∑ a ∈ s, dy (f a) := map_sum _ _ _

theorem dx_tay (u : ℝ × ℝ → ℝ) (z : ℝ × ℝ) (m i j : ℕ) : dx (tay u z (m + 1) i j) = tay u z m (i + 1) j := by
  unfold tay
  rw [dx_sum, Finset.sum_range_succ']
  simp only [dx_mono]
  have h0 : ∀ x y : ℝ, (C (x / y * ((0 : ℕ) : ℝ)) : Poly) = 0 := fun x y => by simp
  rw [h0, zero_mul, add_zero]
  refine Finset.sum_congr rfl (fun a ha => ?_)
  have ha := Finset.mem_range.1 ha
  have e1 : m + 1 - (a + 1) = m - a := by omega
  rw [e1, show i + (a + 1) = i + 1 + a by omega, Nat.add_sub_cancel]
  congr 2
  have := Nat.factorial_ne_zero a
  have := Nat.factorial_ne_zero (m - a)
  rw [Nat.factorial_succ]
  push_cast
  field_simp

theorem dy_tay (u : ℝ × ℝ → ℝ) (z : ℝ × ℝ) (m i j : ℕ) : dy (tay u z (m + 1) i j) = tay u z m i (j + 1) := by
  unfold tay
  rw [dy_sum, Finset.sum_range_succ]
  simp only [dy_mono]
  have h0 : ∀ x y : ℝ, (C (x / y * ((m + 1 - (m + 1) : ℕ) : ℝ)) : Poly) = 0 := fun x y => by simp
  rw [h0, zero_mul, add_zero]
  refine Finset.sum_congr rfl (fun a ha => ?_)
  have ha := Finset.mem_range.1 ha
  have e1 : m + 1 - a = (m - a) + 1 := by omega
  rw [e1, Nat.add_sub_cancel, show j + (m - a + 1) = j + 1 + (m - a) by omega]
  congr 2
  have := Nat.factorial_ne_zero a
  have := Nat.factorial_ne_zero (m - a)
  rw [Nat.factorial_succ]
  push_cast
  field_simp

theorem tay_zero (u : ℝ × ℝ → ℝ) (z : ℝ × ℝ) (i j : ℕ) : tay u z 0 i j = C (jet u i j z) := by
  simp [tay]

theorem dx_taylor (u : ℝ × ℝ → ℝ) (z : ℝ × ℝ) (d i j : ℕ) : dx (taylor u z (d + 1) i j) = taylor u z d (i + 1) j := by
  unfold taylor
  rw [dx_sum, Finset.sum_range_succ', tay_zero]
  simp only [dx_tay]
  simp [dx]

theorem dy_taylor (u : ℝ × ℝ → ℝ) (z : ℝ × ℝ) (d i j : ℕ) : dy (taylor u z (d + 1) i j) = taylor u z d i (j + 1) := by
  unfold taylor
  rw [dy_sum, Finset.sum_range_succ', tay_zero]
  simp only [dy_tay]
  simp [dy]

theorem taylor_at (u : ℝ × ℝ → ℝ) (z : ℝ × ℝ) (d i j : ℕ) : ev (taylor u z (d + 1) i j) z = jet u i j z := by
  have h : ∀ m, ev (tay u z (m + 1) i j) z = 0 := by
    intro m
    unfold ev tay
    rw [map_sum]
    refine Finset.sum_eq_zero (fun a ha => ?_)
    have ha := Finset.mem_range.1 ha
    rcases Nat.eq_zero_or_pos a with rfl | h0
    · simp
    · simp
      right
      left
      omega
  unfold taylor
  rw [Finset.sum_range_succ', tay_zero]
  unfold ev at h ⊢
  rw [map_add, map_sum, Finset.sum_eq_zero (fun m _ => h m)]
  simp

/-- **Taylor's theorem.** -/
theorem taylor_bound {u : ℝ × ℝ → ℝ} {N : ℕ} (hu : ContDiff ℝ N u) {K : Set (ℝ × ℝ)} (hK : Convex ℝ K) {M : ℝ}
    (hM : ∀ i j, i + j = N → ∀ p ∈ K, |jet u i j p| ≤ M) {z : ℝ × ℝ} (hz : z ∈ K) (d i j : ℕ) (hd : i + j + d = N) {p : ℝ × ℝ} (hp : p ∈ K) :
    |jet u i j p - ev (taylor u z d i j) p| ≤ M * (2 * ‖p - z‖) ^ d := by
  induction d generalizing i j p with
  | zero =>
    have := hM i j (by omega) p hp
    simpa [taylor, ev] using this
  | succ d ih =>
    have hM0 : 0 ≤ M := (abs_nonneg _).trans (hM N 0 (by omega) z hz)
    have hseg : ∀ w ∈ segment ℝ z p, w ∈ K ∧ ‖w - z‖ ≤ ‖p - z‖ := by
      intro w hw
      refine ⟨hK.segment_subset hz hp hw, ?_⟩
      obtain ⟨t, ⟨h0, h1⟩, rfl⟩ := (segment_eq_image' ℝ z p ▸ hw : w ∈ (fun θ : ℝ => z + θ • (p - z)) '' Set.Icc 0 1)
      simp only [add_sub_cancel_left, norm_smul, Real.norm_eq_abs, abs_of_nonneg h0]
      exact mul_le_of_le_one_left (norm_nonneg _) h1
    have hg : ∀ w, HasGrad (fun w => jet u i j w - ev (taylor u z (d + 1) i j) w) (jet u (i + 1) j w - ev (taylor u z d (i + 1) j) w)
        (jet u i (j + 1) w - ev (taylor u z d i (j + 1)) w) w := by
      intro w
      have h1 := jet_grad (u := u) (i := i) (j := j) (hu.of_le (by norm_cast; omega)) w
      have h2 := grad_ev (taylor u z (d + 1) i j) w
      rw [dx_taylor, dy_taylor] at h2
      exact h1.sub h2
    have key := (convex_segment z p).norm_image_sub_le_of_norm_hasFDerivWithin_le (C := 2 * (M * (2 * ‖p - z‖) ^ d))
      (fun w _ => (hg w).hasFDerivWithinAt) (fun w hw => ?_) (left_mem_segment ℝ z p) (right_mem_segment ℝ z p)
    · rw [taylor_at, sub_self, sub_zero, Real.norm_eq_abs] at key
      refine key.trans (le_of_eq ?_)
      ring
    · obtain ⟨hwK, hwn⟩ := hseg w hw
      have hpow : M * (2 * ‖w - z‖) ^ d ≤ M * (2 * ‖p - z‖) ^ d := by gcongr
      have b1 := (ih (i + 1) j (by omega) hwK).trans hpow
      have b2 := (ih i (j + 1) (by omega) hwK).trans hpow
      refine (norm_add_le _ _).trans ?_
      rw [norm_smul, norm_smul, Real.norm_eq_abs, Real.norm_eq_abs]
      have n1 : ‖ContinuousLinearMap.fst ℝ ℝ ℝ‖ ≤ 1 := ContinuousLinearMap.opNorm_le_bound _ zero_le_one (fun x => by simpa using norm_fst_le x)
      have n2 : ‖ContinuousLinearMap.snd ℝ ℝ ℝ‖ ≤ 1 := ContinuousLinearMap.opNorm_le_bound _ zero_le_one (fun x => by simpa using norm_snd_le x)
      have := mul_le_mul b1 n1 (norm_nonneg _) ((abs_nonneg _).trans b1)
      have := mul_le_mul b2 n2 (norm_nonneg _) ((abs_nonneg _).trans b2)
      linarith

end Verif.Cea
