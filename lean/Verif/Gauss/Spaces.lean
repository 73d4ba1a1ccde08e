import Verif.Gauss.Props
import Verif.Quad.Biject
import Mathlib.Algebra.Algebra.Operations
import Mathlib.MeasureTheory.Integral.Prod

/-! # Spaces of polynomials in two variables, and exactness of tensor rules on them -/

namespace Verif.Gauss

open MeasureTheory

/-- Polynomials of degree at most `M` in the first and `N` in the second variable, as functions. -/
def W (M N : Nat) : Submodule ℝ (ℝ × ℝ → ℝ) :=
  Submodule.span ℝ {f | ∃ a b, a ≤ M ∧ b ≤ N ∧ f = fun p => p.1 ^ a * p.2 ^ b}

theorem mono_mem (M N a b : Nat) (ha : a ≤ M) (hb : b ≤ N) : (fun p : ℝ × ℝ => p.1 ^ a * p.2 ^ b) ∈ W M N :=
  Submodule.subset_span ⟨a, b, ha, hb, rfl⟩

theorem W_mono {M N M' N' : Nat} (h1 : M ≤ M') (h2 : N ≤ N') : W M N ≤ W M' N' := by
  refine Submodule.span_mono ?_
  rintro f ⟨a, b, ha, hb, rfl⟩
  exact ⟨a, b, ha.trans h1, hb.trans h2, rfl⟩

theorem W_mul {M N M' N' : Nat} {f g : ℝ × ℝ → ℝ} (hf : f ∈ W M N) (hg : g ∈ W M' N') :
    (fun p => f p * g p) ∈ W (M + M') (N + N') := by
  have h := Submodule.mul_mem_mul hf hg
  unfold W at h
  rw [Submodule.span_mul_span] at h
  refine Submodule.span_mono ?_ h
  rintro _ ⟨f, ⟨a, b, ha, hb, rfl⟩, g, ⟨c, d, hc, hd, rfl⟩, rfl⟩
  refine ⟨a + c, b + d, by omega, by omega, ?_⟩
  funext p
  simp only [Pi.mul_apply]
  ring

theorem W_const (M N : Nat) (c : ℝ) : (fun _ : ℝ × ℝ => c) ∈ W M N := by
  have := Submodule.smul_mem _ c (mono_mem M N 0 0 (Nat.zero_le _) (Nat.zero_le _))
  simpa [Pi.smul_def] using this

theorem W_fst (N : Nat) : (fun p : ℝ × ℝ => p.1) ∈ W 1 N := by
  have := mono_mem 1 N 1 0 le_rfl (Nat.zero_le _)
  simpa using this

theorem W_snd (M : Nat) : (fun p : ℝ × ℝ => p.2) ∈ W M 1 := by
  have := mono_mem M 1 0 1 (Nat.zero_le _) le_rfl
  simpa using this

theorem W_add {M N : Nat} {f g : ℝ × ℝ → ℝ} (hf : f ∈ W M N) (hg : g ∈ W M N) :
    (fun p => f p + g p) ∈ W M N := Submodule.add_mem _ hf hg

theorem W_smul {M N : Nat} (c : ℝ) {f : ℝ × ℝ → ℝ} (hf : f ∈ W M N) :
    (fun p => c * f p) ∈ W M N := Submodule.smul_mem _ c hf

theorem W_pow {M N : Nat} {f : ℝ × ℝ → ℝ} (hf : f ∈ W M N) (k : Nat) :
    (fun p => f p ^ k) ∈ W (M * k) (N * k) := by
  induction k with
  | zero => simpa using W_const 0 0 1
  | succ k ih =>
    have := W_mul ih hf
    simpa [pow_succ, Nat.mul_succ] using this

theorem W_sum {ι : Type} {M N : Nat} (s : Finset ι) (f : ι → ℝ × ℝ → ℝ) (h : ∀ i ∈ s, f i ∈ W M N) :
    (fun p => ∑ i ∈ s, f i p) ∈ W M N := by
  have := Submodule.sum_mem (W M N) h
  convert this using 1
  funext p
  rw [Finset.sum_apply]

theorem W_cont {M N : Nat} {f : ℝ × ℝ → ℝ} (hf : f ∈ W M N) : Continuous f := by
  unfold W at hf
  induction hf using Submodule.span_induction with
  | mem f h =>
    obtain ⟨a, b, _, _, rfl⟩ := h
    fun_prop
  | zero => exact continuous_const
  | add f g _ _ h1 h2 => exact h1.add h2
  | smul c f _ h => exact h.const_smul c

/-- The unit square. -/
def sq : Set (ℝ × ℝ) := Set.Icc (0 : ℝ) 1 ×ˢ Set.Icc (0 : ℝ) 1

theorem cont_int {f : ℝ × ℝ → ℝ} (hf : Continuous f) : IntegrableOn f sq :=
  hf.continuousOn.integrableOn_compact (isCompact_Icc.prod isCompact_Icc)

theorem mono_int (a b : Nat) : ∫ p in sq, p.1 ^ a * p.2 ^ b = (∫ x in (0 : ℝ)..1, x ^ a) * ∫ y in (0 : ℝ)..1, y ^ b := by
  rw [intervalIntegral.integral_of_le zero_le_one, intervalIntegral.integral_of_le zero_le_one,
    ← integral_Icc_eq_integral_Ioc, ← integral_Icc_eq_integral_Ioc, sq]
  exact setIntegral_prod_mul (μ := volume) (ν := volume) (fun x : ℝ => x ^ a) (fun y : ℝ => y ^ b) (Set.Icc 0 1) (Set.Icc 0 1)

theorem tensor_mono (r : List (ℝ × ℝ)) (a b : Nat) :
    apply (tensor r) (fun p => p.1 ^ a * p.2 ^ b) = apply r (fun x => x ^ a) * apply r (fun y => y ^ b) := by
  rw [apply_tensor]
  simp only [apply_smul]
  have : ∀ c : ℝ, apply r (fun x => x ^ a * c) = apply r (fun x => x ^ a) * c := by
    intro c
    have := apply_smul r c (fun x => x ^ a)
    rw [mul_comm, ← this]
    congr 1
    funext x
    ring
  exact this _

/-- Tensor rules are exact on the space. -/
theorem tensor_exact_W (r : List (ℝ × ℝ)) (N : Nat) (h : Exact r N) {f : ℝ × ℝ → ℝ} (hf : f ∈ W N N) :
    apply (tensor r) f = ∫ p in sq, f p := by
  have hc : ∀ {f : ℝ × ℝ → ℝ}, f ∈ Submodule.span ℝ {f | ∃ a b, a ≤ N ∧ b ≤ N ∧ f = fun p : ℝ × ℝ => p.1 ^ a * p.2 ^ b} →
      IntegrableOn f sq := fun hf => cont_int (W_cont hf)
  unfold W at hf
  induction hf using Submodule.span_induction with
  | mem f h' =>
    obtain ⟨a, b, ha, hb, rfl⟩ := h'
    rw [tensor_mono, mono_int, exact_pow r N h a ha, exact_pow r N h b hb]
  | zero =>
    simp [apply]
  | add f g hf hg h1 h2 =>
    have e : (f + g) = fun p => f p + g p := rfl
    rw [e, apply_add, h1, h2, integral_add (hc hf) (hc hg)]
  | smul c f _ h' =>
    have e : (c • f) = fun p => c * f p := rfl
    rw [e, apply_smul, h', integral_const_mul]

/-- Splitting the square into its four quarters. -/
theorem quarters {M N : Nat} {f : ℝ × ℝ → ℝ} (hf : f ∈ W M N) :
    ∫ p in sq, f p = 1 / 4 * ((∫ p in sq, f (1 / 2 * p.1, 1 / 2 * p.2)) + (∫ p in sq, f (1 / 2 + 1 / 2 * p.1, 1 / 2 * p.2)) +
      (∫ p in sq, f (1 / 2 + 1 / 2 * p.1, 1 / 2 + 1 / 2 * p.2)) + ∫ p in sq, f (1 / 2 * p.1, 1 / 2 + 1 / 2 * p.2)) := by
  have hc : ∀ (a b : ℝ) {f : ℝ × ℝ → ℝ}, f ∈ Submodule.span ℝ {f | ∃ a b, a ≤ M ∧ b ≤ N ∧ f = fun p : ℝ × ℝ => p.1 ^ a * p.2 ^ b} →
      IntegrableOn (fun p => f (a + 1 / 2 * p.1, b + 1 / 2 * p.2)) sq := fun a b f hf =>
    cont_int ((W_cont hf).comp (by fun_prop))
  have e0 : ∀ x : ℝ, 1 / 2 * x = 0 + 1 / 2 * x := fun x => by ring
  suffices hs : ∫ p in sq, f p = 1 / 4 * ((∫ p in sq, f (0 + 1 / 2 * p.1, 0 + 1 / 2 * p.2)) + (∫ p in sq, f (1 / 2 + 1 / 2 * p.1, 0 + 1 / 2 * p.2)) +
      (∫ p in sq, f (1 / 2 + 1 / 2 * p.1, 1 / 2 + 1 / 2 * p.2)) + ∫ p in sq, f (0 + 1 / 2 * p.1, 1 / 2 + 1 / 2 * p.2)) by
    simpa using hs
  unfold W at hf
  induction hf using Submodule.span_induction with
  | mem f h' =>
    obtain ⟨a, b, ha, hb, rfl⟩ := h'
    have half : ∀ k : Nat, (∫ x in (0 : ℝ)..1, x ^ k) = 1 / 2 * ((∫ x in (0 : ℝ)..1, (0 + 1 / 2 * x) ^ k) + ∫ x in (0 : ℝ)..1, (1 / 2 + 1 / 2 * x) ^ k) := by
      intro k
      have h1 := intervalIntegral.integral_comp_add_mul (fun y : ℝ => y ^ k) (c := (1 / 2 : ℝ)) (by norm_num) 0 (a := 0) (b := 1)
      have h2 := intervalIntegral.integral_comp_add_mul (fun y : ℝ => y ^ k) (c := (1 / 2 : ℝ)) (by norm_num) (1 / 2) (a := 0) (b := 1)
      rw [h1, h2]
      have h3 := intervalIntegral.integral_add_adjacent_intervals (μ := volume) (f := fun y : ℝ => y ^ k) (a := 0) (b := 1 / 2) (c := 1)
        (Continuous.intervalIntegrable (by fun_prop) _ _) (Continuous.intervalIntegrable (by fun_prop) _ _)
      simp only [smul_eq_mul]
      norm_num at h3 ⊢
      rw [← h3]
      ring
    have prod : ∀ c d : ℝ, ∫ p in sq, (c + 1 / 2 * p.1) ^ a * (d + 1 / 2 * p.2) ^ b =
        (∫ x in (0 : ℝ)..1, (c + 1 / 2 * x) ^ a) * ∫ y in (0 : ℝ)..1, (d + 1 / 2 * y) ^ b := by
      intro c d
      rw [intervalIntegral.integral_of_le zero_le_one, intervalIntegral.integral_of_le zero_le_one,
        ← integral_Icc_eq_integral_Ioc, ← integral_Icc_eq_integral_Ioc, sq]
      exact setIntegral_prod_mul (μ := volume) (ν := volume) (fun x : ℝ => (c + 1 / 2 * x) ^ a) (fun y : ℝ => (d + 1 / 2 * y) ^ b) (Set.Icc 0 1) (Set.Icc 0 1)
    rw [mono_int, prod, prod, prod, prod, half a, half b]
    ring
  | zero => simp
  | add f g hf hg h1 h2 =>
    have e : ∀ p, (f + g) p = f p + g p := fun _ => rfl
    simp only [e]
    have hi : ∀ {f : ℝ × ℝ → ℝ}, f ∈ Submodule.span ℝ {f | ∃ a b, a ≤ M ∧ b ≤ N ∧ f = fun p : ℝ × ℝ => p.1 ^ a * p.2 ^ b} →
      IntegrableOn f sq := fun hf => cont_int (W_cont hf)
    rw [integral_add (hi hf) (hi hg), integral_add (hc _ _ hf) (hc _ _ hg), integral_add (hc _ _ hf) (hc _ _ hg),
      integral_add (hc _ _ hf) (hc _ _ hg), integral_add (hc _ _ hf) (hc _ _ hg), h1, h2]
    ring
  | smul c f _ h' =>
    have e : ∀ p, (c • f) p = c * f p := fun _ => rfl
    simp only [e, integral_const_mul]
    rw [h']
    ring

end Verif.Gauss
