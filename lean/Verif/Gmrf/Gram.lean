import Verif.Gmrf.KernelProps
import Mathlib.Analysis.Matrix.Order
import Mathlib.Algebra.Order.Star.Real
import Mathlib.Analysis.SpecialFunctions.Exponential
import Mathlib.Analysis.SpecialFunctions.ImproperIntegrals
import Mathlib.Analysis.SpecialFunctions.Gamma.Basic

/-!
# Positive semidefinite kernels: tools for C57

Exponentials and integrals of positive semidefinite matrices, Gaussian and Laplace kernels of the
Euclidean distance.
-/

namespace Verif.Gmrf

open MeasureTheory Set

variable {ι : Type} [Fintype ι]

/-- The quadratic form of a kernel matrix. -/
def qf (K : ι → ι → ℝ) (c : ι → ℝ) : ℝ := ∑ i, ∑ j, c i * K i j * c j

/-- Positive semidefinite in the elementary sense. -/
def Psd (K : ι → ι → ℝ) : Prop := (∀ i j, K i j = K j i) ∧ ∀ c, 0 ≤ qf K c

theorem psd_iff (K : ι → ι → ℝ) : Psd K ↔ (Matrix.of K).PosSemidef := by
  have hq : ∀ c : ι → ℝ, star c ⬝ᵥ (Matrix.of K).mulVec c = qf K c := by
    intro c
    simp only [dotProduct, Matrix.mulVec, qf, Pi.star_apply, star_trivial, Matrix.of_apply,
      Finset.mul_sum, mul_assoc]
  constructor
  · rintro ⟨hs, h⟩
    refine Matrix.PosSemidef.of_dotProduct_mulVec_nonneg ?_ fun c => ?_
    · ext i j; simp [Matrix.conjTranspose_apply, hs j i]
    · rw [hq]; exact h c
  · intro h
    refine ⟨fun i j => ?_, fun c => ?_⟩
    · have := congrFun (congrFun h.1 i) j
      simpa [Matrix.conjTranspose_apply] using this.symm
    · rw [← hq]; exact h.dotProduct_mulVec_nonneg c

theorem Psd.congr {K L : ι → ι → ℝ} (h : Psd K) (e : ∀ i j, K i j = L i j) : Psd L := by
  have : K = L := by funext i j; exact e i j
  rwa [← this]

theorem Psd.mul {K L : ι → ι → ℝ} (hK : Psd K) (hL : Psd L) : Psd fun i j => K i j * L i j := by
  rw [psd_iff] at *
  exact hK.hadamard hL

theorem Psd.rank_one (f : ι → ℝ) : Psd fun i j => f i * f j := by
  refine ⟨fun i j => mul_comm _ _, fun c => ?_⟩
  have : qf (fun i j => f i * f j) c = (∑ i, c i * f i) ^ 2 := by
    simp only [qf, sq, Finset.sum_mul_sum]
    refine Finset.sum_congr rfl fun i _ => Finset.sum_congr rfl fun j _ => ?_
    ring
  rw [this]; positivity

theorem Psd.add {K L : ι → ι → ℝ} (hK : Psd K) (hL : Psd L) : Psd fun i j => K i j + L i j := by
  refine ⟨fun i j => by simp only; rw [hK.1, hL.1], fun c => ?_⟩
  have : qf (fun i j => K i j + L i j) c = qf K c + qf L c := by
    simp only [qf, ← Finset.sum_add_distrib]
    refine Finset.sum_congr rfl fun i _ => Finset.sum_congr rfl fun j _ => ?_
    ring
  rw [this]; exact add_nonneg (hK.2 c) (hL.2 c)

theorem Psd.smul {K : ι → ι → ℝ} (hK : Psd K) {r : ℝ} (hr : 0 ≤ r) : Psd fun i j => r * K i j := by
  refine ⟨fun i j => by simp only; rw [hK.1], fun c => ?_⟩
  have : qf (fun i j => r * K i j) c = r * qf K c := by
    simp only [qf, Finset.mul_sum]
    refine Finset.sum_congr rfl fun i _ => Finset.sum_congr rfl fun j _ => ?_
    ring
  rw [this]; exact mul_nonneg hr (hK.2 c)

theorem Psd.pow {K : ι → ι → ℝ} (hK : Psd K) (n : ℕ) : Psd fun i j => K i j ^ n := by
  induction n with
  | zero => exact (Psd.rank_one (fun _ : ι => 1)).congr (by simp)
  | succ n ih => exact (ih.mul hK).congr fun i j => (pow_succ _ _).symm

/-- The entrywise exponential of a positive semidefinite matrix is positive semidefinite. -/
theorem Psd.exp {K : ι → ι → ℝ} (hK : Psd K) : Psd fun i j => Real.exp (K i j) := by
  refine ⟨fun i j => by simp only; rw [hK.1], fun c => ?_⟩
  have h1 : ∀ i j, HasSum (fun n : ℕ => c i * (K i j ^ n / n.factorial) * c j)
      (c i * Real.exp (K i j) * c j) := by
    intro i j
    have := (NormedSpace.expSeries_div_hasSum_exp (K i j) : HasSum _ _)
    rw [← Real.exp_eq_exp_ℝ] at this
    exact (this.mul_left (c i)).mul_right (c j)
  have h2 : HasSum (fun n : ℕ => ∑ i, ∑ j, c i * (K i j ^ n / n.factorial) * c j)
      (qf (fun i j => Real.exp (K i j)) c) :=
    hasSum_sum fun i _ => hasSum_sum fun j _ => h1 i j
  refine h2.nonneg fun n => ?_
  have := ((hK.pow n).smul (show (0 : ℝ) ≤ 1 / n.factorial by positivity)).2 c
  refine this.trans_eq ?_
  simp only [qf]
  refine Finset.sum_congr rfl fun i _ => Finset.sum_congr rfl fun j _ => ?_
  ring

/-- An integral of positive semidefinite matrices is positive semidefinite. -/
theorem Psd.integral {K : ℝ → ι → ι → ℝ} (hK : ∀ t ∈ Ioi (0 : ℝ), Psd (K t))
    (hint : ∀ i j, IntegrableOn (fun t => K t i j) (Ioi 0)) :
    Psd fun i j => ∫ t in Ioi (0 : ℝ), K t i j := by
  refine ⟨fun i j => setIntegral_congr_fun measurableSet_Ioi fun t ht => (hK t ht).1 i j,
    fun c => ?_⟩
  have h1 : ∀ i j, IntegrableOn (fun t => c i * K t i j * c j) (Ioi 0) :=
    fun i j => ((hint i j).const_mul _).mul_const _
  have : qf (fun i j => ∫ t in Ioi (0 : ℝ), K t i j) c = ∫ t in Ioi (0 : ℝ), qf (K t) c := by
    simp only [qf]
    rw [integral_finsetSum _ fun i _ => integrable_finsetSum _ fun j _ => h1 i j]
    refine Finset.sum_congr rfl fun i _ => ?_
    rw [integral_finsetSum _ fun j _ => h1 i j]
    refine Finset.sum_congr rfl fun j _ => ?_
    rw [integral_mul_const, integral_const_mul]
  rw [this]
  exact setIntegral_nonneg measurableSet_Ioi fun t ht => (hK t ht).2 c

/-! ## Kernels of the Euclidean distance of the plane -/

/-- Squared Euclidean distance. -/
def sqd (p q : ℝ × ℝ) : ℝ := (p.1 - q.1) ^ 2 + (p.2 - q.2) ^ 2

theorem norm2_sq (p q : ℝ × ℝ) : norm2 (p - q) ^ 2 = sqd p q := by
  rw [norm2_eq, Real.sq_sqrt (by positivity)]; rfl

theorem norm2_sqd (p q : ℝ × ℝ) : norm2 (p - q) = Real.sqrt (sqd p q) := by
  rw [norm2_eq]; rfl

theorem sqd_nonneg (p q : ℝ × ℝ) : 0 ≤ sqd p q := by unfold sqd; positivity

/-- Gaussian kernel matrices are positive semidefinite. -/
theorem gauss_psd (p : ι → ℝ × ℝ) {r : ℝ} (hr : 0 ≤ r) :
    Psd fun i j => Real.exp (-(r * sqd (p i) (p j))) := by
  have h1 : Psd fun i j => Real.exp (2 * r * ((p i).1 * (p j).1 + (p i).2 * (p j).2)) :=
    (((Psd.rank_one fun i => (p i).1).add (Psd.rank_one fun i => (p i).2)).smul
      (show 0 ≤ 2 * r by positivity)).exp
  have h2 := (Psd.rank_one fun i => Real.exp (-(r * ((p i).1 ^ 2 + (p i).2 ^ 2)))).mul h1
  refine h2.congr fun i j => ?_
  rw [← Real.exp_add, ← Real.exp_add]
  congr 1
  unfold sqd; ring

/-- The density `(1 - e^{-u}) u^{-3/2}` is integrable. -/
theorem root_integrable :
    IntegrableOn (fun u : ℝ => (1 - Real.exp (-u)) * u ^ (-(3 / 2) : ℝ)) (Ioi 0) := by
  have hm : Measurable (fun u : ℝ => (1 - Real.exp (-u)) * u ^ (-(3 / 2) : ℝ)) := by fun_prop
  rw [← Ioc_union_Ioi_eq_Ioi (zero_le_one (α := ℝ)), integrableOn_union]
  constructor
  · have h1 : IntegrableOn (fun u : ℝ => u ^ (-(1 / 2) : ℝ)) (Ioc 0 1) := by
      have := intervalIntegral.intervalIntegrable_rpow' (a := 0) (b := 1)
        (show (-1 : ℝ) < -(1 / 2) by norm_num)
      rwa [intervalIntegrable_iff_integrableOn_Ioc_of_le zero_le_one] at this
    refine Integrable.mono' h1 hm.aestronglyMeasurable ?_
    refine (ae_restrict_iff' measurableSet_Ioc).mpr (Filter.Eventually.of_forall fun u hu => ?_)
    have hu0 : 0 < u := hu.1
    have a : 0 ≤ 1 - Real.exp (-u) := by
      have : Real.exp (-u) ≤ 1 := Real.exp_le_one_iff.mpr (by linarith)
      linarith
    have b : 1 - Real.exp (-u) ≤ u := by
      have := Real.add_one_le_exp (-u); linarith
    have c : 0 < u ^ (-(3 / 2) : ℝ) := Real.rpow_pos_of_pos hu0 _
    rw [Real.norm_of_nonneg (by positivity)]
    have e : u * u ^ (-(3 / 2) : ℝ) = u ^ (-(1 / 2) : ℝ) := by
      nth_rewrite 1 [← Real.rpow_one u]
      rw [← Real.rpow_add hu0]; norm_num
    rw [← e]
    exact mul_le_mul_of_nonneg_right b c.le
  · have h1 : IntegrableOn (fun u : ℝ => u ^ (-(3 / 2) : ℝ)) (Ioi 1) :=
      integrableOn_Ioi_rpow_of_lt (by norm_num) zero_lt_one
    refine Integrable.mono' h1 hm.aestronglyMeasurable ?_
    refine (ae_restrict_iff' measurableSet_Ioi).mpr (Filter.Eventually.of_forall fun u hu => ?_)
    have hu0 : 0 < u := lt_trans zero_lt_one hu
    have a : 0 ≤ 1 - Real.exp (-u) := by
      have : Real.exp (-u) ≤ 1 := Real.exp_le_one_iff.mpr (by linarith)
      linarith
    have b : 1 - Real.exp (-u) ≤ 1 := by
      have := Real.exp_pos (-u); linarith
    have c : 0 < u ^ (-(3 / 2) : ℝ) := Real.rpow_pos_of_pos hu0 _
    rw [Real.norm_of_nonneg (by positivity)]
    nlinarith

/-- `∫ (1 - e^{-u}) u^{-3/2} du`. -/
noncomputable def rootConst : ℝ := ∫ u in Ioi (0 : ℝ), (1 - Real.exp (-u)) * u ^ (-(3 / 2) : ℝ)

theorem rootConst_pos : 0 < rootConst := by
  unfold rootConst
  rw [setIntegral_pos_iff_support_of_nonneg_ae]
  · have : Function.support (fun u : ℝ => (1 - Real.exp (-u)) * u ^ (-(3 / 2) : ℝ)) ∩ Ioi 0
        = Ioi 0 := by
      ext u
      simp only [mem_inter_iff, Function.mem_support, mem_Ioi, and_iff_right_iff_imp]
      intro hu
      have h1 : Real.exp (-u) < 1 := by
        rw [← Real.exp_zero]; exact Real.exp_lt_exp.mpr (by linarith)
      have h2 : 0 < u ^ (-(3 / 2) : ℝ) := Real.rpow_pos_of_pos hu _
      have : 0 < 1 - Real.exp (-u) := by linarith
      positivity
    rw [this]; simp
  · refine (ae_restrict_iff' measurableSet_Ioi).mpr (Filter.Eventually.of_forall fun u hu => ?_)
    have hu0 : 0 < u := hu
    have : Real.exp (-u) ≤ 1 := Real.exp_le_one_iff.mpr (by linarith)
    have h2 : 0 < u ^ (-(3 / 2) : ℝ) := Real.rpow_pos_of_pos hu0 _
    have : 0 ≤ 1 - Real.exp (-u) := by linarith
    simp only [Pi.zero_apply]
    positivity
  · exact root_integrable

/-- The square root as an integral of `1 - e^{-λ q}`. -/
theorem sqrt_integral {q : ℝ} (hq : 0 ≤ q) :
    IntegrableOn (fun u : ℝ => (1 - Real.exp (-(u * q))) * u ^ (-(3 / 2) : ℝ)) (Ioi 0) ∧
    ∫ u in Ioi (0 : ℝ), (1 - Real.exp (-(u * q))) * u ^ (-(3 / 2) : ℝ)
      = Real.sqrt q * rootConst := by
  rcases hq.eq_or_lt with rfl | hq
  · simp
  · have hc : ∀ u ∈ Ioi (0 : ℝ), (1 - Real.exp (-(u * q))) * u ^ (-(3 / 2) : ℝ)
        = q ^ (3 / 2 : ℝ) * ((1 - Real.exp (-(q * u))) * (q * u) ^ (-(3 / 2) : ℝ)) := by
      intro u hu
      have hu0 : 0 < u := hu
      rw [Real.mul_rpow hq.le hu0.le, mul_comm u q]
      have : q ^ (3 / 2 : ℝ) * q ^ (-(3 / 2) : ℝ) = 1 := by
        rw [← Real.rpow_add hq]; norm_num
      linear_combination (-(1 - Real.exp (-(q * u))) * u ^ (-(3 / 2) : ℝ)) * this
    have hi := (integrableOn_Ioi_comp_mul_left_iff
      (fun u : ℝ => (1 - Real.exp (-u)) * u ^ (-(3 / 2) : ℝ)) 0 hq).mpr (by
        simpa using root_integrable)
    constructor
    · refine IntegrableOn.congr_fun (hi.const_mul (q ^ (3 / 2 : ℝ))) (fun u hu => ?_)
        measurableSet_Ioi
      exact (hc u hu).symm
    · rw [setIntegral_congr_fun measurableSet_Ioi hc, integral_const_mul,
        integral_comp_mul_left_Ioi (fun u : ℝ => (1 - Real.exp (-u)) * u ^ (-(3 / 2) : ℝ)) 0 hq]
      simp only [mul_zero, smul_eq_mul]
      rw [← mul_assoc]
      have : q ^ (3 / 2 : ℝ) * q⁻¹ = Real.sqrt q := by
        rw [← Real.rpow_neg_one, ← Real.rpow_add hq, Real.sqrt_eq_rpow]; norm_num
      rw [this]; rfl

/-- `|p| + |q| - |p - q|` is a positive semidefinite kernel. -/
theorem branching_psd (p : ι → ℝ × ℝ) :
    Psd fun i j => Real.sqrt (sqd (p i) 0) + Real.sqrt (sqd (p j) 0)
      - Real.sqrt (sqd (p i) (p j)) := by
  -- the integrand
  have hK : ∀ u ∈ Ioi (0 : ℝ), Psd fun i j : ι =>
      ((1 - Real.exp (-(u * sqd (p i) 0))) + (1 - Real.exp (-(u * sqd (p j) 0)))
        - (1 - Real.exp (-(u * sqd (p i) (p j))))) * u ^ (-(3 / 2) : ℝ) := by
    intro u hu
    have hu0 : 0 < u := hu
    have hu2 : 0 ≤ u ^ (-(3 / 2) : ℝ) := (Real.rpow_pos_of_pos hu0 _).le
    have h1 : Psd fun i j : ι => (1 - Real.exp (-(u * sqd (p i) 0)))
        + (1 - Real.exp (-(u * sqd (p j) 0))) - (1 - Real.exp (-(u * sqd (p i) (p j)))) := by
      have hg := gauss_psd (fun o : Option ι => o.elim 0 p) hu0.le
      refine ⟨fun i j => ?_, fun c => ?_⟩
      · have : sqd (p i) (p j) = sqd (p j) (p i) := by unfold sqd; ring
        simp only; rw [this]; ring
      · have := hg.2 (fun o => o.elim (-∑ i, c i) c)
        refine this.trans_eq ?_
        have hsym : ∀ i, sqd 0 (p i) = sqd (p i) 0 := fun i => by unfold sqd; ring
        have h00 : sqd (0 : ℝ × ℝ) 0 = 0 := by simp [sqd]
        simp only [qf, Fintype.sum_option, Option.elim, hsym, h00, mul_zero, neg_zero,
          Real.exp_zero, Finset.sum_add_distrib]
        have e1 : ∀ i, ∑ j, c i * ((1 - Real.exp (-(u * sqd (p i) 0)))
            + (1 - Real.exp (-(u * sqd (p j) 0))) - (1 - Real.exp (-(u * sqd (p i) (p j))))) * c j
            = c i * (∑ j, c j) - (c i * Real.exp (-(u * sqd (p i) 0))) * (∑ j, c j)
              - c i * (∑ j, Real.exp (-(u * sqd (p j) 0)) * c j)
              + ∑ j, c i * Real.exp (-(u * sqd (p i) (p j))) * c j := by
          intro i
          rw [Finset.mul_sum, Finset.mul_sum, Finset.mul_sum, ← Finset.sum_sub_distrib,
            ← Finset.sum_sub_distrib, ← Finset.sum_add_distrib]
          refine Finset.sum_congr rfl fun j _ => ?_
          ring
        rw [Finset.sum_congr rfl fun i _ => e1 i]
        simp only [Finset.sum_add_distrib, Finset.sum_sub_distrib, ← Finset.sum_mul]
        have e2 : ∑ i, Real.exp (-(u * sqd (p i) 0)) * c i
            = ∑ i, c i * Real.exp (-(u * sqd (p i) 0)) :=
          Finset.sum_congr rfl fun i _ => mul_comm _ _
        have e3 : ∑ i, -(∑ i, c i) * Real.exp (-(u * sqd (p i) 0)) * c i
            = -(∑ i, c i) * ∑ i, c i * Real.exp (-(u * sqd (p i) 0)) := by
          rw [Finset.mul_sum]
          exact Finset.sum_congr rfl fun i _ => by ring
        rw [e2, e3]
        ring
    exact (h1.smul hu2).congr fun i j => mul_comm _ _
  have hint : ∀ i j : ι, IntegrableOn (fun u =>
      ((1 - Real.exp (-(u * sqd (p i) 0))) + (1 - Real.exp (-(u * sqd (p j) 0)))
        - (1 - Real.exp (-(u * sqd (p i) (p j))))) * u ^ (-(3 / 2) : ℝ)) (Ioi 0) := by
    intro i j
    have := (((sqrt_integral (sqd_nonneg (p i) 0)).1).add
      ((sqrt_integral (sqd_nonneg (p j) 0)).1)).sub ((sqrt_integral (sqd_nonneg (p i) (p j))).1)
    refine this.congr (Filter.Eventually.of_forall fun u => ?_)
    simp only [Pi.add_apply, Pi.sub_apply]
    ring
  have h := (Psd.integral hK hint).smul (inv_nonneg.mpr rootConst_pos.le)
  refine h.congr fun i j => ?_
  have hv : ∫ u in Ioi (0 : ℝ), ((1 - Real.exp (-(u * sqd (p i) 0)))
      + (1 - Real.exp (-(u * sqd (p j) 0)))
        - (1 - Real.exp (-(u * sqd (p i) (p j))))) * u ^ (-(3 / 2) : ℝ)
      = (Real.sqrt (sqd (p i) 0) + Real.sqrt (sqd (p j) 0)
        - Real.sqrt (sqd (p i) (p j))) * rootConst := by
    have e : ∀ u : ℝ, ((1 - Real.exp (-(u * sqd (p i) 0))) + (1 - Real.exp (-(u * sqd (p j) 0)))
        - (1 - Real.exp (-(u * sqd (p i) (p j))))) * u ^ (-(3 / 2) : ℝ)
        = (1 - Real.exp (-(u * sqd (p i) 0))) * u ^ (-(3 / 2) : ℝ)
          + (1 - Real.exp (-(u * sqd (p j) 0))) * u ^ (-(3 / 2) : ℝ)
          - (1 - Real.exp (-(u * sqd (p i) (p j)))) * u ^ (-(3 / 2) : ℝ) := fun u => by ring
    simp only [e]
    have ha : IntegrableOn (fun u => (1 - Real.exp (-(u * sqd (p i) 0))) * u ^ (-(3 / 2) : ℝ)
          + (1 - Real.exp (-(u * sqd (p j) 0))) * u ^ (-(3 / 2) : ℝ)) (Ioi 0) :=
      ((sqrt_integral (sqd_nonneg (p i) 0)).1).add ((sqrt_integral (sqd_nonneg (p j) 0)).1)
    rw [integral_sub ha ((sqrt_integral (sqd_nonneg (p i) (p j))).1),
      integral_add ((sqrt_integral (sqd_nonneg (p i) 0)).1)
      ((sqrt_integral (sqd_nonneg (p j) 0)).1), (sqrt_integral (sqd_nonneg (p i) 0)).2,
      (sqrt_integral (sqd_nonneg (p j) 0)).2, (sqrt_integral (sqd_nonneg (p i) (p j))).2]
    ring
  rw [hv]
  have := rootConst_pos.ne'
  field_simp

/-- Laplace (exponential) kernel matrices are positive semidefinite. -/
theorem laplace_psd (p : ι → ℝ × ℝ) {r : ℝ} (hr : 0 ≤ r) :
    Psd fun i j => Real.exp (-(r * norm2 (p i - p j))) := by
  have h1 := ((branching_psd p).smul hr).exp
  have h2 := (Psd.rank_one fun i => Real.exp (-(r * Real.sqrt (sqd (p i) 0)))).mul h1
  refine h2.congr fun i j => ?_
  rw [← Real.exp_add, ← Real.exp_add, norm2_sqd]
  congr 1
  ring

/-- Rational kernel matrices are positive semidefinite. -/
theorem rational_psd (p : ι → ℝ × ℝ) {a : ℝ} (ha : 0 ≤ a) :
    Psd fun i j => rationalK a (norm2 (p i - p j)) := by
  rcases ha.eq_or_lt with rfl | ha
  · exact (Psd.rank_one (fun _ : ι => 1)).congr (by simp [rationalK])
  have hG := Real.Gamma_pos_of_pos ha
  have hK : ∀ t ∈ Ioi (0 : ℝ), Psd fun i j : ι =>
      t ^ (a - 1) * Real.exp (-((1 + sqd (p i) (p j)) * t)) := by
    intro t ht
    have ht0 : 0 < t := ht
    have h1 := (gauss_psd p ht0.le).smul
      (show 0 ≤ t ^ (a - 1) * Real.exp (-t) by positivity)
    refine h1.congr fun i j => ?_
    rw [mul_assoc, ← Real.exp_add]
    congr 2; ring
  have hv : ∀ i j, ∫ t in Ioi (0 : ℝ), t ^ (a - 1) * Real.exp (-((1 + sqd (p i) (p j)) * t))
      = (1 / (1 + sqd (p i) (p j))) ^ a * Real.Gamma a := fun i j =>
    Real.integral_rpow_mul_exp_neg_mul_Ioi ha (by linarith [sqd_nonneg (p i) (p j)])
  have hint : ∀ i j : ι, IntegrableOn (fun t =>
      t ^ (a - 1) * Real.exp (-((1 + sqd (p i) (p j)) * t))) (Ioi 0) := by
    intro i j
    by_contra hn
    have := hv i j
    rw [integral_undef hn] at this
    have h0 : 0 < 1 / (1 + sqd (p i) (p j)) := by
      have := sqd_nonneg (p i) (p j)
      positivity
    have h1 := Real.rpow_pos_of_pos h0 a
    have h2 := mul_pos h1 hG
    linarith
  have h := (Psd.integral hK hint).smul (inv_nonneg.mpr hG.le)
  refine h.congr fun i j => ?_
  rw [hv, rationalK, norm2_sq]
  field_simp

/-- Matern kernel matrices are positive semidefinite, if the diagonal is `1 = σ²`. -/
theorem matern_psd (p : ι → ℝ × ℝ) {sgm nu l : ℝ} (hs : sgm ^ 2 = 1) (hnu : 0 < nu) (hl : 0 < l) :
    Psd fun i j => maternK sgm nu l (norm2 (p i - p j)) := by
  have hG := Real.Gamma_pos_of_pos hnu
  have hK : ∀ t ∈ Ioi (0 : ℝ), Psd fun i j : ι =>
      Real.exp (-t - (Real.sqrt (2 * nu) * norm2 (p i - p j) / l) ^ 2 / (4 * t)) * t ^ (nu - 1) := by
    intro t ht
    have ht0 : 0 < t := ht
    have h1 := (gauss_psd p (show 0 ≤ (Real.sqrt (2 * nu) / l) ^ 2 / (4 * t) by positivity)).smul
      (show 0 ≤ t ^ (nu - 1) * Real.exp (-t) by positivity)
    refine h1.congr fun i j => ?_
    rw [mul_assoc, ← Real.exp_add, mul_comm]
    congr 2
    rw [← norm2_sq]
    ring
  have h := (Psd.integral hK fun i j => besselIntegrable _ hnu).smul (inv_nonneg.mpr hG.le)
  refine h.congr fun i j => ?_
  have h0 : 0 ≤ norm2 (p i - p j) := norm_nonneg _
  rcases h0.eq_or_lt with e | hpos
  · rw [← e]
    have : ∫ t in Ioi (0 : ℝ), Real.exp (-t - (Real.sqrt (2 * nu) * 0 / l) ^ 2 / (4 * t))
        * t ^ (nu - 1) = Real.Gamma nu := by
      rw [Real.Gamma_eq_integral hnu]; simp
    rw [this]
    simp [maternK, hG.ne']
  · rw [matern_eq hnu hl hpos, hs, one_mul, div_eq_inv_mul (besselI _ _)]; rfl

end Verif.Gmrf
