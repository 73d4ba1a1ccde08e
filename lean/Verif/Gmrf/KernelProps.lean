import Verif.Gmrf.Distance

/-!
# C44: the covariance kernels are symmetric, bounded by the variance, with the variance on the diagonal
-/

namespace Verif.Gmrf

open MeasureTheory Set

/-! ## Specification -/

/-- Parameters that make sense: correlation length and shape positive, exponent nonnegative. -/
def Stat.Valid : Stat → Prop
  | .gaussian _ l => 0 < l
  | .exponential _ l => 0 < l
  | .matern _ nu l => 0 < nu ∧ 0 < l
  | .rational a => 0 ≤ a

/-- The variance `σ²` of the kernel (`1` for the rational kernel, which has no `σ`). -/
def Stat.variance : Stat → ℝ
  | .gaussian sgm _ => sgm ^ 2
  | .exponential sgm _ => sgm ^ 2
  | .matern sgm _ _ => sgm ^ 2
  | .rational _ => 1

/-- Periodic calls are about points of the box. -/
def Adm1 (per : Bool) (box : Option (ℝ × ℝ)) (x : ℝ) : Prop :=
  per = true → ∀ B, box = some B → InBox1 B x

/-- Periodic calls are about points of the box. -/
def Adm2 (per : Bool) (box : Option ((ℝ × ℝ) × (ℝ × ℝ))) (x : ℝ × ℝ) : Prop :=
  per = true → ∀ B, box = some B → InBox2 B x

/-! ## The distances are symmetric, nonnegative and zero on the diagonal -/

theorem dist1_symm (x y : ℝ) (M : Option ℝ) (per : Bool) (box : Option (ℝ × ℝ)) :
    dist1 x y M per box = dist1 y x M per box := by
  simp only [dist1, abs_sub_comm y x]

theorem dist2_symm (x y : ℝ × ℝ) (M : Option (Matrix (Fin 2) (Fin 2) ℝ)) (per : Bool)
    (box : Option ((ℝ × ℝ) × (ℝ × ℝ))) : dist2 x y M per box = dist2 y x M per box := by
  simp only [dist2, abs_sub_comm y.1, abs_sub_comm y.2]

theorem dist1_nonneg {x y d : ℝ} {M : Option ℝ} {per : Bool} {box : Option (ℝ × ℝ)}
    (hx : Adm1 per box x) (hy : Adm1 per box y) (h : dist1 x y M per box = .ok d) : 0 ≤ d := by
  have key : ∀ e : ℝ, 0 ≤ e → (match M with
      | none => (.ok e : Except Err ℝ)
      | some M => if M ≥ 0 then .ok (Real.sqrt M * e) else .error .assertion) = .ok d → 0 ≤ d := by
    intro e he h
    cases M with
    | none => simp only [Except.ok.injEq] at h; rw [← h]; exact he
    | some M =>
      simp only at h
      split_ifs at h
      simp only [Except.ok.injEq] at h
      rw [← h]; positivity
  cases per with
  | false =>
    simp only [dist1, bind, Except.bind, Bool.false_eq_true, if_false] at h
    exact key _ (abs_nonneg _) h
  | true =>
    cases box with
    | none => simp [dist1, bind, Except.bind] at h
    | some B =>
      simp only [dist1, bind, Except.bind, if_true] at h
      exact key _ (wrap_nonneg (diff_le (hx rfl B rfl) (hy rfl B rfl))) h

theorem dist2_nonneg {x y : ℝ × ℝ} {d : ℝ} {M : Option (Matrix (Fin 2) (Fin 2) ℝ)} {per : Bool}
    {box : Option ((ℝ × ℝ) × (ℝ × ℝ))} (h : dist2 x y M per box = .ok d) : 0 ≤ d := by
  cases per <;> cases box <;> cases M <;>
    simp only [dist2, bind, Except.bind, if_true, Bool.false_eq_true, if_false] at h <;>
    first
    | (cases h; done)
    | (split_ifs at h; simp only [Except.ok.injEq] at h; rw [← h]; exact Real.sqrt_nonneg _)
    | (simp only [Except.ok.injEq] at h; rw [← h]; exact Real.sqrt_nonneg _)

theorem wrap_self {B : ℝ × ℝ} {x : ℝ} (hx : InBox1 B x) :
    min |x - x| ((B.2 - B.1) - |x - x|) = 0 := by
  simp only [sub_self, abs_zero, sub_zero]
  exact min_eq_left (by linarith [hx.1, hx.2])

theorem dist1_self {x d : ℝ} {M : Option ℝ} {per : Bool} {box : Option (ℝ × ℝ)}
    (hx : Adm1 per box x) (h : dist1 x x M per box = .ok d) : d = 0 := by
  cases per with
  | false => rw [C42_formula_1d x x d M box h]; simp
  | true =>
    cases box with
    | none => simp [dist1, bind, Except.bind] at h
    | some B =>
      simp only [dist1, bind, Except.bind, if_true, wrap_self (hx rfl B rfl)] at h
      cases M with
      | none => simp only [Except.ok.injEq] at h; exact h.symm
      | some M =>
        simp only at h
        split_ifs at h
        simpa using h.symm

theorem dist2_self {x : ℝ × ℝ} {d : ℝ} {M : Option (Matrix (Fin 2) (Fin 2) ℝ)} {per : Bool}
    {box : Option ((ℝ × ℝ) × (ℝ × ℝ))} (hx : Adm2 per box x) (h : dist2 x x M per box = .ok d) :
    d = 0 := by
  cases per with
  | false =>
    cases M <;>
      simp only [dist2, bind, Except.bind, Bool.false_eq_true, if_false, sub_self, abs_zero] at h
    · simpa using h.symm
    · split_ifs at h
      simpa [quadForm] using h.symm
  | true =>
    cases box with
    | none => simp [dist2, bind, Except.bind] at h
    | some B =>
      cases M <;>
        simp only [dist2, bind, Except.bind, if_true, wrap_self (hx rfl B rfl).1,
          wrap_self (hx rfl B rfl).2] at h
      · simpa using h.symm
      · split_ifs at h
        simpa [quadForm] using h.symm

/-! ## The Matern kernel as a Gamma integral -/

/-- The integral in the Bessel function. -/
noncomputable def besselI (nu z : ℝ) : ℝ :=
  ∫ t in Ioi (0 : ℝ), Real.exp (-t - z ^ 2 / (4 * t)) * t ^ (nu - 1)

theorem gammaIntegrable {nu : ℝ} (h : 0 < nu) :
    IntegrableOn (fun t : ℝ => Real.exp (-t) * t ^ (nu - 1)) (Ioi 0) :=
  Real.GammaIntegral_convergent h

theorem bessel_meas (nu z : ℝ) :
    Measurable (fun t : ℝ => Real.exp (-t - z ^ 2 / (4 * t)) * t ^ (nu - 1)) := by
  fun_prop

theorem bessel_bound {nu z t : ℝ} (ht : 0 < t) :
    0 ≤ Real.exp (-t - z ^ 2 / (4 * t)) * t ^ (nu - 1) ∧
    Real.exp (-t - z ^ 2 / (4 * t)) * t ^ (nu - 1) ≤ Real.exp (-t) * t ^ (nu - 1) := by
  have h1 : 0 < t ^ (nu - 1) := Real.rpow_pos_of_pos ht _
  refine ⟨by positivity, ?_⟩
  refine mul_le_mul_of_nonneg_right (Real.exp_le_exp.mpr ?_) h1.le
  have : 0 ≤ z ^ 2 / (4 * t) := by positivity
  linarith

theorem besselIntegrable {nu : ℝ} (z : ℝ) (h : 0 < nu) :
    IntegrableOn (fun t : ℝ => Real.exp (-t - z ^ 2 / (4 * t)) * t ^ (nu - 1)) (Ioi 0) := by
  refine Integrable.mono' (gammaIntegrable h) (bessel_meas nu z).aestronglyMeasurable ?_
  refine (ae_restrict_iff' measurableSet_Ioi).mpr (Filter.Eventually.of_forall fun t ht => ?_)
  obtain ⟨a, b⟩ := bessel_bound (nu := nu) (z := z) ht
  rw [Real.norm_of_nonneg a]; exact b

theorem besselI_le {nu : ℝ} (z : ℝ) (h : 0 < nu) : besselI nu z ≤ Real.Gamma nu := by
  rw [Real.Gamma_eq_integral h]
  exact setIntegral_mono_on (besselIntegrable z h) (gammaIntegrable h) measurableSet_Ioi
    fun t ht => (bessel_bound ht).2

theorem besselI_nonneg (nu z : ℝ) : 0 ≤ besselI nu z :=
  setIntegral_nonneg measurableSet_Ioi fun _ ht => (bessel_bound ht).1

/-- For positive argument the code's formula is `σ² / Γ(ν)` times the Bessel integral. -/
theorem matern_eq {sgm nu l d : ℝ} (hnu : 0 < nu) (hl : 0 < l) (hd : 0 < d) :
    maternK sgm nu l d = sgm ^ 2 * (besselI nu (Real.sqrt (2 * nu) * d / l) / Real.Gamma nu) := by
  have hz : 0 < Real.sqrt (2 * nu) * d / l := by positivity
  unfold maternK besselK
  simp only
  rw [if_neg (not_le.mpr hz)]
  set z := Real.sqrt (2 * nu) * d / l
  have h1 : (2 : ℝ) ^ (1 - nu) * z ^ nu * (1 / 2 * (z / 2) ^ (-nu)) = 1 := by
    rw [Real.div_rpow hz.le (by norm_num), Real.rpow_neg hz.le, Real.rpow_neg (by norm_num),
      Real.rpow_sub (by norm_num), Real.rpow_one]
    have a := (Real.rpow_pos_of_pos hz nu).ne'
    have b := (Real.rpow_pos_of_pos (show (0 : ℝ) < 2 by norm_num) nu).ne'
    field_simp
  have : besselI nu z = ∫ t in Ioi (0 : ℝ), Real.exp (-t - z ^ 2 / (4 * t)) * t ^ (nu - 1) := rfl
  rw [← this]
  linear_combination (sgm ^ 2 * besselI nu z / Real.Gamma nu) * h1

/-! ## The property -/

/-- Bounds of the kernels in terms of the distance. -/
theorem eval_bound (s : Stat) (hs : s.Valid) {d : ℝ} (hd : 0 ≤ d)
    (h1 : ∀ sgm nu l, s = .matern sgm nu l → d = 0 → 1 ≤ sgm ^ 2) :
    0 ≤ s.eval d ∧ s.eval d ≤ s.variance := by
  cases s with
  | gaussian sgm l =>
    simp only [Stat.Valid] at hs
    simp only [Stat.eval, gaussianK, Stat.variance]
    refine ⟨by positivity, ?_⟩
    have : Real.exp (-d ^ 2 / (2 * l ^ 2)) ≤ 1 := by
      rw [Real.exp_le_one_iff, neg_div]
      have : 0 ≤ d ^ 2 / (2 * l ^ 2) := by positivity
      linarith
    nlinarith [sq_nonneg sgm]
  | exponential sgm l =>
    simp only [Stat.Valid] at hs
    simp only [Stat.eval, exponentialK, Stat.variance]
    refine ⟨by positivity, ?_⟩
    have : Real.exp (-d / l) ≤ 1 := by
      rw [Real.exp_le_one_iff, neg_div]
      have : 0 ≤ d / l := by positivity
      linarith
    nlinarith [sq_nonneg sgm]
  | matern sgm nu l =>
    obtain ⟨hnu, hl⟩ := hs
    rcases hd.eq_or_lt with rfl | hd
    · simp only [Stat.eval, Stat.variance, maternK]
      simpa using h1 sgm nu l rfl rfl
    · simp only [Stat.eval, Stat.variance]
      rw [matern_eq hnu hl hd]
      have hG := Real.Gamma_pos_of_pos hnu
      have a := besselI_nonneg nu (Real.sqrt (2 * nu) * d / l)
      have b := besselI_le (Real.sqrt (2 * nu) * d / l) hnu
      refine ⟨by positivity, ?_⟩
      have : besselI nu (Real.sqrt (2 * nu) * d / l) / Real.Gamma nu ≤ 1 := (div_le_one hG).mpr b
      nlinarith [sq_nonneg sgm]
  | rational a =>
    simp only [Stat.Valid] at hs
    simp only [Stat.eval, rationalK, Stat.variance]
    refine ⟨by positivity, ?_⟩
    refine Real.rpow_le_one (by positivity) ?_ hs
    rw [div_le_one (by positivity)]
    nlinarith [sq_nonneg d]

theorem eval_zero (s : Stat) (h1 : ∀ sgm nu l, s = .matern sgm nu l → sgm ^ 2 = 1) :
    s.eval 0 = s.variance := by
  cases s with
  | gaussian sgm l => simp [Stat.eval, gaussianK, Stat.variance]
  | exponential sgm l => simp [Stat.eval, exponentialK, Stat.variance]
  | matern sgm nu l => simp [Stat.eval, maternK, Stat.variance, h1 sgm nu l rfl]
  | rational a => simp [Stat.eval, rationalK, Stat.variance]

theorem stat1_ok {s : Stat} {x y k : ℝ} {M : Option ℝ} {per : Bool} {box : Option (ℝ × ℝ)}
    (h : stat1 s x y M per box = .ok k) : ∃ d, dist1 x y M per box = .ok d ∧ k = s.eval d := by
  cases hd : dist1 x y M per box with
  | error e => rw [stat1, hd] at h; cases h
  | ok d =>
    refine ⟨d, rfl, ?_⟩
    rw [stat1, hd] at h
    simpa [bind, Except.bind, pure, Except.pure] using h.symm

theorem stat2_ok {s : Stat} {x y : ℝ × ℝ} {k : ℝ} {M : Option (Matrix (Fin 2) (Fin 2) ℝ)}
    {per : Bool} {box : Option ((ℝ × ℝ) × (ℝ × ℝ))}
    (h : stat2 s x y M per box = .ok k) : ∃ d, dist2 x y M per box = .ok d ∧ k = s.eval d := by
  cases hd : dist2 x y M per box with
  | error e => rw [stat2, hd] at h; cases h
  | ok d =>
    refine ⟨d, rfl, ?_⟩
    rw [stat2, hd] at h
    simpa [bind, Except.bind, pure, Except.pure] using h.symm

/-- **C44.** The stationary kernels are symmetric (same value or same exception), for all parameters,
anisotropies and periodicity; so are `linear` without anisotropy or with a symmetric one. -/
theorem C44_symmetric :
    (∀ (s : Stat) (x y : ℝ) (M : Option ℝ) (per : Bool) (box : Option (ℝ × ℝ)),
      stat1 s x y M per box = stat1 s y x M per box) ∧
    (∀ (s : Stat) (x y : ℝ × ℝ) (M : Option (Matrix (Fin 2) (Fin 2) ℝ)) (per : Bool)
      (box : Option ((ℝ × ℝ) × (ℝ × ℝ))), stat2 s x y M per box = stat2 s y x M per box) ∧
    (∀ (x y sgm : ℝ) (M : Option ℝ), linear1 x y sgm M = linear1 y x sgm M) ∧
    (∀ (x y : ℝ × ℝ) (sgm : ℝ) (M : Option (Matrix (Fin 2) (Fin 2) ℝ)),
      (∀ m, M = some m → m 0 1 = m 1 0) → linear2 x y sgm M = linear2 y x sgm M) := by
  refine ⟨?_, ?_, ?_, ?_⟩
  · intro s x y M per box; rw [stat1, stat1, dist1_symm]
  · intro s x y M per box; rw [stat2, stat2, dist2_symm]
  · intro x y sgm M; cases M <;> simp only [linear1] <;> ring
  · intro x y sgm M hM
    cases M with
    | none => simp only [linear2]; ring
    | some m => simp only [linear2, hM m rfl]; ring

/-- **C44** (1D), all stationary kernels except the Matern kernel with `σ² ≠ 1`: `k(x,x) = σ²` and
`0 <= k(x,y) <= σ²`. -/
theorem C44_bounded_1d_partial (s : Stat) (hs : s.Valid)
    (h1 : ∀ sgm nu l, s = .matern sgm nu l → sgm ^ 2 = 1)
    (x y k : ℝ) (M : Option ℝ) (per : Bool) (box : Option (ℝ × ℝ)) (hx : Adm1 per box x)
    (hy : Adm1 per box y) (h : stat1 s x y M per box = .ok k) :
    0 ≤ k ∧ k ≤ s.variance ∧ (x = y → k = s.variance) := by
  obtain ⟨d, hd, rfl⟩ := stat1_ok h
  have hb := eval_bound s hs (dist1_nonneg hx hy hd) (fun a b c e _ => (h1 a b c e).ge)
  refine ⟨hb.1, hb.2, ?_⟩
  rintro rfl
  rw [dist1_self hx hd, eval_zero s h1]

/-- **C44** (2D), all stationary kernels except the Matern kernel with `σ² ≠ 1`: `k(x,x) = σ²` and
`0 <= k(x,y) <= σ²`. -/
theorem C44_bounded_2d_partial (s : Stat) (hs : s.Valid)
    (h1 : ∀ sgm nu l, s = .matern sgm nu l → sgm ^ 2 = 1)
    (x y : ℝ × ℝ) (k : ℝ) (M : Option (Matrix (Fin 2) (Fin 2) ℝ)) (per : Bool)
    (box : Option ((ℝ × ℝ) × (ℝ × ℝ))) (hx : Adm2 per box x)
    (h : stat2 s x y M per box = .ok k) :
    0 ≤ k ∧ k ≤ s.variance ∧ (x = y → k = s.variance) := by
  obtain ⟨d, hd, rfl⟩ := stat2_ok h
  have hb := eval_bound s hs (dist2_nonneg hd) (fun a b c e _ => (h1 a b c e).ge)
  refine ⟨hb.1, hb.2, ?_⟩
  rintro rfl
  rw [dist2_self hx hd, eval_zero s h1]

/-- **C44.** Matern kernel, any `σ`: `0 <= k <= σ²` at distinct points (positive distance). -/
theorem C44_matern_offdiagonal (sgm nu l d : ℝ) (hnu : 0 < nu) (hl : 0 < l) (hd : 0 < d) :
    0 ≤ maternK sgm nu l d ∧ maternK sgm nu l d ≤ sgm ^ 2 :=
  eval_bound (.matern sgm nu l) ⟨hnu, hl⟩ hd.le (fun _ _ _ _ e => absurd e hd.ne')

/-- **C44** fails for the Matern kernel: on the diagonal it is `1`, whatever `σ`. -/
theorem C44_matern_violated (sgm nu l x : ℝ) (h : sgm ^ 2 ≠ 1) :
    ∃ k, stat1 (.matern sgm nu l) x x none false none = .ok k ∧ k ≠ sgm ^ 2 := by
  refine ⟨1, ?_, fun e => h e.symm⟩
  simp [stat1, dist1, bind, Except.bind, pure, Except.pure, Stat.eval, maternK]

/-- **C44** fails for `constant`: its value is `sgm`, not `sgm²`. -/
theorem C44_constant_violated (sgm : ℝ) :
    constantK sgm = sgm ∧ (constantK sgm = sgm ^ 2 ↔ sgm = 0 ∨ sgm = 1) := by
  have : constantK sgm = sgm := by simp [constantK]
  refine ⟨this, ?_⟩
  rw [this]
  constructor
  · intro h
    have : sgm * (sgm - 1) = 0 := by linear_combination -h
    rcases mul_eq_zero.mp this with h0 | h0
    · exact Or.inl h0
    · exact Or.inr (sub_eq_zero.mp h0)
  · rintro (rfl | rfl) <;> norm_num

/-- **C44** fails for `linear` in 1D with anisotropy: documented `sgm² + x M y`, computed `x M y`. -/
theorem C44_linear_violated (x y sgm M : ℝ) (h : sgm ≠ 0) :
    linear1 x y sgm (some M) ≠ sgm ^ 2 + x * (M * y) := by
  have : 0 < sgm ^ 2 := by positivity
  simp only [linear1]
  intro e
  nlinarith

/-- **C44** fails for periodic kernels at points outside the box: the exponential kernel exceeds its
variance. -/
theorem C44_periodic_violated : ∃ k,
    stat1 (.exponential 1 1) 0 2 none true (some (0, 1)) = .ok k ∧ 1 < k := by
  refine ⟨Real.exp 1, ?_, by simp⟩
  rw [stat1, C42_periodic_violated.1]
  simp [bind, Except.bind, pure, Except.pure, Stat.eval, exponentialK]

/-! ## The hypotheses are satisfiable -/

example : (Stat.matern 1 (3 / 2) 2).Valid ∧ Adm1 true (some (0, 1)) (1 / 3) ∧
    ∃ k, stat1 (.matern 1 (3 / 2) 2) (1 / 3) (1 / 2) (some 2) true (some (0, 1)) = .ok k := by
  refine ⟨⟨by norm_num, by norm_num⟩, ?_, ?_⟩
  · rintro - B ⟨⟩; constructor <;> norm_num
  · obtain ⟨d, hd⟩ := (C42_total_1d (1 / 3) (1 / 2) (some 2) true (some (0, 1))).mpr
      ⟨by simp, by rintro m ⟨⟩; norm_num⟩
    exact ⟨_, by rw [stat1, hd]; rfl⟩

example : (Stat.gaussian 3 2).Valid ∧ Adm2 false none (1, 2) ∧
    ∃ k, stat2 (.gaussian 3 2) (1, 2) (3, 4) none false none = .ok k := by
  refine ⟨by norm_num [Stat.Valid], by rintro ⟨⟩, _, by rw [stat2, C42_formula_2d]; rfl⟩

end Verif.Gmrf
