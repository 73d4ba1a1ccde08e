import Verif.Gmrf.Kernels
import Mathlib.Analysis.InnerProductSpace.PiL2

/-!
# C42: `distance` is a metric, periodic distance is the distance on the torus
-/

namespace Verif.Gmrf

/-! ## Specification -/

/-- A distance on the points satisfying `S`: symmetric, nonnegative, zero on the diagonal, triangle
inequality. -/
structure IsPseudoMetricOn {α : Type} (S : α → Prop) (d : α → α → ℝ) : Prop where
  symm : ∀ x y, S x → S y → d x y = d y x
  nonneg : ∀ x y, S x → S y → 0 ≤ d x y
  self : ∀ x, S x → d x x = 0
  triangle : ∀ x y z, S x → S y → S z → d x z ≤ d x y + d y z

/-- The Euclidean norm of the plane. -/
noncomputable def norm2 (v : ℝ × ℝ) : ℝ := ‖(WithLp.toLp 2 ![v.1, v.2] : EuclideanSpace ℝ (Fin 2))‖

theorem norm2_eq (v : ℝ × ℝ) : norm2 v = Real.sqrt (v.1 ^ 2 + v.2 ^ 2) := by
  simp [norm2, EuclideanSpace.norm_eq, Fin.sum_univ_two]

theorem norm2_add (v w : ℝ × ℝ) : norm2 (v + w) ≤ norm2 v + norm2 w := by
  have h : (WithLp.toLp 2 ![(v + w).1, (v + w).2] : EuclideanSpace ℝ (Fin 2))
      = WithLp.toLp 2 ![v.1, v.2] + WithLp.toLp 2 ![w.1, w.2] := by
    ext i; fin_cases i <;> simp
  unfold norm2
  rw [h]
  exact norm_add_le _ _

/-- Point in the box `[a,b]`. -/
def InBox1 (B : ℝ × ℝ) (x : ℝ) : Prop := B.1 ≤ x ∧ x ≤ B.2

/-- Point in the box `[a,b] × [c,d]`. -/
def InBox2 (B : (ℝ × ℝ) × (ℝ × ℝ)) (x : ℝ × ℝ) : Prop := InBox1 B.1 x.1 ∧ InBox1 B.2 x.2

/-! ## When does it return -/

/-- **C42.** `distance` returns exactly when a periodic call has a box and `M` is nonnegative. -/
theorem C42_total_1d (x y : ℝ) (M : Option ℝ) (per : Bool) (box : Option (ℝ × ℝ)) :
    (∃ d, dist1 x y M per box = .ok d) ↔
      (per = true → box.isSome) ∧ ∀ m, M = some m → 0 ≤ m := by
  cases per <;> cases M <;> cases box <;> simp [dist1, bind, Except.bind] <;>
    (first | (split_ifs <;> simp_all) | skip)

/-- **C42.** The same in 2D. -/
theorem C42_total_2d (x y : ℝ × ℝ) (M : Option (Matrix (Fin 2) (Fin 2) ℝ)) (per : Bool)
    (box : Option ((ℝ × ℝ) × (ℝ × ℝ))) :
    (∃ d, dist2 x y M per box = .ok d) ↔
      (per = true → box.isSome) ∧ ∀ m, M = some m → m.PosSemidef := by
  cases per <;> cases M <;> cases box <;> simp [dist2, bind, Except.bind] <;>
    (first | (split_ifs <;> simp_all) | skip)

/-! ## Not periodic -/

/-- **C42.** 1D, not periodic: the distance is `sqrt(M) |x-y|` (`|x-y|` without `M`). -/
theorem C42_formula_1d (x y d : ℝ) (M : Option ℝ) (box : Option (ℝ × ℝ))
    (h : dist1 x y M false box = .ok d) :
    d = Real.sqrt (M.getD 1) * |x - y| := by
  cases M with
  | none => simp [dist1, bind, Except.bind] at h; simp [h]
  | some M =>
    simp only [dist1, bind, Except.bind, Bool.false_eq_true, if_false] at h
    split_ifs at h
    simp only [Except.ok.injEq] at h
    simp [← h]

/-- **C42.** 1D, not periodic: `distance` is a (pseudo)metric, and a metric for `M > 0`. -/
theorem C42_metric_1d (M : Option ℝ) (box : Option (ℝ × ℝ)) (d : ℝ → ℝ → ℝ)
    (h : ∀ x y, dist1 x y M false box = .ok (d x y)) :
    IsPseudoMetricOn (fun _ => True) d ∧
      ((∀ m, M = some m → 0 < m) → ∀ x y, d x y = 0 → x = y) := by
  have hd : ∀ x y, d x y = Real.sqrt (M.getD 1) * |x - y| :=
    fun x y => C42_formula_1d x y _ M box (h x y)
  have h0 := Real.sqrt_nonneg (M.getD 1)
  refine ⟨⟨?_, ?_, ?_, ?_⟩, ?_⟩
  · intro x y _ _; rw [hd, hd, abs_sub_comm]
  · intro x y _ _; rw [hd]; positivity
  · intro x _; simp [hd]
  · intro x y z _ _ _
    rw [hd, hd, hd, ← mul_add]
    exact mul_le_mul_of_nonneg_left (abs_sub_le x y z) h0
  · intro hM x y hxy
    rw [hd] at hxy
    have hpos : 0 < M.getD 1 := by
      cases M with
      | none => simp
      | some m => exact hM m rfl
    rcases mul_eq_zero.mp hxy with h1 | h1
    · rw [Real.sqrt_eq_zero'] at h1; linarith
    · exact sub_eq_zero.mp (abs_eq_zero.mp h1)

/-- **C42.** 2D, not periodic, no anisotropy: `distance` is the Euclidean distance. -/
theorem C42_formula_2d (x y : ℝ × ℝ) (box : Option ((ℝ × ℝ) × (ℝ × ℝ))) :
    dist2 x y none false box = .ok (norm2 (x - y)) := by
  simp [dist2, bind, Except.bind, norm2_eq]

theorem norm2_pseudo : IsPseudoMetricOn (fun _ : ℝ × ℝ => True) (fun x y => norm2 (x - y)) := by
  refine ⟨fun x y _ _ => ?_, fun x y _ _ => ?_, fun x _ => ?_, fun x y z _ _ _ => ?_⟩
  · rw [norm2_eq, norm2_eq]; congr 1; simp; ring
  · exact norm_nonneg _
  · simp [norm2_eq]
  · have := norm2_add (x - y) (y - z)
    simpa using this

/-- **C42.** 2D, not periodic: `distance` is a metric. -/
theorem C42_metric_2d (box : Option ((ℝ × ℝ) × (ℝ × ℝ))) (d : ℝ × ℝ → ℝ × ℝ → ℝ)
    (h : ∀ x y, dist2 x y none false box = .ok (d x y)) :
    IsPseudoMetricOn (fun _ => True) d ∧ ∀ x y, d x y = 0 → x = y := by
  have hd : d = fun x y => norm2 (x - y) := by
    funext x y
    have := h x y
    rw [C42_formula_2d] at this
    exact (Except.ok.inj this).symm
  subst hd
  refine ⟨norm2_pseudo, fun x y hxy => ?_⟩
  simp only [norm2_eq] at hxy
  rw [Real.sqrt_eq_zero (by positivity)] at hxy
  have h1 : (x - y).1 = 0 := by nlinarith [sq_nonneg (x - y).1, sq_nonneg (x - y).2]
  have h2 : (x - y).2 = 0 := by nlinarith [sq_nonneg (x - y).1, sq_nonneg (x - y).2]
  exact sub_eq_zero.mp (Prod.ext h1 h2)

/-! ## Anisotropy in 2D -/

/-- The documented `‖v‖_M = sqrt(v' M v)`. -/
noncomputable def normM (M : Matrix (Fin 2) (Fin 2) ℝ) (v : ℝ × ℝ) : ℝ :=
  Real.sqrt (![v.1, v.2] ⬝ᵥ M.mulVec ![v.1, v.2])

theorem normM_eq (M : Matrix (Fin 2) (Fin 2) ℝ) (v : ℝ × ℝ) :
    normM M v = Real.sqrt (quadForm M v.1 v.2) := by
  simp [normM, quadForm, dotProduct, Matrix.mulVec, Fin.sum_univ_two]

theorem psd_entries {M : Matrix (Fin 2) (Fin 2) ℝ} (h : M.PosSemidef) :
    M 0 1 = M 1 0 ∧ 0 ≤ M 0 0 ∧ 0 ≤ M 1 1 ∧ ∀ a b, 0 ≤ quadForm M a b := by
  have hq : ∀ a b, 0 ≤ quadForm M a b := by
    intro a b
    have := h.dotProduct_mulVec_nonneg ![a, b]
    simpa [quadForm, dotProduct, Matrix.mulVec, Fin.sum_univ_two] using this
  refine ⟨?_, ?_, ?_, hq⟩
  · have := congrFun (congrFun h.1 1) 0
    simpa [Matrix.conjTranspose_apply] using this
  · simpa [quadForm] using hq 1 0
  · simpa [quadForm] using hq 0 1

/-- `quadForm` satisfies Cauchy-Schwarz. -/
theorem quad_cs {M : Matrix (Fin 2) (Fin 2) ℝ} (h : M.PosSemidef) (a b c d : ℝ) :
    Real.sqrt (quadForm M (a + c) (b + d))
      ≤ Real.sqrt (quadForm M a b) + Real.sqrt (quadForm M c d) := by
  obtain ⟨hs, h0, h1, hq⟩ := psd_entries h
  set B : ℝ := a * (M 0 0 * c + M 0 1 * d) + b * (M 1 0 * c + M 1 1 * d) with hB
  have hexp : ∀ t, quadForm M (a + t * c) (b + t * d)
      = quadForm M a b + 2 * t * B + t ^ 2 * quadForm M c d := by
    intro t; simp only [quadForm, hB, hs]; ring
  have hB2 : B ^ 2 ≤ quadForm M a b * quadForm M c d := by
    have h2 : ∀ t, 0 ≤ quadForm M c d * (t * t) + 2 * B * t + quadForm M a b := by
      intro t
      have := hq (a + t * c) (b + t * d)
      rw [hexp t] at this; linarith
    have h3 := discrim_le_zero h2
    unfold discrim at h3
    nlinarith
  have hBle : B ≤ Real.sqrt (quadForm M a b) * Real.sqrt (quadForm M c d) := by
    rw [← Real.sqrt_mul (hq a b)]
    exact (le_abs_self B).trans (Real.abs_le_sqrt hB2)
  have h5 := hexp 1
  simp only [one_mul] at h5
  rw [h5]
  apply Real.sqrt_le_iff.mpr
  refine ⟨by positivity, ?_⟩
  nlinarith [Real.sq_sqrt (hq a b), Real.sq_sqrt (hq c d)]

/-- **C42.** 2D with an anisotropy matrix without off-diagonal entries: `distance` is the documented
`‖x-y‖_M`, and it is a pseudometric. -/
theorem C42_aniso_diagonal (M : Matrix (Fin 2) (Fin 2) ℝ) (h01 : M 0 1 = 0)
    (box : Option ((ℝ × ℝ) × (ℝ × ℝ))) (d : ℝ × ℝ → ℝ × ℝ → ℝ)
    (h : ∀ x y, dist2 x y (some M) false box = .ok (d x y)) :
    (∀ x y, d x y = normM M (x - y)) ∧ IsPseudoMetricOn (fun _ => True) d := by
  have hpsd : M.PosSemidef := ((C42_total_2d 0 0 (some M) false box).mp ⟨_, h 0 0⟩).2 M rfl
  obtain ⟨hs, h0, h1, hq⟩ := psd_entries hpsd
  have hd : ∀ x y, d x y = normM M (x - y) := by
    intro x y
    have := h x y
    simp only [dist2, bind, Except.bind, Bool.false_eq_true, if_false, hpsd, if_true,
      Except.ok.injEq] at this
    rw [← this, normM_eq]
    congr 1
    simp only [quadForm, ← hs, h01, Prod.fst_sub, Prod.snd_sub]
    have e1 := abs_mul_abs_self (x.1 - y.1)
    have e2 := abs_mul_abs_self (x.2 - y.2)
    linear_combination M 0 0 * e1 + M 1 1 * e2
  refine ⟨hd, ⟨?_, ?_, ?_, ?_⟩⟩
  · intro x y _ _
    rw [hd, hd, normM_eq, normM_eq]; congr 1
    simp only [quadForm, Prod.fst_sub, Prod.snd_sub]; ring
  · intro x y _ _; rw [hd]; exact Real.sqrt_nonneg _
  · intro x _; rw [hd, normM_eq]; simp [quadForm]
  · intro x y z _ _ _
    rw [hd, hd, hd, normM_eq, normM_eq, normM_eq]
    have := quad_cs hpsd (x - y).1 (x - y).2 (y - z).1 (y - z).2
    simpa using this

/-- **C42.** 2D with any admissible `M`: symmetric, nonnegative, zero on the diagonal; the triangle
inequality if the entries of `M` are nonnegative.  (Missing for a metric: negative off-diagonal
entries, see `C42_triangle_violated`.) -/
theorem C42_aniso_partial (M : Matrix (Fin 2) (Fin 2) ℝ)
    (box : Option ((ℝ × ℝ) × (ℝ × ℝ))) (d : ℝ × ℝ → ℝ × ℝ → ℝ)
    (h : ∀ x y, dist2 x y (some M) false box = .ok (d x y)) :
    (∀ x y, d x y = d y x ∧ 0 ≤ d x y) ∧ (∀ x, d x x = 0) ∧
      (0 ≤ M 0 1 → ∀ x y z, d x z ≤ d x y + d y z) := by
  have hpsd : M.PosSemidef := ((C42_total_2d 0 0 (some M) false box).mp ⟨_, h 0 0⟩).2 M rfl
  obtain ⟨hs, h0, h1, hq⟩ := psd_entries hpsd
  have hd : ∀ x y, d x y = Real.sqrt (quadForm M |x.1 - y.1| |x.2 - y.2|) := by
    intro x y
    have := h x y
    simp only [dist2, bind, Except.bind, Bool.false_eq_true, if_false, hpsd, if_true,
      Except.ok.injEq] at this
    exact this.symm
  refine ⟨fun x y => ⟨?_, ?_⟩, fun x => ?_, fun hM x y z => ?_⟩
  · rw [hd, hd, abs_sub_comm, abs_sub_comm x.2]
  · rw [hd]; exact Real.sqrt_nonneg _
  · rw [hd]; simp [quadForm]
  · rw [hd, hd, hd]
    refine le_trans (Real.sqrt_le_sqrt ?_) (quad_cs hpsd _ _ _ _)
    have a1 := abs_sub_le x.1 y.1 z.1
    have a2 := abs_sub_le x.2 y.2 z.2
    set p := |x.1 - z.1| with hp
    set q := |x.2 - z.2| with hqd
    have p0 : 0 ≤ p := abs_nonneg _
    have q0 : 0 ≤ q := abs_nonneg _
    simp only [quadForm, ← hs]
    gcongr

/-! ## Periodic -/

/-- The 1D wrap of a difference inside the box is the least distance over all shifts by periods. -/
theorem wrap_isLeast {w t : ℝ} (hw : |t| ≤ w) :
    IsLeast (Set.range fun k : ℤ => |t + k * w|) (min |t| (w - |t|)) := by
  have hw0 : 0 ≤ w := (abs_nonneg t).trans hw
  constructor
  · rcases min_choice |t| (w - |t|) with h | h
    · rw [h]; exact ⟨0, by simp⟩
    · rw [h]
      rcases le_total 0 t with h0 | h0
      · rw [abs_of_nonneg h0] at hw ⊢
        refine ⟨-1, ?_⟩
        simp only [Int.cast_neg, Int.cast_one]
        rw [abs_of_nonpos (by linarith)]; ring
      · rw [abs_of_nonpos h0] at hw ⊢
        refine ⟨1, ?_⟩
        simp only [Int.cast_one]
        rw [abs_of_nonneg (by linarith)]; ring
  · rintro _ ⟨k, rfl⟩
    simp only
    rcases eq_or_ne k 0 with rfl | hk
    · simp
    · refine (min_le_right _ _).trans ?_
      have h1 : (1 : ℝ) ≤ |(k : ℝ)| := by
        have : (1 : ℤ) ≤ |k| := Int.one_le_abs hk
        calc (1 : ℝ) = ((1 : ℤ) : ℝ) := by simp
          _ ≤ ((|k| : ℤ) : ℝ) := by exact_mod_cast this
          _ = |(k : ℝ)| := by simp
      have h2 : |(k : ℝ) * w| ≤ |t + k * w| + |t| := by
        have := abs_sub (t + k * w) t
        simpa using this
      rw [abs_mul, abs_of_nonneg hw0] at h2
      nlinarith

theorem wrap_nonneg {w t : ℝ} (hw : |t| ≤ w) : 0 ≤ min |t| (w - |t|) :=
  le_min (abs_nonneg _) (by linarith)

theorem diff_le {B : ℝ × ℝ} {x y : ℝ} (hx : InBox1 B x) (hy : InBox1 B y) :
    |x - y| ≤ B.2 - B.1 := by
  rw [abs_le]; constructor <;> linarith [hx.1, hx.2, hy.1, hy.2]

/-- **C42.** 1D, periodic, points in the box: `distance` is the distance on the circle, i.e. the
least of `|x - y + k w|` over all integers `k`, where `w` is the length of the box (scaled by
`sqrt(M)`). -/
theorem C42_periodic_1d (B : ℝ × ℝ) (x y : ℝ) (hx : InBox1 B x) (hy : InBox1 B y) :
    ∃ d, dist1 x y none true (some B) = .ok d ∧
      IsLeast (Set.range fun k : ℤ => |x - y + k * (B.2 - B.1)|) d ∧
      ∀ m, 0 ≤ m → dist1 x y (some m) true (some B) = .ok (Real.sqrt m * d) := by
  refine ⟨min |x - y| ((B.2 - B.1) - |x - y|), by simp [dist1, bind, Except.bind], wrap_isLeast (diff_le hx hy), ?_⟩
  intro m hm
  simp [dist1, bind, Except.bind, hm]

/-- **C42.** 2D, periodic, points in the box: `distance` is the distance on the torus. -/
theorem C42_periodic_2d (B : (ℝ × ℝ) × (ℝ × ℝ)) (x y : ℝ × ℝ) (hx : InBox2 B x)
    (hy : InBox2 B y) :
    ∃ d, dist2 x y none true (some B) = .ok d ∧
      IsLeast (Set.range fun k : ℤ × ℤ =>
        norm2 (x.1 - y.1 + k.1 * (B.1.2 - B.1.1), x.2 - y.2 + k.2 * (B.2.2 - B.2.1))) d := by
  refine ⟨_, by simp only [dist2, bind, Except.bind, if_true]; rfl, ?_⟩
  have w1 := wrap_isLeast (diff_le hx.1 hy.1)
  have w2 := wrap_isLeast (diff_le hx.2 hy.2)
  have n1 := wrap_nonneg (diff_le hx.1 hy.1)
  have n2 := wrap_nonneg (diff_le hx.2 hy.2)
  constructor
  · obtain ⟨k1, h1⟩ := w1.1
    obtain ⟨k2, h2⟩ := w2.1
    refine ⟨(k1, k2), ?_⟩
    simp only [norm2_eq] at h1 h2 ⊢
    rw [← h1, ← h2, sq_abs, sq_abs]
  · rintro _ ⟨⟨k1, k2⟩, rfl⟩
    simp only [norm2_eq]
    apply Real.sqrt_le_sqrt
    have a1 := w1.2 ⟨k1, rfl⟩
    have a2 := w2.2 ⟨k2, rfl⟩
    simp only at a1 a2
    have b1 := pow_le_pow_left₀ n1 a1 2
    have b2 := pow_le_pow_left₀ n2 a2 2
    rw [sq_abs] at b1 b2
    linarith

/-- **C42.** 1D: the periodic distance is a pseudometric on the box, does not exceed the non-periodic
one, and does not change if a point of the box is replaced by another one that differs from it by a
multiple of the period. -/
theorem C42_periodic_metric_1d (B : ℝ × ℝ) (d : ℝ → ℝ → ℝ)
    (h : ∀ x y, dist1 x y none true (some B) = .ok (d x y)) :
    IsPseudoMetricOn (InBox1 B) d ∧ (∀ x y, d x y ≤ |x - y|) ∧
      (∀ (x x' y : ℝ) (k : ℤ), InBox1 B x → InBox1 B x' → InBox1 B y →
        x' = x + k * (B.2 - B.1) → d x' y = d x y) := by
  have hd : ∀ x y, d x y = min |x - y| ((B.2 - B.1) - |x - y|) := by
    intro x y
    have := h x y
    simp only [dist1, bind, Except.bind, if_true, Except.ok.injEq] at this
    exact this.symm
  have hl : ∀ x y, InBox1 B x → InBox1 B y →
      IsLeast (Set.range fun k : ℤ => |x - y + k * (B.2 - B.1)|) (d x y) := by
    intro x y hx hy
    rw [hd]; exact wrap_isLeast (diff_le hx hy)
  refine ⟨⟨?_, ?_, ?_, ?_⟩, ?_, ?_⟩
  · intro x y _ _; rw [hd, hd, abs_sub_comm]
  · intro x y hx hy; rw [hd]; exact wrap_nonneg (diff_le hx hy)
  · intro x hx
    rw [hd]; simp only [sub_self, abs_zero, sub_zero]
    exact min_eq_left (by linarith [hx.1, hx.2])
  · intro x y z hx hy hz
    obtain ⟨k, hk⟩ := (hl x y hx hy).1
    obtain ⟨m, hm⟩ := (hl y z hy hz).1
    rw [← hk, ← hm]
    have h1 := (hl x z hx hz).2 ⟨k + m, rfl⟩
    have h2 := abs_add_le (x - y + k * (B.2 - B.1)) (y - z + m * (B.2 - B.1))
    have h3 : x - y + k * (B.2 - B.1) + (y - z + m * (B.2 - B.1))
        = x - z + ((k + m : ℤ) : ℝ) * (B.2 - B.1) := by push_cast; ring
    rw [h3] at h2
    exact h1.trans h2
  · intro x y; rw [hd]; exact min_le_left _ _
  · intro x x' y k hx hx' hy hxx
    have hset : (Set.range fun j : ℤ => |x' - y + j * (B.2 - B.1)|)
        = Set.range fun j : ℤ => |x - y + j * (B.2 - B.1)| := by
      ext r; constructor
      · rintro ⟨j, rfl⟩; exact ⟨j + k, by simp only; congr 1; rw [hxx]; push_cast; ring⟩
      · rintro ⟨j, rfl⟩; exact ⟨j - k, by simp only; congr 1; rw [hxx]; push_cast; ring⟩
    have h1 := hl x' y hx' hy
    rw [hset] at h1
    exact h1.unique (hl x y hx hy)

/-- **C42.** 2D: the periodic distance is a pseudometric on the box, does not exceed the non-periodic
distance there, and does not change if a point of the box is replaced by another one that differs
from it by multiples of the periods. -/
theorem C42_periodic_metric_2d (B : (ℝ × ℝ) × (ℝ × ℝ)) (d : ℝ × ℝ → ℝ × ℝ → ℝ)
    (h : ∀ x y, dist2 x y none true (some B) = .ok (d x y)) :
    IsPseudoMetricOn (InBox2 B) d ∧
      (∀ x y, InBox2 B x → InBox2 B y → d x y ≤ norm2 (x - y)) ∧
      (∀ (x x' y : ℝ × ℝ) (k l : ℤ), InBox2 B x → InBox2 B x' → InBox2 B y →
        x' = (x.1 + k * (B.1.2 - B.1.1), x.2 + l * (B.2.2 - B.2.1)) → d x' y = d x y) := by
  have hl : ∀ x y, InBox2 B x → InBox2 B y → IsLeast (Set.range fun k : ℤ × ℤ =>
        norm2 (x.1 - y.1 + k.1 * (B.1.2 - B.1.1), x.2 - y.2 + k.2 * (B.2.2 - B.2.1))) (d x y) := by
    intro x y hx hy
    obtain ⟨e, he, hle⟩ := C42_periodic_2d B x y hx hy
    rw [h x y] at he
    rw [Except.ok.inj he]; exact hle
  have hle : ∀ x y, InBox2 B x → InBox2 B y → d x y ≤ norm2 (x - y) := by
    intro x y hx hy
    have := (hl x y hx hy).2 ⟨(0, 0), rfl⟩
    have e : (x.1 - y.1, x.2 - y.2) = x - y := rfl
    simpa [e] using this
  have h0 : ∀ x y, InBox2 B x → InBox2 B y → 0 ≤ d x y := by
    intro x y hx hy
    obtain ⟨k, hk⟩ := (hl x y hx hy).1
    rw [← hk]; exact norm_nonneg _
  refine ⟨⟨?_, h0, ?_, ?_⟩, hle, ?_⟩
  · intro x y _ _
    have h1 := h x y
    have h2 := h y x
    simp only [dist2, abs_sub_comm y.1, abs_sub_comm y.2] at h2
    simp only [dist2] at h1
    rw [h1] at h2
    exact Except.ok.inj h2
  · intro x hx
    refine le_antisymm ?_ (h0 x x hx hx)
    have := hle x x hx hx
    simpa [norm2_eq] using this
  · intro x y z hx hy hz
    obtain ⟨k, hk⟩ := (hl x y hx hy).1
    obtain ⟨m, hm⟩ := (hl y z hy hz).1
    rw [← hk, ← hm]
    have h1 := (hl x z hx hz).2 ⟨k + m, rfl⟩
    have h2 := norm2_add (x.1 - y.1 + k.1 * (B.1.2 - B.1.1), x.2 - y.2 + k.2 * (B.2.2 - B.2.1))
      (y.1 - z.1 + m.1 * (B.1.2 - B.1.1), y.2 - z.2 + m.2 * (B.2.2 - B.2.1))
    have h3 : ((x.1 - y.1 + k.1 * (B.1.2 - B.1.1), x.2 - y.2 + k.2 * (B.2.2 - B.2.1)) : ℝ × ℝ)
        + (y.1 - z.1 + m.1 * (B.1.2 - B.1.1), y.2 - z.2 + m.2 * (B.2.2 - B.2.1))
        = (x.1 - z.1 + ((k + m).1 : ℝ) * (B.1.2 - B.1.1),
           x.2 - z.2 + ((k + m).2 : ℝ) * (B.2.2 - B.2.1)) := by
      simp only [Prod.mk_add_mk, Prod.fst_add, Prod.snd_add, Int.cast_add]
      congr 1 <;> ring
    rw [h3] at h2
    exact h1.trans h2
  · intro x x' y k l hx hx' hy hxx
    have hset : (Set.range fun j : ℤ × ℤ =>
          norm2 (x'.1 - y.1 + j.1 * (B.1.2 - B.1.1), x'.2 - y.2 + j.2 * (B.2.2 - B.2.1)))
        = Set.range fun j : ℤ × ℤ =>
          norm2 (x.1 - y.1 + j.1 * (B.1.2 - B.1.1), x.2 - y.2 + j.2 * (B.2.2 - B.2.1)) := by
      ext r; constructor
      · rintro ⟨j, rfl⟩
        refine ⟨(j.1 + k, j.2 + l), ?_⟩
        simp only; congr 1; rw [hxx]; ext <;> (push_cast; ring)
      · rintro ⟨j, rfl⟩
        refine ⟨(j.1 - k, j.2 - l), ?_⟩
        simp only; congr 1; rw [hxx]; ext <;> (push_cast; ring)
    have h1 := hl x' y hx' hy
    rw [hset] at h1
    exact h1.unique (hl x y hx hy)

/-! ## Violations -/

/-- **C42** fails outside the box: the periodic distance of `0` and `2` in the box `(0,1)` is `-1`;
shifting the second point by a period changes the distance. -/
theorem C42_periodic_violated :
    dist1 0 2 none true (some (0, 1)) = .ok (-1) ∧ dist1 0 1 none true (some (0, 1)) = .ok 0 ∧
      dist2 (0, 0) (3, 0) none true (some ((0, 1), (0, 1))) = .ok 2 := by
  refine ⟨?_, ?_, ?_⟩
  · simp [dist1, bind, Except.bind]; norm_num
  · simp [dist1, bind, Except.bind]
  · simp only [dist2, bind, Except.bind, if_true, Except.ok.injEq]
    norm_num
    rw [show (4 : ℝ) = 2 ^ 2 by norm_num, Real.sqrt_sq (by norm_num)]

/-- `[[1,s],[s,1]]` with `s = ±1` is positive semidefinite. -/
theorem psd_sign (s : ℝ) (hs : s ^ 2 = 1) :
    (!![1, s; s, 1] : Matrix (Fin 2) (Fin 2) ℝ).PosSemidef := by
  refine Matrix.PosSemidef.of_dotProduct_mulVec_nonneg ?_ ?_
  · ext i j; fin_cases i <;> fin_cases j <;> simp [Matrix.conjTranspose_apply]
  · intro v
    have : star v ⬝ᵥ (!![1, s; s, 1] : Matrix (Fin 2) (Fin 2) ℝ).mulVec v
        = (v 0 + s * v 1) ^ 2 := by
      simp [dotProduct, Matrix.mulVec, Fin.sum_univ_two]
      linear_combination (- v 1 ^ 2) * hs
    rw [this]; positivity

/-- **C42** fails: with off-diagonal anisotropy the result is not the documented `‖x-y‖_M`, because
absolute values of the coordinate differences are taken first: here `‖x-y‖_M = 0` but the result
is `2`. -/
theorem C42_mnorm_violated : ∃ M : Matrix (Fin 2) (Fin 2) ℝ, ∃ x y : ℝ × ℝ,
    normM M (x - y) = 0 ∧ dist2 x y (some M) false none = .ok 2 := by
  refine ⟨!![1, 1; 1, 1], (1, 0), (0, 1), ?_, ?_⟩
  · rw [normM_eq]; simp [quadForm]
  · have := psd_sign 1 (by norm_num)
    simp only [dist2, bind, Except.bind, Bool.false_eq_true, if_false, this, if_true,
      Except.ok.injEq]
    simp [quadForm]
    norm_num
    rw [show (4 : ℝ) = 2 ^ 2 by norm_num, Real.sqrt_sq (by norm_num)]

/-- **C42** fails: with a negative off-diagonal entry the triangle inequality is violated: the
distances `(0,0)-(1,1)` and `(1,1)-(2,0)` are `0`, the distance `(0,0)-(2,0)` is `2`. -/
theorem C42_triangle_violated : ∃ M : Matrix (Fin 2) (Fin 2) ℝ, ∃ x y z : ℝ × ℝ,
    dist2 x y (some M) false none = .ok 0 ∧ dist2 y z (some M) false none = .ok 0 ∧
      dist2 x z (some M) false none = .ok 2 := by
  have := psd_sign (-1) (by norm_num)
  refine ⟨!![1, -1; -1, 1], (0, 0), (1, 1), (2, 0), ?_, ?_, ?_⟩ <;>
    simp only [dist2, bind, Except.bind, Bool.false_eq_true, if_false, this, if_true,
      Except.ok.injEq]
  · simp [quadForm]
  · norm_num [quadForm]
  · simp [quadForm]

/-! ## The hypotheses are satisfiable -/

example : InBox1 (0, 1) (1 / 4) ∧ InBox1 (0, 1) (7 / 8) ∧
    dist1 (1 / 4) (7 / 8) none true (some (0, 1)) = .ok (3 / 8) := by
  refine ⟨⟨by norm_num, by norm_num⟩, ⟨by norm_num, by norm_num⟩, ?_⟩
  simp only [dist1, bind, Except.bind, if_true, Except.ok.injEq]
  rw [abs_of_neg (by norm_num), min_eq_right (by norm_num)]; norm_num

example : ∃ d : ℝ × ℝ → ℝ × ℝ → ℝ, ∀ x y,
    dist2 x y none true (some ((0, 1), (0, 2))) = .ok (d x y) :=
  Classical.axiomOfChoice fun x =>
    Classical.axiomOfChoice fun y => (C42_total_2d x y none true (some ((0, 1), (0, 2)))).mpr
      ⟨fun _ => rfl, by simp⟩

example : ∃ d : ℝ × ℝ → ℝ × ℝ → ℝ, ∀ x y,
    dist2 x y (some !![1, 1; 1, 1]) false none = .ok (d x y) :=
  Classical.axiomOfChoice fun x => Classical.axiomOfChoice fun y =>
    (C42_total_2d x y _ false none).mpr
      ⟨by simp, by rintro m ⟨⟩; exact psd_sign 1 (by norm_num)⟩

example : ∃ d : ℝ → ℝ → ℝ, ∀ x y, dist1 x y (some 3) false none = .ok (d x y) :=
  Classical.axiomOfChoice fun x => Classical.axiomOfChoice fun y =>
    (C42_total_1d x y _ false none).mpr ⟨by simp, by rintro m ⟨⟩; norm_num⟩

end Verif.Gmrf
