import Verif.Quad.SegModel
import Verif.Quad.Contains
import Mathlib.Analysis.Real.Sqrt

/-! # Half-edge queries: C47, C48, C49 -/

namespace Verif.Quad
open Verif.Geom

variable {K : Type} [Field K] [LinearOrder K] [IsStrictOrderedRing K]

/-- Specification: the closed segment from `e.1` to `e.2`. -/
def OnSeg (e : Seg K) (p : Pt K) : Prop :=
  ∃ t : K, 0 ≤ t ∧ t ≤ 1 ∧ p.x = e.1.x + t * (e.2.x - e.1.x) ∧ p.y = e.1.y + t * (e.2.y - e.1.y)

/-- Specification: `p` is within `d` of the segment, in each coordinate. -/
def NearSeg (d : K) (e : Seg K) (p : Pt K) : Prop :=
  ∃ q, OnSeg e q ∧ |p.x - q.x| ≤ d ∧ |p.y - q.y| ≤ d

theorem half_iff (t : K) : ¬ (|t - 1 / 2| > 1 / 2) ↔ 0 ≤ t ∧ t ≤ 1 := by
  rw [gt_iff_lt, not_lt, abs_le]
  constructor <;> rintro ⟨a, b⟩ <;> constructor <;> linarith

theorem abs_param {t v : K} (h0 : 0 ≤ t) (h1 : t ≤ 1) : |t * v| ≤ |v| := by
  rw [abs_mul, abs_of_nonneg h0]
  nlinarith [abs_nonneg v]

omit [IsStrictOrderedRing K] in
theorem heContains_eq (tol tol' : K) (e : Seg K) (p : Pt K) : heContains tol tol' e p =
  if |e.2.x - e.1.x| < tol then
    if |e.2.y - e.1.y| > tol then
      .ok (!decide (|(p.y - e.1.y) / (e.2.y - e.1.y) - 1 / 2| > 1 / 2) &&
        !decide (|p.x - e.1.x| > tol))
    else .error .assertion
  else if e.2.y - e.1.y < tol' then
    if |e.2.x - e.1.x| > tol then
      .ok (!decide (|(p.x - e.1.x) / (e.2.x - e.1.x) - 1 / 2| > 1 / 2) &&
        !decide (|p.y - e.1.y| > tol))
    else .error .assertion
  else
    .ok (!decide (|(p.y - e.1.y) / (e.2.y - e.1.y) - (p.x - e.1.x) / (e.2.x - e.1.x)| > tol) &&
      !decide (|(p.y - e.1.y) / (e.2.y - e.1.y) - 1 / 2| > 1 / 2)) := rfl

/-! ## C47 -/

/-- Completeness: for an edge that is longer than the tolerance and does not point downwards
by more than the tolerance (or is vertical), every point of the segment is found. -/
theorem C47_complete_partial (tol tol' : K) (e : Seg K) (h0 : 0 < tol') (h1 : tol' ≤ tol)
    (hlen : tol < |(vec e).x| ∨ (|(vec e).x| < tol ∧ tol < |(vec e).y|))
    (hdir : |(vec e).x| < tol ∨ -tol ≤ (vec e).y)
    (p : Pt K) (hp : OnSeg e p) : heContains tol tol' e p = .ok true := by
  obtain ⟨t, t0, t1, hx, hy⟩ := hp
  simp only [vec] at hlen hdir
  have hx' : p.x - e.1.x = t * (e.2.x - e.1.x) := by rw [hx]; ring
  have hy' : p.y - e.1.y = t * (e.2.y - e.1.y) := by rw [hy]; ring
  have hxv := abs_param (v := e.2.x - e.1.x) t0 t1
  have hyv := abs_param (v := e.2.y - e.1.y) t0 t1
  rw [heContains_eq]; simp only [hx', hy']
  by_cases c1 : |e.2.x - e.1.x| < tol
  · have hy2 : tol < |e.2.y - e.1.y| := by
      rcases hlen with h | h
      · exact absurd c1 (not_lt.2 h.le)
      · exact h.2
    have hne : e.2.y - e.1.y ≠ 0 := by
      intro h; rw [h, abs_zero] at hy2; linarith
    rw [if_pos c1, if_pos hy2, mul_div_cancel_right₀ _ hne]
    have a := (half_iff t).2 ⟨t0, t1⟩
    have b : ¬ (|t * (e.2.x - e.1.x)| > tol) := by rw [gt_iff_lt, not_lt]; linarith
    rw [decide_eq_false a, decide_eq_false b]; rfl
  · have hlx : tol < |e.2.x - e.1.x| := by
      rcases hlen with h | h
      · exact h
      · exact absurd h.1 c1
    have hne : e.2.x - e.1.x ≠ 0 := by
      intro h; rw [h, abs_zero] at hlx; linarith
    have hd : -tol ≤ e.2.y - e.1.y := by
      rcases hdir with h | h
      · exact absurd h c1
      · exact h
    have a := (half_iff t).2 ⟨t0, t1⟩
    rw [if_neg c1]
    by_cases c2 : e.2.y - e.1.y < tol'
    · have b : ¬ (|t * (e.2.y - e.1.y)| > tol) := by
        rw [gt_iff_lt, not_lt]
        refine hyv.trans (abs_le.2 ⟨hd, by linarith⟩)
      rw [if_pos c2, if_pos hlx, mul_div_cancel_right₀ _ hne, decide_eq_false a, decide_eq_false b]
      rfl
    · have hne' : e.2.y - e.1.y ≠ 0 := by
        intro h; rw [h] at c2; exact c2 h0
      have b : ¬ (|t - t| > tol) := by
        rw [sub_self, abs_zero, gt_iff_lt, not_lt]; linarith
      rw [if_neg c2, mul_div_cancel_right₀ _ hne, mul_div_cancel_right₀ _ hne',
        decide_eq_false a, decide_eq_false b]; rfl

/-- Soundness, on the same edges: a reported point lies within `2 tol` (for skew edges:
`tol` times the horizontal extent) of the segment. -/
theorem C47_sound_partial (tol tol' : K) (e : Seg K) (h0 : 0 < tol') (h1 : tol' ≤ tol)
    (hdir : |(vec e).x| < tol ∨ -tol ≤ (vec e).y)
    (p : Pt K) (hp : heContains tol tol' e p = .ok true) :
    NearSeg (tol * max 2 |(vec e).x|) e p := by
  have htol : 0 < tol := lt_of_lt_of_le h0 h1
  have m1 : tol * 2 ≤ tol * max 2 |e.2.x - e.1.x| := mul_le_mul_of_nonneg_left (le_max_left _ _) htol.le
  have m2 : tol * |e.2.x - e.1.x| ≤ tol * max 2 |e.2.x - e.1.x| :=
    mul_le_mul_of_nonneg_left (le_max_right _ _) htol.le
  rw [heContains_eq] at hp
  simp only [vec] at hdir ⊢
  by_cases c1 : |e.2.x - e.1.x| < tol
  · rw [if_pos c1] at hp
    by_cases c2 : |e.2.y - e.1.y| > tol
    · rw [if_pos c2] at hp
      simp only [Except.ok.injEq, Bool.and_eq_true, Bool.not_eq_true', decide_eq_false_iff_not] at hp
      obtain ⟨ha, hb⟩ := hp
      obtain ⟨t0, t1⟩ := (half_iff _).1 ha
      have hne : e.2.y - e.1.y ≠ 0 := by intro h; rw [h, abs_zero] at c2; linarith
      refine ⟨⟨e.1.x + (p.y - e.1.y) / (e.2.y - e.1.y) * (e.2.x - e.1.x), p.y⟩,
        ⟨_, t0, t1, rfl, ?_⟩, ?_, ?_⟩
      · simp only; rw [div_mul_cancel₀ _ hne]; ring
      · simp only
        have h3 := abs_param (v := e.2.x - e.1.x) t0 t1
        have h4 := abs_sub (p.x - e.1.x) ((p.y - e.1.y) / (e.2.y - e.1.y) * (e.2.x - e.1.x))
        rw [gt_iff_lt, not_lt] at hb
        rw [← sub_sub]
        linarith
      · simp only [sub_self, abs_zero]; positivity
    · rw [if_neg c2] at hp; cases hp
  · rw [if_neg c1] at hp
    have hd : -tol ≤ e.2.y - e.1.y := by
      rcases hdir with h | h
      · exact absurd h c1
      · exact h
    by_cases c2 : e.2.y - e.1.y < tol'
    · rw [if_pos c2] at hp
      by_cases c3 : |e.2.x - e.1.x| > tol
      · rw [if_pos c3] at hp
        simp only [Except.ok.injEq, Bool.and_eq_true, Bool.not_eq_true', decide_eq_false_iff_not] at hp
        obtain ⟨ha, hb⟩ := hp
        obtain ⟨t0, t1⟩ := (half_iff _).1 ha
        have hne : e.2.x - e.1.x ≠ 0 := by intro h; rw [h, abs_zero] at c3; linarith
        refine ⟨⟨p.x, e.1.y + (p.x - e.1.x) / (e.2.x - e.1.x) * (e.2.y - e.1.y)⟩,
          ⟨_, t0, t1, ?_, rfl⟩, ?_, ?_⟩
        · simp only; rw [div_mul_cancel₀ _ hne]; ring
        · simp only [sub_self, abs_zero]; positivity
        · simp only
          have h3 := abs_param (v := e.2.y - e.1.y) t0 t1
          have h4 := abs_sub (p.y - e.1.y) ((p.x - e.1.x) / (e.2.x - e.1.x) * (e.2.y - e.1.y))
          have h5 : |e.2.y - e.1.y| ≤ tol := abs_le.2 ⟨hd, by linarith⟩
          rw [gt_iff_lt, not_lt] at hb
          rw [← sub_sub]
          linarith
      · rw [if_neg c3] at hp; cases hp
    · rw [if_neg c2] at hp
      simp only [Except.ok.injEq, Bool.and_eq_true, Bool.not_eq_true', decide_eq_false_iff_not] at hp
      obtain ⟨hb, ha⟩ := hp
      obtain ⟨t0, t1⟩ := (half_iff _).1 ha
      have hne' : e.2.y - e.1.y ≠ 0 := by intro h; rw [h] at c2; exact c2 h0
      have hne : e.2.x - e.1.x ≠ 0 := by
        intro h; rw [h, abs_zero] at c1; exact c1 htol
      refine ⟨⟨e.1.x + (p.y - e.1.y) / (e.2.y - e.1.y) * (e.2.x - e.1.x), p.y⟩,
        ⟨_, t0, t1, rfl, ?_⟩, ?_, ?_⟩
      · simp only; rw [div_mul_cancel₀ _ hne']; ring
      · simp only
        have h5 : p.x - (e.1.x + (p.y - e.1.y) / (e.2.y - e.1.y) * (e.2.x - e.1.x)) =
            -(((p.y - e.1.y) / (e.2.y - e.1.y) - (p.x - e.1.x) / (e.2.x - e.1.x)) *
              (e.2.x - e.1.x)) := by
          field_simp; ring
        rw [gt_iff_lt, not_lt] at hb
        rw [h5, abs_neg, abs_mul]
        exact (mul_le_mul_of_nonneg_right hb (abs_nonneg _)).trans m2
      · simp only [sub_self, abs_zero]; positivity

/-- **Violation**, for every downward skew edge: the midpoint of the edge is reported to be
outside, and the point `(head.x, base.y)`, at distance `|v.y|` above the head, is reported
to be on the edge, because of the misplaced parenthesis in `np.abs(v[1]<1e-14)`. -/
theorem C47_downward_violated (tol tol' : K) (e : Seg K) (h0 : 0 < tol') (h1 : tol' ≤ tol)
    (hx : tol < |(vec e).x|) (hy : (vec e).y < -(2 * tol)) :
    OnSeg e (mid e.1 e.2) ∧ heContains tol tol' e (mid e.1 e.2) = .ok false ∧
    heContains tol tol' e ⟨e.2.x, e.1.y⟩ = .ok true ∧
    (∀ q, OnSeg e q → q.x = e.2.x → 2 * tol < |e.1.y - q.y|) := by
  simp only [vec] at hx hy
  have htol : 0 < tol := lt_of_lt_of_le h0 h1
  have c1 : ¬ |e.2.x - e.1.x| < tol := not_lt.2 hx.le
  have c2 : e.2.y - e.1.y < tol' := by linarith
  have hne : e.2.x - e.1.x ≠ 0 := by intro h; rw [h, abs_zero] at hx; linarith
  refine ⟨⟨1 / 2, by norm_num, by norm_num, by simp only [mid]; ring, by simp only [mid]; ring⟩,
    ?_, ?_, ?_⟩
  · rw [heContains_eq, if_neg c1, if_pos c2, if_pos hx]
    have b : |(mid e.1 e.2).y - e.1.y| > tol := by
      simp only [mid]
      have : 1 / 2 * (e.1.y + e.2.y) - e.1.y = 1 / 2 * (e.2.y - e.1.y) := by ring
      rw [this, gt_iff_lt, lt_abs]; right; linarith
    rw [decide_eq_true b]; simp
  · rw [heContains_eq, if_neg c1, if_pos c2, if_pos hx, div_self hne]
    have a : ¬ (|(1 : K) - 1 / 2| > 1 / 2) := (half_iff 1).2 ⟨by norm_num, le_refl _⟩
    have b : ¬ (|e.1.y - e.1.y| > tol) := by
      rw [sub_self, abs_zero, gt_iff_lt, not_lt]; exact htol.le
    rw [decide_eq_false a, decide_eq_false b]; rfl
  · rintro q ⟨t, _, _, qx, qy⟩ hq
    have : t = 1 := by
      have h : (t - 1) * (e.2.x - e.1.x) = 0 := by rw [hq] at qx; linear_combination -qx
      rcases mul_eq_zero.1 h with h | h
      · linarith
      · exact absurd h hne
    subst this
    rw [qy, lt_abs]; left; linarith

/-- The hypotheses are met by ordinary edges. -/
example : heContains (1 / 10 ^ 10 : ℚ) (1 / 10 ^ 14) (⟨0, 0⟩, ⟨2, 1⟩) ⟨1, 1 / 2⟩ = .ok true :=
  C47_complete_partial _ _ _ (by norm_num) (by norm_num)
    (Or.inl (by simp only [vec]; norm_num)) (Or.inr (by simp only [vec]; norm_num)) _
    ⟨1 / 2, by norm_num, by norm_num, by norm_num, by norm_num⟩
example : heContains (1 / 10 ^ 10 : ℚ) (1 / 10 ^ 14) (⟨0, 1⟩, ⟨1, 0⟩) ⟨1 / 2, 1 / 2⟩ = .ok false := by
  have := (C47_downward_violated (1 / 10 ^ 10 : ℚ) (1 / 10 ^ 14) (⟨0, 1⟩, ⟨1, 0⟩) (by norm_num)
    (by norm_num) (by simp only [vec]; norm_num) (by simp only [vec]; norm_num)).2.1
  simpa [mid] using this

/-! ## C48 -/

/-- Specification: the two closed segments share a point. -/
def Meet (e f : Seg K) : Prop := ∃ p, OnSeg e p ∧ OnSeg f p

/-- The positions of the two segments that the tolerance `τ` resolves: parallel directions
are exactly parallel, and parallel lines are either equal or a resolvable distance apart. -/
def Resolved (τ : K) (e line : Seg K) : Prop :=
  τ ≤ |cross (vec e) (vec line)| ∨
  (cross (vec e) (vec line) = 0 ∧
    (τ ≤ |cross (line.1.sub e.1) (vec e)| ∨ cross (line.1.sub e.1) (vec e) = 0))

theorem unit_overlap (a b : K) : (max a (a + b) ≥ 0 ∧ min a (a + b) ≤ 1) ↔
    ∃ u, 0 ≤ u ∧ u ≤ 1 ∧ 0 ≤ a + u * b ∧ a + u * b ≤ 1 := by
  constructor
  · rintro ⟨h1, h2⟩
    rw [ge_iff_le, le_max_iff] at h1
    rw [min_le_iff] at h2
    by_cases ha : 0 ≤ a ∧ a ≤ 1
    · exact ⟨0, le_refl _, zero_le_one, by simpa using ha.1, by simpa using ha.2⟩
    · rcases lt_or_ge a 0 with h | h
      · have hb : 0 ≤ a + b := by rcases h1 with h1 | h1 <;> linarith
        have hbp : 0 < b := by linarith
        refine ⟨-a / b, div_nonneg (by linarith) hbp.le, (div_le_one hbp).2 (by linarith), ?_, ?_⟩
        · rw [div_mul_cancel₀ _ hbp.ne']; linarith
        · rw [div_mul_cancel₀ _ hbp.ne']; linarith
      · have h' : 1 < a := by
          by_contra hc; exact ha ⟨h, not_lt.1 hc⟩
        have hb : a + b ≤ 1 := by rcases h2 with h2 | h2 <;> linarith
        have hbp : b < 0 := by linarith
        refine ⟨(1 - a) / b, div_nonneg_of_nonpos (by linarith) hbp.le,
          (div_le_one_of_neg hbp).2 (by linarith), ?_, ?_⟩
        · rw [div_mul_cancel₀ _ hbp.ne]; linarith
        · rw [div_mul_cancel₀ _ hbp.ne]; linarith
  · rintro ⟨u, u0, u1, h0, h1⟩
    have hc : a + u * b = (1 - u) * a + u * (a + b) := by ring
    constructor
    · by_contra hc2
      rw [ge_iff_le, not_le, max_lt_iff] at hc2
      rcases eq_or_lt_of_le u0 with h | h
      · subst h; linarith [hc2.1]
      · nlinarith [mul_pos h (neg_pos.2 hc2.2), mul_nonneg (sub_nonneg.2 u1) (neg_pos.2 hc2.1).le]
    · by_contra hc2
      rw [not_le, lt_min_iff] at hc2
      rcases eq_or_lt_of_le u0 with h | h
      · subst h; linarith [hc2.1]
      · nlinarith [mul_pos h (sub_pos.2 hc2.2), mul_nonneg (sub_nonneg.2 u1) (sub_pos.2 hc2.1).le]

omit [IsStrictOrderedRing K] in
theorem heIntersects_eq (τ px py hx hy qx qy kx ky : K) :
    heIntersects τ (⟨px, py⟩, ⟨hx, hy⟩) (⟨qx, qy⟩, ⟨kx, ky⟩) =
  if |(hx - px) * (ky - qy) - (hy - py) * (kx - qx)| < τ then
    if |(qx - px) * (hy - py) - (qy - py) * (hx - px)| < τ then
      decide (max (((qx - px) * (hx - px) + (qy - py) * (hy - py)) / ((hx - px) * (hx - px) + (hy - py) * (hy - py)))
        (((qx - px) * (hx - px) + (qy - py) * (hy - py)) / ((hx - px) * (hx - px) + (hy - py) * (hy - py)) +
          ((kx - qx) * (hx - px) + (ky - qy) * (hy - py)) / ((hx - px) * (hx - px) + (hy - py) * (hy - py))) ≥ 0) &&
      decide (min (((qx - px) * (hx - px) + (qy - py) * (hy - py)) / ((hx - px) * (hx - px) + (hy - py) * (hy - py)))
        (((qx - px) * (hx - px) + (qy - py) * (hy - py)) / ((hx - px) * (hx - px) + (hy - py) * (hy - py)) +
          ((kx - qx) * (hx - px) + (ky - qy) * (hy - py)) / ((hx - px) * (hx - px) + (hy - py) * (hy - py))) ≤ 1)
    else false
  else
    decide (0 ≤ ((qx - px) * (ky - qy) - (qy - py) * (kx - qx)) / ((hx - px) * (ky - qy) - (hy - py) * (kx - qx)) ∧
      ((qx - px) * (ky - qy) - (qy - py) * (kx - qx)) / ((hx - px) * (ky - qy) - (hy - py) * (kx - qx)) ≤ 1) &&
    decide (0 ≤ ((px - qx) * (hy - py) - (py - qy) * (hx - px)) / ((kx - qx) * (hy - py) - (ky - qy) * (hx - px)) ∧
      ((px - qx) * (hy - py) - (py - qy) * (hx - px)) / ((kx - qx) * (hy - py) - (ky - qy) * (hx - px)) ≤ 1) := rfl

/-- `intersects_line_segment` never misses an intersection, whatever the tolerance. -/
theorem C48_no_miss (τ : K) (hτ : 0 < τ) (e line : Seg K) (he : e.1 ≠ e.2)
    (hm : Meet e line) : heIntersects τ e line = true := by
  obtain ⟨⟨px, py⟩, ⟨hx, hy⟩⟩ := e
  obtain ⟨⟨qx, qy⟩, ⟨kx, ky⟩⟩ := line
  have hrr : (0 : K) < (hx - px) * (hx - px) + (hy - py) * (hy - py) := by
    by_contra h
    apply he
    have h1 : hx - px = 0 := by nlinarith [mul_self_nonneg (hx - px), mul_self_nonneg (hy - py)]
    have h2 : hy - py = 0 := by nlinarith [mul_self_nonneg (hx - px), mul_self_nonneg (hy - py)]
    simp only [Pt.mk.injEq]; constructor <;> linarith
  rw [heIntersects_eq]
  simp only [Meet, OnSeg] at hm
  obtain ⟨p, ⟨t, t0, t1, e1, e2⟩, ⟨u, u0, u1, e3, e4⟩⟩ := hm
  have e5 : qx - px = t * (hx - px) - u * (kx - qx) := by linear_combination e1 - e3
  have e6 : qy - py = t * (hy - py) - u * (ky - qy) := by linear_combination e2 - e4
  split_ifs with c1 c2
  · rw [Bool.and_eq_true, decide_eq_true_iff, decide_eq_true_iff, unit_overlap]
    refine ⟨u, u0, u1, ?_⟩
    have : ((qx - px) * (hx - px) + (qy - py) * (hy - py)) /
        ((hx - px) * (hx - px) + (hy - py) * (hy - py)) +
        u * (((kx - qx) * (hx - px) + (ky - qy) * (hy - py)) /
        ((hx - px) * (hx - px) + (hy - py) * (hy - py))) = t := by
      rw [← mul_div_assoc, ← add_div, div_eq_iff hrr.ne', e5, e6]; ring
    rw [this]; exact ⟨t0, t1⟩
  · exfalso; apply c2
    have : (qx - px) * (hy - py) - (qy - py) * (hx - px) =
        u * ((hx - px) * (ky - qy) - (hy - py) * (kx - qx)) := by rw [e5, e6]; ring
    rw [this]
    exact lt_of_le_of_lt (abs_param u0 u1) c1
  · by_cases hne : (hx - px) * (ky - qy) - (hy - py) * (kx - qx) = 0
    · exact absurd (by rw [hne, abs_zero]; exact hτ) c1
    · have hne2 : (kx - qx) * (hy - py) - (ky - qy) * (hx - px) ≠ 0 := by
        intro h; apply hne; linarith
      have ht : ((qx - px) * (ky - qy) - (qy - py) * (kx - qx)) /
          ((hx - px) * (ky - qy) - (hy - py) * (kx - qx)) = t := by
        rw [div_eq_iff hne]; linear_combination (ky - qy) * (e1 - e3) - (kx - qx) * (e2 - e4)
      have hu : ((px - qx) * (hy - py) - (py - qy) * (hx - px)) /
          ((kx - qx) * (hy - py) - (ky - qy) * (hx - px)) = u := by
        rw [div_eq_iff hne2]; linear_combination (hy - py) * (e3 - e1) - (hx - px) * (e4 - e2)
      rw [ht, hu, Bool.and_eq_true, decide_eq_true_iff, decide_eq_true_iff]
      exact ⟨⟨t0, t1⟩, u0, u1⟩

/-- `half_edge.intersects_line_segment(line)` is True exactly if the closed segments share a
point, for every pair of segments (the half-edge of positive length) that the tolerance
resolves, in any relative position: crossing, touching, parallel, overlapping, and also for
a `line` that is a single point. -/
theorem C48_half_edge (τ : K) (hτ : 0 < τ) (e line : Seg K) (he : e.1 ≠ e.2)
    (hr : Resolved τ e line) : heIntersects τ e line = true ↔ Meet e line := by
  refine ⟨?_, C48_no_miss τ hτ e line he⟩
  obtain ⟨⟨px, py⟩, ⟨hx, hy⟩⟩ := e
  obtain ⟨⟨qx, qy⟩, ⟨kx, ky⟩⟩ := line
  have hrr : (hx - px) * (hx - px) + (hy - py) * (hy - py) ≠ 0 := by
    intro h
    apply he
    have h1 : hx - px = 0 := by nlinarith [mul_self_nonneg (hx - px), mul_self_nonneg (hy - py)]
    have h2 : hy - py = 0 := by nlinarith [mul_self_nonneg (hx - px), mul_self_nonneg (hy - py)]
    simp only [Pt.mk.injEq]; constructor <;> linarith
  rw [heIntersects_eq]
  simp only [Resolved, vec, cross, Pt.sub, Meet, OnSeg] at *
  rcases hr with hr | ⟨hr, hr2⟩
  · obtain ⟨D, hD⟩ : ∃ D, D = (hx - px) * (ky - qy) - (hy - py) * (kx - qx) := ⟨_, rfl⟩
    have hD2 : (kx - qx) * (hy - py) - (ky - qy) * (hx - px) = -D := by rw [hD]; ring
    rw [hD2, ← hD]
    rw [← hD] at hr
    have hne : D ≠ 0 := by
      intro h; rw [h, abs_zero] at hr; linarith
    rw [if_neg (not_lt.2 hr), Bool.and_eq_true, decide_eq_true_iff, decide_eq_true_iff]
    rintro ⟨⟨t0, t1⟩, u0, u1⟩
    refine ⟨⟨px + ((qx - px) * (ky - qy) - (qy - py) * (kx - qx)) / D * (hx - px),
          py + ((qx - px) * (ky - qy) - (qy - py) * (kx - qx)) / D * (hy - py)⟩,
        ⟨_, t0, t1, rfl, rfl⟩, ⟨_, u0, u1, ?_, ?_⟩⟩
    · simp only [div_neg]; field_simp; rw [hD]; ring
    · simp only [div_neg]; field_simp; rw [hD]; ring
  · rw [if_pos (by rw [hr, abs_zero]; exact hτ)]
    rcases hr2 with hr2 | hr2
    · rw [if_neg (not_lt.2 hr2)]
      intro h; cases h
    · rw [if_pos (by rw [hr2, abs_zero]; exact hτ), Bool.and_eq_true, decide_eq_true_iff,
        decide_eq_true_iff, unit_overlap]
      obtain ⟨D, hD⟩ : ∃ D, D = (hx - px) * (hx - px) + (hy - py) * (hy - py) := ⟨_, rfl⟩
      rw [← hD] at hrr ⊢
      rintro ⟨u, u0, u1, h0, h1⟩
      refine ⟨⟨qx + u * (kx - qx), qy + u * (ky - qy)⟩, ⟨_, h0, h1, ?_, ?_⟩,
          u, u0, u1, rfl, rfl⟩
      · field_simp
        rw [hD]
        linear_combination (hy - py) * hr2 - u * (hy - py) * hr
      · field_simp
        rw [hD]
        linear_combination (-(hx - px)) * hr2 + u * (hx - px) * hr

/-- The hypotheses are met by crossing and by overlapping segments. -/
example : Resolved (1 / 10 ^ 14 : ℚ) (⟨0, 0⟩, ⟨1, 1⟩) (⟨0, 1⟩, ⟨1, 0⟩) :=
  Or.inl (by simp only [cross, vec]; norm_num)
example : Resolved (1 / 10 ^ 14 : ℚ) (⟨0, 0⟩, ⟨1, 1⟩) (⟨2, 2⟩, ⟨3, 3⟩) :=
  Or.inr ⟨by simp only [cross, vec]; norm_num, Or.inr (by simp only [cross, vec, Pt.sub]; norm_num)⟩

/-- **Violation** outside the resolved positions: the tolerance is absolute, so two small
parallel segments at a distance of their own length are reported to intersect. -/
theorem C48_small_violated : ∃ e line : Seg ℚ, e.1 ≠ e.2 ∧ ¬ Meet e line ∧
    heIntersects (1 / 10 ^ 14) e line = true := by
  refine ⟨(⟨0, 0⟩, ⟨1 / 10 ^ 8, 0⟩), (⟨0, 1 / 10 ^ 8⟩, ⟨1 / 10 ^ 8, 1 / 10 ^ 8⟩), ?_, ?_, ?_⟩
  · intro h; norm_num at h
  · rintro ⟨p, ⟨t, _, _, _, e2⟩, ⟨u, _, _, _, e4⟩⟩
    norm_num at e2 e4
    rw [e2] at e4; norm_num at e4
  · rw [heIntersects_eq, if_pos (by norm_num), if_pos (by norm_num [abs_of_neg])]
    norm_num

/-! ### Cells -/

/-- Specification: the segment meets the closed convex cell. -/
def MeetsCell (q : QD K) (line : Seg K) : Prop := ∃ p, InHull q p ∧ OnSeg line p

/-- Walking from values `α ≥ 0` towards `β`, stop at the first sign change. -/
theorem first_zero (L : List (K × K)) (h : ∀ f ∈ L, 0 ≤ f.1) :
    ∃ l : K, 0 ≤ l ∧ l ≤ 1 ∧ (∀ f ∈ L, 0 ≤ f.1 + l * (f.2 - f.1)) ∧
      (l = 1 ∨ ∃ f ∈ L, f.1 + l * (f.2 - f.1) = 0) := by
  induction L with
  | nil => exact ⟨1, zero_le_one, le_refl _, by simp, Or.inl rfl⟩
  | cons f L ih =>
    obtain ⟨l, l0, l1, ha, hb⟩ := ih (fun g hg => h g (List.mem_cons_of_mem _ hg))
    have hf := h f List.mem_cons_self
    by_cases hc : 0 ≤ f.1 + l * (f.2 - f.1)
    · refine ⟨l, l0, l1, ?_, ?_⟩
      · intro g hg
        rcases List.mem_cons.1 hg with rfl | hg
        · exact hc
        · exact ha g hg
      · rcases hb with hb | ⟨g, hg, hz⟩
        · exact Or.inl hb
        · exact Or.inr ⟨g, List.mem_cons_of_mem _ hg, hz⟩
    · rw [not_le] at hc
      have hd : 0 < f.1 - f.2 := by nlinarith
      set m := f.1 / (f.1 - f.2) with hm
      have m0 : 0 ≤ m := div_nonneg hf hd.le
      have ml : m ≤ l := by rw [hm, div_le_iff₀ hd]; linarith
      have hz : f.1 + m * (f.2 - f.1) = 0 := by
        have : f.2 - f.1 = -(f.1 - f.2) := by ring
        rw [hm, this, mul_neg, div_mul_cancel₀ _ hd.ne']; ring
      refine ⟨m, m0, ml.trans l1, ?_, Or.inr ⟨f, List.mem_cons_self, hz⟩⟩
      intro g hg
      rcases List.mem_cons.1 hg with rfl | hg
      · rw [hz]
      · have h1 := ha g hg
        have h2 := h g (List.mem_cons_of_mem _ hg)
        rcases le_total 0 (g.2 - g.1) with h3 | h3
        · exact add_nonneg h2 (mul_nonneg m0 h3)
        · nlinarith

theorem edge_point (q : QD K) (h : ConvexCCW q) (p : Pt K) (hp : InHull q p) (e : Seg K)
    (he : e ∈ q.edges) (hz : left e p = 0) : OnSeg e p := by
  obtain ⟨h1, h2, h3, h4⟩ := h
  obtain ⟨a, b, c, d, ha, hb, hc, hd, hs, hx, hy⟩ := hp
  have two : ∀ {s t X Y : K}, 0 ≤ s → 0 ≤ t → 0 < X → 0 < Y → s * X + t * Y = 0 → s = 0 ∧ t = 0 := by
    intro s t X Y hs ht hX hY h
    have h1 := mul_nonneg hs hX.le
    have h2 := mul_nonneg ht hY.le
    have h3 : s * X = 0 := by linarith
    have h4 : t * Y = 0 := by linarith
    exact ⟨(mul_eq_zero.1 h3).resolve_right hX.ne', (mul_eq_zero.1 h4).resolve_right hY.ne'⟩
  simp only [QD.edges, List.mem_cons, List.not_mem_nil, or_false] at he
  have ea : a = 1 - b - c - d := by linarith
  rcases he with rfl | rfl | rfl | rfl <;> rw [left_tri] at hz
  · have : tri q.v0 q.v1 p = c * tri q.v0 q.v1 q.v2 + d * tri q.v3 q.v0 q.v1 := by
      simp only [tri, hx, hy, ea]; ring
    obtain ⟨rfl, rfl⟩ := two hc hd h1 h4 (this ▸ hz)
    exact ⟨b, hb, by linarith, by simp only [hx, ea]; ring, by simp only [hy, ea]; ring⟩
  · have : tri q.v1 q.v2 p = a * tri q.v0 q.v1 q.v2 + d * tri q.v1 q.v2 q.v3 := by
      simp only [tri, hx, hy, ea]; ring
    obtain ⟨ha0, rfl⟩ := two ha hd h1 h2 (this ▸ hz)
    have eb : b = 1 - c := by linarith
    exact ⟨c, hc, by linarith, by simp only [hx, ha0, eb]; ring, by simp only [hy, ha0, eb]; ring⟩
  · have : tri q.v2 q.v3 p = a * tri q.v2 q.v3 q.v0 + b * tri q.v1 q.v2 q.v3 := by
      simp only [tri, hx, hy, ea]; ring
    obtain ⟨ha0, rfl⟩ := two ha hb h3 h2 (this ▸ hz)
    have ec : c = 1 - d := by linarith
    exact ⟨d, hd, by linarith, by simp only [hx, ha0, ec]; ring, by simp only [hy, ha0, ec]; ring⟩
  · have : tri q.v3 q.v0 p = b * tri q.v3 q.v0 q.v1 + c * tri q.v2 q.v3 q.v0 := by
      simp only [tri, hx, hy, ea]; ring
    obtain ⟨rfl, rfl⟩ := two hb hc h4 h3 (this ▸ hz)
    have ed : d = 1 - a := by linarith
    exact ⟨a, ha, by linarith, by simp only [hx, ed]; ring, by simp only [hy, ed]; ring⟩

theorem edges_ne (q : QD K) (h : ConvexCCW q) (e : Seg K) (he : e ∈ q.edges) : e.1 ≠ e.2 := by
  obtain ⟨h1, h2, h3, h4⟩ := h
  simp only [QD.edges, List.mem_cons, List.not_mem_nil, or_false] at he
  rcases he with rfl | rfl | rfl | rfl <;> intro hc <;> simp only at hc
  · rw [hc] at h1; simp only [tri] at h1; ring_nf at h1; exact lt_irrefl _ h1
  · rw [hc] at h2; simp only [tri] at h2; ring_nf at h2; exact lt_irrefl _ h2
  · rw [hc] at h3; simp only [tri] at h3; ring_nf at h3; exact lt_irrefl _ h3
  · rw [hc] at h4; simp only [tri] at h4; ring_nf at h4; exact lt_irrefl _ h4

/-- From a point of the cell to a point outside, the boundary is crossed. -/
theorem exit_edge (q : QD K) (h : ConvexCCW q) (p a : Pt K) (hp : InHull q p) (ha : ¬ InHull q a) :
    ∃ e ∈ q.edges, ∃ l, 0 ≤ l ∧ l ≤ 1 ∧
      OnSeg e ⟨p.x + l * (a.x - p.x), p.y + l * (a.y - p.y)⟩ := by
  have hp' := (contains_iff 0 q p).1 ((C22_hull q h p).2 hp)
  simp only [neg_zero] at hp'
  have aff : ∀ (e : Seg K) (l : K), left e ⟨p.x + l * (a.x - p.x), p.y + l * (a.y - p.y)⟩ =
      left e p + l * (left e a - left e p) := by intro e l; simp only [left]; ring
  obtain ⟨l, l0, l1, hA, hB⟩ := first_zero (q.edges.map (fun e => (left e p, left e a))) (by
    intro f hf
    simp only [QD.edges, List.map, List.mem_cons, List.not_mem_nil, or_false] at hf
    rcases hf with rfl | rfl | rfl | rfl
    · exact hp'.1
    · exact hp'.2.1
    · exact hp'.2.2.1
    · exact hp'.2.2.2)
  have hin : InHull q ⟨p.x + l * (a.x - p.x), p.y + l * (a.y - p.y)⟩ := by
    rw [← C22_hull q h, contains_iff]
    simp only [neg_zero, aff]
    refine ⟨hA _ (List.mem_map.2 ⟨(q.v0, q.v1), ?_, rfl⟩), hA _ (List.mem_map.2 ⟨(q.v1, q.v2), ?_, rfl⟩),
      hA _ (List.mem_map.2 ⟨(q.v2, q.v3), ?_, rfl⟩), hA _ (List.mem_map.2 ⟨(q.v3, q.v0), ?_, rfl⟩)⟩ <;>
      simp [QD.edges]
  rcases hB with hB | ⟨f, hf, hz⟩
  · exfalso; apply ha
    subst hB
    have : (⟨p.x + 1 * (a.x - p.x), p.y + 1 * (a.y - p.y)⟩ : Pt K) = a := by
      ext <;> simp
    rwa [this] at hin
  · obtain ⟨e, he, rfl⟩ := List.mem_map.1 hf
    exact ⟨e, he, l, l0, l1, edge_point q h _ hin e he (by rw [aff]; exact hz)⟩

/-- `cell.intersects_line_segment(line)` never misses: if the segment meets the closed convex
cell, the answer is True, whatever the tolerances. -/
theorem C48_cell_no_miss (tol τ : K) (htol : 0 ≤ tol) (hτ : 0 < τ) (q : QD K) (h : ConvexCCW q)
    (line : Seg K) (hm : MeetsCell q line) : cellIntersects tol τ q line = true := by
  obtain ⟨p, hp, t, t0, t1, px, py⟩ := hm
  unfold cellIntersects
  split_ifs with hc
  · rfl
  · have hout : ¬ InHull q line.1 ∨ ¬ InHull q line.2 := by
      by_contra hcon
      rw [not_or, not_not, not_not] at hcon
      apply hc
      rw [C22_mono q _ 0 tol htol ((C22_hull q h _).2 hcon.1),
        C22_mono q _ 0 tol htol ((C22_hull q h _).2 hcon.2)]; rfl
    rw [List.any_eq_true]
    rcases hout with ho | ho
    · obtain ⟨e, he, l, l0, l1, hon⟩ := exit_edge q h p _ hp ho
      refine ⟨e, he, C48_no_miss τ hτ e line (edges_ne q h e he) ⟨_, hon, t - l * t, ?_, ?_, ?_, ?_⟩⟩
      · nlinarith
      · nlinarith
      · simp only [px]; ring
      · simp only [py]; ring
    · obtain ⟨e, he, l, l0, l1, hon⟩ := exit_edge q h p _ hp ho
      refine ⟨e, he, C48_no_miss τ hτ e line (edges_ne q h e he)
        ⟨_, hon, t + l * (1 - t), ?_, ?_, ?_, ?_⟩⟩
      · nlinarith
      · nlinarith
      · simp only [px]; ring
      · simp only [py]; ring

/-- If all four edges are in a position that the tolerance resolves, the answer True means
that the segment meets the cell, or that both its end points are within the tolerance of
`contains_points` of the cell. -/
theorem C48_cell_sound (tol τ : K) (hτ : 0 < τ) (q : QD K) (h : ConvexCCW q)
    (line : Seg K) (hr : ∀ e ∈ q.edges, Resolved τ e line)
    (hi : cellIntersects tol τ q line = true) :
    MeetsCell q line ∨ (contains tol q line.1 = true ∧ contains tol q line.2 = true) := by
  unfold cellIntersects at hi
  split_ifs at hi with hc
  · exact Or.inr (by simpa using hc)
  · rw [List.any_eq_true] at hi
    obtain ⟨e, he, hi⟩ := hi
    obtain ⟨p, ⟨t, t0, t1, px, py⟩, hq⟩ :=
      (C48_half_edge τ hτ e line (edges_ne q h e he) (hr e he)).1 hi
    refine Or.inl ⟨p, ?_, hq⟩
    simp only [QD.edges, List.mem_cons, List.not_mem_nil, or_false] at he
    have h1t : 0 ≤ 1 - t := by linarith
    rcases he with rfl | rfl | rfl | rfl
    · exact ⟨1 - t, t, 0, 0, h1t, t0, le_refl _, le_refl _, by ring, by rw [px]; ring, by rw [py]; ring⟩
    · exact ⟨0, 1 - t, t, 0, le_refl _, h1t, t0, le_refl _, by ring, by rw [px]; ring, by rw [py]; ring⟩
    · exact ⟨0, 0, 1 - t, t, le_refl _, le_refl _, h1t, t0, by ring, by rw [px]; ring, by rw [py]; ring⟩
    · exact ⟨t, 0, 0, 1 - t, t0, le_refl _, le_refl _, h1t, by ring, by rw [px]; ring, by rw [py]; ring⟩

/-- With tolerance 0 in `contains_points` the test is exact. -/
theorem C48_cell_exact (τ : K) (hτ : 0 < τ) (q : QD K) (h : ConvexCCW q)
    (line : Seg K) (hr : ∀ e ∈ q.edges, Resolved τ e line) :
    cellIntersects 0 τ q line = true ↔ MeetsCell q line := by
  refine ⟨fun hi => ?_, C48_cell_no_miss 0 τ (le_refl _) hτ q h line⟩
  rcases C48_cell_sound 0 τ hτ q h line hr hi with hm | ⟨hc, _⟩
  · exact hm
  · exact ⟨_, (C22_hull q h _).1 hc, 0, le_refl _, zero_le_one, by ring, by ring⟩

/-- A line that crosses the unit square without an end point inside meets the hypotheses. -/
example : cellIntersects (0 : ℚ) (1 / 10 ^ 14) unitSq (⟨-1, 0⟩, ⟨2, 1⟩) = true ∧
    ∀ e ∈ (unitSq : QD ℚ).edges, Resolved (1 / 10 ^ 14 : ℚ) e (⟨-1, 0⟩, ⟨2, 1⟩) := by
  have hr : ∀ e ∈ (unitSq : QD ℚ).edges, Resolved (1 / 10 ^ 14 : ℚ) e (⟨-1, 0⟩, ⟨2, 1⟩) := by
    intro e he
    simp only [QD.edges, unitSq, List.mem_cons, List.not_mem_nil, or_false] at he
    rcases he with rfl | rfl | rfl | rfl <;> refine Or.inl ?_ <;> simp only [cross, vec] <;>
      norm_num [abs_of_neg]
  have hc : ConvexCCW (unitSq : QD ℚ) := by
    refine ⟨?_, ?_, ?_, ?_⟩ <;> simp only [tri, unitSq] <;> norm_num
  refine ⟨(C48_cell_exact _ (by norm_num) _ hc _ hr).2 ⟨⟨1 / 2, 1 / 2⟩, ?_, 1 / 2, ?_⟩, hr⟩
  · refine ⟨1 / 4, 1 / 4, 1 / 4, 1 / 4, ?_⟩; simp only [unitSq]; norm_num
  · norm_num

/-! ## C49 -/

/-- The reference map runs through the segment: 0 to the base, 1 to the head, and its image
of `[0,1]` is the closed segment; `jac_r2p` is its derivative. -/
theorem C49_map (e : Seg K) :
    segMap e 0 = e.1 ∧ segMap e 1 = e.2 ∧
    (∀ p, OnSeg e p ↔ ∃ t, 0 ≤ t ∧ t ≤ 1 ∧ segMap e t = p) ∧
    (∀ t h, (segMap e (t + h)).x = (segMap e t).x + (segJacR2P e).1 * h ∧
            (segMap e (t + h)).y = (segMap e t).y + (segJacR2P e).2 * h) := by
  refine ⟨?_, ?_, ?_, ?_⟩
  · ext <;> simp [segMap]
  · ext <;> simp [segMap]
  · intro p
    constructor
    · rintro ⟨t, t0, t1, hx, hy⟩
      refine ⟨t, t0, t1, ?_⟩
      ext
      · simp only [segMap, hx]; ring
      · simp only [segMap, hy]; ring
    · rintro ⟨t, t0, t1, rfl⟩
      exact ⟨t, t0, t1, by simp only [segMap]; ring, by simp only [segMap]; ring⟩
  · intro t h
    constructor <;> simp only [segMap, segJacR2P] <;> ring

/-- `mapsto='reference'` inverts the map, on every edge whose containment test accepts its
points and whose end points are not `isclose` in both coordinates. -/
theorem C49_inverse (tol tol' atol rtol : K) (ha : 0 ≤ atol) (hr : 0 ≤ rtol) (e : Seg K) (t : K)
    (hc : heContains tol tol' e (segMap e t) = .ok true)
    (hn : isClose atol rtol e.1.x e.2.x = false ∨ isClose atol rtol e.1.y e.2.y = false) :
    segToRef tol tol' atol rtol e (segMap e t) = .ok t := by
  have close : ∀ a b : K, isClose atol rtol a b = false → b - a ≠ 0 := by
    intro a b h h2
    have hab : a = b := by linarith
    subst hab
    simp only [isClose, sub_self, abs_zero, decide_eq_false_iff_not, not_le] at h
    have := mul_nonneg hr (abs_nonneg a)
    linarith
  unfold segToRef
  rw [hc]
  simp only [Bool.not_eq_true']
  by_cases c1 : isClose atol rtol e.1.x e.2.x = false
  · rw [if_pos c1]
    have hne := close _ _ c1
    have : (segMap e t).x - e.1.x = t * (e.2.x - e.1.x) := by simp only [segMap]; ring
    rw [this, mul_div_cancel_right₀ _ hne]
  · rw [if_neg c1]
    have c2 := hn.resolve_left c1
    rw [if_pos c2]
    have hne := close _ _ c2
    have : (segMap e t).y - e.1.y = t * (e.2.y - e.1.y) := by simp only [segMap]; ring
    rw [this, mul_div_cancel_right₀ _ hne]

/-- Position and width of a descendant, from its path: the specification. -/
def pathPos : List Bool → K × K
  | [] => (0, 1)
  | b :: r => ((if b then 1 / 2 else 0) + (pathPos r).1 / 2, (pathPos r).2 / 2)

omit [LinearOrder K] [IsStrictOrderedRing K] in
theorem pathPos_width (p : List Bool) : (pathPos p : K × K).2 = 1 / 2 ^ p.length := by
  induction p with
  | nil => simp [pathPos]
  | cons b r ih => simp only [pathPos, ih, List.length_cons, pow_succ]; field_simp

theorem segMap_desc [CharZero K] (p : List Bool) (e : Seg K) (t : K) :
    segMap (descEdge e p) t = segMap e ((pathPos p).1 + (pathPos p).2 * t) := by
  induction p generalizing e with
  | nil => simp [descEdge, pathPos]
  | cons b r ih =>
    rw [descEdge, ih]
    cases b
    · ext
      · simp only [segMap, subEdge, pathPos, mid]; simp; ring
      · simp only [segMap, subEdge, pathPos, mid]; simp; ring
    · ext
      · simp only [segMap, subEdge, pathPos, mid]; simp; ring
      · simp only [segMap, subEdge, pathPos, mid]; simp; ring

/-- `length()` (mesh.py 2342-2346). -/
noncomputable def elen (e : Seg ℝ) : ℝ :=
  Real.sqrt ((vec e).x ^ 2 + (vec e).y ^ 2)

theorem descEdge_ends (p : List Bool) (e : Seg ℝ) :
    (descEdge e p).1 = segMap e (pathPos p).1 ∧
    (descEdge e p).2 = segMap e ((pathPos p).1 + (pathPos p).2) := by
  have h0 := segMap_desc p e 0
  have h1 := segMap_desc p e 1
  rw [(C49_map _).1, mul_zero, add_zero] at h0
  rw [(C49_map _).2.1, mul_one] at h1
  exact ⟨h0, h1⟩

theorem elen_desc (p : List Bool) (e : Seg ℝ) : elen (descEdge e p) = (pathPos p).2 * elen e := by
  obtain ⟨h0, h1⟩ := descEdge_ends p e
  have hw : (0 : ℝ) ≤ (pathPos p).2 := by rw [pathPos_width]; positivity
  unfold elen
  simp only [vec, h0, h1, segMap]
  rw [← Real.sqrt_sq hw, ← Real.sqrt_mul (sq_nonneg _), Real.sqrt_sq hw]
  congr 1; ring

theorem pathPos_range (p : List Bool) : 0 ≤ (pathPos p : ℝ × ℝ).1 ∧ 0 ≤ (pathPos p : ℝ × ℝ).2 ∧
    (pathPos p : ℝ × ℝ).1 + (pathPos p : ℝ × ℝ).2 ≤ 1 := by
  induction p with
  | nil => simp [pathPos]
  | cons b r ih =>
    obtain ⟨h1, h2, h3⟩ := ih
    cases b <;> simp only [pathPos] <;> simp <;> refine ⟨?_, ?_, ?_⟩ <;> linarith

/-- For every descendant of a half-edge that is not vertical and does not point downwards,
`subcell_position` succeeds, and its result `(pos, width)` satisfies: the width is
`2^-(relative depth)` and the map of the descendant is the map of the half-edge restricted
to `[pos, pos+width]`. -/
theorem C49_subcell_partial (tol tol' : ℝ) (h0 : 0 < tol') (h1 : tol' ≤ tol) (e : Seg ℝ)
    (hx : tol < |(vec e).x|) (hy : -tol ≤ (vec e).y) (p : List Bool) :
    ∃ pos width, segSubPos elen tol tol' e (descEdge e p) = .ok (pos, width) ∧
      width = 1 / 2 ^ p.length ∧ 0 ≤ pos ∧ pos + width ≤ 1 ∧
      ∀ t, segMap (descEdge e p) t = segMap e (pos + width * t) := by
  obtain ⟨p0, p1, p2⟩ := pathPos_range p
  obtain ⟨d0, d1⟩ := descEdge_ends p e
  refine ⟨(pathPos p).1, (pathPos p).2, ?_, pathPos_width p, p0, p2, segMap_desc p e⟩
  have c : ∀ t, 0 ≤ t → t ≤ 1 → heContains tol tol' e (segMap e t) = .ok true := fun t t0 t1 =>
    C47_complete_partial tol tol' e h0 h1 (Or.inl hx) (Or.inr hy) _
      (((C49_map e).2.2.1 _).2 ⟨t, t0, t1, rfl⟩)
  have hne : e.2.x - e.1.x ≠ 0 := by
    intro h; simp only [vec, h, abs_zero] at hx; linarith
  have hlen : elen e ≠ 0 := by
    unfold elen
    simp only [vec]
    have : 0 < (e.2.x - e.1.x) ^ 2 := by positivity
    have : 0 < (e.2.x - e.1.x) ^ 2 + (e.2.y - e.1.y) ^ 2 := by positivity
    exact (Real.sqrt_pos.2 this).ne'
  unfold segSubPos
  rw [d0, d1, c _ p0 (by linarith), c _ (by linarith) p2]
  simp only
  rw [if_neg hne]
  have a : (segMap e (pathPos p).1).x - e.1.x = (pathPos p).1 * (e.2.x - e.1.x) := by
    simp only [segMap]; ring
  rw [elen_desc, mul_div_cancel_right₀ _ hlen, a, mul_div_cancel_right₀ _ hne]

example : ∃ pos width, segSubPos elen (1 / 10 ^ 10) (1 / 10 ^ 14) (⟨0, 0⟩, ⟨2, 1⟩)
    (descEdge (⟨0, 0⟩, ⟨2, 1⟩) [true, false]) = .ok (pos, width) ∧ width = 1 / 2 ^ 2 := by
  obtain ⟨a, b, h1, h2, _⟩ := C49_subcell_partial (1 / 10 ^ 10) (1 / 10 ^ 14) (by norm_num)
    (by norm_num) (⟨0, 0⟩, ⟨2, 1⟩) (by simp only [vec]; norm_num) (by simp only [vec]; norm_num)
    [true, false]
  exact ⟨a, b, h1, h2⟩

/-- **Violation**: on every vertical half-edge `subcell_position` divides by zero (even for
the half-edge itself). -/
theorem C49_vertical_violated (len : Seg K → K) (tol tol' : K) (h0 : 0 < tol') (h1 : tol' ≤ tol)
    (e : Seg K) (hx : e.1.x = e.2.x) (hy : tol < |(vec e).y|) :
    segSubPos len tol tol' e e = .error .zeroDivision := by
  have htol := lt_of_lt_of_le h0 h1
  have hv : |(vec e).x| < tol := by simp only [vec, hx, sub_self, abs_zero]; exact htol
  have c : ∀ p, OnSeg e p → heContains tol tol' e p = .ok true :=
    C47_complete_partial tol tol' e h0 h1 (Or.inr ⟨hv, hy⟩) (Or.inl hv)
  unfold segSubPos
  rw [c e.1 ⟨0, le_refl _, zero_le_one, by ring, by ring⟩,
    c e.2 ⟨1, zero_le_one, le_refl _, by ring, by ring⟩]
  simp only
  rw [if_pos (by rw [hx, sub_self])]

/-- **Violation**: `jac_p2r` is not the inverse of `jac_r2p`; wherever it is defined, their
product is 2. -/
theorem C49_jac_violated (e : Seg K) (j : K × K) (h : segJacP2R e = .ok j) :
    j.1 * (segJacR2P e).1 + j.2 * (segJacR2P e).2 = 2 := by
  unfold segJacP2R at h
  split_ifs at h with hc
  simp only [not_or] at hc
  cases h
  simp only [segJacR2P]
  rw [one_div_mul_cancel hc.1, one_div_mul_cancel hc.2]; norm_num

example : segJacP2R ((⟨0, 0⟩, ⟨2, 1⟩) : Seg ℚ) = .ok (1 / 2, 1) := by
  simp [segJacP2R]

/-- **Violation**: `np.isclose` is relative, so far from the origin the inverse map of an edge
of length 1 fails (the result variable is never assigned). -/
theorem C49_far_violated : ∃ e : Seg ℚ, OnSeg e e.1 ∧ e.1 ≠ e.2 ∧
    segToRef (1 / 10 ^ 10) (1 / 10 ^ 14) (1 / 10 ^ 8) (1 / 10 ^ 5) e e.1 = .error .name := by
  refine ⟨(⟨1000000, 1000000⟩, ⟨1000001, 1000000⟩), ⟨0, ?_⟩, ?_, ?_⟩
  · norm_num
  · intro h; norm_num at h
  · unfold segToRef
    rw [C47_complete_partial (1 / 10 ^ 10 : ℚ) (1 / 10 ^ 14) _ (by norm_num) (by norm_num)
      (Or.inl (by simp only [vec]; norm_num)) (Or.inr (by simp only [vec]; norm_num)) _
      ⟨0, by norm_num, by norm_num, by norm_num, by norm_num⟩]
    simp only [isClose]
    norm_num [abs_of_neg]

end Verif.Quad
