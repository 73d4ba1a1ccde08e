import Verif.Quad.Maps
import Verif.Quad.Contains
import Mathlib.Analysis.Real.Sqrt
import Mathlib.Topology.Order.IntermediateValue
import Mathlib.MeasureTheory.Function.Jacobian
import Mathlib.MeasureTheory.Integral.Prod
import Mathlib.LinearAlgebra.Matrix.ToLin
import Mathlib.MeasureTheory.Measure.Haar.InnerProductSpace
import Mathlib.Analysis.Calculus.FDeriv.Prod
import Mathlib.Analysis.Calculus.FDeriv.Mul
import Mathlib.MeasureTheory.Measure.Lebesgue.EqHaar

/-! # The reference map is a bijection from the unit square onto the cell (C21) -/

namespace Verif.Quad

/-- The unit square. -/
def InSquare {K : Type} [Field K] [LinearOrder K] (r : Pt K) : Prop := 0 ≤ r.x ∧ r.x ≤ 1 ∧ 0 ≤ r.y ∧ r.y ≤ 1

/-- `reference_map(mapsto='physical')` is one-to-one on the unit square. -/
theorem C21_injective {K : Type} [Field K] [LinearOrder K] [IsStrictOrderedRing K] (q : QD K) (h : ConvexCCW q)
    (r s : Pt K) (hr : InSquare r) (hs : InSquare s) (e : toPhys q r = toPhys q s) : r = s := by
  obtain ⟨r0, r1, r2, r3⟩ := hr
  obtain ⟨s0, s1, s2, s3⟩ := hs
  have hd := C21_det_pos q h ⟨(r.x + s.x) / 2, (r.y + s.y) / 2⟩ (by simp only; linarith) (by simp only; linarith)
    (by simp only; linarith) (by simp only; linarith)
  have ex := congrArg Pt.x e
  have ey := congrArg Pt.y e
  have h1 : jxs q ⟨(r.x + s.x) / 2, (r.y + s.y) / 2⟩ * (r.x - s.x) +
      jxt q ⟨(r.x + s.x) / 2, (r.y + s.y) / 2⟩ * (r.y - s.y) = 0 := by
    simp only [toPhys] at ex
    simp only [jxs, jxt]
    linear_combination ex
  have h2 : jys q ⟨(r.x + s.x) / 2, (r.y + s.y) / 2⟩ * (r.x - s.x) +
      jyt q ⟨(r.x + s.x) / 2, (r.y + s.y) / 2⟩ * (r.y - s.y) = 0 := by
    simp only [toPhys] at ey
    simp only [jys, jyt]
    linear_combination ey
  unfold det at hd
  have k1 : (jxs q ⟨(r.x + s.x) / 2, (r.y + s.y) / 2⟩ * jyt q ⟨(r.x + s.x) / 2, (r.y + s.y) / 2⟩ -
      jxt q ⟨(r.x + s.x) / 2, (r.y + s.y) / 2⟩ * jys q ⟨(r.x + s.x) / 2, (r.y + s.y) / 2⟩) * (r.x - s.x) = 0 := by
    linear_combination jyt q ⟨(r.x + s.x) / 2, (r.y + s.y) / 2⟩ * h1 - jxt q ⟨(r.x + s.x) / 2, (r.y + s.y) / 2⟩ * h2
  have k2 : (jxs q ⟨(r.x + s.x) / 2, (r.y + s.y) / 2⟩ * jyt q ⟨(r.x + s.x) / 2, (r.y + s.y) / 2⟩ -
      jxt q ⟨(r.x + s.x) / 2, (r.y + s.y) / 2⟩ * jys q ⟨(r.x + s.x) / 2, (r.y + s.y) / 2⟩) * (r.y - s.y) = 0 := by
    linear_combination jxs q ⟨(r.x + s.x) / 2, (r.y + s.y) / 2⟩ * h2 - jys q ⟨(r.x + s.x) / 2, (r.y + s.y) / 2⟩ * h1
  ext
  · have := (mul_eq_zero.1 k1).resolve_left hd.ne'
    linarith
  · have := (mul_eq_zero.1 k2).resolve_left hd.ne'
    linarith

/-- Every point of a convex cell (tolerance 0) is the image of a point of the unit square; real numbers. -/
theorem C21_surjective (q : QD ℝ) (h : ConvexCCW q) (p : Pt ℝ) (hp : contains 0 q p = true) :
    ∃ r, InSquare r ∧ toPhys q r = p := by
  rw [contains_iff] at hp
  simp only [left_tri, neg_zero] at hp
  obtain ⟨p1, p2, p3, p4⟩ := hp
  let A : ℝ → Pt ℝ := fun s => ⟨(1 - s) * q.v0.x + s * q.v1.x, (1 - s) * q.v0.y + s * q.v1.y⟩
  let B : ℝ → Pt ℝ := fun s => ⟨(1 - s) * q.v3.x + s * q.v2.x, (1 - s) * q.v3.y + s * q.v2.y⟩
  let g : ℝ → ℝ := fun s => tri (A s) (B s) p
  have hg : Continuous g := by
    simp only [g, tri, A, B]; fun_prop
  have g0 : g 0 ≤ 0 := by
    simp only [g, tri, A, B] at p4 ⊢
    linarith
  have g1 : 0 ≤ g 1 := by
    simp only [g, tri, A, B] at p2 ⊢
    linarith
  obtain ⟨s, ⟨s0, s1⟩, hs⟩ := intermediate_value_Icc (by norm_num : (0 : ℝ) ≤ 1) hg.continuousOn ⟨g0, g1⟩
  obtain ⟨t1, t2, t3, t4⟩ := h
  have hB : 0 < tri q.v0 q.v1 (B s) := by
    have e : tri q.v0 q.v1 (B s) = (1 - s) * tri q.v3 q.v0 q.v1 + s * tri q.v0 q.v1 q.v2 := by
      simp only [tri, B]; ring
    rw [e]
    rcases lt_or_ge 0 s with h' | h'
    · have := mul_pos h' t1
      have := mul_nonneg (sub_nonneg.2 s1) t4.le
      linarith
    · have : s = 0 := le_antisymm h' s0
      subst this
      simpa using t4
  have hA : 0 < tri q.v2 q.v3 (A s) := by
    have e : tri q.v2 q.v3 (A s) = (1 - s) * tri q.v2 q.v3 q.v0 + s * tri q.v1 q.v2 q.v3 := by
      simp only [tri, A]; ring
    rw [e]
    rcases lt_or_ge 0 s with h' | h'
    · have := mul_pos h' t2
      have := mul_nonneg (sub_nonneg.2 s1) t3.le
      linarith
    · have : s = 0 := le_antisymm h' s0
      subst this
      simpa using t3
  -- p = A + t (B - A)
  have hAB : (B s).x - (A s).x ≠ 0 ∨ (B s).y - (A s).y ≠ 0 := by
    by_contra hc
    push Not at hc
    obtain ⟨c1, c2⟩ := hc
    have e : tri q.v0 q.v1 (B s) = tri q.v0 q.v1 (A s) + (q.v1.x - q.v0.x) * ((B s).y - (A s).y)
        - ((B s).x - (A s).x) * (q.v1.y - q.v0.y) := by simp only [tri]; ring
    have e2 : tri q.v0 q.v1 (A s) = 0 := by simp only [tri, A]; ring
    rw [e, e2, c1, c2] at hB
    simp at hB
  have hs' : ((B s).x - (A s).x) * (p.y - (A s).y) - (p.x - (A s).x) * ((B s).y - (A s).y) = 0 := hs
  obtain ⟨t, hx, hy⟩ : ∃ t, p.x = (A s).x + t * ((B s).x - (A s).x) ∧ p.y = (A s).y + t * ((B s).y - (A s).y) := by
    rcases hAB with c | c
    · refine ⟨(p.x - (A s).x) / ((B s).x - (A s).x), ?_, ?_⟩
      · field_simp; ring
      · field_simp; linear_combination hs'
    · refine ⟨(p.y - (A s).y) / ((B s).y - (A s).y), ?_, ?_⟩
      · field_simp; linear_combination -hs'
      · field_simp; ring
  have e1 : tri q.v0 q.v1 p = t * tri q.v0 q.v1 (B s) := by
    simp only [tri, hx, hy, A]; ring
  have e2 : tri q.v2 q.v3 p = (1 - t) * tri q.v2 q.v3 (A s) := by
    simp only [tri, hx, hy, B]; ring
  have t0 : 0 ≤ t := by
    by_contra hc
    push Not at hc
    have := mul_neg_of_neg_of_pos hc hB
    linarith
  have t1' : t ≤ 1 := by
    by_contra hc
    push Not at hc
    have := mul_neg_of_neg_of_pos (sub_neg.2 hc) hA
    linarith
  refine ⟨⟨s, t⟩, ⟨s0, s1, t0, t1'⟩, ?_⟩
  ext
  · simp only [toPhys, hx, A, B]; ring
  · simp only [toPhys, hy, A, B]; ring

/-- The reference map is a bijection between the unit square and the points of the cell. -/
theorem C21_bijection (q : QD ℝ) (h : ConvexCCW q) (p : Pt ℝ) :
    contains 0 q p = true ↔ ∃! r, InSquare r ∧ toPhys q r = p := by
  constructor
  · intro hp
    obtain ⟨r, hr, e⟩ := C21_surjective q h p hp
    exact ⟨r, ⟨hr, e⟩, fun s hs => C21_injective q h s r hs.1 hr (hs.2.trans e.symm)⟩
  · rintro ⟨r, ⟨⟨h0, h1, h2, h3⟩, rfl⟩, _⟩
    exact C22_map_inside q h 0 le_rfl r h0 h1 h2 h3

/-! ### Change of variables -/

open MeasureTheory

/-- The points of a cell, as a subset of the plane. -/
def region (q : QD ℝ) : Set (ℝ × ℝ) := {p | contains 0 q ⟨p.1, p.2⟩ = true}

/-- The map as a map of the plane. -/
noncomputable def F (q : QD ℝ) (r : ℝ × ℝ) : ℝ × ℝ := ((toPhys q ⟨r.1, r.2⟩).x, (toPhys q ⟨r.1, r.2⟩).y)

/-- Its derivative. -/
noncomputable def dF (q : QD ℝ) (r : ℝ × ℝ) : ℝ × ℝ →L[ℝ] ℝ × ℝ :=
  ((jxs q ⟨r.1, r.2⟩) • ContinuousLinearMap.fst ℝ ℝ ℝ + (jxt q ⟨r.1, r.2⟩) • ContinuousLinearMap.snd ℝ ℝ ℝ).prod
  ((jys q ⟨r.1, r.2⟩) • ContinuousLinearMap.fst ℝ ℝ ℝ + (jyt q ⟨r.1, r.2⟩) • ContinuousLinearMap.snd ℝ ℝ ℝ)

theorem hasFDerivAt_bilin (a b c d : ℝ) (r : ℝ × ℝ) :
    HasFDerivAt (fun r : ℝ × ℝ => a + b * r.1 + c * r.2 + d * (r.1 * r.2))
      ((b + d * r.2) • ContinuousLinearMap.fst ℝ ℝ ℝ + (c + d * r.1) • ContinuousLinearMap.snd ℝ ℝ ℝ) r := by
  have h1 : HasFDerivAt (fun r : ℝ × ℝ => r.1) (ContinuousLinearMap.fst ℝ ℝ ℝ) r := hasFDerivAt_fst
  have h2 : HasFDerivAt (fun r : ℝ × ℝ => r.2) (ContinuousLinearMap.snd ℝ ℝ ℝ) r := hasFDerivAt_snd
  have h := (((h1.const_mul b).const_add a).add (h2.const_mul c)).add ((h1.mul h2).const_mul d)
  refine h.congr_fderiv ?_
  ext <;> simp <;> ring

theorem hasFDerivAt_F (q : QD ℝ) (r : ℝ × ℝ) : HasFDerivAt (F q) (dF q r) r := by
  unfold F dF
  refine HasFDerivAt.prodMk ?_ ?_
  · have := hasFDerivAt_bilin q.v0.x (q.v1.x - q.v0.x) (q.v3.x - q.v0.x) (q.v0.x - q.v1.x + q.v2.x - q.v3.x) r
    have e : (fun r : ℝ × ℝ => (toPhys q ⟨r.1, r.2⟩).x) = fun r : ℝ × ℝ => q.v0.x + (q.v1.x - q.v0.x) * r.1 +
        (q.v3.x - q.v0.x) * r.2 + (q.v0.x - q.v1.x + q.v2.x - q.v3.x) * (r.1 * r.2) := by
      funext s; simp only [toPhys]; ring
    rw [e]
    refine this.congr_fderiv ?_
    ext <;> simp [jxs, jxt] <;> ring
  · have := hasFDerivAt_bilin q.v0.y (q.v1.y - q.v0.y) (q.v3.y - q.v0.y) (q.v0.y - q.v1.y + q.v2.y - q.v3.y) r
    have e : (fun r : ℝ × ℝ => (toPhys q ⟨r.1, r.2⟩).y) = fun r : ℝ × ℝ => q.v0.y + (q.v1.y - q.v0.y) * r.1 +
        (q.v3.y - q.v0.y) * r.2 + (q.v0.y - q.v1.y + q.v2.y - q.v3.y) * (r.1 * r.2) := by
      funext s; simp only [toPhys]; ring
    rw [e]
    refine this.congr_fderiv ?_
    ext <;> simp [jys, jyt] <;> ring

theorem det_dF (q : QD ℝ) (r : ℝ × ℝ) : (dF q r).det = det q ⟨r.1, r.2⟩ := by
  have : (dF q r).det = LinearMap.det ((dF q r : ℝ × ℝ →L[ℝ] ℝ × ℝ) : ℝ × ℝ →ₗ[ℝ] ℝ × ℝ) := rfl
  rw [this, ← LinearMap.det_toMatrix (Module.Basis.finTwoProd ℝ), Matrix.det_fin_two]
  simp [LinearMap.toMatrix_apply, dF, det]

theorem image_F (q : QD ℝ) (h : ConvexCCW q) : F q '' (Set.Icc 0 1 ×ˢ Set.Icc 0 1) = region q := by
  ext p
  simp only [Set.mem_image, region, Set.mem_prod, Set.mem_Icc]
  constructor
  · rintro ⟨r, ⟨⟨h0, h1⟩, h2, h3⟩, rfl⟩
    exact C22_map_inside q h 0 le_rfl ⟨r.1, r.2⟩ h0 h1 h2 h3
  · intro hp
    obtain ⟨r, ⟨h0, h1, h2, h3⟩, e⟩ := C21_surjective q h ⟨p.1, p.2⟩ hp
    refine ⟨(r.x, r.y), ⟨⟨h0, h1⟩, h2, h3⟩, ?_⟩
    simp only [F, e]

/-- Integrals over a cell are integrals over the unit square with the determinant of `jac_r2p`. -/
theorem C21_change_of_variables (q : QD ℝ) (h : ConvexCCW q) (f : ℝ × ℝ → ℝ) :
    ∫ p in region q, f p = ∫ r in (Set.Icc (0 : ℝ) 1 ×ˢ Set.Icc (0 : ℝ) 1), det q ⟨r.1, r.2⟩ * f (F q r) := by
  haveI : Measure.IsAddHaarMeasure (volume : Measure (ℝ × ℝ)) := Measure.prod.instIsAddHaarMeasure _ _
  rw [← image_F q h]
  rw [integral_image_eq_integral_abs_det_fderiv_smul volume (measurableSet_Icc.prod measurableSet_Icc)
    (fun r _ => (hasFDerivAt_F q r).hasFDerivWithinAt)]
  · refine setIntegral_congr_fun (measurableSet_Icc.prod measurableSet_Icc) ?_
    rintro r ⟨⟨h0, h1⟩, h2, h3⟩
    simp only [det_dF, smul_eq_mul]
    rw [abs_of_pos (C21_det_pos q h ⟨r.1, r.2⟩ h0 h1 h2 h3)]
  · rintro r ⟨⟨h0, h1⟩, h2, h3⟩ s ⟨⟨k0, k1⟩, k2, k3⟩ e
    have e' : toPhys q ⟨r.1, r.2⟩ = toPhys q ⟨s.1, s.2⟩ := by
      have := Prod.ext_iff.1 e
      exact Pt.ext this.1 this.2
    have := C21_injective q h _ _ ⟨h0, h1, h2, h3⟩ ⟨k0, k1, k2, k3⟩ e'
    exact Prod.ext (congrArg Pt.x this) (congrArg Pt.y this)

end Verif.Quad
