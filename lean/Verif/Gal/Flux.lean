import Verif.Gal.Cells
import Verif.Form.Global
import Mathlib.MeasureTheory.Integral.DivergenceTheorem

/-!
# The divergence theorem on a quadrilateral, in reference coordinates
-/

set_option linter.unusedSimpArgs false

namespace Verif.Gal
open Verif.Mesh Verif.Dof Verif.Bnd Verif.Quad Verif.Fem Verif.Gauss MeasureTheory Verif.Phys

theorem grad_comp (q : QD ℝ) {P : ℝ × ℝ → ℝ} {a b : ℝ} {r : ℝ × ℝ} (h : HasGrad P a b (F q r)) :
    HasGrad (fun s => P (F q s)) (a * jxs q ⟨r.1, r.2⟩ + b * jys q ⟨r.1, r.2⟩) (a * jxt q ⟨r.1, r.2⟩ + b * jyt q ⟨r.1, r.2⟩) r := by
  have h0 : HasFDerivAt P (a • ContinuousLinearMap.fst ℝ ℝ ℝ + b • ContinuousLinearMap.snd ℝ ℝ ℝ) (F q r) := h
  have h1 := h0.comp r (strict_F q r).hasFDerivAt
  unfold HasGrad
  refine h1.congr_fderiv ?_
  apply ContinuousLinearMap.ext
  intro v
  simp [dF]
  ring

/-- The derivative of a product of the kind that occurs below is continuous. -/
theorem cont_F (q : QD ℝ) : Continuous (F q) := by
  unfold F
  simp only [toPhys]
  fun_prop

theorem cont_j (q : QD ℝ) : Continuous (fun r : ℝ × ℝ => jxs q ⟨r.1, r.2⟩) ∧ Continuous (fun r : ℝ × ℝ => jxt q ⟨r.1, r.2⟩) ∧
    Continuous (fun r : ℝ × ℝ => jys q ⟨r.1, r.2⟩) ∧ Continuous (fun r : ℝ × ℝ => jyt q ⟨r.1, r.2⟩) := by
  simp only [jxs, jxt, jys, jyt]
  refine ⟨?_, ?_, ?_, ?_⟩ <;> fun_prop

theorem sq_eq : Gauss.sq = Set.Icc ((0, 0) : ℝ × ℝ) (1, 1) := by
  unfold Gauss.sq
  rw [Set.Icc_prod_eq]

/-- The flux `(P, Q)` times `V`, integrated over side `i` with the outer normal. -/
noncomputable def sideFlux (q : QD ℝ) (P Q V : ℝ × ℝ → ℝ) (i : Fin 4) : ℝ :=
  ∫ t in (0 : ℝ)..1, (P (F q (E i t)) * ((corner q (i + 1)).y - (corner q i).y) - Q (F q (E i t)) * ((corner q (i + 1)).x - (corner q i).x)) *
    V (E i t)

theorem cell_flux (q : QD ℝ) {P Q V Px Py Qx Qy Vs Vt : ℝ × ℝ → ℝ} (hP : ∀ z, HasGrad P (Px z) (Py z) z) (hQ : ∀ z, HasGrad Q (Qx z) (Qy z) z)
    (hV : ∀ z, HasGrad V (Vs z) (Vt z) z) (cPx : Continuous Px) (cQy : Continuous Qy) (cVs : Continuous Vs) (cVt : Continuous Vt) :
    ∫ r in Gauss.sq, (det q ⟨r.1, r.2⟩ * (Px (F q r) + Qy (F q r)) * V r + P (F q r) * (Vs r * jyt q ⟨r.1, r.2⟩ - Vt r * jys q ⟨r.1, r.2⟩) +
      Q (F q r) * (Vt r * jxs q ⟨r.1, r.2⟩ - Vs r * jxt q ⟨r.1, r.2⟩)) = ∑ i : Fin 4, sideFlux q P Q V i := by
  obtain ⟨c1, c2, c3, c4⟩ := cont_j q
  have cF := cont_F q
  have cP : Continuous P := continuous_iff_continuousAt.2 (fun z => (hP z).continuousAt)
  have cQ : Continuous Q := continuous_iff_continuousAt.2 (fun z => (hQ z).continuousAt)
  have cV : Continuous V := continuous_iff_continuousAt.2 (fun z => (hV z).continuousAt)
  have g1 : ∀ r, HasGrad (fun s => (P (F q s) * jyt q ⟨s.1, s.2⟩ - Q (F q s) * jxt q ⟨s.1, s.2⟩) * V s) _ _ r := fun r =>
    (((grad_comp q (hP _)).mul (grad_jyt q r)).sub ((grad_comp q (hQ _)).mul (grad_jxt q r))).mul (hV r)
  have g2 : ∀ r, HasGrad (fun s => (Q (F q s) * jxs q ⟨s.1, s.2⟩ - P (F q s) * jys q ⟨s.1, s.2⟩) * V s) _ _ r := fun r =>
    (((grad_comp q (hQ _)).mul (grad_jxs q r)).sub ((grad_comp q (hP _)).mul (grad_jys q r))).mul (hV r)
  have cI : Continuous (fun r : ℝ × ℝ => det q ⟨r.1, r.2⟩ * (Px (F q r) + Qy (F q r)) * V r +
      P (F q r) * (Vs r * jyt q ⟨r.1, r.2⟩ - Vt r * jys q ⟨r.1, r.2⟩) +
      Q (F q r) * (Vt r * jxs q ⟨r.1, r.2⟩ - Vs r * jxt q ⟨r.1, r.2⟩)) := by
    unfold det
    have d1 := cPx.comp cF
    have d2 := cQy.comp cF
    have d3 := cP.comp cF
    have d4 := cQ.comp cF
    exact ((((c1.mul c4).sub (c2.mul c3)).mul (d1.add d2)).mul cV).add (d3.mul ((cVs.mul c4).sub (cVt.mul c3))) |>.add
      (d4.mul ((cVt.mul c1).sub (cVs.mul c2)))
  have key := integral_divergence_prod_Icc_of_hasFDerivAt_of_le _ _ _ _ (0, 0) (1, 1) (by constructor <;> simp)
    (continuous_iff_continuousAt.2 (fun z => (g1 z).continuousAt)).continuousOn
    (continuous_iff_continuousAt.2 (fun z => (g2 z).continuousAt)).continuousOn
    (fun r _ => g1 r) (fun r _ => g2 r) ?_
  rotate_left
  · refine (cI.continuousOn.integrableOn_compact isCompact_Icc).congr_fun (fun r _ => ?_) measurableSet_Icc
    simp [det]
    ring
  rw [sq_eq]
  have e1 : ∀ f g : ℝ × ℝ → ℝ, (∀ r, f r = g r) → ∫ r in Set.Icc ((0, 0) : ℝ × ℝ) (1, 1), f r = ∫ r in Set.Icc ((0, 0) : ℝ × ℝ) (1, 1), g r :=
    fun f g h => by rw [show f = g from funext h]
  refine (e1 _ _ (fun r => ?_)).trans (key.trans ?_)
  · simp [det]
    ring
  · simp only [Fin.sum_univ_four, sideFlux]
    have r1 : ∀ f : ℝ → ℝ, ∫ t in (0 : ℝ)..1, f t = ∫ t in (0 : ℝ)..1, f (1 - t) := fun f => by
      rw [intervalIntegral.integral_comp_sub_left (f := f) (a := 0) (b := 1) (d := 1)]; simp
    rw [r1 (fun x => (Q (F q (x, 1)) * _ - _) * _), r1 (fun y => (P (F q (0, y)) * _ - _) * _)]
    rw [sub_eq_add_neg, sub_eq_add_neg, ← intervalIntegral.integral_neg, ← intervalIntegral.integral_neg]
    have cc : ∀ f g : ℝ → ℝ, (∀ t, f t = g t) → ∫ t in (0 : ℝ)..1, f t = ∫ t in (0 : ℝ)..1, g t := fun f g h => by
      rw [show f = g from funext h]
    have k0 : Phys.corner q 0 = q.v0 := rfl
    have k1 : Phys.corner q 1 = q.v1 := rfl
    have k2 : Phys.corner q 2 = q.v2 := rfl
    have k3 : Phys.corner q 3 = q.v3 := rfl
    have l0 : Phys.corner q (0 + 1) = q.v1 := rfl
    have l1 : Phys.corner q (1 + 1) = q.v2 := rfl
    have l2 : Phys.corner q (2 + 1) = q.v3 := rfl
    have l3 : Phys.corner q (3 + 1) = q.v0 := rfl
    have x0 := cc (fun t => -((Q (F q (t, 0)) * jxs q ⟨t, 0⟩ - P (F q (t, 0)) * jys q ⟨t, 0⟩) * V (t, 0)))
      (fun t => (P (F q (E 0 t)) * ((corner q (0 + 1)).y - (corner q 0).y) - Q (F q (E 0 t)) * ((corner q (0 + 1)).x - (corner q 0).x)) *
        V (E 0 t)) (fun t => by
          simp only [k0, k1, k2, k3, l0, l1, l2, l3, E, jxs, jys]
          ring)
    have x1 := cc (fun t => (P (F q (1, t)) * jyt q ⟨1, t⟩ - Q (F q (1, t)) * jxt q ⟨1, t⟩) * V (1, t))
      (fun t => (P (F q (E 1 t)) * ((corner q (1 + 1)).y - (corner q 1).y) - Q (F q (E 1 t)) * ((corner q (1 + 1)).x - (corner q 1).x)) *
        V (E 1 t)) (fun t => by
          simp only [k0, k1, k2, k3, l0, l1, l2, l3, E, jxt, jyt]
          ring)
    have x2 := cc (fun t => (Q (F q (1 - t, 1)) * jxs q ⟨1 - t, 1⟩ - P (F q (1 - t, 1)) * jys q ⟨1 - t, 1⟩) * V (1 - t, 1))
      (fun t => (P (F q (E 2 t)) * ((corner q (2 + 1)).y - (corner q 2).y) - Q (F q (E 2 t)) * ((corner q (2 + 1)).x - (corner q 2).x)) *
        V (E 2 t)) (fun t => by
          simp only [k0, k1, k2, k3, l0, l1, l2, l3, E, jxs, jys]
          ring)
    have x3 := cc (fun t => -((P (F q (0, 1 - t)) * jyt q ⟨0, 1 - t⟩ - Q (F q (0, 1 - t)) * jxt q ⟨0, 1 - t⟩) * V (0, 1 - t)))
      (fun t => (P (F q (E 3 t)) * ((corner q (3 + 1)).y - (corner q 3).y) - Q (F q (E 3 t)) * ((corner q (3 + 1)).x - (corner q 3).x)) *
        V (E 3 t)) (fun t => by
          simp only [k0, k1, k2, k3, l0, l1, l2, l3, E, jxt, jyt]
          ring)
    rw [← x0, ← x1, ← x2, ← x3]
    ring

end Verif.Gal
