import Verif.Cea.Best
import Mathlib.Analysis.SpecialFunctions.ExpDeriv
import Mathlib.Analysis.SpecialFunctions.Trigonometric.Deriv

/-!
# C78: the hypotheses hold

Two unit squares, one refined; `κ = 1`, `f = 0`, and the harmonic function `u = eˣ sin y`, which is not a polynomial.
-/

namespace Verif.Cea
open Verif.Mesh Verif.Dof Verif.Quad Verif.Fem Verif.Form Verif.Asm Verif.Phys Verif.Bnd Verif.Reg Verif.Dir Verif.Gauss Verif.Gal MeasureTheory

/-- Every vector of dof values is a function on the leaves. -/
theorem fn_exists {close : Pt ℝ → Pt ℝ → Bool} {B : Base ℝ} {e : ET} {sf : Bool} {s : St ℝ} {D : DH} {V : DV ℝ} {rect : Nat → Bool}
    (h : Setting close B e sf s D V rect) (U : Nat → ℝ) : ∃ w, IsFn sf s e D U w := by
  classical
  refine ⟨fun c p => if h : ∃ z, InOpen z ∧ F (cellQ s c) z = p then feFn e D U c h.choose else 0, fun c hc z hz => ?_⟩
  have hex : ∃ z', InOpen z' ∧ F (cellQ s c) z' = F (cellQ s c) z := ⟨z, hz, rfl⟩
  have key : ∀ z', InOpen z' → F (cellQ s c) z' = F (cellQ s c) z → z' = z := by
    intro z' h1 h2
    rw [F_phys, F_phys, Prod.mk.injEq] at h2
    have h3 := C21_injective _ (leaf_convex h hc) ⟨z'.1, z'.2⟩ ⟨z.1, z.2⟩ ⟨h1.1.le, h1.2.1.le, h1.2.2.1.le, h1.2.2.2.le⟩
      ⟨hz.1.le, hz.2.1.le, hz.2.2.1.le, hz.2.2.2.le⟩ (Pt.ext h2.1 h2.2)
    exact Prod.ext (congrArg Pt.x h3) (congrArg Pt.y h3)
  simp only [dif_pos hex]
  rw [key _ hex.choose_spec.1 hex.choose_spec.2]

/-- `eˣ sin y`. -/
noncomputable def exU (p : ℝ × ℝ) : ℝ := Real.exp p.1 * Real.sin p.2

theorem exU_px (p : ℝ × ℝ) : px exU p = Real.exp p.1 * Real.sin p.2 := by
  have h : HasFDerivAt exU _ p := (hasFDerivAt_fst.exp).mul (hasFDerivAt_snd.sin)
  unfold px
  rw [h.fderiv]
  simp [mul_comm]

theorem exU_py (p : ℝ × ℝ) : py exU p = Real.exp p.1 * Real.cos p.2 := by
  have h : HasFDerivAt exU _ p := (hasFDerivAt_fst.exp).mul (hasFDerivAt_snd.sin)
  unfold py
  rw [h.fderiv]
  simp [mul_comm]

theorem exU_smooth (n : ℕ) : ContDiff ℝ n exU := (contDiff_fst.exp).mul (contDiff_snd.sin)

theorem exU_classical (Ω : Set (ℝ × ℝ)) : Classical 1 0 exU Ω := by
  refine ⟨by exact_mod_cast exU_smooth 2, fun p _ => ?_⟩
  have h1 : (fun z : ℝ × ℝ => ev 1 z * px exU z) = exU := by
    funext z
    simp [ev, exU_px, exU]
  have h2 : (fun z : ℝ × ℝ => ev 1 z * py exU z) = fun z => Real.exp z.1 * Real.cos z.2 := by
    funext z
    simp [ev, exU_py]
  rw [h1, h2, exU_px]
  have h : HasFDerivAt (fun z : ℝ × ℝ => Real.exp z.1 * Real.cos z.2) _ p := (hasFDerivAt_fst.exp).mul (hasFDerivAt_snd.cos)
  unfold py
  rw [h.fderiv]
  simp [ev, mul_comm]

theorem twoR_par : Par twoR := by
  intro f hf
  rw [two_quad f hf]
  constructor <;> simp [hDx, hDy]

/-- The hypotheses of `C78_minimises` and `C78_best` on a mesh with hanging nodes. -/
theorem ex_run (close : Pt ℝ → Pt ℝ → Bool) : ∃ rc re D V H C d fuel y u w, Setting close twoR .Q2 false witR D V (fun _ => true) ∧
    Problem .Q2 3 1 0 rc re (kernelOf 1) (kernelOf 0) 1 0 ∧ setHanging false witR .Q2 D [] = some (H, C) ∧
    BndDict twoR false witR .Q2 D (fun x => exU (x.x, x.y)) d ∧
    Solved .Q2 (kernelOf 1) (kernelOf 0) rc re 0 (fun _ => true) false witR D H d true fuel sortedSet y u ∧
    IsFn false witR .Q2 D (fun a => u.getD a 0) w := by
  obtain ⟨rc, hrc⟩ := (C32_orders (3 ^ 2)).2.2 ⟨3, by norm_num, by norm_num, rfl⟩
  obtain ⟨re, hre⟩ := (C32_orders 1).1.2 (by norm_num)
  have hp : Problem .Q2 3 1 0 rc re (kernelOf 1) (kernelOf 0) 1 0 :=
    ⟨hrc, by norm_num, hre, by simp; decide, by simp; decide, kernel_poly _ _, kernel_poly _ _⟩
  obtain ⟨D, V, _, hD, hV, _, _⟩ := Fn.C67_setup twoR_wf twoR_plain witR_reach witR_bal .Q2 close (n := 24) (by rw [witR_len])
  have h : Setting close twoR .Q2 false witR D V (fun _ => true) :=
    ⟨twoR_wf, twoR_plain, twoR_convex, twoR_rect, rfl, hV, fun _ _ => .inl rfl, .inl rfl⟩
  obtain ⟨⟨H, C⟩, hh⟩ := C62_succeeds (F := ℝ) twoR_wf hV.ready (.inl rfl) []
  have hI : Inner twoR false witR .Q2 D H := (C69_inner h hh).1 (0, []) (by decide +kernel) (.inl rfl)
  obtain ⟨d, hdd⟩ := dict_exists h (fun x => exU (x.x, x.y))
  obtain ⟨S, hS, hk⟩ := hp.diff
  obtain ⟨h1, _⟩ := C69_one_answer h hrc hre (by decide) hS (fun x _ => by rw [hk]; simp [ev]) hh hdd true (kernelOf 0) sortedSet_spec.1 sortedSet_spec.2
  obtain ⟨fuel, y, u, hr⟩ := h1.1 hI
  obtain ⟨w, hw⟩ := fn_exists h (fun a => u.getD a 0)
  exact ⟨rc, re, D, V, H, C, d, fuel, y, u, w, h, hp, hh, hdd, hr, hw⟩

end Verif.Cea
