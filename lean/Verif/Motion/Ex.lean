import Verif.Motion.Props
import Verif.Super.Ex

/-! # C103: the hypotheses hold -/

namespace Verif.Motion
open Verif.Mesh Verif.Dof Verif.Quad Verif.Fem Verif.Form Verif.Asm Verif.Phys Verif.Bnd Verif.Reg Verif.Dir Verif.Gauss Verif.Gal Verif.Cea Verif.Super Verif.Max2

/-- Answers for every initial mesh, refined mesh, and data. -/
theorem exists_answer {B : Base ℝ} {rect : Nat → Bool} (hB : B.WF) (hP : Plain B) (hcx : Fn.Convex B) (hR : RectOk rect B) {s : St ℝ} (hs : MReach B s)
    (hb : isBalanced false s = true) {c : CN} (hl : c ∈ leaves false s) {k kf : Kernel (Pt ℝ)} {S Sf j : Nat} (hS : sampleSize k = .ok S)
    (hSf : sampleSize kf = .ok Sf) (hk : ∀ x : Pt ℝ, (x.x, x.y) ∈ Dom B → 0 < k.eval S x j) (g : Pt ℝ → ℝ) {rc : List ((ℝ × ℝ) × ℝ)} {re : List (ℝ × ℝ)}
    (hrc : Gauss.rule2 (3 ^ 2) = .ok rc) (hre : Gauss.rule1 1 = .ok re) :
    ∃ D u, Answer B rect .Q2 rc re (fun x => k.eval S x j) (fun x => kf.eval Sf x j) g false s D u := by
  obtain ⟨D, V, _, hD, hV, _, _⟩ := Fn.C67_setup hB hP hs hb .Q2 (fun _ _ => false) (n := 4 * s.cells.length) le_rfl
  have h : Setting (fun _ _ => false) B .Q2 false s D V rect := ⟨hB, hP, hcx, hR, rfl, hV, fun _ _ => .inl rfl, .inl rfl⟩
  obtain ⟨⟨H, C⟩, hh⟩ := C62_succeeds (F := ℝ) hB hV.ready (.inl rfl) []
  exact ⟨D, C102_exists (n := 3) h hrc hre (by decide) hS hSf hk g hh ((C69_inner h hh).1 c hl (.inl rfl))⟩

/-- Rotated, scaled by `√5`, translated. -/
noncomputable def exSim : Sim := ⟨1, 2, ⟨3, -1⟩, by norm_num⟩

/-- The second square of the moved mesh refined. -/
noncomputable def witM : St ℝ := sp (init (moved exSim twoR)) (1, [])

theorem witM_reach : MReach (moved exSim twoR) witM :=
  (sp_reach (C103_base exSim twoR_wf twoR_plain twoR_convex).1 .init (1, []) (by decide +kernel) rfl).2

theorem wit_same : SameLeaves false witR false witM := by
  have h1 : ∀ c ∈ leaves false witR, c ∈ leaves false witM := by decide +kernel
  have h2 : ∀ c ∈ leaves false witM, c ∈ leaves false witR := by decide +kernel
  exact fun c => ⟨h1 c, h2 c⟩

/-- A kernel for a function. -/
noncomputable def kernelFn (f : Pt ℝ → ℝ) : Kernel (Pt ℝ) := ⟨[⟨1, fun x _ => f x⟩], fun l => l.getD 0 0⟩

theorem kernelFn_size (f : Pt ℝ → ℝ) : sampleSize (kernelFn f) = .ok 1 := rfl

theorem kernelFn_eval (f : Pt ℝ → ℝ) (x : Pt ℝ) : (kernelFn f).eval 1 x 0 = f x := by simp [kernelFn, Kernel.eval]

/-- The inverse. -/
noncomputable def back (x : Pt ℝ) : Pt ℝ := ⟨((x.x - 3) + 2 * (x.y + 1)) / 5, ((x.y + 1) - 2 * (x.x - 3)) / 5⟩

theorem back_at (x : Pt ℝ) : back (exSim.at x) = x := by
  simp only [back, exSim, Sim.at]
  ext <;> simp <;> ring

/-- The hypotheses of `C103_motion`: a mesh with a hanging node, a coefficient that varies, boundary values and load that are not polynomials. -/
example : ∃ rc re D D' u u', Gauss.rule2 (3 ^ 2) = .ok rc ∧ Gauss.rule1 1 = .ok re ∧
    Answer twoR (fun _ => true) .Q2 rc re (fun x => 1 + x.x ^ 2) (fun x => 5 * Real.sin x.y) (fun x => Real.exp x.x) false witR D u ∧
    Answer (moved exSim twoR) (fun _ => false) .Q2 rc re (fun x => 1 + (back x).x ^ 2) (fun x => Real.sin (back x).y) (fun x => Real.exp (back x).x)
      false witM D' u' ∧
    ∀ c ∈ leaves false witR, ∀ z, fn .Q2 D' u' c z = fn .Q2 D u c z := by
  obtain ⟨rc, hrc⟩ := (C32_orders (3 ^ 2)).2.2 ⟨3, by norm_num, by norm_num, rfl⟩
  obtain ⟨re, hre⟩ := (C32_orders 1).1.2 (by norm_num)
  obtain ⟨w1, w2, w3, _⟩ := C103_base exSim twoR_wf twoR_plain twoR_convex
  obtain ⟨D, u, h1⟩ := exists_answer (rect := fun _ => true) (c := (0, [])) (j := 0) twoR_wf twoR_plain twoR_convex twoR_rect witR_reach witR_bal (by decide +kernel)
    (kernelFn_size fun x => 1 + x.x ^ 2) (kernelFn_size fun x => 5 * Real.sin x.y) (fun x _ => by rw [kernelFn_eval]; positivity) (fun x => Real.exp x.x) hrc hre
  obtain ⟨D', u', h2⟩ := exists_answer (rect := fun _ => false) (c := (0, [])) (j := 0) w1 w2 w3 (fun f _ h => by cases h) witM_reach (by decide +kernel) (by decide +kernel)
    (kernelFn_size fun x => 1 + (back x).x ^ 2) (kernelFn_size fun x => Real.sin (back x).y) (fun x _ => by rw [kernelFn_eval]; positivity)
    (fun x => Real.exp (back x).x) hrc hre
  simp only [kernelFn_eval] at h1 h2
  refine ⟨rc, re, D, D', u, u', hrc, hre, h1, h2, fun c hc z => ?_⟩
  refine (C103_motion exSim hrc hre (by decide) (fun x _ => by positivity) h1 h2 wit_same (fun x _ => by rw [back_at]) (fun x _ => ?_) (fun x _ => by rw [back_at])
    hc z).1
  rw [back_at]
  simp only [exSim, Sim.sc]
  ring

end Verif.Motion
