import Verif.Super.Props
import Verif.Max2.Ex

/-! # C102: the hypotheses hold -/

namespace Verif.Super
open Verif.Mesh Verif.Dof Verif.Quad Verif.Fem Verif.Form Verif.Asm Verif.Phys Verif.Bnd Verif.Reg Verif.Dir Verif.Gauss Verif.Gal Verif.Cea Verif.Max2

/-- The mesh `fourR`, refined in the other order. -/
noncomputable def fourL : St ℝ := sp (sp (init twoR) (1, [])) (0, [])

theorem fourL_reach : MReach twoR fourL :=
  (sp_reach twoR_wf (sp_reach twoR_wf .init (1, []) (by decide +kernel) rfl).2 (0, []) (by decide +kernel) (by decide +kernel)).2

/-- The lists of cells differ, the leaves are the same. -/
theorem four_cells : fourL.cells ≠ fourR.cells := by decide +kernel

theorem four_same : SameLeaves false fourR false fourL := by
  have h1 : ∀ c ∈ leaves false fourR, c ∈ leaves false fourL := by decide +kernel
  have h2 : ∀ c ∈ leaves false fourL, c ∈ leaves false fourR := by decide +kernel
  exact fun c => ⟨h1 c, h2 c⟩

/-- Answers exist on both meshes, for every load and all boundary values, with the biquadratic element. -/
theorem ex_answer {s : St ℝ} (hs : MReach twoR s) (hb : isBalanced false s = true) (hn : 4 * s.cells.length ≤ 40) (hl : (0, [0]) ∈ leaves false s) (kf : Kernel (Pt ℝ))
    {Sf : Nat} (hSf : sampleSize kf = .ok Sf) (g : Pt ℝ → ℝ) {rc : List ((ℝ × ℝ) × ℝ)} {re : List (ℝ × ℝ)} (hrc : Gauss.rule2 (3 ^ 2) = .ok rc)
    (hre : Gauss.rule1 1 = .ok re) : ∃ D u, Answer twoR (fun _ => true) .Q2 rc re (fun x => ev exκ (x.x, x.y)) (fun x => kf.eval Sf x 0) g false s D u := by
  obtain ⟨D, V, _, hD, hV, _, _⟩ := Fn.C67_setup twoR_wf twoR_plain hs hb .Q2 (fun _ _ => false) (n := 40) hn
  have h : Setting (fun _ _ => false) twoR .Q2 false s D V (fun _ => true) :=
    ⟨twoR_wf, twoR_plain, twoR_convex, twoR_rect, rfl, hV, fun _ _ => .inl rfl, .inl rfl⟩
  obtain ⟨⟨H, C⟩, hh⟩ := C62_succeeds (F := ℝ) twoR_wf hV.ready (.inl rfl) []
  have hI : Inner twoR false s .Q2 D H := (C69_inner h hh).1 (0, [0]) hl (.inl rfl)
  obtain ⟨S, hS, hk⟩ := kernel_poly exκ 0
  obtain ⟨u, hu⟩ := C102_exists (n := 3) h hrc hre (by decide) hS hSf (fun x _ => by rw [hk]; exact exκ_pos _) g hh hI
  obtain ⟨close, V, k, kf', j, S', Sf', H, C, d, keep, fuel, ord, y, h, hS', hSf', hk', hr⟩ := hu
  exact ⟨D, u, close, V, k, kf', j, S', Sf', H, C, d, keep, fuel, ord, y, h, hS', hSf', fun x hx => (hk' x hx).trans (hk x), hr⟩

/-- The hypotheses of `C102_superposition`, with a load and boundary values that are not constant: `f₃ = 2·f₁ − 3·f₂`. -/
example : ∃ rc re D₁ D₂ D₃ u₁ u₂ u₃, Gauss.rule2 (3 ^ 2) = .ok rc ∧ Gauss.rule1 1 = .ok re ∧ deg .Q2 < 3 ∧ (∀ x : Pt ℝ, 0 < ev exκ (x.x, x.y)) ∧
    Answer twoR (fun _ => true) .Q2 rc re (fun x => ev exκ (x.x, x.y)) (fun x => ev exp1 (x.x, x.y)) (fun x => Real.exp x.x) false fourR D₁ u₁ ∧
    Answer twoR (fun _ => true) .Q2 rc re (fun x => ev exκ (x.x, x.y)) (fun x => ev exp2 (x.x, x.y)) (fun x => x.y) false fourR D₂ u₂ ∧
    Answer twoR (fun _ => true) .Q2 rc re (fun x => ev exκ (x.x, x.y)) (fun x => ev (2 * exp1 - 3 * exp2) (x.x, x.y)) (fun x => 2 * Real.exp x.x + -3 * x.y)
      false fourL D₃ u₃ ∧ SameLeaves false fourR false fourL ∧
    ∀ c ∈ leaves false fourL, ∀ z, fn .Q2 D₃ u₃ c z = 2 * fn .Q2 D₁ u₁ c z + -3 * fn .Q2 D₂ u₂ c z := by
  obtain ⟨rc, hrc⟩ := (C32_orders (3 ^ 2)).2.2 ⟨3, by norm_num, by norm_num, rfl⟩
  obtain ⟨re, hre⟩ := (C32_orders 1).1.2 (by norm_num)
  obtain ⟨S1, hS1, e1⟩ := kernel_poly exp1 0
  obtain ⟨S2, hS2, e2⟩ := kernel_poly exp2 0
  obtain ⟨S3, hS3, e3⟩ := kernel_poly (2 * exp1 - 3 * exp2) 0
  obtain ⟨D₁, u₁, h1⟩ := ex_answer fourR_reach (by decide +kernel) (by decide +kernel) (by decide +kernel) (kernelOf exp1) hS1 (fun x => Real.exp x.x) hrc hre
  obtain ⟨D₂, u₂, h2⟩ := ex_answer fourR_reach (by decide +kernel) (by decide +kernel) (by decide +kernel) (kernelOf exp2) hS2 (fun x => x.y) hrc hre
  obtain ⟨D₃, u₃, h3⟩ := ex_answer fourL_reach (by decide +kernel) (by decide +kernel) (by decide +kernel) (kernelOf (2 * exp1 - 3 * exp2)) hS3
    (fun x => 2 * Real.exp x.x + -3 * x.y) hrc hre
  simp only [e1] at h1
  simp only [e2] at h2
  simp only [e3] at h3
  refine ⟨rc, re, D₁, D₂, D₃, u₁, u₂, u₃, hrc, hre, by decide, fun x => exκ_pos _, h1, h2, h3, four_same, fun c hc z => ?_⟩
  refine C102_superposition (n := 3) (α := 2) (β := -3) hrc hre (by decide) (fun x _ => exκ_pos _) h1 h2 h3 four_same four_same (fun x _ => ?_) (fun x _ => rfl) hc z
  simp [ev]
  ring

end Verif.Super
