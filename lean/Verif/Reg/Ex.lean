import Verif.Reg.Dofs
import Verif.Bnd.Ex

/-! # C65: examples, and what does not hold -/

namespace Verif.Reg
open Verif.Mesh Verif.Dof Verif.Fem Verif.Bnd Verif.Quad

/-- Non-vacuity: two cells, the second refined, bilinear elements.  The boundary dofs are all dofs except the centre of the refined
cell and the hanging node. -/
example : twoB.WF ∧ Plain twoB ∧ torn .Q1 = false ∧ Ready twoB .Q1 false wit1 witD1 ∧ RootsIn twoB false wit1 ∧ OneBoundary twoB ∧
    4 * wit1.cells.length ≤ 40 ∧ witD1.count = 11 ∧
    (regionDofs none .half false true false twoB.n wit1 40 .Q1 witD1).map (fun L => (List.range 11).filter (fun a => a ∉ L)) = some [7, 8] :=
  ⟨twoB_wf, twoB_plain, rfl, wit1_ready, fun _ _ => .inl rfl, twoB_one, by decide +kernel, by decide +kernel, by decide +kernel⟩

/-- Biquadratic elements, a marked region: the dofs of the side 0 of the first cell are its end points and its midpoint. -/
example : Ready twoB .Q2 false wit1 witQ2 ∧
    regionDofs (some (fun x => decide (x = .half (.root 0)))) .half false false false twoB.n wit1 40 .Q2 witQ2 = some [0, 1, 4] :=
  ⟨ready_of_distribute twoB_wf twoB_plain (.new wit1 wit1_reach) (.inl rfl) (by decide +kernel) 40 (by decide +kernel) witQ2_eq,
    by decide +kernel⟩

/-- Marking the left boundary of the domain: one half-edge satisfies `x = 0` at both ends. -/
example : (markRegion (fun p : Pt ℚ => decide (p.1 = 0)) .half true true false twoB.n wit1 40 (fun _ => false)).map
    (fun m => (List.range 8).filter (fun k => m (.half (.root k)))) = some [3] := by decide +kernel

def witD0 : DH := (distributeDofs false 2 wit1 .DQ0 40 DH.new).getD DH.new

theorem witD0_eq : distributeDofs false 2 wit1 .DQ0 40 DH.new = some witD0 := by
  have : (distributeDofs false 2 wit1 .DQ0 40 DH.new).isSome := by decide +kernel
  obtain ⟨D, hD⟩ := Option.isSome_iff_exists.1 this
  unfold witD0
  rw [hD]; rfl

/-- **C65** fails for DQ0: the only node of the element is the centre of the cell, but the dofs of a half-edge contain it (twice). -/
theorem C65_DQ0_violated : ∃ (B : Base ℚ) (s : St ℚ) (D : DH) (c : CN) (h : HN) (row : List (Option Nat)) (a : Nat), B.WF ∧ Plain B ∧
    Ready B .DQ0 false s D ∧ c ∈ leaves false s ∧ h = s.sides c 0 ∧ D.dofs c = some row ∧ Dof.val D c 0 = some a ∧
    entDofs s .DQ0 c row (.half h) false = some [some a, some a] ∧ ¬ ∃ p < nd2 .DQ0, OnEnt s c (node .DQ0 p) (.half h) false := by
  refine ⟨twoB, wit1, witD0, (0, []), .root 0, [some 0], 0, twoB_wf, twoB_plain,
    ready_of_distribute twoB_wf twoB_plain (.new wit1 wit1_reach) (.inl rfl) (by decide +kernel) 40 (by decide +kernel) witD0_eq,
    by decide +kernel, by decide +kernel, by decide +kernel, by decide +kernel, by decide +kernel, ?_⟩
  rintro ⟨p, hp, i, t, _, _, _, h⟩
  have hp0 : p = 0 := by simp [nd2, dpv, dpe2, dpc2] at hp; omega
  subst hp0
  have hn : node .DQ0 0 = ((1 : ℚ) / 2, (1 : ℚ) / 2) := by decide +kernel
  have h' := hn.symm.trans h
  have e3 : i = 0 ∨ i = 1 ∨ i = 2 ∨ i = 3 := by clear * -; revert i; decide
  rcases e3 with rfl | rfl | rfl | rfl <;> simp [E] at h' <;> norm_num at h'

end Verif.Reg
