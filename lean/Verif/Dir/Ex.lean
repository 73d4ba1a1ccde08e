import Verif.Dir.Whole
import Verif.Phys.VertEx
import Verif.Reg.Ex
import Verif.Linsys.HistoryWitness

/-! # C66: examples, and what does not hold -/

namespace Verif.Dir
open Verif.Mesh Verif.Dof Verif.Fem Verif.Bnd Verif.Quad Verif.Reg Verif.Phys
open Verif

/-- Bilinear elements on two cells, the second refined: the hypotheses of C66 hold. -/
theorem exV_ready : ReadyV eqQ twoB .Q1 false wit1 exV.1 exV.2 :=
  readyV_first twoB_wf twoB_plain wit1_reach (.inl rfl) (by decide +kernel) (n := 80) (by decide +kernel) exV_eq

/-- The condition in the examples. -/
def gEx : Pt ℚ → ℚ := fun x => x.x + 10 * x.y

/-- Non-vacuity of C66_constraints, C66_assembler_Q1: the nine boundary dofs get their values; the hanging node (8) and the centre of the
refined cell (7) do not. -/
example : twoB.WF ∧ Plain twoB ∧ torn .Q1 = false ∧ ReadyV eqQ twoB .Q1 false wit1 exV.1 exV.2 ∧ RootsIn twoB false wit1 ∧
    OneBoundary twoB ∧ 4 * wit1.cells.length ≤ 80 ∧ exV.1.count = 11 ∧
    (addDirichlet none true false 2 wit1 80 .Q1 exV.1 exV.2 gEx []).map (·.map (fun y => (y.dof, y.supp, y.aff))) =
      some [(10, [], 23 / 2), (2, [], 11), (3, [], 10), (0, [], 0), (1, [], 1), (6, [], 3 / 2), (4, [], 2), (9, [], 7), (5, [], 12)] ∧
    addDirichletA none true false 2 wit1 80 .Q1 exV.1 exV.2 gEx [(0, 7)] =
      some [(0, 0), (10, 23 / 2), (2, 11), (3, 10), (1, 1), (6, 3 / 2), (4, 2), (9, 7), (5, 12)] :=
  ⟨twoB_wf, twoB_plain, rfl, exV_ready, fun _ _ => .inl rfl, twoB_one, by decide +kernel, by decide +kernel, by decide +kernel,
    by decide +kernel⟩

/-- The constraints of the hanging nodes and those of two conditions: `x + 10 y` on side 3 of the first cell, and the constant 0 on side 0
of the first cell, which meet in the vertex (0, 0). -/
def exH : List (Linsys.Con ℚ) × List (Linsys.Con ℚ) := (setHanging (F := ℚ) false wit1 .Q1 exV.1 []).getD ([], [])

def mkEx (k : Nat) : Option (Ent → Bool) := some (fun x => decide (x = .half (.root k)))

def csEx : List (Option (Ent → Bool) × (Pt ℚ → ℚ)) := [(mkEx 3, gEx), (mkEx 0, fun x => 10 * x.y)]

theorem exH_eq : setHanging (F := ℚ) false wit1 .Q1 exV.1 [] = some exH := by
  have : (setHanging (F := ℚ) false wit1 .Q1 exV.1 []).isSome := by decide +kernel
  obtain ⟨x, hx⟩ := Option.isSome_iff_exists.1 this
  unfold exH
  rw [hx]; rfl

/-- Non-vacuity of C66_solution: the two conditions are added one after the other. -/
example : (addAll false 2 wit1 80 .Q1 exV.1 exV.2 csEx exH.2).map (·.map (fun y => (y.dof, y.supp, y.aff))) =
    some [(8, [(2, 1 / 2), (1, 1 / 2)], 0), (0, [], 0), (3, [], 10), (0, [], 0), (1, [], 0)] := by decide +kernel

def exC : List (Linsys.Con ℚ) := (addDirichlet none true false 2 wit1 80 .Q1 exV.1 exV.2 gEx exH.2).getD []

theorem exC_eq : addDirichlet none true false 2 wit1 80 .Q1 exV.1 exV.2 gEx exH.2 = some exC := by
  have : (addDirichlet none true false 2 wit1 80 .Q1 exV.1 exV.2 gEx exH.2).isSome := by decide +kernel
  obtain ⟨x, hx⟩ := Option.isSome_iff_exists.1 this
  unfold exC
  rw [hx]; rfl

def bEx : Matrix (Fin exV.1.count) (Fin 1) ℚ := fun i _ => if i.val = 7 then 3 else 0

/-- Non-vacuity of C66_whole_boundary: a system with a right-hand side, whose solution has the boundary values, 3 at the centre, and the
mean 6 of the values 1 and 11 at the hanging node. -/
example : ∃ s' u, Linsys.Solve (Linsys.init (List.range exV.1.count) exC 1 (some bEx)) none false s' ∧ s'.u = some u ∧
    (List.finRange exV.1.count).map (fun i => u i 0) = [0, 1, 11, 10, 2, 12, 3 / 2, 3, 6, 7, 23 / 2] := by
  have h : ((Linsys.runSolve (Linsys.init (List.range exV.1.count) exC 1 (some bEx)) none false bEx).bind
      (fun s' => s'.u.map (fun u => (List.finRange exV.1.count).map (fun i => u i 0)))) =
        some [0, 1, 11, 10, 2, 12, 3 / 2, 3, 6, 7, 23 / 2] := by decide +kernel
  obtain ⟨s', h1, h2⟩ := Option.bind_eq_some_iff.1 h
  obtain ⟨u, h3, h4⟩ := Option.map_eq_some_iff.1 h2
  exact ⟨s', u, Linsys.runSolve_sound h1, h3, h4⟩

/-! ### What does not hold -/

def exW : DH × DV ℚ := dstV false 2 wit1 .Q2 DH.new DV.new

theorem exW_eq : distributeV eqQ false 2 wit1 .Q2 80 DH.new DV.new = some exW := dstV_eq (by decide +kernel)

theorem exW_ready : ReadyV eqQ twoB .Q2 false wit1 exW.1 exW.2 :=
  readyV_first twoB_wf twoB_plain wit1_reach (.inl rfl) (by decide +kernel) (n := 80) (by decide +kernel) exW_eq

/-- **C66** fails for `Assembler.add_dirichlet` with biquadratic elements: the dof 4 in the middle of side 0 of the first cell, a side on
the boundary, gets no value although the condition is on the whole boundary (assembler.py 3617 asks for the dofs of vertices).
`LinearSystem.add_dirichlet_constraint` sets it. -/
theorem C66_assembler_violated : ∃ (B : Base ℚ) (s : St ℚ) (D : DH) (V : DV ℚ) (d : List (Nat × ℚ)) (cs : List (Linsys.Con ℚ)), B.WF ∧
    Plain B ∧ OneBoundary B ∧ ReadyV eqQ B .Q2 false s D V ∧ addDirichletA none true false B.n s 80 .Q2 D V gEx [] = some d ∧
    addDirichlet none true false B.n s 80 .Q2 D V gEx [] = some cs ∧
    ∃ c ∈ leaves false s, ∃ p < nd2 .Q2, ∃ a, BndPt B (rootPt c (node .Q2 p)) ∧ Dof.val D c p = some a ∧ look d a = none ∧
      a ∈ cs.map (·.dof) := by
  have h : ((addDirichletA none true false 2 wit1 80 .Q2 exW.1 exW.2 gEx []).bind (fun d =>
      (addDirichlet none true false 2 wit1 80 .Q2 exW.1 exW.2 gEx []).map (fun cs => (look d 4, decide (4 ∈ cs.map (·.dof)))))) =
        some (none, true) := by decide +kernel
  obtain ⟨d, h1, h2⟩ := Option.bind_eq_some_iff.1 h
  obtain ⟨cs, h3, h4⟩ := Option.map_eq_some_iff.1 h2
  simp only [Prod.mk.injEq, decide_eq_true_eq] at h4
  refine ⟨twoB, wit1, exW.1, exW.2, d, cs, twoB_wf, twoB_plain, twoB_one, exW_ready, h1, h3, (0, []), by decide +kernel, 4,
    by decide +kernel, 4, ?_, by decide +kernel, h4.1, h4.2⟩
  refine ⟨0, 0, 1 / 2, by decide, by decide +kernel, by norm_num, by norm_num, ?_⟩
  have : rootPt (0, []) (node .Q2 4) = (0, E 0 (1 / 2)) := by decide +kernel
  rw [this]
  exact .refl _

end Verif.Dir
