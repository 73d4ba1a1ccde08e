import Verif.Reg.Dofs
import Verif.Phys.VertProps
import Verif.Linsys.Props
import Verif.Asm.Solve

/-!
# Dirichlet conditions

`LinearSystem.add_dirichlet_constraint` (solver.py 169-284), `Assembler.add_dirichlet`, `add_hanging_nodes` (assembler.py 3538-3660).
-/

namespace Verif.Dir
open Verif.Mesh Verif.Dof Verif.Fem Verif.Bnd Verif.Quad Verif.Reg Verif.Phys

section model
variable {K F : Type}

/-- `add_dirichlet_constraint(bnd_marker, g, on_boundary)` (solver.py 235-284) for a two-dimensional mesh; a number `g` is a constant
function.  The new constraints `dof = g(x_dof)` are appended to `dh.constraints`.  `none`: an exception. -/
def addDirichlet [Field F] (mk : Option (Ent → Bool)) (bnd sf : Bool) (N : Nat) (s : St K) (n : Nat) (e : ET) (D : DH) (V : DV K) (g : Pt K → F)
    (C : List (Linsys.Con F)) : Option (List (Linsys.Con F)) :=
  (regionDofs mk .half false bnd sf N s n e D).bind (fun L =>
    (getVerts V L).map (fun xs => C ++ (L.zip xs).map (fun y => (⟨y.1, [], g y.2⟩ : Linsys.Con F))))

/-- Several calls of `add_dirichlet_constraint(marker, g)`. -/
def addAll [Field F] (sf : Bool) (N : Nat) (s : St K) (n : Nat) (e : ET) (D : DH) (V : DV K) :
    List (Option (Ent → Bool) × (Pt K → F)) → List (Linsys.Con F) → Option (List (Linsys.Con F))
  | [], C => some C
  | y :: l, C => (addDirichlet y.1 true sf N s n e D V y.2 C).bind (addAll sf N s n e D V l)

/-- `d[k] = v`. -/
def dictSet (d : List (Nat × F)) (k : Nat) (v : F) : List (Nat × F) :=
  if k ∈ d.map (·.1) then d.map (fun y => if y.1 = k then (k, v) else y) else d ++ [(k, v)]

/-- `Assembler.add_dirichlet(marker, g)` (assembler.py 3577-3640) on a two-dimensional mesh: the new dictionary `dir_bc`.  The entity
type is 'vertex'.  (For a `Nodal` function with the dofs of the problem the code reads the values at the dofs instead.) -/
def addDirichletA (mk : Option (Ent → Bool)) (bnd sf : Bool) (N : Nat) (s : St K) (n : Nat) (e : ET) (D : DH) (V : DV K) (g : Pt K → F)
    (d : List (Nat × F)) : Option (List (Nat × F)) :=
  (regionDofs mk .vertex false bnd sf N s n e D).bind (fun L =>
    (getVerts V L).map (fun xs => (L.zip xs).foldl (fun d y => dictSet d y.1 (g y.2)) d))

/-- The constraints as `Assembler.assemble` reads them: the dictionary of `add_hanging_nodes` (assembler.py 3655-3671, the constraints of
`get_hanging_nodes`) and the dictionary of Dirichlet values. -/
def consOf [Field F] (H : List (Linsys.Con F)) (d : List (Nat × F)) : Asm.Cons F where
  hng := fun a => (H.find? (fun x => decide (x.dof = a))).map (fun x => (x.supp.map (·.1), x.supp.map (·.2)))
  dir := fun a => (d.find? (fun y => decide (y.1 = a))).map (·.2)

end model

/-! ## Specification -/

section spec
variable {K F : Type} [Field K]

/-- The situation after `distribute_dofs` on a balanced (sub)mesh, with the vertices of the dofs. -/
structure ReadyV (close : Pt K → Pt K → Bool) (B : Base K) (e : ET) (sf : Bool) (s : St K) (D : DH) (V : DV K) : Prop where
  ready : Ready B e sf s D
  uses : UsesV close B e s D V
  placed : ∀ c ∈ s.cells, Sub sf s c → ∀ p < nd2 e, ∀ a, Dof.val D c p = some a → getVert V a ≠ none

/-- Node `p` of the leaf `c` lies on a boundary side of `c` that carries the marker. -/
def OnMarked (B : Base K) (sf : Bool) (s : St K) (e : ET) (mk : Option (Ent → Bool)) (c : CN) (p : Nat) : Prop :=
  c ∈ leaves sf s ∧ p < nd2 e ∧ ∃ (i : Fin 4) (t : ℚ), OnBoundary B c i ∧ wanted mk (.half (s.sides c i)) = true ∧ 0 ≤ t ∧ t ≤ 1 ∧
    node e p = E i t

/-- The place of node `p` of the cell `c` in the plane. -/
def place (s : St K) (e : ET) (c : CN) (p : Nat) : Pt K := phys (cellQ s c) (castPt K (node e p))

/-- The conditions agree where they overlap. -/
def Compatible (B : Base K) (sf : Bool) (s : St K) (e : ET) (D : DH) (cs : List (Option (Ent → Bool) × (Pt K → F))) : Prop :=
  ∀ y ∈ cs, ∀ y' ∈ cs, ∀ c p c' p', OnMarked B sf s e y.1 c p → OnMarked B sf s e y'.1 c' p' → Dof.val D c p = Dof.val D c' p' →
    y.2 (place s e c p) = y'.2 (place s e c' p')

end spec

end Verif.Dir
