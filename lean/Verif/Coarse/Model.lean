import Verif.Mesh.Balance

/-!
# Deleting cells: `coarsen` on a mesh of quadrilaterals

`Forest.coarsen` without a subforest flag calls `delete_children` of cells (mesh.py 1059-1078, 1457-1461).  That removes the children from the
list of their parent (mesh.py 750-757, 772-792) and nothing else: the half-edges of the deleted cells stay where they are, with their twins
and with their pointers to the deleted cells.  (mesh.py 7730 says so: "When coarsening and refining a QuadMesh, the HalfEdges are not deleted".)
`Verif.Forest` models which cells are coarsened; here any cell with children may lose them, so that every call of `coarsen` is a sequence of
such steps.

When a coarsened cell is split again, new cells and new inner half-edges are created; the children of its sides are used again if they exist
(mesh.py 3683).  Objects have names (Mesh/Model.lean), so new objects get the names of the old ones: before the split the old inner
half-edges of this cell are forgotten, with everything below them, and the flags of its deleted children.  Simplification: deleted cells that can
still be reached over old outer half-edges may lose other half-edges in this way; `getNb`, `isBalanced` and `balance` do not look at those.
-/

namespace Verif.Mesh
open Verif.Geom Verif.Quad

/-- Is `d` a descendant of `c`? -/
def under (c d : CN) : Bool := decide (c.1 = d.1) && c.2.isSuffixOf d.2 && decide (c ≠ d)

/-- Is `x` one of the inner half-edges of `c`, or below one? -/
def inIn (c : CN) : HN → Bool
  | .root _ => false
  | .kid h _ => inIn c h
  | .inner d _ _ => decide (d = c)

section
variable {K : Type} [Field K]

/-- `cell.delete_children()` (mesh.py 772-792, 750-757); afterwards `has_children()` is false (mesh.py 645-690).  A deleted cell keeps its own
children. -/
def delKids (s : St K) (c : CN) : St K :=
  { s with cells := s.cells.filter (fun d => !under c d), kids := Function.update s.kids c false }

/-- Forget the objects whose names are used again when `c` is split. -/
def clear (s : St K) (c : CN) : St K :=
  { s with
    he := fun x => if inIn c x then none else s.he x
    kids := fun d => if ∃ k, d = child c k then false else s.kids d
    mkd := fun d => if ∃ k, d = child c k then false else s.mkd d }

/-- `cell.split(flag)` (mesh.py 3664-3733) of a cell that may have had children before. -/
def reSplit (sf : Bool) (s : St K) (c : CN) : Except Err (St K) :=
  if s.kids c then .error .assertion else cellSplit sf (clear s c) c

/-- The meshes that are reached by splitting, deleting the children of cells, and marking. -/
inductive ZReach (B : Base K) : St K → Prop
  | init : ZReach B (init B)
  | split (s s' : St K) (c : CN) (sf : Bool) : ZReach B s → c ∈ s.cells → s.kids c = false → reSplit sf s c = .ok s' → ZReach B s'
  | del (s : St K) (c : CN) : ZReach B s → c ∈ s.cells → s.kids c = true → ZReach B (delKids s c)
  | mark (s : St K) (m : CN → Bool) : ZReach B s → ZReach B { s with mkd := m }

end
end Verif.Mesh
