import Verif.Bnd.Segments
import Verif.Dof.Continuity

/-!
# Dofs of entities and regions

`DofHandler.get_cell_dofs`, `get_region_dofs` (fem.py 1997-2184), `Mesh2D.get_region`, `mark_region` (mesh.py 7268-7670).
-/

namespace Verif.Reg
open Verif.Mesh Verif.Dof Verif.Fem Verif.Bnd Verif.Quad

/-- A mesh entity. -/
inductive Ent
  | vertex (v : VN)
  | half (h : HN)
  | cell (c : CN)
  deriving DecidableEq

/-- `entity_type`. -/
inductive EType
  | vertex
  | half
  | cell
  deriving DecidableEq

section model
variable {K : Type}

/-- The loop over `cell.get_vertices()` (fem.py 2077-2085): for every vertex of the cell that is an end point of the half-edge,
one dof. -/
def endDofs (s : St K) (e : ET) (c : CN) (row : List (Option Nat)) (h : HN) : List (Option Nat) :=
  (four.filter (fun i => decide (baseOf s (s.sides c i) = baseOf s h ∨ baseOf s (s.sides c i) = headOf s h))).map
    (fun i => row.getD (i * dpv e) none)

/-- The loop over `cell.get_half_edges()` (fem.py 2094-2101). -/
def insideDofs (s : St K) (e : ET) (c : CN) (row : List (Option Nat)) (h : HN) : List (Option Nat) :=
  match hIdx s c h with
  | some i => edgeDofsIn e row i
  | none => []

/-- `get_cell_dofs(cell, entity, interior)` for a cell with dofs `row` (fem.py 2026-2144).  `none`: a vertex that is not a vertex of
the cell leaves `dofs` unbound. -/
def entDofs (s : St K) (e : ET) (c : CN) (row : List (Option Nat)) : Ent → Bool → Option (List (Option Nat))
  | .vertex v, _ => (vIdx s c v).map (vertexDofs e row)
  | .half h, false => some (endDofs s e c row h ++ insideDofs s e c row h)
  | .half h, true => some (insideDofs s e c row h)
  | .cell _, false => some row
  | .cell _, true => some ((row.drop (4 * dpv e + 4 * dpe2 e)).take (dpc2 e))

/-- The vertices of a half-edge. -/
def heVerts (s : St K) (h : HN) : List VN := [(ends s h).1, (ends s h).2]

/-- `flag is None or entity.is_marked(flag)`. -/
def wanted (mk : Option (Ent → Bool)) (x : Ent) : Bool :=
  match mk with
  | none => true
  | some m => m x

/-- The entities considered at a half-edge of the boundary (mesh.py 7548-7610). -/
def atEdge (s : St K) (ty : EType) (h : HN) (c : CN) : List Ent :=
  match ty with
  | .cell => [.cell c]
  | .half => [.half h]
  | .vertex => (heVerts s h).map .vertex

/-- The entities considered at a leaf (mesh.py 7612-7660). -/
def atCell (s : St K) (ty : EType) (c : CN) : List Ent :=
  match ty with
  | .cell => [.cell c]
  | .half => four.map (fun i => .half (s.sides c i))
  | .vertex => four.flatMap (fun i => (heVerts s (s.sides c i)).map .vertex)

/-- The pairs of an entity and a cell that are considered.  `none`: an exception. -/
def places (ty : EType) (bnd sf : Bool) (N : Nat) (s : St K) (n : Nat) : Option (List (Ent × CN)) :=
  if bnd then (boundarySegments sf N s n none).bind (fun L => (allSome (L.flatten.map (fun h => ((s.he h).bind (·.cell)).map (fun c =>
      (atEdge s ty h c).map (fun x => (x, c)))))).map List.flatten)
  else some ((leaves sf s).flatMap (fun c => (atCell s ty c).map (fun x => (x, c))))

/-- `get_region(flag, entity_type, on_boundary, subforest_flag, return_cells=True)` (mesh.py 7507-7660); the set is a list without
duplicates. -/
def region (mk : Option (Ent → Bool)) (ty : EType) (bnd sf : Bool) (N : Nat) (s : St K) (n : Nat) : Option (List (Ent × CN)) :=
  (places ty bnd sf N s n).map (fun l => (l.filter (fun x => wanted mk x.1)).dedup)

/-- `get_region_dofs(entity_type, entity_flag, interior, on_boundary, subforest_flag)` (fem.py 2147-2184).  `none`: an exception, or a
dof that is not assigned. -/
def regionDofs (mk : Option (Ent → Bool)) (ty : EType) (interior bnd sf : Bool) (N : Nat) (s : St K) (n : Nat) (e : ET) (D : DH) :
    Option (List Nat) :=
  (region mk ty bnd sf N s n).bind (fun R => (allSome (R.map (fun x => (D.dofs x.2).bind (fun row =>
    (entDofs s e x.2 row x.1 interior).bind allSome)))).map (fun l => l.flatten.dedup))

/-- The vertices whose coordinates decide whether an entity is marked: `he.get_vertices()`, `cell.get_vertices()`. -/
def entVerts (s : St K) : Ent → List VN
  | .vertex v => [v]
  | .half h => heVerts s h
  | .cell c => four.map (fun i => (ends s (s.sides c i)).1)

/-- The test for one entity (mesh.py 7302-7375, 7384-7465). -/
def hit (f : Pt K → Bool) (strict : Bool) (s : St K) (x : Ent) : Bool :=
  if strict then (entVerts s x).all (fun v => f (s.vx v)) else (entVerts s x).any (fun v => f (s.vx v))

/-- `mark_region(flag, f, entity_type, strict_containment, on_boundary, subforest_flag)` (mesh.py 7268-7465): the new marks. -/
def markRegion (f : Pt K → Bool) (ty : EType) (strict bnd sf : Bool) (N : Nat) (s : St K) (n : Nat) (m : Ent → Bool) :
    Option (Ent → Bool) :=
  (places ty bnd sf N s n).map (fun l x => m x || (decide (x ∈ l.map (·.1)) && hit f strict s x))

end model

/-! ## Specification -/

/-- The point `z` of the reference cell belongs to the entity `x` of the cell `c` (to its interior). -/
def OnEnt {K : Type} (s : St K) (c : CN) (z : ℚ × ℚ) : Ent → Bool → Prop
  | .vertex v, _ => ∃ i : Fin 4, v = (ends s (s.sides c i)).1 ∧ z = E i 0
  | .half h, false => ∃ (i : Fin 4) (t : ℚ), h = s.sides c i ∧ 0 ≤ t ∧ t ≤ 1 ∧ z = E i t
  | .half h, true => ∃ (i : Fin 4) (t : ℚ), h = s.sides c i ∧ 0 < t ∧ t < 1 ∧ z = E i t
  | .cell d, false => d = c ∧ InSq z
  | .cell d, true => d = c ∧ 0 < z.1 ∧ z.1 < 1 ∧ 0 < z.2 ∧ z.2 < 1

/-- The vertices of an entity. -/
def VertexOf {K : Type} (s : St K) : Ent → VN → Prop
  | .vertex w, v => v = w
  | .half h, v => v = (ends s h).1 ∨ v = (ends s h).2
  | .cell c, v => ∃ i : Fin 4, v = (ends s (s.sides c i)).1

/-- The entities of type `ty` of a cell. -/
def IsEnt {K : Type} (s : St K) (c : CN) : EType → Ent → Prop
  | .vertex, x => ∃ i, x = .vertex (ends s (s.sides c i)).1
  | .half, x => ∃ i, x = .half (s.sides c i)
  | .cell, x => x = .cell c

/-- The entities of type `ty` of a cell that touch one of its boundary sides (for cells: the cell has a boundary side). -/
def IsBndEnt {K : Type} (B : Base K) (s : St K) (c : CN) : EType → Ent → Prop
  | .vertex, x => ∃ i, OnBoundary B c i ∧ (x = .vertex (ends s (s.sides c i)).1 ∨ x = .vertex (ends s (s.sides c i)).2)
  | .half, x => ∃ i, OnBoundary B c i ∧ x = .half (s.sides c i)
  | .cell, x => (∃ i, OnBoundary B c i) ∧ x = .cell c

end Verif.Reg
