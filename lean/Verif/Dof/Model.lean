import Verif.Dof.RefCell
import Verif.Mesh.Balance

/-!
# Model of `DofHandler.distribute_dofs` on quadrilateral meshes (fem.py 1178-1700)

The mesh is a state of `Verif.Mesh`.  The branch of `fill_dofs` for cells that are their own neighbours on a
periodic mesh (fem.py 1403-1514) and the use of `get_periodic_pair` (fem.py 1346-1349, 1356-1358, mesh.py 3512-3513,
3541-3542) are not modelled; the theorems are about meshes without periodic half-edges.
-/

namespace Verif.Dof
open Verif.Fem Verif.Mesh

/-- `self.__global_dofs`: cells that are not in the dictionary give `none`. -/
abbrev Dict := CN → Option (List (Option Nat))

/-- A dof handler: `self.__global_dofs` and `self.__dof_count` (fem.py 1201-1208). -/
structure DH where
  dofs : Dict
  count : Nat

/-- `DofHandler(mesh, element)` (fem.py 1182-1209), also the effect of `clear_dofs()` (fem.py 1211-1217). -/
def DH.new : DH := ⟨fun _ => none, 0⟩

/-- `if not cell in self.__global_dofs: self.__global_dofs[cell] = [None]*n_dofs` (fem.py 1389-1393, 1550-1554). -/
def touch (n : Nat) (D : Dict) (c : CN) : Dict := fun x =>
  if x = c then some ((D c).getD (List.replicate n none)) else D x

/-- `if cell_dofs[p] is None: cell_dofs[p] = v` for a cell of the dictionary. -/
def put (D : Dict) (c : CN) (p : Nat) (v : Option Nat) : Dict := fun x =>
  if x = c then (D c).map (fun l => if l[p]? = some none then l.set p v else l) else D x

/-- `assign_dofs` with given positions (fem.py 1550-1568); the other cases compute the positions from
the entity. -/
def assignAt (n : Nat) (D : Dict) (c : CN) (ps : List (Nat × Option Nat)) : Dict :=
  ps.foldl (fun D a => put D c a.1 a.2) (touch n D c)

section
variable {K : Type}

/-- `half_edge.base()`. -/
def baseOf (s : St K) (h : HN) : Option VN := (s.he h).map (·.base)

/-- `half_edge.head()`. -/
def headOf (s : St K) (h : HN) : Option VN := (s.he h).map (·.head)

/-- The position of a vertex among `cell.get_vertices()` (loops at fem.py 1589-1596, 2038-2042). -/
def vIdx (s : St K) (c : CN) (v : VN) : Option (Fin 4) :=
  four.find? (fun i => decide (baseOf s (s.sides c i) = some v))

/-- The position of a half-edge among `cell.get_half_edges()` (loops at fem.py 1624-1631, 2097-2101). -/
def hIdx (s : St K) (c : CN) (h : HN) : Option (Fin 4) := four.find? (fun i => decide (s.sides c i = h))

/-- `get_cell_dofs(cell, vertex)` (fem.py 2031-2042). -/
def vertexDofs (e : ET) (row : List (Option Nat)) (i : Fin 4) : List (Option Nat) :=
  (row.drop (i * dpv e)).take (dpv e)

/-- `get_cell_dofs(cell, half_edge, interior=True)` (fem.py 2063-2101). -/
def edgeDofsIn (e : ET) (row : List (Option Nat)) (i : Fin 4) : List (Option Nat) :=
  (row.drop (4 * dpv e + i * dpe2 e)).take (dpe2 e)

/-- `assign_dofs(dofs, cell, vertex)` (fem.py 1580-1596). -/
def assignVertex (s : St K) (e : ET) (D : Dict) (c : CN) (v : VN) (ds : List (Option Nat)) : Dict :=
  match vIdx s c v with
  | some i => assignAt (nd2 e) D c ((List.range (dpv e)).map (fun j => (i * dpv e + j, ds.getD j none)))
  | none => touch (nd2 e) D c

/-- `assign_dofs(dofs, cell, half_edge)` (fem.py 1613-1631); `cell` is the cell of the half-edge. -/
def assignEdge (s : St K) (e : ET) (D : Dict) (c : CN) (h : HN) (ds : List (Option Nat)) : Dict :=
  match hIdx s c h with
  | some i => assignAt (nd2 e) D c ((List.range (dpe2 e)).map (fun j => (4 * dpv e + i * dpe2 e + j, ds.getD j none)))
  | none => touch (nd2 e) D c

/-! ### Neighbours about a vertex -/

/-- `cell.incident_half_edge(vertex, reverse)` (mesh.py 3341-3363). -/
def incident (s : St K) (c : CN) (v : VN) (rev : Bool) : Option HN :=
  (four.map (s.sides c)).find? (fun h => decide ((if rev then baseOf s h else headOf s h) = some v))

/-- One of the loops of `cell.get_neighbors(vertex)` (mesh.py 3488-3513, 3517-3542), at most `n` rounds: the cells
found, and whether the loop came back to the cell; `none` if `n` rounds do not suffice.  No half-edge
at the vertex: `get_neighbors(None)` returns `None`. -/
def walk (s : St K) (self : CN) (v : VN) (rev : Bool) : Nat → CN → Option (List CN × Bool)
  | 0, _ => none
  | n + 1, c =>
    match (incident s c v rev).bind (getNb false s) with
    | none => some ([], false)
    | some d => if d = self then some ([], true) else (walk s self v rev n d).map (fun r => (d :: r.1, r.2))

/-- `cell.get_neighbors(vertex)` (mesh.py 3481-3551). -/
def nbsV (s : St K) (n : Nat) (c : CN) (v : VN) : Option (List CN) :=
  match walk s c v false n c with
  | none => none
  | some (l, true) => some l
  | some (l, false) =>
    match walk s c v true n c with
    | none => none
    | some (_, true) => some l
    | some (l', false) => some (l ++ l'.reverse)

/-! ### One cell -/

/-- The numbering loop of `fill_dofs` (fem.py 1518-1523). -/
def fillRow : List (Option Nat) → Nat → List (Option Nat) × Nat
  | [], n => ([], n)
  | some d :: l, n => let r := fillRow l n; (some d :: r.1, r.2)
  | none :: l, n => let r := fillRow l (n + 1); (some n :: r.1, r.2)

/-- `fill_dofs(cell)` (fem.py 1373-1525). -/
def fill (e : ET) (D : DH) (c : CN) : DH :=
  let row := (D.dofs c).getD (List.replicate (nd2 e) none)
  if none ∈ row then
    ⟨Function.update D.dofs c (some (fillRow row D.count).1), (fillRow row D.count).2⟩
  else ⟨touch (nd2 e) D.dofs c, D.count⟩

/-- `share_dofs_with_neighbors(cell, vertex)` for vertex `i` (fem.py 1331-1360). -/
def shareV (s : St K) (e : ET) (n : Nat) (c : CN) (D : Dict) (i : Fin 4) : Option Dict :=
  match baseOf s (s.sides c i), D c with
  | some v, some row =>
    match vIdx s c v with
    | none => none
    | some i' =>
      let ds := vertexDofs e row i'
      if ds = [] then some D
      else match nbsV s n c v with
        | none => none
        | some l => some (l.foldl (fun D d => assignVertex s e D d v ds) D)
  | _, _ => none

/-- `share_dofs_with_neighbors(cell, half_edge)` for half-edge `i` (fem.py 1331-1333, 1362-1369). -/
def shareE (s : St K) (e : ET) (c : CN) (D : Dict) (i : Fin 4) : Option Dict :=
  match D c, hIdx s c (s.sides c i) with
  | some row, some i' =>
    let ds := edgeDofsIn e row i'
    if ds = [] then some D
    else match getNb false s (s.sides c i), (s.he (s.sides c i)).bind (·.twin) with
      | some d, some t => some (assignEdge s e D d t ds.reverse)
      | _, _ => some D
  | _, _ => none

/-- `share_dofs_with_neighbors(cell)` (fem.py 1312-1329). -/
def shareN (s : St K) (e : ET) (n : Nat) (c : CN) (D : Dict) : Option Dict :=
  (four.foldlM (shareV s e n c) D).bind (fun D => four.foldlM (shareE s e c) D)

/-- `share_dofs_with_children(cell)` (fem.py 1278-1293). -/
def shareC (e : ET) (c : CN) (D : Dict) : Option Dict :=
  (D c).map (fun row => four.foldl (fun D k =>
    assignAt (nd2 e) D (child c k) ((inherit e k).map (fun a => (a.1, row.getD a.2 none)))) D)

/-- The body of the loop of `distribute_dofs` (fem.py 1258-1275); `sf` says whether a flag is given. -/
def process (sf : Bool) (s : St K) (e : ET) (n : Nat) (D : DH) (c : CN) : Option DH :=
  let D1 := fill e D c
  ((if torn e then some D1.dofs else shareN s e n c D1.dofs).bind (fun D2 =>
    if hasCh sf s c then shareC e c D2 else some D2)).map (fun D3 => ⟨D3, D1.count⟩)

/-- `distribute_dofs(subforest_flag)` on a two-dimensional mesh (fem.py 1247-1276) with the cells in the order `L` of the
traversal.  `none`: the assertion fails or a loop does not end within `n` rounds.  `set_dof_vertices` does
not change the dofs. -/
def distribute [Field K] (sf : Bool) (s : St K) (e : ET) (n : Nat) (L : List CN) (D : DH) : Option DH :=
  if isBalanced false s then L.foldlM (process sf s e n) D else none

/-- `get_cell_dofs(cell)[p]`. -/
def val (D : DH) (c : CN) (p : Nat) : Option Nat := (D.dofs c).bind (fun l => l.getD p none)

end

end Verif.Dof
