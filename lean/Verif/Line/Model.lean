import Verif.Dof.Model
import Verif.OneD.Props

/-!
# Model of `DofHandler.distribute_dofs` on one-dimensional meshes (fem.py 1178-1640, mesh.py 4565-4765)

The mesh is a list of trees of intervals of `Verif.OneD`; all intervals of a `Mesh1D` have two children (mesh.py 6616, 2710).
A cell is named by its tree and the positions on the way up to the root.
Vertices are identified by the cells they belong to: the base of a cell is the head of its `previous()` (mesh.py 2270-2272).
-/

namespace Verif.Line
open Verif.Geom Verif.OneD Verif.Fem

/-- The name of a cell: number of the tree, and the node positions from the cell up to the root. -/
abbrev IN := Nat × List (Fin 2)

/-- `cell.get_child(k)` (mesh.py 603-640). -/
def child (c : IN) (k : Fin 2) : IN := (c.1, k :: c.2)

/-- The path of a cell, from the root. -/
def pathOf (c : IN) : Path := c.1 :: c.2.reverse.map Fin.val

/-- `self.__global_dofs` (fem.py 1201): cells that are not in the dictionary give `none`. -/
abbrev Dict := IN → Option (List (Option Nat))

/-- A dof handler: `self.__global_dofs` and `self.__dof_count` (fem.py 1201-1208). -/
structure DH where
  dofs : Dict
  count : Nat

/-- `DofHandler(mesh, element)` (fem.py 1182-1209), also the effect of `clear_dofs()` (fem.py 1211-1217). -/
def DH.new : DH := ⟨fun _ => none, 0⟩

/-- `if not cell in self.__global_dofs: self.__global_dofs[cell] = [None]*n_dofs` (fem.py 1389-1393, 1550-1554). -/
def touch (n : Nat) (D : Dict) (c : IN) : Dict := fun x =>
  if x = c then some ((D c).getD (List.replicate n none)) else D x

/-- `if cell_dofs[p] is None: cell_dofs[p] = v`. -/
def putRow (l : List (Option Nat)) (p : Nat) (v : Option Nat) : List (Option Nat) := if l[p]? = some none then l.set p v else l

/-- The same for a cell of the dictionary. -/
def put (D : Dict) (c : IN) (p : Nat) (v : Option Nat) : Dict := fun x => if x = c then (D c).map (fun l => putRow l p v) else D x

/-- `assign_dofs` with given positions (fem.py 1550-1568). -/
def assignAt (n : Nat) (D : Dict) (c : IN) (ps : List (Nat × Option Nat)) : Dict :=
  ps.foldl (fun D a => put D c a.1 a.2) (touch n D c)

/-! ### The reference interval -/

/-- The dof vertices of `RInterval(element)` and of its children, as indices into the list of all vertices created
(mesh.py 4566-4605, 4609-4672, 4674-4703, 4746-4790).  Coordinates are written `(x, 0)`. -/
structure RItv where
  vs : Dof.VS
  own : List Nat
  kids : List (List Nat)

/-- `assign_cell_dof_vertices` of an interval with the given ends; `old`: the cell dof vertices of the parent (mesh.py 4674-4703). -/
def cellDofV (d : Nat) (vs : Dof.VS) (x0 x1 : ℚ) (old : List Nat) : Dof.VS × List Nat :=
  Dof.build (fun vs x => Dof.newOrFirst vs x old) ((intDofs d x0 x1).map (fun x => (x, 0))) vs

/-- `RInterval(element)` (mesh.py 4566-4605): end points, inner dof vertices, split with the midpoint taken from the dof vertices of the
interval if it is one of them (mesh.py 4625-4645). -/
def ritv (e : ET) : RItv :=
  let v0 : Dof.VS := [(0, 0), (1, 0)]
  let c := cellDofV (dpe1 e) v0 0 1 []
  let own := (if dpv e = 0 then [] else [0, 1]) ++ c.2
  let m := Dof.newOrLast c.1 (1 / 2, 0) own
  let k0 := cellDofV (dpe1 e) m.1 0 (1 / 2) c.2
  let k1 := cellDofV (dpe1 e) k0.1 (1 / 2) 1 c.2
  let all := fun (a b : Nat) (l : List Nat) => (if dpv e = 0 then [] else [a, b]) ++ l
  ⟨k1.1, own, [all 0 m.2 k0.2, all m.2 1 k1.2]⟩

/-- The pairs (position in child `k`, position in the cell) of the dof vertices that the child inherits
(mesh.py 4746-4822, fem.py 1286-1292). -/
def inherit (e : ET) (k : Fin 2) : List (Nat × Nat) :=
  (Dof.inhAll (torn e) (ritv e).own (ritv e).kids (List.range (nd1 e))).getD k []

section
variable {K : Type} [Field K] [LinearOrder K]

/-- The cell with a name. -/
def cellAt (F : List (Cell K)) (c : IN) : Option (Cell K) := getL F (pathOf c)

/-- `cell.has_children(flag)` (mesh.py 573-601). -/
def hasCh (mk : Itv K → Bool) (F : List (Cell K)) (c : IN) : Bool := (cellAt F c).any (hasKids mk)

/-- `cell.has_children()`. -/
def kidsAt (F : List (Cell K)) (c : IN) : Bool := hasCh (fun _ => true) F c

/-- `sf is None or cell.is_marked(sf)`. -/
def mkAt (mk : Itv K → Bool) (F : List (Cell K)) (c : IN) : Bool := (cellAt F c).any (fun t => mk t.data)

/-! ### Level-wise neighbours (mesh.py 2786-2846) -/

/-- `cell.previous()`: the sibling or the root to the left (mesh.py 2976-2982, 6623-6648). -/
def prev : IN → Option IN
  | (f, []) => if f = 0 then none else some (f - 1, [])
  | (f, k :: p) => if k = 0 then none else some (f, 0 :: p)

/-- `cell.next()`. -/
def next (N : Nat) : IN → Option IN
  | (f, []) => if f + 1 < N then some (f + 1, []) else none
  | (f, k :: p) => if k = 0 then some (f, 1 :: p) else none

/-- The base of the cell is the left end of the mesh. -/
def atLeft (c : IN) : Bool := c.1 == 0 && c.2.all (· == 0)

/-- The head of the cell is the right end of the mesh. -/
def atRight (N : Nat) (c : IN) : Bool := c.1 + 1 == N && c.2.all (· == 1)

/-- `while nbr.get_depth() < self.get_depth()`: `nbr = nbr.get_child(j)` (mesh.py 2801-2812, 2832-2842). -/
def descendTo (F : List (Cell K)) (j : Fin 2) : Nat → IN → Option IN
  | 0, c => some c
  | n + 1, c => if kidsAt F c then descendTo F j n (child c j) else none

/-- `get_neighbor(0, mode='level-wise')` and the positions of the shared vertex in the neighbour: `get_periodic_pair(nbr)` if the
vertex is periodic, and otherwise the vertex itself (mesh.py 2786-2819, fem.py 1341-1350, mesh.py 1983-1987, 6627-6645). -/
def leftOf (per : Bool) (F : List (Cell K)) (c : IN) : Option (IN × List Nat) :=
  match prev c with
  | some d => some (d, [1])
  | none =>
    if per && atLeft c then (descendTo F 0 c.2.length (F.length - 1, [])).map (fun d => (d, if d = (F.length - 1, []) then [1] else []))
    else none

/-- The same for the head (mesh.py 2820-2846). -/
def rightOf (per : Bool) (F : List (Cell K)) (c : IN) : Option (IN × List Nat) :=
  match next F.length c with
  | some d => some (d, [0])
  | none =>
    if per && atRight F.length c then (descendTo F 1 c.2.length (0, [])).map (fun d => (d, if d = (0, []) then [0] else []))
    else none

/-! ### One cell -/

/-- Refill the list of dofs to be assigned: `while len(dofs)<m: dofs.append(count); count += 1` (fem.py 1438-1441, 1459-1462). -/
def refill (m : Nat) (ds : List Nat) (count : Nat) : List Nat × Nat :=
  (ds ++ (List.range (m - ds.length)).map (count + ·), count + (m - ds.length))

/-- Assign `ds` from position `p` on, where nothing is assigned. -/
def putRows (row : List (Option Nat)) (p : Nat) (ds : List Nat) : List (Option Nat) :=
  (List.range ds.length).foldl (fun row j => putRow row (p + j) (ds[j]?)) row

/-- One round of the loop over the vertices for a cell that is its own neighbour (fem.py 1436-1452). -/
def ownVertex (e : ET) (x : List (Option Nat) × List Nat × Nat) (i : Nat) : List (Option Nat) × List Nat × Nat :=
  let r := refill (dpv e) x.2.1 x.2.2
  let row := putRows (putRows x.1 (i * dpv e) r.1) ((1 - i) * dpv e) r.1
  (row, r.1.filter (fun d => !((row.drop (i * dpv e)).take (dpv e)).contains (some d)), r.2)

/-- The filling of a cell that is its own neighbour (fem.py 1427-1467, 1514): dofs given to the interior are not taken out
of `dofs` before `count -= len(dofs)`. -/
def fillOwn (e : ET) (row : List (Option Nat)) (count : Nat) : List (Option Nat) × Nat :=
  let x := [0, 1].foldl (ownVertex e) (row, [], count)
  let y := if dpe1 e = 0 then x else
    let r := refill (dpe1 e) x.2.1 x.2.2
    (putRows x.1 (2 * dpv e) r.1, r.1, r.2)
  (y.1, y.2.2 - y.2.1.length)

/-- Is the cell its own (physical) neighbour on a periodic mesh (fem.py 1402-1418)? -/
def ownNb (per : Bool) (e : ET) (F : List (Cell K)) (c : IN) : Bool :=
  per && !torn e && (decide (leftNbr (fun _ => true) per F (pathOf c) = some (pathOf c)) ||
    decide (rightNbr (fun _ => true) per F (pathOf c) = some (pathOf c)))

/-- `fill_dofs(cell)` (fem.py 1373-1525). -/
def fill (per : Bool) (e : ET) (F : List (Cell K)) (D : DH) (c : IN) : DH :=
  let row := (D.dofs c).getD (List.replicate (nd1 e) none)
  if none ∈ row then
    let r := if ownNb per e F c then fillOwn e row D.count else Dof.fillRow row D.count
    ⟨Function.update D.dofs c (some r.1), r.2⟩
  else ⟨touch (nd1 e) D.dofs c, D.count⟩

/-- `assign_dofs(dofs, cell, vertex)` for the vertex at position `i` (fem.py 1580-1596). -/
def assignVertex (e : ET) (ds : List (Option Nat)) (d : IN) (D : Dict) (i : Nat) : Dict :=
  assignAt (nd1 e) D d ((List.range (dpv e)).map (fun j => (i * dpv e + j, ds.getD j none)))

/-- `share_dofs_with_neighbors(cell, vertex)` for the vertex at position `i`, whose neighbour is `nb` (fem.py 1331-1350). -/
def shareV (e : ET) (c : IN) (nb : Option (IN × List Nat)) (D : Dict) (i : Nat) : Option Dict :=
  match D c with
  | none => none
  | some row =>
    let ds := (row.drop (i * dpv e)).take (dpv e)
    if ds = [] then some D
    else match nb with
      | none => some D
      | some (d, ps) => some (ps.foldl (assignVertex e ds d) D)

/-- `share_dofs_with_neighbors(cell)` (fem.py 1312-1321). -/
def shareN (per : Bool) (e : ET) (F : List (Cell K)) (c : IN) (D : Dict) : Option Dict :=
  (shareV e c (leftOf per F c) D 0).bind (fun D => shareV e c (rightOf per F c) D 1)

/-- `share_dofs_with_children(cell)` (fem.py 1278-1293). -/
def shareC (e : ET) (c : IN) (D : Dict) : Option Dict :=
  (D c).map (fun row => [0, 1].foldl (fun D k =>
    assignAt (nd1 e) D (child c k) ((inherit e k).map (fun a => (a.1, row.getD a.2 none)))) D)

/-- The body of the loop of `distribute_dofs` (fem.py 1233-1250). -/
def process (per : Bool) (mk : Itv K → Bool) (e : ET) (F : List (Cell K)) (D : DH) (c : IN) : Option DH :=
  let D1 := fill per e F D c
  ((if torn e then some D1.dofs else shareN per e F c D1.dofs).bind (fun D2 =>
    if hasCh mk F c then shareC e c D2 else some D2)).map (fun D3 => ⟨D3, D1.count⟩)

/-- The loop of `cells.traverse(mode='breadth-first')` (mesh.py 1180-1202), at most `n` rounds. -/
def bfs (F : List (Cell K)) : Nat → List IN → Option (List IN)
  | _, [] => some []
  | 0, _ :: _ => none
  | n + 1, c :: q => (bfs F n (q ++ if kidsAt F c then [child c 0, child c 1] else [])).map (c :: ·)

/-- `cells.traverse(mode='breadth-first', flag=subforest_flag)` (mesh.py 1158-1202). -/
def cellsBF (mk : Itv K → Bool) (F : List (Cell K)) (n : Nat) : Option (List IN) :=
  (bfs F n ((List.range F.length).map (fun f => (f, [])))).map (List.filter (mkAt mk F))

/-- `distribute_dofs(subforest_flag)` on a one-dimensional mesh (fem.py 1221-1250); `mk` is the predicate
"`subforest_flag is None or cell.is_marked(subforest_flag)`". -/
def distribute (per : Bool) (mk : Itv K → Bool) (e : ET) (F : List (Cell K)) (n : Nat) (D : DH) : Option DH :=
  (cellsBF mk F n).bind (fun L => L.foldlM (process per mk e F) D)

/-- `get_cell_dofs(cell)[p]` (fem.py 1998-2036). -/
def val (D : DH) (c : IN) (p : Nat) : Option Nat := (D.dofs c).bind (fun l => l.getD p none)

end
end Verif.Line
