import Verif.Line.Props
import Verif.Dof.Hang
import Verif.Dir.Model

/-!
# Model: dof vertices, regions and Dirichlet conditions on one-dimensional meshes
(fem.py 1998-2055, 2147-2300, mesh.py 6720-6990, assembler.py 3577-3640, solver.py 235-287)
-/

namespace Verif.Line
open Verif.Geom Verif.OneD Verif.Fem
open Verif.Dof (allSome)

/-! ### Vertices -/

/-- The vertices of a mesh: those of the initial intervals (mesh.py 6575-6580) and the midpoints of refined cells (mesh.py 2957).
`Vertex` has no `__eq__`: equal means identical. -/
inductive VX where
  | root (i : Nat)
  | mid (c : IN)
deriving DecidableEq, Repr

/-- Base (`i = 0`) and head (`i = 1`) of a cell: initial interval `f` has vertices `f`, `f + 1` (mesh.py 6606-6616, C50); a child shares one end
with its parent, the other is the new midpoint (mesh.py 2947-2970). -/
def vertL (f : Nat) : List (Fin 2) → Fin 2 → VX
  | [], i => .root (f + i)
  | k :: p, i => if k = i then vertL f p i else .mid (f, p)

/-- `cell.get_vertices()[i]`. -/
def vertOf (c : IN) (i : Fin 2) : VX := vertL c.1 c.2 i

/-- The cell at a path of `Verif.OneD`. -/
def nameOf : Path → IN
  | [] => (0, [])
  | f :: p => (f, (p.map (fun i => if i = 0 then (0 : Fin 2) else 1)).reverse)

section
variable {K : Type} [Field K] [LinearOrder K]

/-- `v.coordinates()` of a vertex of a cell. -/
def coord (F : List (Cell K)) (c : IN) (i : Fin 2) : Option K := (cellAt F c).map (fun t => if i = 0 then t.data.lo else t.data.hi)

/-! ### Traversals -/

/-- `cells.get_leaves(subforest_flag)` (mesh.py 1205-1260). -/
def leaves1 (mk : Itv K → Bool) (F : List (Cell K)) (n : Nat) : Option (List IN) :=
  (cellsBF mk F n).map (List.filter (fun c => !hasCh mk F c))

/-- The loop of `cells.traverse()` (mesh.py 1158-1202, mode 'depth-first'), at most `n` rounds.  The head of the list is the end of the
deque. -/
def dfs (F : List (Cell K)) : Nat → List IN → Option (List IN)
  | _, [] => some []
  | 0, _ :: _ => none
  | n + 1, c :: q => (dfs F n ((if kidsAt F c then [child c 0, child c 1] else []) ++ q)).map (c :: ·)

/-- `cells.traverse(flag=subforest_flag)` (mesh.py 1158-1202). -/
def cellsDF (mk : Itv K → Bool) (F : List (Cell K)) (n : Nat) : Option (List IN) :=
  (dfs F n ((List.range F.length).map (fun f => (f, [])))).map (List.filter (mkAt mk F))

/-! ### The vertices of the dofs -/

/-- `get_cell_dofs(cell)` (fem.py 2033-2055); `none`: no dofs, or not all of them. -/
def rowOf (D : DH) (c : IN) : Option (List Nat) := (D.dofs c).bind allSome

/-- `get_region_dofs(subforest_flag)` with the default arguments (fem.py 2147-2184), also `n_dofs(subforest_flag)` (fem.py 2287-2300). -/
def leafDofs (mk : Itv K → Bool) (F : List (Cell K)) (n : Nat) (D : DH) : Option (List Nat) :=
  (leaves1 mk F n).bind (fun L => (allSome (L.map (rowOf D))).map (fun l => l.flatten.dedup))

/-- `self.__dof_vertices`: the keys in order of insertion, and the dictionary `{cell: vertex}` of each (fem.py 1208, 2213-2224). -/
structure DV (K : Type) where
  keys : List Nat
  at_ : Nat → List (IN × K)

/-- `self.__dof_vertices = {}` (fem.py 1208, 1216). -/
def DV.new : DV K := ⟨[], fun _ => []⟩

/-- `d[cell] = x`. -/
def dput (l : List (IN × K)) (c : IN) (x : K) : List (IN × K) :=
  if c ∈ l.map (·.1) then l.map (fun y => if y.1 = c then (c, x) else y) else l ++ [(c, x)]

/-- The body of the inner loop (fem.py 2213-2224); `close` is `np.allclose`. -/
def addV (close : K → K → Bool) (V : DV K) (c : IN) (a : Nat) (x : K) : DV K :=
  if a ∈ V.keys then
    if (V.at_ a).any (fun y => close x y.2) then { V with at_ := Function.update V.at_ a (dput (V.at_ a) c x) } else V
  else ⟨V.keys ++ [a], Function.update V.at_ a [(c, x)]⟩

/-- The body of the outer loop (fem.py 2199-2224): `x = cell.reference_map(x_ref)` has the nodes of the cell. -/
def visitV (close : K → K → Bool) (F : List (Cell K)) (e : ET) (D : DH) (V : DV K) (c : IN) : Option (DV K) :=
  (rowOf D c).map (fun row =>
    if row.all (fun a => decide (a ∈ V.keys)) then V
    else row.zipIdx.foldl (fun V y => addV close V c y.1 ((nodeX F e c y.2).getD 0)) V)

/-- `set_dof_vertices(subforest_flag)` (fem.py 2187-2224).  `none`: an exception. -/
def setVerts (close : K → K → Bool) (mk : Itv K → Bool) (F : List (Cell K)) (e : ET) (n : Nat) (D : DH) (V : DV K) : Option (DV K) :=
  (leafDofs mk F n D).bind (fun l =>
    if l.length ≤ V.keys.length then some V else (cellsDF mk F n).bind (fun L => L.foldlM (visitV close F e D) V))

/-- `distribute_dofs(subforest_flag)` with its last line (fem.py 1276). -/
def distributeV (close : K → K → Bool) (per : Bool) (mk : Itv K → Bool) (e : ET) (F : List (Cell K)) (n : Nat) (D : DH) (V : DV K) :
    Option (DH × DV K) :=
  (distribute per mk e F n D).bind (fun D' => (setVerts close mk F e n D' V).map (fun V' => (D', V')))

/-- One round of the loop of `get_dof_vertices(dofs)` (fem.py 2247-2270) when `cells` is `None`; `none`: `KeyError`. -/
def getVert (V : DV K) (a : Nat) : Option K := if a ∈ V.keys then (V.at_ a).head?.map (·.2) else none

/-- `get_dof_vertices(dofs)` (fem.py 2227-2286). -/
def getVerts (V : DV K) (l : List Nat) : Option (List K) := allSome (l.map (getVert V))

/-! ### Regions (mesh.py 6720-6990) -/

/-- `flag is None or v.is_marked(flag)` (mesh.py 6946). -/
def want (m : Option (VX → Bool)) (v : VX) : Bool := match m with
  | none => true
  | some m => m v

/-- The pairs (vertex, cell) of a cell. -/
def ends2 (c : IN) : List (VX × IN) := [(vertOf c 0, c), (vertOf c 1, c)]

/-- `v in bnd_vertices` (mesh.py 6720-6731, 6951). -/
def isEnd (F : List (Cell K)) (v : VX) : Bool := v = vertOf (0, []) 0 || v = vertOf (F.length - 1, []) 1

/-- `Mesh1D.get_region(flag, 'vertex', on_boundary, subforest_flag, return_cells=True)` (mesh.py 6903-6990); on a periodic mesh
`get_boundary_cells` returns `None`, and the loop raises. -/
def regionV (m : Option (VX → Bool)) (bnd per : Bool) (mk : Itv K → Bool) (F : List (Cell K)) (n : Nat) : Option (List (VX × IN)) :=
  (leaves1 mk F n).bind (fun L =>
    if bnd then (boundaryCells mk per F (L.map pathOf)).map (fun pq =>
      ([nameOf pq.1, nameOf pq.2].flatMap ends2).filter (fun y => want m y.1 && isEnd F y.1))
    else some ((L.flatMap ends2).filter (fun y => want m y.1)))

/-- `Mesh1D.mark_region(flag, f, entity_type='vertex', on_boundary, subforest_flag)` (mesh.py 6777-6805, 6855-6870): the vertices with the
flag before and after; on a periodic mesh `get_boundary_vertices()` is `None`. -/
def markV (f : K → Bool) (bnd per : Bool) (mk : Itv K → Bool) (F : List (Cell K)) (n : Nat) (m : VX → Bool) : Option (VX → Bool) :=
  if bnd then
    if per then none else
    allSome ([((0, []), (0 : Fin 2)), ((F.length - 1, []), 1)].map (fun y => (coord F y.1 y.2).map (fun x => (vertOf y.1 y.2, f x)))) |>.map
      (fun l v => m v || l.any (fun y => y.1 = v && y.2))
  else (leaves1 mk F n).bind (fun L =>
    (allSome ((L.flatMap (fun c => [(c, (0 : Fin 2)), (c, 1)])).map (fun y => (coord F y.1 y.2).map (fun x => (vertOf y.1 y.2, f x))))).map
      (fun l v => m v || l.any (fun y => y.1 = v && y.2)))

/-- `get_cell_dofs(cell, vertex)` (fem.py 2060-2071): the dofs of the first vertex of the cell that is `v`. -/
def vDofs (e : ET) (D : DH) (c : IN) (v : VX) : Option (List (Option Nat)) :=
  (D.dofs c).bind (fun row =>
    if vertOf c 0 = v then some (row.take (dpv e))
    else if vertOf c 1 = v then some ((row.drop (dpv e)).take (dpv e)) else none)

/-- `get_region_dofs('vertex', flag, on_boundary, subforest_flag)` (fem.py 2147-2184). -/
def regionDofs (m : Option (VX → Bool)) (bnd per : Bool) (mk : Itv K → Bool) (F : List (Cell K)) (n : Nat) (e : ET) (D : DH) : Option (List Nat) :=
  (regionV m bnd per mk F n).bind (fun R =>
    (allSome (R.map (fun y => (vDofs e D y.2 y.1).bind allSome))).map (fun l => l.flatten.dedup))

/-! ### Dirichlet conditions -/

/-- `Assembler.add_dirichlet(marker, g)` on a one-dimensional mesh (assembler.py 3577-3640): the new dictionary. -/
def addDirichletA {R : Type} (m : Option (VX → Bool)) (bnd per : Bool) (mk : Itv K → Bool) (F : List (Cell K)) (n : Nat) (e : ET) (D : DH) (V : DV K)
    (g : K → R) (d : List (Nat × R)) : Option (List (Nat × R)) :=
  (regionDofs m bnd per mk F n e D).bind (fun L =>
    (getVerts V L).map (fun xs => (L.zip xs).foldl (fun d y => Dir.dictSet d y.1 (g y.2)) d))

/-- `LinearSystem.add_dirichlet_constraint(marker, g)` on a one-dimensional mesh (solver.py 235-287): the new constraints. -/
def addDirichlet {R : Type} [Field R] (m : Option (VX → Bool)) (bnd per : Bool) (mk : Itv K → Bool) (F : List (Cell K)) (n : Nat) (e : ET) (D : DH)
    (V : DV K) (g : K → R) (C : List (Linsys.Con R)) : Option (List (Linsys.Con R)) :=
  (regionDofs m bnd per mk F n e D).bind (fun L =>
    (getVerts V L).map (fun xs => C ++ (L.zip xs).map (fun y => (⟨y.1, [], g y.2⟩ : Linsys.Con R))))

end

/-- The states of a mesh, a dof handler on it and its vertices, when the mesh is refined, flags are set, dofs are distributed and
`set_dof_vertices` is called in any order. -/
inductive UsesV {K : Type} [Field K] [LinearOrder K] [IsStrictOrderedRing K] (close : K → K → Bool) (xs : List K) (per : Bool) (e : ET) :
    List (Cell K) → DH → DV K → Prop
  | new (ops : List Op) : UsesV close xs per e (run (roots xs) ops) DH.new DV.new
  | split (F : List (Cell K)) (D : DH) (V : DV K) (c : IN) : UsesV close xs per e F D V → Ex F c → kidsAt F c = false →
      UsesV close xs per e (step F (.split (pathOf c))) D V
  | mark (F : List (Cell K)) (D : DH) (V : DV K) (c : IN) (f : Nat) : UsesV close xs per e F D V →
      UsesV close xs per e (step F (.mark (pathOf c) f)) D V
  | unmark (F : List (Cell K)) (D : DH) (V : DV K) (c : IN) (f : Nat) : UsesV close xs per e F D V →
      UsesV close xs per e (step F (.unmark (pathOf c) f)) D V
  | dist (F : List (Cell K)) (D D' : DH) (V V' : DV K) (sf : Option Nat) (n : Nat) : UsesV close xs per e F D V → Rooted (inSub sf) F →
      nCells F ≤ n → distributeV close per (inSub sf) e F n D V = some (D', V') → UsesV close xs per e F D' V'
  | set (F : List (Cell K)) (D : DH) (V V' : DV K) (sf : Option Nat) (n : Nat) : UsesV close xs per e F D V → nCells F ≤ n →
      setVerts close (inSub sf) F e n D V = some V' → UsesV close xs per e F D V'

end Verif.Line
