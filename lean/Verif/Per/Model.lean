import Verif.Dof.Distribute

/-!
# Model of periodic vertices and of `distribute_dofs` on periodic quadrilateral meshes

`set_periodic_pair`, `get_periodic_pair` (mesh.py 1884-1990), `pair_periodic_vertices` (mesh.py 2117-2144), the loops that call
it (mesh.py 3728-3733, 7084-7090), `cell.get_neighbors(vertex)` with periodic vertices (mesh.py 3488-3551), the sharing of
dofs with neighbours about periodic vertices (fem.py 1343-1360) and `fill_dofs` for cells that are their own neighbours
(fem.py 1400-1515).
-/

namespace Verif.Per
open Verif.Fem Verif.Mesh Verif.Dof

/-- `vertex.get_periodic_pair()` of every vertex (mesh.py 1966-1990).  A vertex is periodic (`is_periodic()`, mesh.py
1884-1889) exactly if it has pairs: the only caller of `set_periodic` adds a pair right afterwards (mesh.py 2132-2139).
The Python set is a list here; its order is arbitrary, see `PReach.perm`. -/
abbrev Pairs := VN → List (CN × VN)

/-- `c.contains(d)` (mesh.py 992-1008): `d` is `c` or a descendant. -/
def contains (c d : CN) : Bool := decide (c.1 = d.1) && c.2.isSuffixOf d.2

/-- The inner loop of `set_periodic_pair` (mesh.py 1949-1963). -/
def addPair (l : List (CN × VN)) (x : CN × VN) : List (CN × VN) :=
  if l.any (fun y => decide (y.2 = x.2) && contains y.1 x.1) then l else l ++ [x]

/-- `v.set_periodic_pair(x)` (mesh.py 1935-1963); `l` is the order in which the Python set
`v_nb.get_periodic_pair().union(set([cell_vertex_pair]))` is traversed. -/
def SetPair (pr : Pairs) (v : VN) (x : CN × VN) (pr' : Pairs) : Prop :=
  ∃ l : List (CN × VN), (∀ y, y ∈ l ↔ y ∈ pr x.2 ∨ y = x) ∧ pr' = Function.update pr v (l.foldl addPair (pr v))

/-- The body of the loop of `pair_periodic_vertices` for `v` of cell `c` and `w` of the neighbour `d` (mesh.py 2131-2143). -/
def PairVtx (pr : Pairs) (c : CN) (v : VN) (d : CN) (w : VN) (pr' : Pairs) : Prop :=
  ∃ pr1 pr2 pr3, SetPair pr v (c, v) pr1 ∧ SetPair pr1 w (d, w) pr2 ∧ SetPair pr2 v (d, w) pr3 ∧ SetPair pr3 w (c, v) pr'

section
variable {K : Type}

/-- `h.pair_periodic_vertices()` (mesh.py 2117-2144) if `h` is periodic and has a twin; the periodic half-edges of the
initial mesh have twins (mesh.py 7041-7056).  If a cell is `None`: the assertion fails, nothing is related. -/
def PairEdge (s : St K) (h : HN) (pr pr' : Pairs) : Prop :=
  match s.he h with
  | none => False
  | some r =>
    if r.per then
      match r.twin with
      | none => pr' = pr
      | some t =>
        match s.he t with
        | none => False
        | some q =>
          match r.cell, q.cell with
          | some c, some d => ∃ pr1, PairVtx pr c r.base d q.head pr1 ∧ PairVtx pr1 c r.head d q.base pr'
          | _, _ => False
    else pr' = pr

/-- The loops over half-edges that call `pair_periodic_vertices` (mesh.py 3728-3733, 7087-7090). -/
def PairAll (s : St K) : List HN → Pairs → Pairs → Prop
  | [], pr, pr' => pr' = pr
  | h :: l, pr, pr' => ∃ pr1, PairEdge s h pr pr1 ∧ PairAll s l pr1 pr'

/-- The children of the half-edges of a cell (mesh.py 3729-3730). -/
def kidsOf (s : St K) (c : CN) : List HN := four.flatMap (fun i => [.kid (s.sides c i) false, .kid (s.sides c i) true])

/-- The states of a periodic mesh: `Mesh2D.__init__` (mesh.py 7026-7090), `cell.split` (mesh.py 3664-3733), flags; the
iteration order of the sets of pairs is arbitrary. -/
inductive PReach [Field K] (B : Base K) : St K → Pairs → Prop
  | init (pr : Pairs) : PairAll (init B) ((List.range (4 * B.n)).map .root) (fun _ => []) pr → PReach B (init B) pr
  | split (s s' : St K) (pr pr' : Pairs) (c : CN) (sf : Bool) : PReach B s pr → c ∈ s.cells → s.kids c = false →
      cellSplit sf s c = .ok s' → PairAll s' (kidsOf s' c) pr pr' → PReach B s' pr'
  | mark (s : St K) (pr : Pairs) (m : CN → Bool) : PReach B s pr → PReach B { s with mkd := m } pr
  | perm (s : St K) (pr pr' : Pairs) : PReach B s pr → (∀ v, (pr' v).Perm (pr v)) → PReach B s pr'

/-! ### Neighbours about a vertex -/

/-- `if pivot.is_periodic() and len(pivot.get_periodic_pair(cell))!=0: pivot = pivot.get_periodic_pair(cell)[0]`
(mesh.py 3512-3513, 3541-3542). -/
def piv (pr : Pairs) (v : VN) (c : CN) : VN :=
  match (pr v).find? (fun y => decide (y.1 = c)) with
  | some y => y.2
  | none => v

/-- One of the loops of `cell.get_neighbors(vertex)` (mesh.py 3488-3513, 3517-3542), at most `n` rounds: the cells found,
whether the loop came back to the cell, and the pivot at the end; `none` if `n` rounds do not suffice. -/
def walkP (s : St K) (pr : Pairs) (self : CN) (rev : Bool) : Nat → CN → VN → Option (List CN × Bool × VN)
  | 0, _, _ => none
  | n + 1, c, v =>
    match (incident s c v rev).bind (getNb false s) with
    | none => some ([], false, v)
    | some d => if d = self then some ([], true, v)
      else (walkP s pr self rev n d (piv pr v d)).map (fun r => (d :: r.1, r.2))

/-- `cell.get_neighbors(vertex)` (mesh.py 3481-3551).  The clockwise loop starts with the pivot that the
anticlockwise loop ended with. -/
def nbsP (s : St K) (pr : Pairs) (n : Nat) (c : CN) (v : VN) : Option (List CN) :=
  match walkP s pr c false n c v with
  | none => none
  | some (l, true, _) => some l
  | some (l, false, v') =>
    match walkP s pr c true n c v' with
    | none => none
    | some (_, true, _) => some l
    | some (l', false, _) => some (l ++ l'.reverse)

/-! ### Dofs -/

/-- The vertices of the neighbour `d` that get the dofs of `v` (fem.py 1354-1360). -/
def recv (pr : Pairs) (v : VN) (d : CN) : List VN :=
  if pr v = [] then [v] else ((pr v).filter (fun y => decide (y.1 = d))).map Prod.snd

/-- `share_dofs_with_neighbors(cell, vertex)` for vertex `i` (fem.py 1331-1360). -/
def shareVP (s : St K) (pr : Pairs) (e : ET) (n : Nat) (c : CN) (D : Dict) (i : Fin 4) : Option Dict :=
  match baseOf s (s.sides c i), D c with
  | some v, some row =>
    match vIdx s c v with
    | none => none
    | some i' =>
      let ds := vertexDofs e row i'
      if ds = [] then some D
      else match nbsP s pr n c v with
        | none => none
        | some l => some (l.foldl (fun D d => (recv pr v d).foldl (fun D w => assignVertex s e D d w ds) D) D)
  | _, _ => none

/-- `share_dofs_with_neighbors(cell)` (fem.py 1312-1329). -/
def shareNP (s : St K) (pr : Pairs) (e : ET) (n : Nat) (c : CN) (D : Dict) : Option Dict :=
  (four.foldlM (shareVP s pr e n c) D).bind (fun D => four.foldlM (shareE s e c) D)

/-- `while len(dofs)<m: dofs.append(count); count += 1` (fem.py 1437-1440, 1470-1473, 1497-1500). -/
def refill (m : Nat) (x : List Nat × Nat) : List Nat × Nat :=
  (x.1 ++ (List.range (m - x.1.length)).map (x.2 + ·), x.2 + (m - x.1.length))

/-- `for dof in dofs: if dof in used: dofs.pop(dofs.index(dof))` (fem.py 1448-1451, 1507-1510): the loop runs over the positions
of the list that it changes; `i` is the position, `n` bounds the number of rounds. -/
def popUsed (used : List (Option Nat)) : Nat → Nat → List Nat → List Nat
  | 0, _, l => l
  | n + 1, i, l =>
    match l[i]? with
    | none => l
    | some a => popUsed used n (i + 1) (if some a ∈ used then l.erase a else l)

/-- The state of `fill_dofs` for a cell that is its own neighbour: the dictionary, the list `dofs`, `count`. -/
abbrev Own := Dict × List Nat × Nat

/-- The body of the loop over the vertices (fem.py 1435-1451); `none`: the assertion of `assign_dofs` fails. -/
def ownV (s : St K) (pr : Pairs) (e : ET) (c : CN) (x : Own) (i : Fin 4) : Option Own :=
  let y := refill (dpv e) x.2
  match baseOf s (s.sides c i) with
  | none => none
  | some v =>
    if y.1.length = dpv e then
      let D := (pr v).foldl (fun D a => assignVertex s e D a.1 a.2 (y.1.map some)) (assignVertex s e x.1 c v (y.1.map some))
      match vIdx s c v, D c with
      | some i', some row => some (D, popUsed (vertexDofs e row i') y.1.length 0 y.1, y.2)
      | _, _ => none
    else none

/-- The body of the loop over the half-edges (fem.py 1468-1488). -/
def ownE (s : St K) (e : ET) (c : CN) (x : Own) (i : Fin 4) : Option Own :=
  let y := refill (dpe2 e) x.2
  match s.he (s.sides c i) with
  | none => none
  | some r =>
    if y.1.length = dpe2 e then
      let D1 := assignEdge s e x.1 c (s.sides c i) (y.1.map some)
      let D := if r.per then
          (match r.twin with
            | none => D1
            | some t => match (s.he t).bind (·.cell) with
              | none => D1
              | some d => assignEdge s e D1 d t (y.1.reverse.map some))
        else D1
      match D c with
      | some row => some (D, (edgeDofsIn e row i).foldl (fun l o => match o with | some a => l.erase a | none => l) y.1, y.2)
      | none => none
    else none

/-- The interior of the cell (fem.py 1493-1510). -/
def ownC (e : ET) (c : CN) (x : Own) : Option Own :=
  let y := refill (dpc2 e) x.2
  if y.1.length = dpc2 e then
    let k := 4 * dpv e + 4 * dpe2 e
    let D := assignAt (nd2 e) x.1 c ((List.range (dpc2 e)).map (fun j => (k + j, y.1[j]?)))
    match D c with
    | some row => some (D, popUsed (row.drop k) y.1.length 0 y.1, y.2)
    | none => none
  else none

/-- `fill_dofs(cell)` for a cell that is its own neighbour (fem.py 1425-1515, two dimensions, continuous elements). -/
def fillOwn (s : St K) (pr : Pairs) (e : ET) (D : DH) (c : CN) : Option DH :=
  ((four.foldlM (ownV s pr e c) ((touch (nd2 e) D.dofs c, [], D.count) : Own)).bind (fun x =>
    (if dpe2 e = 0 then some x else four.foldlM (ownE s e c) x).bind (fun x =>
      if dpc2 e = 0 then some x else ownC e c x))).map (fun x => ⟨x.1, x.2.2 - x.2.1.length⟩)

/-- Is the cell its own neighbour (fem.py 1417-1421)? -/
def ownNb (s : St K) (c : CN) : Bool := four.any (fun i => decide (getNb false s (s.sides c i) = some c))

/-- `fill_dofs(cell)` on a periodic mesh (fem.py 1373-1525). -/
def fillP (s : St K) (pr : Pairs) (e : ET) (D : DH) (c : CN) : Option DH :=
  let row := (D.dofs c).getD (List.replicate (nd2 e) none)
  if none ∈ row ∧ torn e = false ∧ ownNb s c = true then fillOwn s pr e D c else some (fill e D c)

/-- The body of the loop of `distribute_dofs` (fem.py 1258-1275) on a periodic mesh. -/
def processP (sf : Bool) (s : St K) (pr : Pairs) (e : ET) (n : Nat) (D : DH) (c : CN) : Option DH :=
  (fillP s pr e D c).bind (fun D1 =>
    ((if torn e then some D1.dofs else shareNP s pr e n c D1.dofs).bind (fun D2 =>
      if hasCh sf s c then shareC e c D2 else some D2)).map (fun D3 => ⟨D3, D1.count⟩))

/-- `distribute_dofs(subforest_flag)` (fem.py 1221-1276) on a periodic mesh with `N` initial cells. -/
def distP [Field K] (sf : Bool) (N : Nat) (s : St K) (pr : Pairs) (e : ET) (n : Nat) (D : DH) : Option DH :=
  (cellsBF sf N s n).bind (fun L => if isBalanced false s then L.foldlM (processP sf s pr e n) D else none)

/-- The states of a mesh, its periodic pairs and a dof handler, when the mesh is refined, flags are set and dofs are
distributed in any order. -/
inductive PUses [Field K] (B : Base K) (e : ET) : St K → Pairs → DH → Prop
  | new (s : St K) (pr : Pairs) : PReach B s pr → PUses B e s pr DH.new
  | split (s s' : St K) (pr pr' : Pairs) (D : DH) (c : CN) (sf : Bool) : PUses B e s pr D → c ∈ s.cells → s.kids c = false →
      cellSplit sf s c = .ok s' → PairAll s' (kidsOf s' c) pr pr' → PUses B e s' pr' D
  | mark (s : St K) (pr : Pairs) (D : DH) (m : CN → Bool) : PUses B e s pr D → PUses B e { s with mkd := m } pr D
  | perm (s : St K) (pr pr' : Pairs) (D : DH) : PUses B e s pr D → (∀ v, (pr' v).Perm (pr v)) → PUses B e s pr' D
  | dist (s : St K) (pr : Pairs) (D D' : DH) (sf : Bool) (n : Nat) : PUses B e s pr D → (sf = false ∨ RootedFlag B s) →
      4 * s.cells.length ≤ n → distP sf B.n s pr e n D = some D' → PUses B e s pr D'

/-- The same without refinement after the dof handler was created (or cleared). -/
inductive PFixed [Field K] (B : Base K) (e : ET) : St K → Pairs → DH → Prop
  | new (s : St K) (pr : Pairs) : PReach B s pr → PFixed B e s pr DH.new
  | mark (s : St K) (pr : Pairs) (D : DH) (m : CN → Bool) : PFixed B e s pr D → PFixed B e { s with mkd := m } pr D
  | perm (s : St K) (pr pr' : Pairs) (D : DH) : PFixed B e s pr D → (∀ v, (pr' v).Perm (pr v)) → PFixed B e s pr' D
  | dist (s : St K) (pr : Pairs) (D D' : DH) (sf : Bool) (n : Nat) : PFixed B e s pr D → (sf = false ∨ RootedFlag B s) →
      4 * s.cells.length ≤ n → distP sf B.n s pr e n D = some D' → PFixed B e s pr D'

end

end Verif.Per
