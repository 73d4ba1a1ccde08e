import Verif.Quad.Model
import Mathlib.Logic.Function.Basic
import Mathlib.Data.Fin.Basic

/-!
# Model of refined quadrilateral meshes: half-edges, twins, cells, `QuadMesh.balance`

The Python objects form a graph with mutable pointers.  Here an object is identified by the
place where it is created, and the heap maps these names to records with the mutable
attributes.  An object is created at most once per name because a cell asserts that it was
not split before it splits (mesh.py 3668) and splits a half-edge only if it has no children
(mesh.py 3683).  Deleting cells (`coarsen` without flags) is not part of this model but of `Verif.Coarse`; the class
says "When coarsening and refining a QuadMesh, the HalfEdges are not deleted. Rather use
submeshes" (mesh.py 7730).
-/

namespace Verif.Mesh
open Verif.Geom Verif.Quad

/-- A cell: number of its root cell and the positions below it, innermost first. -/
abbrev CN := Nat × List (Fin 4)

/-- `cell.get_child(k)`. -/
def child (c : CN) (k : Fin 4) : CN := (c.1, k :: c.2)

/-- A half-edge: the `k`-th half-edge of the initial mesh, a child (`false` = position 0,
`true` = position 1) of a half-edge (`HalfEdge.split`), or one of the two half-edges between
the midpoint of side `i` and the center of a cell (`false` = up, `true` = down; `QuadCell.split`). -/
inductive HN where
  | root (k : Nat)
  | kid (h : HN) (b : Bool)
  | inner (c : CN) (i : Fin 4) (down : Bool)
deriving DecidableEq

/-- A vertex: of the initial mesh, created by splitting a half-edge, or the center of a cell. -/
inductive VN where
  | root (k : Nat)
  | mid (h : HN)
  | center (c : CN)
deriving DecidableEq

/-- The attributes of a half-edge (mesh.py 2010-2085).  `parent` is part of the name, `next` and
`previous` are given by the order of the half-edges in the cell. -/
structure HERec where
  base : VN
  head : VN
  twin : Option HN
  cell : Option CN
  kids : Bool
  per : Bool
deriving DecidableEq

/-- The state of a mesh.  `sides c` is `cell.get_half_edges()`, `kids c` is `has_children()`,
`mkd c` is `is_marked(subforest_flag)` for the flag in question, `vx` the coordinates of the
vertices, `cells` all cells (in the order of creation). -/
structure St (K : Type) where
  he : HN → Option HERec
  vx : VN → Pt K
  cells : List CN
  sides : CN → Fin 4 → HN
  kids : CN → Bool
  mkd : CN → Bool

section
variable {K : Type} [Field K]

/-- The midpoint `0.5*(x[0,:]+x[1,:])` (mesh.py 2310-2312). -/
def midpt (p q : Pt K) : Pt K := ⟨(p.x + q.x) / 2, (p.y + q.y) / 2⟩

/-- The twin of `r` and its children's records, if the twin has been split
(mesh.py 2291-2297). -/
def twinKids (s : St K) (r : HERec) : Option (HN × HERec × HERec) :=
  match r.twin with
  | none => none
  | some t =>
    match s.he t, s.he (.kid t false), s.he (.kid t true) with
    | some rt, some t0, some t1 => if rt.kids then some (t, t0, t1) else none
    | _, _, _ => none

/-- The assertion of `a.assign_twin(b)` (mesh.py 2202-2208). -/
def twinOk (a b : HERec) : Bool := a.per || (decide (a.base = b.head) && decide (a.head = b.base))

/-- `half_edge.split()` (mesh.py 2279-2331). -/
def heSplit (s : St K) (h : HN) : Except Err (St K) :=
  match s.he h with
  | none => .error .attribute
  | some r =>
    match twinKids s r with
    | some (t, t0, t1) =>
      let vm := if r.per then VN.mid h else t0.head
      let vx := if r.per then
        (match s.vx r.base, s.vx r.head with
          | p, q => Function.update s.vx (.mid h) (midpt p q))
        else s.vx
      let c0 : HERec := ⟨r.base, vm, some (.kid t true), none, false, r.per⟩
      let c1 : HERec := ⟨vm, r.head, some (.kid t false), none, false, r.per⟩
      if twinOk c0 t1 && twinOk c1 t0 && twinOk t0 c1 && twinOk t1 c0 then
        .ok { s with
          vx := vx
          he := fun x =>
            if x = h then some { r with kids := true }
            else if x = .kid h false then some c0
            else if x = .kid h true then some c1
            else if x = .kid t false then some { t0 with twin := some (.kid h true) }
            else if x = .kid t true then some { t1 with twin := some (.kid h false) }
            else s.he x }
      else .error .assertion
    | none =>
      .ok { s with
        vx := Function.update s.vx (.mid h) (midpt (s.vx r.base) (s.vx r.head))
        he := fun x =>
          if x = h then some { r with kids := true }
          else if x = .kid h false then some ⟨r.base, .mid h, none, none, false, r.per⟩
          else if x = .kid h true then some ⟨.mid h, r.head, none, none, false, r.per⟩
          else s.he x }

/-- The half-edges `h_edge_up` from the midpoint `v` of side `i` to the center and
`h_edge_down = h_edge_up.make_twin()` (mesh.py 3688-3689, 2216-2233). -/
def addInner (s : St K) (c : CN) (i : Fin 4) (v : VN) : St K :=
  { s with he := fun x =>
      if x = .inner c i false then some ⟨v, .center c, some (.inner c i true), none, false, false⟩
      else if x = .inner c i true then some ⟨.center c, v, some (.inner c i false), none, false, false⟩
      else s.he x }

/-- One round of the first loop of `QuadCell.split` (mesh.py 3679-3692). -/
def splitSide (c : CN) (s : St K) (i : Fin 4) : Except Err (St K) :=
  match s.he (s.sides c i) with
  | none => .error .attribute
  | some r =>
    match (if r.kids then .ok s else heSplit s (s.sides c i)) with
    | .error e => .error e
    | .ok s1 =>
      match s1.he (.kid (s.sides c i) false) with
      | none => .error .attribute
      | some a => .ok (addInner s1 c i a.head)

/-- The half-edges of child `k`: `deque([h1, h2, h3, h4])` rotated to the right by `k`
(mesh.py 3699-3709), so that position `k` holds `h1`, and so on cyclically. -/
def childSides (s : St K) (c : CN) (k i : Fin 4) : HN :=
  if i = k then .kid (s.sides c k) false
  else if i = k + 1 then .inner c k false
  else if i = k + 2 then .inner c (k - 1) true
  else .kid (s.sides c (k - 1)) true

/-- Do consecutive half-edges fit together (mesh.py 3301-3311, 2246-2259, 2268-2281)? -/
def chainOk (r r' : HERec) : Bool :=
  (r.per || decide (r.head = r'.base)) && (r'.per || decide (r'.base = r.head))

/-- `QuadCell(hes, parent=c, position=k)` (mesh.py 3628-3655, 3262-3317): the half-edges get the
new cell, consecutive ones must fit.  The check of the winding order is left out here (it is the
subject of `Verif.Quad`, C19). -/
def newCell (s : St K) (c : CN) (hes : Fin 4 → HN) : Except Err (St K) :=
  match s.he (hes 0), s.he (hes 1), s.he (hes 2), s.he (hes 3) with
  | some r0, some r1, some r2, some r3 =>
    if chainOk r0 r1 && chainOk r1 r2 && chainOk r2 r3 && chainOk r3 r0 && decide (r0.base = r3.head) then
      .ok { s with
        he := fun x => if ∃ i, x = hes i then (s.he x).map (fun r => { r with cell := some c }) else s.he x
        sides := Function.update s.sides c hes
        cells := s.cells ++ [c] }
    else .error .assertion
  | _, _, _, _ => .error .attribute

/-- A loop that may fail. -/
def forEach {σ α : Type} (f : σ → α → Except Err σ) : List α → σ → Except Err σ
  | [], s => .ok s
  | a :: l, s => match f s a with
    | .error e => .error e
    | .ok s' => forEach f l s'

/-- The positions 0, 1, 2, 3. -/
def four : List (Fin 4) := [0, 1, 2, 3]

/-- `np.mean` of the vertices (mesh.py 3675-3676). -/
def centerPt (s : St K) (c : CN) : Pt K :=
  let v : Fin 4 → Pt K := fun i => match s.he (s.sides c i) with
    | some r => s.vx r.base
    | none => ⟨0, 0⟩
  ⟨((v 0).x + (v 1).x + (v 2).x + (v 3).x) / 4, ((v 0).y + (v 1).y + (v 2).y + (v 3).y) / 4⟩

/-- `cell.split(flag)` (mesh.py 3664-3733); `sf` says whether a flag is given.  The pairing of
periodic vertices at the end (mesh.py 3728-3733) is left out. -/
def cellSplit (sf : Bool) (s : St K) (c : CN) : Except Err (St K) :=
  if s.kids c then .error .assertion
  else
    match forEach (splitSide c) four { s with vx := Function.update s.vx (.center c) (centerPt s c) } with
    | .error e => .error e
    | .ok s1 =>
      match forEach (fun s2 k => newCell s2 (child c k) (childSides s2 c k)) four s1 with
      | .error e => .error e
      | .ok s2 => .ok { s2 with
          kids := Function.update s2.kids c true
          mkd := fun d => if sf && decide (∃ k, d = child c k) then true else s2.mkd d }

/-! ## Neighbours, `is_balanced`, `balance` -/

/-- `cell.has_children(flag=subforest_flag)` (mesh.py 645-690): `sf = false` means no flag. -/
def hasCh (sf : Bool) (s : St K) (c : CN) : Bool :=
  s.kids c && (!sf || four.any (fun k => s.mkd (child c k)))

/-- `cell.get_neighbors(half_edge, flag)` (mesh.py 3462-3481). -/
def getNb (sf : Bool) (s : St K) (h : HN) : Option CN :=
  match s.he h with
  | none => none
  | some r => match r.twin with
    | none => none
    | some t => match s.he t with
      | none => none
      | some q => match q.cell with
        | none => none
        | some d => if !sf || s.mkd d then some d else none

/-- Does a child of the twin of `h` belong to a cell with (flagged) children
(mesh.py 7815-7818, 7845-7847)? -/
def twinKidSplit (sf : Bool) (s : St K) (h : HN) : Bool :=
  match s.he h with
  | none => false
  | some r => match r.twin with
    | none => false
    | some t => [false, true].any (fun b => match s.he (.kid t b) with
      | none => false
      | some q => match q.cell with
        | none => false
        | some d => hasCh sf s d)

/-- Side `i` of cell `c` breaks the 2:1 rule (mesh.py 7812-7818, 7840-7847). -/
def sideBad (sf : Bool) (s : St K) (c : CN) (i : Fin 4) : Bool :=
  match getNb sf s (s.sides c i) with
  | none => false
  | some d => hasCh sf s d && twinKidSplit sf s (s.sides c i)

/-- `cells.get_leaves(subforest_flag)`: the (flagged) cells without (flagged) children; see
`Verif.Forest` (C02) for the traversal itself. -/
def leaves (sf : Bool) (s : St K) : List CN :=
  s.cells.filter (fun c => (!sf || s.mkd c) && !hasCh sf s c)

/-- `is_balanced(subforest_flag)` (mesh.py 7801-7819). -/
def isBalanced (sf : Bool) (s : St K) : Bool :=
  (leaves sf s).all (fun c => four.all (fun i => !sideBad sf s c i))

/-- The cells added to the worklist after `c` was split (mesh.py 7865-7880): its children, and
for each half-edge with a parent (a `kid`) the cell of the parent's twin. -/
def added (s : St K) (c : CN) : List CN :=
  four.map (child c) ++ four.filterMap (fun i => match s.sides c i with
    | .kid h _ => (match s.he h with
      | some r => (match r.twin with
        | some t => (match s.he t with
          | some q => q.cell
          | none => none)
        | none => none)
      | none => none)
    | _ => none)

/-- The body of the loop of `balance` for one leaf (mesh.py 7835-7891). -/
def balBody (sf : Bool) (s : St K) (c : CN) : Except Err (St K × List CN) :=
  if four.any (sideBad sf s c) then
    if hasCh sf s c then .ok (s, [])
    else if s.kids c then
      let s' := { s with mkd := fun d => if ∃ k, d = child c k then true else s.mkd d }
      .ok (s', added s' c)
    else match cellSplit sf s c with
      | .error e => .error e
      | .ok s' => .ok (s', added s' c)
  else .ok (s, [])

/-- One iteration of `while len(leaves)>0: leaf = leaves.pop()` (mesh.py 7831-7834):
`set.pop` removes an arbitrary element. -/
inductive BalStep (sf : Bool) : St K × Finset CN → St K × Finset CN → Prop
  | step (s s' : St K) (W : Finset CN) (c : CN) (l : List CN) (hc : c ∈ W)
      (hb : balBody sf s c = .ok (s', l)) : BalStep sf (s, W) (s', W.erase c ∪ l.toFinset)

/-- `balance` (mesh.py 7822-7833) from state `s`: starts with the set of leaves; a run ends when
the set is empty. -/
def BalRun (sf : Bool) (s s' : St K) : Prop :=
  Relation.ReflTransGen (BalStep sf) (s, (leaves sf s).toFinset) (s', ∅)

end

/-! ## The initial mesh -/

/-- What `Mesh2D.__init__` reads from the DCEL (mesh.py 7026-7081): `n` quadrilateral faces, whose
half-edges are `4*f, ..., 4*f+3` in order; `b`, `hd` the vertices, `T` the twins. -/
structure Base (K : Type) where
  n : Nat
  b : Nat → Nat
  hd : Nat → Nat
  T : Nat → Option Nat
  xy : Nat → Pt K

/-- A half-edge is set periodic if the vertices of its twin are not its own, reversed
(mesh.py 7046-7056). -/
def Base.per {K : Type} (B : Base K) (k : Nat) : Bool :=
  match B.T k with
  | none => false
  | some j => !(decide (B.b k = B.hd j) && decide (B.hd k = B.b j))

/-- The state after `Mesh2D.__init__` (mesh.py 7026-7091). -/
def init {K : Type} (B : Base K) : St K where
  he := fun x => match x with
    | .root k => if k < 4 * B.n then
        some ⟨.root (B.b k), .root (B.hd k), (B.T k).map .root, some (k / 4, []), false, B.per k⟩
      else none
    | _ => none
  vx := fun v => match v with
    | .root k => B.xy k
    | _ => B.xy 0
  cells := (List.range B.n).map (fun r => (r, []))
  sides := fun c i => .root (4 * c.1 + i)
  kids := fun _ => false
  mkd := fun _ => false

/-- What the DCEL guarantees (C25): twins are an involution without fixed points, and the sides
of a face form a closed chain. -/
structure Base.WF {K : Type} (B : Base K) : Prop where
  inv : ∀ k j, B.T k = some j → B.T j = some k
  irr : ∀ k j, B.T k = some j → j ≠ k
  lt : ∀ k j, B.T k = some j → j < 4 * B.n
  chain : ∀ f < B.n, ∀ i : Fin 4, B.hd (4 * f + i) = B.b (4 * f + ((i + 1 : Fin 4) : Nat))

end Verif.Mesh
