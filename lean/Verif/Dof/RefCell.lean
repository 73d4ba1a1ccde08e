import Verif.Fem.Model
import Mathlib.Data.Rat.Defs
import Mathlib.Data.Fintype.Basic
import Mathlib.Tactic.NormNum

/-!
# Model of the reference cells `RQuadCell`, `RInterval` (mesh.py 4125-4830)

A reference cell is built once per element; it knows its dof vertices and which dof vertices of its
children are the same objects.  Vertices are objects, here numbers of entries in a list of coordinates.
`np.allclose` of coordinates is equality: the coordinates are multiples of 1/12, so that the tolerance
1e-5 + 1e-8 never matters.
-/

namespace Verif.Dof
open Verif.Fem

/-- The vertices created so far (their coordinates); a vertex is a position in this list. -/
abbrev VS := List (ℚ × ℚ)

/-- `RVertex(x)`. -/
def newV (vs : VS) (x : ℚ × ℚ) : VS × Nat := (vs ++ [x], vs.length)

/-- `vertex.coordinates()`. -/
def xy (vs : VS) (v : Nat) : ℚ × ℚ := vs.getD v (0, 0)

/-- A new vertex at `x`, or the last one of `old` with the same coordinates
(loops without `break`: mesh.py 4236-4238, 4271-4273). -/
def newOrLast (vs : VS) (x : ℚ × ℚ) (old : List Nat) : VS × Nat :=
  match (old.filter (fun v => decide (xy vs v = x))).getLast? with
  | some v => (vs, v)
  | none => newV vs x

/-- The same with `break` (mesh.py 4361-4367, 4435-4443). -/
def newOrFirst (vs : VS) (x : ℚ × ℚ) (old : List Nat) : VS × Nat :=
  match old.find? (fun v => decide (xy vs v = x)) with
  | some v => (vs, v)
  | none => newV vs x

/-- Build a list of vertices one after the other. -/
def build (f : VS → ℚ × ℚ → VS × Nat) : List (ℚ × ℚ) → VS → VS × List Nat
  | [], vs => (vs, [])
  | x :: xs, vs =>
    let a := f vs x
    let b := build f xs a.1
    (b.1, a.2 :: b.2)

/-- A reference half-edge: base, head, dof vertices. -/
structure RHE where
  base : Nat
  head : Nat
  dofs : List Nat

/-- `RHalfEdge(base, head, d, parent)` without twin (mesh.py 4182-4243). -/
def mkRHE (d : Nat) (vs : VS) (b h : Nat) (parent : List Nat) : VS × RHE :=
  let r := build (fun vs x => newOrLast vs x parent) (edgeDofs d (xy vs b) (xy vs h)) vs
  (r.1, ⟨b, h, r.2⟩)

/-- `half_edge.split()` (mesh.py 4259-4285): vertices, first and second half. -/
def splitRHE (d : Nat) (vs : VS) (e : RHE) : VS × RHE × RHE :=
  let a := xy vs e.base
  let b := xy vs e.head
  let m := newOrLast vs (1 / 2 * (a.1 + b.1), 1 / 2 * (a.2 + b.2)) e.dofs
  let c0 := mkRHE d m.1 e.base m.2 e.dofs
  let c1 := mkRHE d c0.1 m.2 e.head e.dofs
  (c1.1, c0.2, c1.2)

/-- The half-edges between the midpoint `m` of a side and the center (mesh.py 4380-4381).  `make_twin` takes
over the list of dof vertices of the half-edge and reverses it in place (mesh.py 4212-4213), so that
both half-edges end up with the reversed list. -/
def mkInner (d : Nat) (vs : VS) (m c : Nat) : VS × RHE × RHE :=
  let u := mkRHE d vs m c []
  (u.1, ⟨m, c, u.2.dofs.reverse⟩, ⟨c, m, u.2.dofs.reverse⟩)

/-- `bounding_box()` of four vertices (mesh.py 3375-3386). -/
def bbox (l : List (ℚ × ℚ)) : (ℚ × ℚ) × (ℚ × ℚ) :=
  let xs := l.map (·.1)
  let ys := l.map (·.2)
  ((xs.foldl min (xs.headD 0), xs.foldl max (xs.headD 0)), (ys.foldl min (ys.headD 0), ys.foldl max (ys.headD 0)))

/-- `assign_cell_dof_vertices` (mesh.py 4419-4448). -/
def cellV (d : Nat) (vs : VS) (corner : List Nat) (parent : List Nat) : VS × List Nat :=
  if d = 0 then (vs, [])
  else
    let b := bbox (corner.map (xy vs))
    build (fun vs x => newOrFirst vs x parent) (cellDofs (isqrt d) b.1.1 b.1.2 b.2.1 b.2.2) vs

/-- The dof vertices of the cell and the lists `child_dof_vertices` of its four children; its half-edges and their two
halves. -/
structure RCell where
  vs : VS
  own : List Nat
  kids : List (List Nat)
  sides : List RHE
  halves : List (RHE × RHE)

/-- `hes.rotate(i)` of `deque([h1, h2, h3, h4])` (mesh.py 4397-4399). -/
def rot4 (i : Nat) (l : List RHE) : List RHE := l.drop (4 - i) ++ l.take (4 - i)

/-- `RQuadCell(element)` (mesh.py 4291-4480, 4482-4507). -/
def rcell (e : ET) : RCell :=
  let d := dpe2 e
  let vs0 : VS := corners
  -- sides
  let e0 := mkRHE d vs0 0 1 []
  let e1 := mkRHE d e0.1 1 2 []
  let e2 := mkRHE d e1.1 2 3 []
  let e3 := mkRHE d e2.1 3 0 []
  let inn := cellV (dpc2 e) e3.1 [0, 1, 2, 3] []
  let own := (if dpv e = 0 then [] else [0, 1, 2, 3]) ++ e0.2.dofs ++ e1.2.dofs ++ e2.2.dofs ++ e3.2.dofs ++ inn.2
  -- split: center, then side by side
  let vm := newOrFirst inn.1 (1 / 2, 1 / 2) own
  let s0 := splitRHE d vm.1 e0.2
  let i0 := mkInner d s0.1 s0.2.1.head vm.2
  let s1 := splitRHE d i0.1 e1.2
  let i1 := mkInner d s1.1 s1.2.1.head vm.2
  let s2 := splitRHE d i1.1 e2.2
  let i2 := mkInner d s2.1 s2.2.1.head vm.2
  let s3 := splitRHE d i2.1 e3.2
  let i3 := mkInner d s3.1 s3.2.1.head vm.2
  -- children
  let h0 := rot4 0 [s0.2.1, i0.2.1, i3.2.2, s3.2.2]
  let h1 := rot4 1 [s1.2.1, i1.2.1, i0.2.2, s0.2.2]
  let h2 := rot4 2 [s2.2.1, i2.2.1, i1.2.2, s1.2.2]
  let h3 := rot4 3 [s3.2.1, i3.2.1, i2.2.2, s2.2.2]
  let c0 := cellV (dpc2 e) i3.1 (h0.map (·.base)) inn.2
  let c1 := cellV (dpc2 e) c0.1 (h1.map (·.base)) inn.2
  let c2 := cellV (dpc2 e) c1.1 (h2.map (·.base)) inn.2
  let c3 := cellV (dpc2 e) c2.1 (h3.map (·.base)) inn.2
  let all := fun (h : List RHE) (c : List Nat) =>
    (if dpv e = 0 then [] else h.map (·.base)) ++ h.flatMap (·.dofs) ++ c
  ⟨c3.1, own, [all h0 c0.2, all h1 c1.2, all h2 c2.2, all h3 c3.2], [e0.2, e1.2, e2.2, e3.2], [s0.2, s1.2, s2.2, s3.2]⟩

/-- `set_pos(count, level=1, child)` for one child (mesh.py 4509-4546): the dof vertices of the cell that are
dof vertices of the child, with their position in the child and in the cell, and the coarse dofs that can
still be used.  A continuous element inherits a dof vertex in every child, a torn one only once. -/
def inh1 (torn : Bool) (own : List Nat) : List Nat → Nat → List Nat → List (Nat × Nat) × List Nat
  | [], _, cd => ([], cd)
  | v :: l, count, cd =>
    if v ∈ own then
      if torn = false then
        let r := inh1 torn own l (count + 1) cd
        ((count, own.idxOf v) :: r.1, r.2)
      else if own.idxOf v ∈ cd then
        let r := inh1 torn own l (count + 1) (cd.erase (own.idxOf v))
        ((count, own.idxOf v) :: r.1, r.2)
      else inh1 torn own l (count + 1) cd
    else inh1 torn own l (count + 1) cd

/-- All children in turn. -/
def inhAll (torn : Bool) (own : List Nat) : List (List Nat) → List Nat → List (List (Nat × Nat))
  | [], _ => []
  | k :: ks, cd =>
    let r := inh1 torn own k 0 cd
    r.1 :: inhAll torn own ks r.2

/-- For child `k` of a cell: the pairs (position in the child, position in the cell) of the dof vertices of the
cell that the child inherits, i.e. `(v.get_pos(1, k), v.get_pos(0))` (mesh.py 4455-4546, fem.py 1286-1292). -/
def inherit (e : ET) (k : Fin 4) : List (Nat × Nat) :=
  (inhAll (torn e) (rcell e).own (rcell e).kids (List.range (nd2 e))).getD k []

instance : Fintype ET :=
  ⟨{.DQ0, .Q1, .DQ1, .Q2, .DQ2, .Q3, .DQ3}, by intro x; cases x <;> decide⟩

/-! ### What is inherited -/

/-- The table of inherited dof vertices. -/
def inhTab : ET → List (List (Nat × Nat))
  | .DQ0 => [[], [], [], []]
  | .Q1 | .DQ1 => [[(0, 0)], [(1, 1)], [(2, 2)], [(3, 3)]]
  | .Q2 => [[(0, 0), (1, 4), (2, 8), (3, 7)], [(0, 4), (1, 1), (2, 5), (3, 8)], [(0, 8), (1, 5), (2, 2), (3, 6)],
      [(0, 7), (1, 8), (2, 6), (3, 3)]]
  | .DQ2 => [[(0, 0), (1, 4), (2, 8), (3, 7)], [(1, 1), (2, 5)], [(2, 2), (3, 6)], [(3, 3)]]
  | .Q3 | .DQ3 => [[(0, 0), (5, 4), (10, 11), (15, 12)], [(1, 1), (4, 5), (7, 6), (14, 13)],
      [(2, 2), (6, 7), (9, 8), (12, 15)], [(3, 3), (8, 9), (11, 10), (13, 14)]]

theorem inherit_tab (e : ET) (k : Fin 4) : inherit e k = (inhTab e).getD k [] := by
  revert e k
  decide +kernel

/-- The reference nodes as a table. -/
def nodeTab : ET → List (ℚ × ℚ)
  | .DQ0 => [(1 / 2, 1 / 2)]
  | .Q1 | .DQ1 => [(0, 0), (1, 0), (1, 1), (0, 1)]
  | .Q2 | .DQ2 => [(0, 0), (1, 0), (1, 1), (0, 1), (1 / 2, 0), (1, 1 / 2), (1 / 2, 1), (0, 1 / 2), (1 / 2, 1 / 2)]
  | .Q3 | .DQ3 => [(0, 0), (1, 0), (1, 1), (0, 1), (1 / 3, 0), (2 / 3, 0), (1, 1 / 3), (1, 2 / 3), (2 / 3, 1), (1 / 3, 1),
      (0, 2 / 3), (0, 1 / 3), (1 / 3, 1 / 3), (2 / 3, 1 / 3), (1 / 3, 2 / 3), (2 / 3, 2 / 3)]

theorem nodes_tab (e : ET) : (nodes2 e : List (ℚ × ℚ)) = nodeTab e := by
  revert e
  decide +kernel

/-- Node `p` of the reference cell (`reference_nodes()[p]`). -/
def node (e : ET) (p : Nat) : ℚ × ℚ := (nodes2 e).getD p (0, 0)

/-- The reference cell places the dofs at `reference_nodes()`. -/
theorem rcell_own (e : ET) : (rcell e).own.map (xy (rcell e).vs) = nodes2 e := by
  revert e
  decide +kernel

/-- Where child `k` sits in the unit square. -/
def emb {R : Type} [Field R] (k : Fin 4) (z : R × R) : R × R :=
  match k with
  | 0 => (z.1 / 2, z.2 / 2)
  | 1 => ((1 + z.1) / 2, z.2 / 2)
  | 2 => ((1 + z.1) / 2, (1 + z.2) / 2)
  | 3 => (z.1 / 2, (1 + z.2) / 2)

theorem inherit_sound (e : ET) (k : Fin 4) (a : Nat × Nat) (ha : a ∈ inherit e k) :
    a.1 < nd2 e ∧ a.2 < nd2 e ∧ emb k (node e a.1) = node e a.2 := by
  rw [inherit_tab] at ha
  unfold node
  rw [nodes_tab]
  revert e k a
  decide +kernel

/-- A continuous element inherits every dof vertex of the cell that is a dof vertex of the child. -/
theorem inherit_complete (e : ET) (he : torn e = false) (k : Fin 4) (p : Nat) (hp : p < nd2 e) (q : Nat) (hq : q < nd2 e)
    (h : emb k (node e p) = node e q) : (p, q) ∈ inherit e k := by
  rw [inherit_tab]
  unfold node at h
  rw [nodes_tab] at h
  revert e
  have : ∀ e : ET, torn e = true ∨ ∀ k : Fin 4, ∀ p : Fin (nd2 e), ∀ q : Fin (nd2 e),
      emb k ((nodeTab e).getD p (0, 0)) = (nodeTab e).getD q (0, 0) → (p.1, q.1) ∈ (inhTab e).getD k [] := by decide +kernel
  intro e he hp hq h
  exact (this e).resolve_left (by simp [he]) k ⟨p, hp⟩ ⟨q, hq⟩ h

/-- A torn element passes every dof to at most one child. -/
theorem inherit_once (e : ET) (he : torn e = true) (k k' : Fin 4) (p p' q : Nat) (h : (p, q) ∈ inherit e k)
    (h' : (p', q) ∈ inherit e k') : k = k' ∧ p = p' := by
  rw [inherit_tab] at h h'
  have : ∀ e : ET, torn e = true → ∀ k k' : Fin 4, ∀ a ∈ (inhTab e).getD k [], ∀ b ∈ (inhTab e).getD k' [],
      a.2 = b.2 → k = k' ∧ a.1 = b.1 := by decide +kernel
  exact this e he k k' _ h _ h' rfl

theorem inherit_fun (e : ET) (k : Fin 4) (p q q' : Nat) (h : (p, q) ∈ inherit e k) (h' : (p, q') ∈ inherit e k) : q = q' := by
  rw [inherit_tab] at h h'
  have : ∀ e : ET, ∀ k : Fin 4, ∀ a ∈ (inhTab e).getD k [], ∀ b ∈ (inhTab e).getD k [], a.1 = b.1 → a.2 = b.2 := by
    decide +kernel
  exact this e k _ h _ h' rfl

theorem node_inj (e : ET) (p q : Nat) (hp : p < nd2 e) (hq : q < nd2 e) (h : node e p = node e q) : p = q := by
  unfold node at h
  rw [nodes_tab] at h
  have : ∀ e : ET, ∀ p < nd2 e, ∀ q < nd2 e, (nodeTab e).getD p (0, 0) = (nodeTab e).getD q (0, 0) → p = q := by
    decide +kernel
  exact this e p hp q hq h

/-- The in-place reversal of mesh.py 4212-4213: for Q3 the reference cell lists the dof vertices of child 0
on the half-edge towards the center in the wrong order (positions 6 and 7), compared with the nodes of the
child. -/
theorem child_order_violated : ((rcell .Q3).kids.getD 0 []).map (xy (rcell .Q3).vs) ≠
    (nodes2 .Q3).map (emb 0) := by
  decide +kernel

end Verif.Dof
