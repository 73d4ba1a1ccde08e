import Verif.Quad.Model

/-!
# Model of the doubly connected edge list `DCEL` (`/repo/src/mesh.py` 5325-6540)

Tables are lists; an index `-1` ("none") is kept as the integer `-1`, and reading a table at
`-1` reads its last entry, as numpy does.
-/

namespace Verif.Dcel
open Verif.Geom Verif.Quad

/-- One row of the table `half_edges`. -/
structure HE where
  base : Nat
  head : Nat
  prev : Nat
  next : Nat
  face : Nat
deriving DecidableEq, Repr

/-- The half-edges of one face (mesh.py 6079-6139): `fc` the vertex indices of the face, `k`
its number, `c` the running `half_edge_count`. `(i-1)%n_sides` is Python's nonnegative
remainder. -/
def faceHEs (k c : Nat) (fc : List Nat) : List HE :=
  (List.range fc.length).map (fun i =>
    { base := fc.getD (i % fc.length) 0
      head := fc.getD ((i + 1) % fc.length) 0
      prev := c + (i + fc.length - 1) % fc.length
      next := c + (i + 1) % fc.length
      face := k })

/-- The loop over the faces (mesh.py 6078-6143). -/
def heLoop : List (List Nat) → Nat → Nat → List HE
  | [], _, _ => []
  | fc :: r, k, c => faceHEs k c fc ++ heLoop r (k + 1) (c + fc.length)

/-- The table `half_edges` after `determine_half_edges()` of a 2D grid. -/
def halfEdges (faces : List (List Nat)) : List HE := heLoop faces 0 0

/-- `np.argwhere(...)` for half-edge `h` (mesh.py 6152). -/
def rows (H : List HE) (h : HE) : List Nat :=
  (List.range H.length).filter (fun j => match H[j]? with
    | some g => decide (g.base = h.head ∧ g.head = h.base)
    | none => false)

/-- `half_edges['twin'][i]` (mesh.py 6148-6157). -/
def twin (H : List HE) (i : Nat) : Int :=
  match H[i]? with
  | none => -1
  | some h => match rows H h with
    | [j] => j
    | _ => -1

/-- Reading a numpy array at a possibly negative index. -/
def npGet {α : Type} (l : List α) (i : Int) : Option α :=
  if 0 ≤ i then l[i.toNat]? else if 0 ≤ l.length + i then l[(l.length + i).toNat]? else none

/-- `get_neighbor(i_face, i_he)` in 2D (mesh.py 6262-6279), for a twin table `tw`. -/
def neighbor2 (H : List HE) (tw : Nat → Int) (f e : Nat) : Except Err (Option Nat) :=
  match H[e]? with
  | none => .error .attribute
  | some h =>
    if h.face = f then
      match npGet H (tw e) with
      | none => .error .attribute
      | some g => .ok (if (g.face : Int) ≠ -1 then some g.face else none)
    else .error .assertion

/-! ## 1D -/

/-- `half_edges['prev']`, `['next']` of a 1D grid with `n` points (mesh.py 6037-6049). -/
def prev1 (_n : Nat) (i : Nat) : Int := (i : Int) - 1
def next1 (n : Nat) (i : Nat) : Int := if i + 1 < n - 1 then (i : Int) + 1 else -1

/-- `make_periodic` of a 1D grid (mesh.py 6436-6441): `next[-1] = 0`, `prev[0] = n_he - 1`. -/
def perNext1 (n : Nat) (i : Nat) : Int := if i = n - 2 then 0 else next1 n i
def perPrev1 (n : Nat) (i : Nat) : Int := if i = 0 then ((n : Int) - 1) - 1 else prev1 n i

/-- `get_neighbor(i_he, i_point)` in 1D (mesh.py 6246-6261, 6276-6279). -/
def neighbor1 (prev next : Nat → Int) (i p : Nat) : Except Err (Option Int) :=
  if p = i ∨ p = i + 1 then
    let j := if p = i then prev i else next i
    .ok (if j ≠ -1 then some j else none)
  else .error .assertion

/-! ## The rectangular grid (mesh.py 5620-5652) -/

section Grid
variable {K : Type} [Field K]

/-- `np.linspace(a, b, n+1)[i]`. -/
def lin (a b : K) (n i : Nat) : K := if i = n then b else a + i * ((b - a) / n)

/-- `points['coordinates']` (mesh.py 5634-5638). -/
def gridPoints (xmin xmax ymin ymax : K) (nx ny : Nat) : List (Pt K) :=
  (List.range (ny + 1)).flatMap (fun iy => (List.range (nx + 1)).map (fun ix =>
    ⟨lin xmin xmax nx ix, lin ymin ymax ny iy⟩))

/-- `idx[ix, iy]` (mesh.py 5643). -/
def gidx (nx ix iy : Nat) : Nat := iy * (nx + 1) + ix

/-- `faces['connectivity']` (mesh.py 5644-5648). -/
def gridFaces (nx ny : Nat) : List (List Nat) :=
  (List.range ny).flatMap (fun iy => (List.range nx).map (fun ix =>
    [gidx nx ix iy, gidx nx (ix + 1) iy, gidx nx (ix + 1) (iy + 1), gidx nx ix (iy + 1)]))

/-- The quadrilateral of a face, its vertices being the points of the face in order
(mesh.py 7043-7071). -/
def faceQuad (pts : List (Pt K)) (fc : List Nat) : Option (QD K) :=
  match fc with
  | [a, b, c, d] =>
    match pts[a]?, pts[b]?, pts[c]?, pts[d]? with
    | some p, some q, some r, some s => some ⟨p, q, r, s, ∅⟩
    | _, _, _, _ => none
  | _ => none

end Grid

/-! ## Boundary half-edges (mesh.py 6282-6334)

`bnd_hes_sorted` is a list of deques which is changed while both `for` loops iterate over
it: Python's list iterator keeps a position, so the loops are index loops that compare the
position with the current length. -/

def conn (H : List HE) (i : Nat) : Nat × Nat := match H[i]? with
  | some h => (h.base, h.head)
  | none => (0, 0)

/-- `list.index(g)` followed by `list.pop`: removes the first deque equal to `g`. -/
def popFirst (L : List (List Nat)) (g : List Nat) : List (List Nat) := L.erase g

/-- Replace the deque object `g1`.  The object is identified by its position in the list; if
`g1` itself was popped (`none`) the change is not visible in the list any more. -/
def setAt (L : List (List Nat)) (i : Option Nat) (g : List Nat) : List (List Nat) :=
  match i with
  | some i => L.set i g
  | none => L

/-- State of the inner loop: the list, the position of `g1` in the list (`none` once `g1` was
popped), the deque `g1`, and `merger_activity`. -/
structure MS where
  L : List (List Nat)
  i : Option Nat
  g1 : List Nat
  act : Bool

/-- Position of `g1` after the deque at position `m` was popped. -/
def shift (i : Option Nat) (m : Nat) : Option Nat :=
  match i with
  | none => none
  | some i => if m < i then some (i - 1) else if m = i then none else some i

/-- Body of the loop over `g2` (mesh.py 6312-6329). -/
def mergeBody (C : Nat → Nat × Nat) (s : MS) (g2 : List Nat) : MS :=
  match s.g1.head?, s.g1.getLast?, g2.head?, g2.getLast? with
  | some a, some b, some c, some d =>
    if (C b).2 = (C c).1 then
      if s.L.length > 1 then
        let m := s.L.findIdx (· = g2)
        let i' := shift s.i m
        let g1' := s.g1 ++ g2
        ⟨setAt (popFirst s.L g2) i' g1', i', g1', true⟩
      else s
    else if (C a).1 = (C d).2 then
      if s.L.length > 1 then
        let m := s.L.findIdx (· = g2)
        let i' := shift s.i m
        let g1' := g2.reverse ++ s.g1
        ⟨setAt (popFirst s.L g2) i' g1', i', g1', true⟩
      else s
    else s
  | _, _, _, _ => s

/-- `for g2 in bnd_hes_sorted` with iterator position `j`; `fuel` bounds the iterations (the
list never grows, so its initial length suffices). -/
def innerLoop (C : Nat → Nat × Nat) : Nat → Nat → MS → MS
  | 0, _, s => s
  | fuel + 1, j, s =>
    match s.L[j]? with
    | none => s
    | some g2 => innerLoop C fuel (j + 1) (mergeBody C s g2)

/-- `for g1 in bnd_hes_sorted` with iterator position `i`; returns the list and the last value
of `merger_activity` (it is reset for every `g1`). -/
def outerLoop (C : Nat → Nat × Nat) : Nat → Nat → List (List Nat) → Bool → List (List Nat) × Bool
  | 0, _, L, a => (L, a)
  | fuel + 1, i, L, a =>
    match L[i]? with
    | none => (L, a)
    | some g1 =>
      let s := innerLoop C L.length 0 ⟨L, some i, g1, false⟩
      outerLoop C fuel (i + 1) s.L s.act

/-- `while True` (mesh.py 6304-6331), at most `fuel` rounds. -/
def whileLoop (C : Nat → Nat × Nat) : Nat → List (List Nat) → List (List Nat)
  | 0, L => L
  | fuel + 1, L =>
    match outerLoop C L.length 0 L false with
    | (L', true) => whileLoop C fuel L'
    | (L', false) => L'

/-- The half-edges without twin (mesh.py 6293-6296). -/
def bndHes (n : Nat) (tw : Nat → Int) : List Nat :=
  (List.range n).filter (fun i => decide (tw i = -1))

/-- `get_boundary_half_edges()`.  Every round with activity removes a deque, so the number of
boundary half-edges bounds the number of rounds.  Without boundary half-edges the variable
`merger_activity` is never assigned. -/
def boundaryHalfEdges (H : List HE) (tw : Nat → Int) : Except Err (List (List Nat)) :=
  let b := bndHes H.length tw
  if b = [] then .error .name
  else .ok (whileLoop (conn H) (b.length + 1) (b.map (fun i => [i])))

/-- `get_boundary_points()` of a 2D grid (mesh.py 6411-6419).  The loop variable `i_he` is a
whole segment (a list), so `connectivity[i_he][0]` is the pair (base, head) of the first
half-edge of the segment. -/
def boundaryPoints (H : List HE) (tw : Nat → Int) : Except Err (List (Nat × Nat)) :=
  match boundaryHalfEdges H tw with
  | .error e => .error e
  | .ok segs => .ok (segs.filterMap (fun seg => seg.head?.map (conn H)))

/-! ## Periodic twins (mesh.py 6472-6496, 6525-6540) -/

section Periodic
variable {K : Type}

/-- The loop `for ir in range(len(right_hes))`: the first matching entry is taken and deleted.
An entry is `(he, base coordinate, head coordinate)`. -/
def findTwin (close : K → K → Bool) (l : Nat × K × K) :
    List (Nat × K × K) → Option (Nat × List (Nat × K × K))
  | [] => none
  | r :: rs =>
    if close l.2.1 r.2.2 && close l.2.2 r.2.1 then some (r.1, rs)
    else (findTwin close l rs).map (fun x => (x.1, r :: x.2))

/-- `while len(left_hes)>0: left_hes.pop()` (from the end of the list, here given reversed). -/
def pairLoop (close : K → K → Bool) : List (Nat × K × K) → List (Nat × K × K) →
    (Nat → Int) → (Nat → Int) × List (Nat × K × K)
  | [], R, tw => (tw, R)
  | l :: ls, R, tw =>
    match findTwin close l R with
    | some (r, R') =>
      pairLoop close ls R' (fun i => if i = r then (l.1 : Int) else if i = l.1 then (r : Int) else tw i)
    | none => pairLoop close ls R tw

/-- Making one direction periodic (mesh.py 6450-6496): equal numbers on both sides, all
right half-edges matched. -/
def pairSides (close : K → K → Bool) (L R : List (Nat × K × K)) (tw : Nat → Int) :
    Except Err (Nat → Int) :=
  if L.length = R.length then
    match pairLoop close L.reverse R tw with
    | (tw', []) => .ok tw'
    | _ => .error .assertion
  else .error .assertion

end Periodic

end Verif.Dcel
