import Verif.Geom.GTree
import Mathlib.Algebra.Order.Field.Basic
import Mathlib.Algebra.Order.Ring.Rat

/-!
# Model of `Interval` and `Mesh1D` (`/repo/src/mesh.py` 2699-3260, 6591-6770)

Coordinates live in an arbitrary ordered field `K` (floating point rounding is not
modelled).  Vertices are represented by their coordinate.
-/

namespace Verif.OneD
open Verif.Geom

variable {K : Type} [Field K] [LinearOrder K]

/-- An `Interval` (mesh.py 2699-2717): base, head, number of children and flags. -/
structure Itv (K : Type) where
  lo : K
  hi : K
  n : Nat
  flags : Finset Nat

abbrev Cell (K : Type) := GTree (Itv K)

/-- The loop of `Interval.split` (mesh.py 2951-2974): `i` runs from `n - rem` to `n-1`,
`base` is the head of the previous child.  Children of a regular tree inherit
`n_children` (mesh.py 326-336) and carry no flags (mesh.py 262). -/
def splitLoop (x0 x1 : K) (n : Nat) : Nat → Nat → K → List (Cell K)
  | _, 0, _ => []
  | i, r + 1, base =>
    let head := if i = n - 1 then x1 else x0 + (i + 1 : K) * (x1 - x0) / n
    .node ⟨base, head, n, ∅⟩ [] :: splitLoop x0 x1 n (i + 1) r head

/-- `Interval.split()` (mesh.py 2940-2982).  Splitting a cell that already has children
replaces them, as in the code. -/
def split : Cell K → Cell K
  | .node d _ => .node d (splitLoop d.lo d.hi d.n 0 d.n d.lo)

/-- `delete_children()` (mesh.py 850-879). -/
def deleteKids : Cell K → Cell K
  | .node d _ => .node d []

/-- `mark(flag)` (mesh.py 503-521). -/
def mark (f : Nat) : Cell K → Cell K
  | .node d ks => .node { d with flags := insert f d.flags } ks

/-- `unmark(flag)` without recursion (mesh.py 524-571). -/
def unmark (f : Nat) : Cell K → Cell K
  | .node d ks => .node { d with flags := d.flags.erase f } ks

/-- Mesh operations on single cells, each cell given by its path. -/
inductive Op where
  | split (p : Path)
  | coarsen (p : Path)
  | mark (p : Path) (f : Nat)
  | unmark (p : Path) (f : Nat)

def step (F : List (Cell K)) : Op → List (Cell K)
  | .split p => modifyL split F p
  | .coarsen p => modifyL deleteKids F p
  | .mark p f => modifyL (mark f) F p
  | .unmark p f => modifyL (unmark f) F p

def run (F : List (Cell K)) (ops : List Op) : List (Cell K) := ops.foldl step F

/-- The root intervals of `Mesh1D` built from sorted points (mesh.py 6608-6619, with the
half-edges `[i, i+1]` of mesh.py 6037-6043); `Interval(v_base, v_head)` has two
children. -/
def roots : List K → List (Cell K)
  | a :: b :: r => .node ⟨a, b, 2, ∅⟩ [] :: roots (b :: r)
  | _ => []

/-- `np.linspace(a, b, n+1)` (mesh.py 5617). -/
def linspace (a b : K) (n : Nat) : List K :=
  (List.range (n + 1)).map (fun i => if i = n then b else a + i * ((b - a) / n))

/-- Is the cell in the submesh?  (`sf is None or is_marked(sf)`.) -/
def inSub (sf : Option Nat) (d : Itv K) : Bool :=
  match sf with
  | none => true
  | some f => decide (f ∈ d.flags)

/-- `Interval.contains_points` (mesh.py 3057-3083) for one point. -/
def contains (d : Itv K) (x : K) : Bool := !decide (x < d.lo) && !decide (x > d.hi)

/-- `Interval.reference_map(x, mapsto='physical')` (mesh.py 3180-3189). -/
def toPhys (d : Itv K) (x : K) : K := d.lo + (d.hi - d.lo) * x

/-- `Interval.reference_map(x, mapsto='reference')` (mesh.py 3190-3191). -/
def toRef (d : Itv K) (x : K) : K := (x - d.lo) / (d.hi - d.lo)

/-- `mg['jac_r2p']` (mesh.py 3203-3207). -/
def jacR2P (d : Itv K) : K := d.hi - d.lo

/-- `mg['jac_p2r']` (mesh.py 3209-3213). -/
def jacP2R (d : Itv K) : K := 1 / (d.hi - d.lo)

/-- `Interval.subcell_position` (mesh.py 3086-3128). -/
def subcellPosition (d s : Itv K) : Except Err (K × K) :=
  let width := (s.hi - s.lo) / (d.hi - d.lo)
  let pos := (s.lo - d.lo) / (d.hi - d.lo)
  if pos ≥ 0 ∧ pos ≤ 1 then .ok (pos, width) else .error .assertion

/-! ## `get_neighbor`

`previous()`/`next()` of a child are its neighbouring siblings (mesh.py 2976-2982), those
of a root the neighbouring roots (mesh.py 6623-6648); the first/last sibling has none.
A cell is given by its reversed path. -/

/-- Go up until there is a "previous" (mesh.py 2864-2880).  The result is the reversed
path of `prev`. -/
def leftUp : Path → Option Path
  | [] => none
  | i :: r => if i = 0 then leftUp r else some ((i - 1) :: r)

/-- Number of cells among which the cell with reversed parent path `r` has its siblings. -/
def nSib (F : List (Cell K)) : Path → Nat
  | [] => F.length
  | i :: r => match getL F (i :: r).reverse with
    | some t => t.kids.length
    | none => 0

/-- Go up until there is a "next" (mesh.py 2896-2916); the last of the siblings has
none. -/
def rightUp (F : List (Cell K)) : Path → Option Path
  | [] => none
  | i :: r => if i + 1 < nSib F r then some ((i + 1) :: r) else rightUp F r

/-- `while nxt.has_children(flag): nxt = nxt.get_child(nxt.n_children()-1)`
(mesh.py 2884-2887). -/
def lastLeaf (mk : Itv K → Bool) : Cell K → Path
  | .node d ks =>
    if hasKids mk (.node d ks) then go ks 0 else []
where
  go : List (Cell K) → Nat → Path
    | [], _ => []
    | [k], i => i :: lastLeaf mk k
    | _ :: k' :: ks, i => go (k' :: ks) (i + 1)

/-- `while prev.has_children(flag): prev = prev.get_child(0)` (mesh.py 2920-2923). -/
def firstLeaf (mk : Itv K → Bool) : Cell K → Path
  | .node _ [] => []
  | .node d (k :: ks) =>
    if hasKids mk (.node d (k :: ks)) then 0 :: firstLeaf mk k else []

/-- `get_neighbor(0, subforest_flag, mode='physical')` (mesh.py 2854-2888). The argument
`per` tells whether the mesh is periodic, in which case the base of the first root is
paired with the last root (mesh.py 6627-6645). -/
def leftNbr (mk : Itv K → Bool) (per : Bool) (F : List (Cell K)) (p : Path) : Option Path :=
  let prev := match leftUp p.reverse with
    | some r => some r.reverse
    | none => if per then some [F.length - 1] else none
  match prev with
  | none => none
  | some q => match getL F q with
    | some t => some (q ++ lastLeaf mk t)
    | none => none

/-- `get_neighbor(1, subforest_flag, mode='physical')` (mesh.py 2890-2924). -/
def rightNbr (mk : Itv K → Bool) (per : Bool) (F : List (Cell K)) (p : Path) : Option Path :=
  let next := match rightUp F p.reverse with
    | some r => some r.reverse
    | none => if per then some [0] else none
  match next with
  | none => none
  | some q => match getL F q with
    | some t => some (q ++ firstLeaf mk t)
    | none => none

/-- `Mesh1D.get_boundary_cells` (mesh.py 6727-6752): the last leaf (in traversal order)
without left/right neighbour; `none` if a variable stays unbound or the mesh is
periodic. -/
def boundaryCells (mk : Itv K → Bool) (per : Bool) (F : List (Cell K)) (leaves : List Path) :
    Option (Path × Path) :=
  if per then none else
  let r := leaves.foldl (fun (acc : Option Path × Option Path) p =>
    (if leftNbr mk per F p = none then some p else acc.1,
     if rightNbr mk per F p = none then some p else acc.2)) (none, none)
  match r with
  | (some a, some b) => some (a, b)
  | _ => none

/-! ### Level-wise neighbours (mesh.py 2786-2846) -/

/-- Descend with `get_child(j)` until the depth matches (mesh.py 2801-2812, 2832-2842). -/
def descend (mk : Itv K → Bool) (j : Nat) : Nat → Cell K → Option Path
  | 0, _ => some []
  | k + 1, t =>
    if hasKids mk t then
      match t.kids[j]? with
      | some c => (descend mk j k c).map (j :: ·)
      | none => none
    else none

/-- `get_neighbor(0, subforest_flag, mode='level-wise')` (mesh.py 2790-2819). -/
def levelLeft (mk : Itv K → Bool) (per : Bool) (F : List (Cell K)) (p : Path) : Option Path :=
  match p.reverse with
  | [] => none
  | i :: r =>
    if i ≠ 0 then some (((i - 1) :: r).reverse)
    else if per && p.all (· = 0) then
      match F[F.length - 1]? with
      | some t => (descend mk 0 r.length t).map ((F.length - 1) :: ·)
      | none => none
    else none

end Verif.OneD
