import Mathlib.Data.List.Basic
import Mathlib.Tactic.Common

/-!
# Model: points given by the user

`convert_to_array` (mesh.py 13-150), through which all methods that take points read them, and `Map.parse_x` (function.py 219-258).
Coordinates are of any type `K`.
-/

namespace Verif.Arr

/-- Exceptions. -/
inductive Err where
  | assertion
  | exception
  | value
  deriving DecidableEq, Repr

/-- A numpy array: its shape and its entries, row by row. -/
structure Nd (K : Type) where
  shape : List Nat
  data : List K
  deriving DecidableEq, Repr

/-- Entries of a Python list. -/
inductive Item (K : Type) where
  | vertex (x : List K)
  | tuple (x : List K)
  | num (x : K)
  | arr (a : Nd K)

/-- What the user may pass. -/
inductive Inp (K : Type) where
  | list (l : List (Item K))
  | vertex (x : List K)
  | num (x : K)
  | tuple (x : List K)
  | arr (a : Nd K)

/-- What comes back: an array, or a tuple that was not converted. -/
inductive Out (K : Type) where
  | arr (a : Nd K)
  | tuple (x : List K)
  deriving DecidableEq, Repr

/-- `np.array` of a list of arrays (or, with `shape = [length]`, tuples): they must have the same shape; `np.array([])` has shape `(0,)`. -/
def stack {K : Type} : List (Nd K) → Except Err (Nd K)
  | [] => .ok ⟨[0], []⟩
  | a :: l => if l.all (fun b => b.shape = a.shape) then .ok ⟨(l.length + 1) :: a.shape, ((a :: l).map (·.data)).flatten⟩ else .error .value

/-- A tuple of numbers as an array. -/
def ofTuple {K : Type} (x : List K) : Nd K := ⟨[x.length], x⟩

/-- `x[:, np.newaxis]` -/
def newAxis {K : Type} (a : Nd K) : Nd K := match a.shape with
  | [] => a
  | n :: s => ⟨n :: 1 :: s, a.data⟩

/-- `isinstance(xi, Vertex)`, with `xi.coordinates()` (mesh.py 48-53). -/
def asVertex {K : Type} : Item K → Option (Nd K)
  | .vertex x => some (ofTuple x)
  | _ => none

/-- `type(xi) is tuple` (mesh.py 55-59). -/
def asTuple {K : Type} : Item K → Option (Nd K)
  | .tuple x => some (ofTuple x)
  | _ => none

/-- `type(xi) is np.ndarray` (mesh.py 66-70). -/
def asArr {K : Type} : Item K → Option (Nd K)
  | .arr a => some a
  | _ => none

/-- `type(x) is list` (mesh.py 44-72).  The third test, `type(xi) is numbers.Real`, fails for every number, because `numbers.Real` is an abstract
class. -/
def ofList {K : Type} (l : List (Item K)) : Except Err (Nd K) :=
  match l.mapM asVertex with
  | some xs => stack xs
  | none => match l.mapM asTuple with
    | some xs => stack xs
    | none => match l.mapM asArr with
      | some xs => stack xs
      | none => .error .exception

/-- `type(x) is np.ndarray` (mesh.py 106-144): two `if`s, so that a vector with one entry passes the second one as well. -/
def ofArr {K : Type} (dim : Option Nat) (a : Nd K) : Except Err (Nd K) :=
  match a.shape with
  | [n] => do
    let b ← if n = 1 then
        (if dim = none ∨ dim = some 1 then .ok (newAxis a) else .error .assertion)
      else .ok a
    if n = 2 then
      (if dim = some 2 then .ok ⟨[1, 2], b.data⟩ else .ok (newAxis b))
    else .ok (newAxis b)
  | [_, d] => if d ≤ 2 then .ok a else .error .assertion
  | _ => .error .exception

/-- `convert_to_array(x, dim)` (mesh.py 43-150). -/
def convert {K : Type} (dim : Option Nat) : Inp K → Except Err (Out K)
  | .list l => (ofList l).map .arr
  | .vertex x => .ok (.arr ⟨[1, x.length], x⟩)
  | .num x => if dim = none ∨ dim = some 1 then .ok (.arr ⟨[1, 1], [x]⟩) else .error .assertion
  | .tuple [x] => .ok (.arr ⟨[1, 1], [x]⟩)
  | .tuple [x, y] => .ok (.arr ⟨[1, 2], [x, y]⟩)
  | .tuple l => .ok (.tuple l)
  | .arr a => (ofArr dim a).map .arr

/-- The number of rows of what `convert_to_array` returned (`xx[0].shape[0]`; a tuple has no `shape`). -/
def rows {K : Type} : Out K → Except Err Nat
  | .arr ⟨n :: _, _⟩ => .ok n
  | .arr ⟨[], _⟩ => .error .exception
  | .tuple _ => .error .exception

/-- `Map.parse_x(x)` for a function of `n_variables` variables, given as a tuple of `n_variables` entries (function.py 219-258). -/
def parseX {K : Type} (dim : Option Nat) (xs : List (Inp K)) : Except Err (List (Out K)) := do
  let xx ← xs.mapM (convert dim)
  let ns ← xx.mapM rows
  if ns.all (fun n => some n = ns.head?) then .ok xx else .error .assertion

/-! ## Specification -/

/-- The points meant by an input, according to the documentation of `convert_to_array`: `Means dim x d ps` — `x` stands for the list `ps` of
`d`-dimensional points. -/
inductive Means {K : Type} (dim : Option Nat) : Inp K → Nat → List (List K) → Prop
  | vertices {d} (ps : List (List K)) : (∀ p ∈ ps, p.length = d) → Means dim (.list (ps.map .vertex)) d ps
  | tuples {d} (ps : List (List K)) : (∀ p ∈ ps, p.length = d) → Means dim (.list (ps.map .tuple)) d ps
  | numbers (xs : List K) : Means dim (.list (xs.map .num)) 1 (xs.map (fun x => [x]))
  | arrays {d} (ps : List (List K)) : (∀ p ∈ ps, p.length = d) → Means dim (.list (ps.map (fun p => .arr ⟨[d], p⟩))) d ps
  | vertex (p : List K) : Means dim (.vertex p) p.length [p]
  | num (x : K) : Means dim (.num x) 1 [[x]]
  | tuple (p : List K) : Means dim (.tuple p) p.length [p]
  | vector (xs : List K) : ¬(xs.length = 2 ∧ dim = some 2) → Means dim (.arr ⟨[xs.length], xs⟩) 1 (xs.map (fun x => [x]))
  | pair (x y : K) : dim = some 2 → Means dim (.arr ⟨[2], [x, y]⟩) 2 [[x, y]]
  | matrix {d} (ps : List (List K)) : (∀ p ∈ ps, p.length = d) → Means dim (.arr ⟨[ps.length, d], ps.flatten⟩) d ps

/-- The `(n, d)` array with these points as rows. -/
def table {K : Type} (d : Nat) (ps : List (List K)) : Out K := .arr ⟨[ps.length, d], ps.flatten⟩

/-- Not a vector with one entry. -/
def OneVector {K : Type} (x : Inp K) : Prop := ∃ y, x = .arr ⟨[1], [y]⟩

/-- A nonempty list of numbers. -/
def NumberList {K : Type} (x : Inp K) : Prop := ∃ y l, x = .list (.num y :: l)

end Verif.Arr
