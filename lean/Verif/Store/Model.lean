import Verif.Fn.Model
import Verif.Arr.ExpProps

/-!
# Model: the data of nodal functions

`Nodal.set_data`, `data`, `modify_data`, `add_samples` (function.py 1587-1776) with the numpy
arrays they store.  An array has an identity: several handles may show the same memory.
The memory of an array of shape `(rows, S)` is the list of its `S` columns; `data[:, None]`
of a vector is a view of the same memory.  All functions of a history live on one basis with
the dofs `L` (fem.py 894-931).  `Nodal` functions are created from data (not from rules `f`,
see C67, and not without data); one variable, except for `addShape`.
-/

namespace Verif.Store
open Verif.Fn (d2iArr)

/-- Exceptions. -/
inductive Err where
  | assertion
  | index
  | value
  | name
  deriving DecidableEq, Repr

/-- Memory, arrays the user has a reference to (address, number of rows, number of axes), and
`Nodal` objects (address of `__data`). -/
structure St (K : Type) where
  heap : List (List (List K))
  own : List (Nat × Nat × Nat)
  fs : List Nat
  deriving DecidableEq, Repr

/-- Nothing yet. -/
def St.new (K : Type) : St K := ⟨[], [], []⟩

/-- An argument: an array made for this call (number of rows, number of axes, columns), or an
array the user has. -/
inductive Arg (K : Type) where
  | lit (rows ndim : Nat) (cols : List (List K))
  | var (i : Nat)
  deriving DecidableEq, Repr

/-- What the user does. -/
inductive Op (K : Type) where
  | mk (rows ndim : Nat) (cols : List (List K))
  | write (i s r : Nat) (v : K)
  | data (k : Nat)
  | new (a : Arg K)
  | set (k : Nat) (a : Arg K)
  | modify (k : Nat) (vals : List K) (s : Nat) (dofs : Option (List Nat))
  | add (k : Nat) (a : Arg K)
  deriving DecidableEq, Repr

variable {K : Type}

/-- Is this an array?  Vectors have one column. -/
def valid (rows ndim : Nat) (cols : List (List K)) : Bool :=
  decide (1 ≤ ndim) && cols.all (fun c => decide (c.length = rows)) &&
    (decide (ndim ≠ 1) || decide (cols.length = 1))

/-- The argument in memory. -/
def load (s : St K) : Arg K → Except Err (St K × Nat × Nat × Nat)
  | .lit rows ndim cols =>
    if valid rows ndim cols then .ok ({ s with heap := s.heap ++ [cols] }, s.heap.length, rows, ndim)
    else .error .value
  | .var i => match s.own[i]? with
    | some (a, rows, ndim) => .ok (s, a, rows, ndim)
    | none => .error .name

/-- `d2i[dofs]` with the entry `-1` read as the last row (fem.py 1105-1109, numpy); `None`
gives the whole array. -/
def rowsOf (L : List Nat) : Option (List Nat) → Except Err (List Nat)
  | none => match d2iArr L with
    | some A => .ok (A.map (fun i => i.getD (L.length - 1)))
    | none => .error .index
  | some ds => match d2iArr L with
    | some A => ds.mapM (fun d => match A[d]? with
      | some i => .ok (i.getD (L.length - 1))
      | none => .error .index)
    | none => .error .index

/-- `column[idx] = vals`: one value after the other, so that the last one counts. -/
def assign (idx : List Nat) (vals : List K) (c : List K) : List K :=
  (idx.zip vals).foldl (fun c p => c.set p.1 p.2) c

/-- Broadcasting of the values to the indices: a single value is used for all. -/
def spread (n : Nat) (vals : List K) : Except Err (List K) :=
  if vals.length = n then .ok vals
  else match vals with
    | [v] => .ok (List.replicate n v)
    | _ => .error .value

/-- One step and the exception it ends with. -/
def step (L : List Nat) (s : St K) : Op K → St K × Option Err
  -- the user creates an array
  | .mk rows ndim cols =>
    if valid rows ndim cols then
      ({ s with heap := s.heap ++ [cols], own := s.own ++ [(s.heap.length, rows, ndim)] }, none)
    else (s, some .value)
  -- the user writes one entry of an array of his
  | .write i j r v => match s.own[i]? with
    | none => (s, some .name)
    | some (a, rows, _) =>
      if r < rows ∧ j < (s.heap.getD a []).length then
        ({ s with heap := s.heap.modify a (fun cols => cols.modify j (fun c => c.set r v)) }, none)
      else (s, some .index)
  -- `data()` (function.py 1640-1644): the array itself
  | .data k => match s.fs[k]? with
    | none => (s, some .name)
    | some a => ({ s with own := s.own ++ [(a, L.length, 2)] }, none)
  -- `Nodal(data=a, basis=basis)` (function.py 1587-1630)
  | .new a => match load s a with
    | .error e => (s, some e)
    | .ok (t, a, rows, ndim) =>
      if rows ≠ L.length then (t, some .assertion)
      else if 2 < ndim then (t, some .assertion)
      else ({ t with fs := t.fs ++ [a] }, none)
  -- `set_data(data=a)` (function.py 1660-1718): the array is stored, then its dimension is
  -- checked
  | .set k a => match s.fs[k]? with
    | none => (s, some .name)
    | some _ => match load s a with
      | .error e => (s, some e)
      | .ok (t, a, rows, ndim) =>
        if rows ≠ L.length then (t, some .assertion)
        else if 2 < ndim then ({ t with fs := t.fs.set k a }, some .assertion)
        else ({ t with fs := t.fs.set k a }, none)
  -- `modify_data(data, i_sample, dofs)` (function.py 1721-1741); a matrix with one column is
  -- flattened first
  | .modify k vals j dofs => match s.fs[k]? with
    | none => (s, some .name)
    | some a => match rowsOf L dofs with
      | .error e => (s, some e)
      | .ok idx =>
        if j < (s.heap.getD a []).length then
          match spread idx.length vals with
          | .error e => (s, some e)
          | .ok vs => ({ s with heap := s.heap.modify a (fun cols => cols.modify j (assign idx vs)) }, none)
        else (s, some .index)
  -- `add_samples(data)` (function.py 1744-1776): `np.append` copies; `dofhandler.n_dofs` is
  -- the number of dofs of the basis as in `set_data` (fem.py 1098-1102)
  | .add k a => match s.fs[k]? with
    | none => (s, some .name)
    | some b => match load s a with
      | .error e => (s, some e)
      | .ok (t, a, rows, ndim) =>
        if rows ≠ L.length then (t, some .assertion)
        else if 2 < ndim then (t, some .value)
        else ({ t with heap := t.heap ++ [t.heap.getD b [] ++ t.heap.getD a []],
                       fs := t.fs.set k t.heap.length }, none)

/-- A history; exceptions are caught by the user. -/
def run (L : List Nat) (s : St K) : List (Op K) → St K
  | [] => s
  | o :: ops => run L (step L s o).1 ops

/-- `n_samples()` (function.py 1633-1637). -/
def nSamples (s : St K) (k : Nat) : Option Nat := (s.fs[k]?).map (fun a => (s.heap.getD a []).length)

/-- The nodal value of function `k` in sample `j` at dof `d`, as `eval` reads it
(`data[d2i[dofs]]`, function.py 1924, see C67). -/
def value (L : List Nat) (s : St K) (k j d : Nat) : Option K := do
  let a ← s.fs[k]?
  let c ← (s.heap.getD a [])[j]?
  let i ← L.idxOf? d
  c[i]?

/-! ## Specification -/

/-- Arrays of the user and functions are independent tables (columns). -/
structure Sp (K : Type) where
  arrays : List (Nat × Nat × List (List K))
  funs : List (List (List K))
  deriving DecidableEq, Repr

/-- The table an argument stands for. -/
def Arg.table (S : Sp K) : Arg K → Option (Nat × Nat × List (List K))
  | .lit rows ndim cols => if valid rows ndim cols then some (rows, ndim, cols) else none
  | .var i => S.arrays[i]?

/-- A table of values at the dofs: one row per dof, at most two axes. -/
def fits (L : List Nat) (t : Nat × Nat × List (List K)) : Bool :=
  decide (t.1 = L.length) && decide (t.2.1 ≤ 2)

/-- The column with new values at some dofs: at each dof the last value given for it. -/
def newValues (L : List Nat) (ds : List Nat) (vals : List K) (c : List K) : List K :=
  (L.zip c).map (fun p => ((ds.zip vals).reverse.lookup p.1).getD p.2)

/-- What a step means; `none`: it is rejected and nothing happens. -/
def spec (L : List Nat) (S : Sp K) : Op K → Option (Sp K)
  | .mk rows ndim cols =>
    if valid rows ndim cols then some { S with arrays := S.arrays ++ [(rows, ndim, cols)] } else none
  | .write i j r v => (S.arrays[i]?).bind (fun t =>
      if r < t.1 ∧ j < t.2.2.length then
        some { S with arrays := S.arrays.set i (t.1, t.2.1, t.2.2.modify j (fun c => c.set r v)) }
      else none)
  | .data k => (S.funs[k]?).map (fun cols => { S with arrays := S.arrays ++ [(L.length, 2, cols)] })
  | .new a => (a.table S).bind (fun t => if fits L t then some { S with funs := S.funs ++ [t.2.2] } else none)
  | .set k a => (S.funs[k]?).bind (fun _ => (a.table S).bind (fun t =>
      if fits L t then some { S with funs := S.funs.set k t.2.2 } else none))
  | .modify k vals j dofs => (S.funs[k]?).bind (fun cols =>
      let ds := dofs.getD L
      if (∀ d ∈ ds, d ∈ L) ∧ j < cols.length ∧ (vals.length = ds.length ∨ vals.length = 1) then
        let vs := if vals.length = ds.length then vals else ds.flatMap (fun _ => vals)
        some { S with funs := S.funs.set k (cols.modify j (newValues L ds vs)) }
      else none)
  | .add k a => (S.funs[k]?).bind (fun cols => (a.table S).bind (fun t =>
      if fits L t then some { S with funs := S.funs.set k (cols ++ t.2.2) } else none))

/-- A history; rejected steps change nothing. -/
def specRun (L : List Nat) (S : Sp K) : List (Op K) → Sp K
  | [] => S
  | o :: ops => specRun L ((spec L S o).getD S) ops

/-- No array is shared: data are arrays made for the call, with at most two axes (arrays of
the user may be added as samples); only values at dofs of the basis are modified. -/
def Op.fresh (L : List Nat) : Op K → Prop
  | .mk .. => True
  | .write .. => True
  | .data _ => False
  | .new (.lit _ ndim _) => ndim ≤ 2
  | .new (.var _) => False
  | .set _ (.lit _ ndim _) => ndim ≤ 2
  | .set _ (.var _) => False
  | .modify _ _ _ (some ds) => ∀ d ∈ ds, d ∈ L
  | .modify _ _ _ none => L = List.range L.length
  | .add .. => True

/-! ## Functions of two variables -/

/-- The shape of `np.append(x, y, axis=1)`. -/
def append1 : List Nat → List Nat → Except Err (List Nat)
  | [a, b], [a', b'] => if a = a' then .ok [a, b + b'] else .error .value
  | [a, b, c], [a', b', c'] => if a = a' ∧ c = c' then .ok [a, b + b', c] else .error .value
  | _, _ => .error .value

/-- `add_samples` for a function of `nv` variables whose data have the shape `old`
(function.py 1758-1776): the shape of the data afterwards. -/
def addShape (n nv : Nat) (old new : List Nat) : Except Err (List Nat) :=
  match new with
  | [] => .error .index
  | m :: _ =>
    if m ≠ n then .error .assertion
    else match append1 old (if new.length = 1 then new ++ [1] else new) with
      | .error e => .error e
      | .ok sh => if sh.headD 0 ≠ n then .error .assertion
        else if nv + 1 ≠ sh.length then .error .assertion
        else .ok sh

end Verif.Store
