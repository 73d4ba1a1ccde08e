import Mathlib.Algebra.BigOperators.Group.List.Basic
import Mathlib.Algebra.Ring.Defs
import Mathlib.Algebra.Field.Defs

/-!
# Model of `AssembledForm` (`assembler.py` 3903-4428), the cell loop of `Assembler.assemble`
(2334-2506) and `Assembler.solve` (3711-3776)

Values are elements of a commutative ring `R`: one sample is `R = K`, several samples are
`R = Fin S → K` with componentwise operations (the code multiplies numpy arrays componentwise).
Arithmetic is exact.  The parallel lists `dofs[0]`, `dofs[1]`, `vals` are appended to and popped
together; they are modelled as one list of entries.  A cellwise list is kept as a stack with its
*last* python element first, because `distribute` only pops and appends at the end.
-/

namespace Verif.Asm

/-- One entry of a bilinear form: `dofs[0][k]`, `dofs[1][k]`, `vals[k]` (assembler.py 3926-3929). -/
structure Ent (R : Type) where
  row : ℕ
  col : ℕ
  val : R
deriving DecidableEq

/-- One entry of a linear form (assembler.py 3926-3929). -/
structure Ent1 (R : Type) where
  row : ℕ
  val : R
deriving DecidableEq

/-- The dictionaries given to `distribute`: `hng[dof] = (supports, coefficients)` and
`dir_bc[dof] = value` (assembler.py 4114, 4170-4176). -/
structure Cons (R : Type) where
  hng : ℕ → Option (List ℕ × List R)
  dir : ℕ → Option R

variable {R : Type} [CommRing R] {κ : Type} [DecidableEq κ]

/-- `R, C = np.meshgrid(tst, trl)`, `ravel()`, `vals.reshape(.., order='F')` (assembler.py
4069-4090): `meshgrid` gives arrays of shape `(n_trial, n_test)` with `R[i,j] = tst[j]`,
`C[i,j] = trl[i]`, read in C order; `vals` has shape `(n_test, n_trial)`, read in Fortran order. -/
def gridEntries (tst trl : List ℕ) (vals : ℕ → ℕ → R) : List (Ent R) :=
  (List.range (trl.length * tst.length)).map fun k =>
    ⟨tst.getD (k % tst.length) 0, trl.getD (k / tst.length) 0, vals (k % tst.length) (k / tst.length)⟩

/-- The entries of a linear form on one cell (assembler.py 4103-4109). -/
def vecEntries (tst : List ℕ) (vals : ℕ → R) : List (Ent1 R) :=
  (List.range tst.length).map fun k => ⟨tst.getD k 0, vals k⟩

/-- State of the loop of `distribute` for a bilinear form (assembler.py 4225-4282): remaining
entries (last python element first), aggregate data and Dirichlet correction in append order. -/
structure St2 (R : Type) where
  stack : List (Ent R)
  agg : List (Ent R)
  bnd : List (ℕ × R)
deriving DecidableEq

/-- One pass of `while len(rows)>0` for a bilinear form, entry `e` popped
(assembler.py 4232-4282). -/
def step2 (C : Cons R) (e : Ent R) (rest agg : List (Ent R)) (bnd : List (ℕ × R)) : St2 R :=
  match C.hng e.row with
  | some h => ⟨((h.1.zip h.2).map fun p => (⟨p.1, e.col, e.val * p.2⟩ : Ent R)).reverse ++ rest, agg, bnd⟩
  | none =>
    match C.dir e.row with
    | some _ => ⟨rest, agg, bnd⟩
    | none =>
      match C.hng e.col with
      | some h =>
        ⟨((h.1.zip h.2).map fun p => (⟨e.row, p.1, e.val * p.2⟩ : Ent R)).reverse ++ rest, agg, bnd⟩
      | none =>
        match C.dir e.col with
        | some g => ⟨rest, agg, bnd ++ [(e.row, e.val * g)]⟩
        | none => ⟨rest, agg ++ [e], bnd⟩

/-- The `while` loop for a bilinear form (assembler.py 4230-4282); `none` means that it has not
ended after `fuel` passes. -/
def loop2 (C : Cons R) : ℕ → St2 R → Option (St2 R)
  | _, ⟨[], agg, bnd⟩ => some ⟨[], agg, bnd⟩
  | 0, ⟨_ :: _, _, _⟩ => none
  | fuel + 1, ⟨e :: rest, agg, bnd⟩ => loop2 C fuel (step2 C e rest agg bnd)

/-- State of the loop for a linear form (assembler.py 4203-4224). -/
structure St1 (R : Type) where
  stack : List (Ent1 R)
  agg : List (Ent1 R)
deriving DecidableEq

/-- One pass of the loop for a linear form (assembler.py 4206-4224). -/
def step1 (C : Cons R) (e : Ent1 R) (rest agg : List (Ent1 R)) : St1 R :=
  match C.hng e.row with
  | some h => ⟨((h.1.zip h.2).map fun p => (⟨p.1, p.2 * e.val⟩ : Ent1 R)).reverse ++ rest, agg⟩
  | none =>
    match C.dir e.row with
    | some _ => ⟨rest, agg⟩
    | none => ⟨rest, agg ++ [e]⟩

/-- The `while` loop for a linear form (assembler.py 4205-4224). -/
def loop1 (C : Cons R) : ℕ → St1 R → Option (St1 R)
  | _, ⟨[], agg⟩ => some ⟨[], agg⟩
  | 0, ⟨_ :: _, _⟩ => none
  | fuel + 1, ⟨e :: rest, agg⟩ => loop1 C fuel (step1 C e rest agg)

/-- An `AssembledForm` of dimension 2 (assembler.py 3907-3936): cellwise data (stacks), aggregate
data, Dirichlet correction. -/
structure AF2 (κ R : Type) where
  cells : κ → Option (List (Ent R))
  agg : List (Ent R)
  bnd : List (ℕ × R)

/-- An `AssembledForm` of dimension 1 (assembler.py 3907-3936). -/
structure AF1 (κ R : Type) where
  cells : κ → Option (List (Ent1 R))
  agg : List (Ent1 R)

/-- An `AssembledForm` of dimension 0 (assembler.py 3907-3936). -/
structure AF0 (κ R : Type) where
  cells : κ → Option (List R)
  agg : List R

/-- A new form (assembler.py 3923-3931). -/
def AF2.new : AF2 κ R := ⟨fun _ => none, [], []⟩
/-- A new form (assembler.py 3923-3931). -/
def AF1.new : AF1 κ R := ⟨fun _ => none, []⟩
/-- A new form (assembler.py 3923-3931). -/
def AF0.new : AF0 κ R := ⟨fun _ => none, []⟩

/-- `update_cellwise` for a bilinear form (assembler.py 4049-4111). -/
def AF2.update (af : AF2 κ R) (k : κ) (tst trl : List ℕ) (vals : ℕ → ℕ → R) : AF2 κ R :=
  { af with cells := Function.update af.cells k
              (some ((gridEntries tst trl vals).reverse ++ (af.cells k).getD [])) }

/-- `update_cellwise` for a linear form (assembler.py 4049-4111). -/
def AF1.update (af : AF1 κ R) (k : κ) (tst : List ℕ) (vals : ℕ → R) : AF1 κ R :=
  { af with cells := Function.update af.cells k
              (some ((vecEntries tst vals).reverse ++ (af.cells k).getD [])) }

/-- `update_cellwise` for a constant form, `data[cell]['vals'].extend(vals)`
(assembler.py 4049-4111). -/
def AF0.update (af : AF0 κ R) (k : κ) (vals : List R) : AF0 κ R :=
  { af with cells := Function.update af.cells k (some ((af.cells k).getD [] ++ vals)) }

/-- The outcomes of a call that may raise or run forever. -/
inductive Err where
  /-- `KeyError`: no data for the cell -/
  | key
  /-- `IndexError` -/
  | index
  /-- the loop is still running when the fuel is used up -/
  | running
  /-- shapes do not fit -/
  | shape
deriving DecidableEq

/-- `distribute(cell, dir_bc, hng, clear_cellwise_data)` for a bilinear form (assembler.py
4178-4289).  `dict.copy()` is shallow: the lists popped from are the stored lists, so that without
`clear` the cell keeps an empty list. -/
def AF2.distribute (C : Cons R) (clear : Bool) (fuel : ℕ) (af : AF2 κ R) (k : κ) :
    Except Err (AF2 κ R) :=
  match af.cells k with
  | none => .error .key
  | some stk =>
    match loop2 C fuel ⟨stk, af.agg, af.bnd⟩ with
    | none => .error .running
    | some s => .ok ⟨Function.update af.cells k (if clear then none else some s.stack), s.agg, s.bnd⟩

/-- `distribute` for a linear form (assembler.py 4178-4224, 4284-4289). -/
def AF1.distribute (C : Cons R) (clear : Bool) (fuel : ℕ) (af : AF1 κ R) (k : κ) :
    Except Err (AF1 κ R) :=
  match af.cells k with
  | none => .error .key
  | some stk =>
    match loop1 C fuel ⟨stk, af.agg⟩ with
    | none => .error .running
    | some s => .ok ⟨Function.update af.cells k (if clear then none else some s.stack), s.agg⟩

/-- `distribute` for a constant form: nothing is popped (assembler.py 4195-4199, 4284-4289). -/
def AF0.distribute (clear : Bool) (af : AF0 κ R) (k : κ) : Except Err (AF0 κ R) :=
  match af.cells k with
  | none => .error .key
  | some vs => .ok ⟨Function.update af.cells k (if clear then none else some vs), af.agg ++ vs⟩

/-- `clear_cellwise_data` (assembler.py 4292-4297). -/
def AF2.clear (af : AF2 κ R) (k : κ) : AF2 κ R := { af with cells := Function.update af.cells k none }
/-- `clear_cellwise_data` (assembler.py 4292-4297). -/
def AF1.clear (af : AF1 κ R) (k : κ) : AF1 κ R := { af with cells := Function.update af.cells k none }
/-- `clear_cellwise_data` (assembler.py 4292-4297). -/
def AF0.clear (af : AF0 κ R) (k : κ) : AF0 κ R := { af with cells := Function.update af.cells k none }

/-- What one bilinear form contributes on one cell: test dofs, trial dofs, local matrix
(assembler.py 2413-2433). -/
structure Loc2 (R : Type) where
  tst : List ℕ
  trl : List ℕ
  mat : ℕ → ℕ → R

/-- What one linear form contributes on one cell (assembler.py 2405-2411). -/
structure Loc1 (R : Type) where
  tst : List ℕ
  vec : ℕ → R

/-- One cell of the loop of `assemble` for the bilinear forms of one problem: `update_cellwise` for
every form, `distribute`, `clear_cellwise_data` unless the data is kept (assembler.py 2363-2495). -/
def cell2 (C : Cons R) (keep : Bool) (fuel : ℕ) (af : AF2 κ R) (c : κ × List (Loc2 R)) :
    Except Err (AF2 κ R) := do
  let af1 := c.2.foldl (fun a l => a.update c.1 l.tst l.trl l.mat) af
  let af2 ← af1.distribute C false fuel c.1
  .ok (if keep then af2 else af2.clear c.1)

/-- The same for the linear forms (assembler.py 2363-2495). -/
def cell1 (C : Cons R) (keep : Bool) (fuel : ℕ) (af : AF1 κ R) (c : κ × List (Loc1 R)) :
    Except Err (AF1 κ R) := do
  let af1 := c.2.foldl (fun a l => a.update c.1 l.tst l.vec) af
  let af2 ← af1.distribute C false fuel c.1
  .ok (if keep then af2 else af2.clear c.1)

/-- The same for the constant forms (assembler.py 2363-2495). -/
def cell0 (keep : Bool) (af : AF0 κ R) (c : κ × List (List R)) : Except Err (AF0 κ R) := do
  let af1 := c.2.foldl (fun a l => a.update c.1 l) af
  let af2 ← af1.distribute false c.1
  .ok (if keep then af2 else af2.clear c.1)

/-- The cell loop of `assemble` for the bilinear forms of one problem (assembler.py 2353-2495),
started on a new `AssembledForm`. -/
def assemble2 (C : Cons R) (keep : Bool) (fuel : ℕ) (cs : List (κ × List (Loc2 R))) :
    Except Err (AF2 κ R) :=
  cs.foldlM (cell2 C keep fuel) AF2.new

/-- The cell loop for the linear forms (assembler.py 2353-2495). -/
def assemble1 (C : Cons R) (keep : Bool) (fuel : ℕ) (cs : List (κ × List (Loc1 R))) :
    Except Err (AF1 κ R) :=
  cs.foldlM (cell1 C keep fuel) AF1.new

/-- The cell loop for the constant forms (assembler.py 2353-2495). -/
def assemble0 (keep : Bool) (cs : List (κ × List (List R))) : Except Err (AF0 κ R) :=
  cs.foldlM (cell0 keep) AF0.new

/-- `dof2idx = np.zeros(udofs[-1]+1)`, `dof2idx[udofs] = np.arange(n)` (assembler.py 4358-4362). -/
def mkIdx (u : List ℕ) : Except Err (List ℕ) :=
  match u.getLast? with
  | none => .error .index
  | some l =>
    if u.all (· ≤ l) then
      .ok (u.zipIdx.foldl (fun a p => a.set p.1 p.2) (List.replicate (l + 1) 0))
    else .error .index

/-- `dof2idx[dofs]` (assembler.py 4386, 4405, 4409, 4410). -/
def look (idx : List ℕ) (dofs : List ℕ) : Except Err (List ℕ) :=
  dofs.mapM fun d => match idx[d]? with
    | none => .error .index
    | some i => .ok i

/-- The consolidated bilinear form of one sample: `udofs`, the `coo` triples and the Dirichlet
vector (`none` is the empty list of 4421-4422). -/
structure Sys2 (R : Type) where
  urow : List ℕ
  ucol : List ℕ
  coo : List (ℕ × ℕ × R)
  x0 : Option (List R)

/-- Entry `(i,j)` of the sparse matrix: `coo` triples with the same position are added
(assembler.py 4417-4419). -/
def Sys2.entry (s : Sys2 R) (i j : ℕ) : R :=
  (s.coo.map fun t => if t.1 = i ∧ t.2.1 = j then t.2.2 else 0).sum

/-- `np.bincount(idx, vals, n)`: the length is at least `n` (assembler.py 4391, 4423). -/
def bincount (idx : List ℕ) (vals : List R) (n : ℕ) : List R :=
  (List.range (max n ((idx.map (· + 1)).foldr max 0))).map fun i =>
    ((idx.zip vals).map fun p => if p.1 = i then p.2 else 0).sum

/-- `consolidate` for a bilinear form (assembler.py 4336-4428), one sample.  `ord` stands for
`lambda l: list(set(l))`. -/
def AF2.consolidate (ord : List ℕ → List ℕ) (af : AF2 κ R) : Except Err (Sys2 R) := do
  let ur := ord (af.agg.map (·.row))
  let ir ← mkIdx ur
  let uc := ord (af.agg.map (·.col))
  let ic ← mkIdx uc
  let xd ← look ir (af.bnd.map (·.1))
  let rows ← look ir (af.agg.map (·.row))
  let cols ← look ic (af.agg.map (·.col))
  .ok ⟨ur, uc, rows.zip (cols.zip (af.agg.map (·.val))),
    if xd = [] then none else some (bincount xd (af.bnd.map (·.2)) ur.length)⟩

/-- `consolidate` for a linear form (assembler.py 4336-4393), one sample: `udofs` and the vector. -/
def AF1.consolidate (ord : List ℕ → List ℕ) (af : AF1 κ R) : Except Err (List ℕ × List R) := do
  let ur := ord (af.agg.map (·.row))
  let ir ← mkIdx ur
  let rows ← look ir (af.agg.map (·.row))
  .ok (ur, bincount rows (af.agg.map (·.val)) ur.length)

/-- `consolidate` for a constant form (assembler.py 4372-4380): the sum of all values. -/
def AF0.consolidate (af : AF0 κ R) : R := af.agg.sum

/-- `u[dofs] = vals` for an array `u` (assembler.py 3762, 3768); `none` is an index error. -/
def scatter (u : List R) (dofs : List ℕ) (vals : List R) : Except Err (List R) :=
  if dofs.all (· < u.length) then
    .ok ((dofs.zip vals).foldl (fun a p => a.set p.1 p.2) u)
  else .error .index

/-- The part of row `i` of `hanging_node_matrix().dot(u)` that comes from the hanging node `h`
(assembler.py 3694-3705); duplicates of `coo` triples are added.  Simplification: `d2i` is the
identity (full mesh, dofs `0..n-1`). -/
def hangTerm (C : Cons R) (u : List R) (i h : ℕ) : R :=
  match C.hng h with
  | none => 0
  | some S => ((S.1.zip S.2).map fun p => if h = i then p.2 * u.getD p.1 0 else 0).sum

/-- Row `i` of `hanging_node_matrix().dot(u)` (assembler.py 3680-3708); `hdofs` are the keys of
`hng`. -/
def hangDot (C : Cons R) (hdofs : List ℕ) (u : List R) (i : ℕ) : R :=
  (hdofs.map (hangTerm C u i)).sum

/-- `Assembler.solve` (assembler.py 3711-3776) after both forms are consolidated: `y` is what
`spsolve(A, b-x0)` returned.  The checks are the ones of numpy: `x0` must exist (3752, 3093), the
shapes must fit, indices must be in range. -/
def finish (C : Cons R) (n : ℕ) (hdofs ddofs : List ℕ) (s : Sys2 R) (b : List R) (y : List R) :
    Except Err (List R) := do
  match s.x0 with
  | none => .error .index
  | some x0 =>
    if b.length = x0.length ∧ b.length = s.urow.length ∧ s.urow.length = s.ucol.length ∧
        y.length = s.ucol.length then
      let u1 ← scatter (List.replicate n 0) s.urow y
      let u2 ← scatter u1 ddofs (ddofs.map fun d => (C.dir d).getD 0)
      .ok ((List.range n).map fun i => u2.getD i 0 + hangDot C hdofs u2 i)
    else .error .shape

/-- The contract of `spsolve(A, b-x0)`: `A y = b - x0` (assembler.py 3762). -/
def Solves (s : Sys2 R) (b x0 y : List R) : Prop :=
  ∀ i < s.urow.length,
    ((List.range s.ucol.length).map fun j => s.entry i j * y.getD j 0).sum
      = b.getD i 0 - x0.getD i 0

end Verif.Asm
