import Verif.Asm.Model

/-!
# Model of an `Assembler` over its whole life: several problems, several calls

`Assembler.__init__` (assembler.py 2062-2167), `add_dirichlet` / `add_hanging_nodes` (3538-3670),
`assemble` (2313-2509), `get_matrix` / `get_vector` / `get_scalar` / `assembled_bnd` (2978-3093) and
`solve` (3711-3776), on top of the model of `AssembledForm` in `Verif.Asm`.

The state keeps, per problem, the two dictionaries and up to three `AssembledForm`s with the arrays
stored by the last `consolidate`.  What the forms evaluate to on a cell is an input of each call.
Not modelled: sampling bookkeeping (values are in a commutative ring, see `Verif.Asm.Model`), the
quadrature and the timing output.
-/

namespace Verif.Hist

open Verif.Asm

/-! ### parsing the argument `problems` -/

/-- What a caller may pass: a `Form`, a python list, or something else (assembler.py 2062-2080). -/
inductive PyVal (F : Type) where
  | form (f : F)
  | list (xs : List (PyVal F))
  | other

/-- `isinstance(problem, Form)` (assembler.py 2080). -/
def PyVal.isForm {F : Type} : PyVal F → Bool
  | .form _ => true
  | _ => false

/-- `xs.index(f)` for a `Form` `f`: the position of the first element equal to it (`Form` defines no
`__eq__`, so equality is identity, and a list is never equal to a form) (assembler.py 2099). -/
def index {F : Type} [DecidableEq F] (f : F) : List (PyVal F) → Option ℕ
  | [] => none
  | .form g :: xs => if g = f then some 0 else (index f xs).map (· + 1)
  | _ :: xs => (index f xs).map (· + 1)

/-- `for problem in problems:` on a list that is changed during the loop: position `j` is read when
the loop gets there.  `none` is the failing assertion (assembler.py 2087-2099). -/
def wrapLoop {F : Type} [DecidableEq F] : ℕ → ℕ → List (PyVal F) → Option (List (PyVal F))
  | 0, _, xs => some xs
  | n + 1, j, xs =>
    match xs[j]? with
    | none => some xs
    | some (.list _) => wrapLoop n (j + 1) xs
    | some .other => none
    | some (.form f) =>
      match index f xs with
      | none => none
      | some i => wrapLoop n (j + 1) (xs.set i (.list [.form f]))

/-- A list all of whose elements are forms, as a list of forms; `none` if one of them has no method
`dim` (`check_problem`, assembler.py 2196-2200). -/
def formsOf {F : Type} : List (PyVal F) → Option (List F)
  | [] => some []
  | .form f :: xs => (formsOf xs).map (f :: ·)
  | _ :: _ => none

/-- The forms of one element of `self.problems`, which `check_problem` iterates over
(assembler.py 2119-2120, 2196). -/
def problemOf {F : Type} : PyVal F → Option (List F)
  | .list zs => formsOf zs
  | _ => none

/-- The list of problems the constructor works with, together with what the caller's argument is
afterwards; `none` is an exception (assembler.py 2078-2115, 2116-2121). -/
def parse {F : Type} [DecidableEq F] : PyVal F → Option (List (List F) × PyVal F)
  | .form f => some ([[f]], .form f)
  | .other => none
  | .list xs =>
    if xs.all PyVal.isForm then (formsOf xs).map fun fs => ([fs], .list xs)
    else do
      let ys ← wrapLoop xs.length 0 xs
      let ps ← ys.mapM problemOf
      some (ps, .list ys)

/-! ### state -/

variable {R : Type} [CommRing R] {κ : Type} [DecidableEq κ]

/-- Exceptions: those of `Verif.Asm`, and `AttributeError` / `TypeError` on a missing form or array. -/
inductive Err where
  | attr
  | asm (e : Asm.Err)
deriving DecidableEq

/-- An exception raised by an `AssembledForm` passes through `assemble` (no `try` anywhere in
assembler.py 2313-2509). -/
def lift {α : Type} : Except Asm.Err α → Except Err α
  | .ok a => .ok a
  | .error e => .error (.asm e)

/-- `d[k] = v` for a python dictionary in insertion order (assembler.py 3636). -/
def dictSet {β : Type} (d : List (ℕ × β)) (k : ℕ) (v : β) : List (ℕ × β) :=
  if k ∈ d.map (·.1) then d.map fun p => if p.1 = k then (k, v) else p else d ++ [(k, v)]

/-- `d.get(k)` (assembler.py 4208, 4217). -/
def dictGet {β : Type} (d : List (ℕ × β)) (k : ℕ) : Option β := (d.find? (·.1 = k)).map (·.2)

/-- One problem: `__dirichlet_bc[i]`, `__hanging_nodes[i]`, `__af[i][0..2]` (assembler.py 2138-2166)
and the arrays stored by `consolidate` (3926-3929, 4380, 4392, 4425-4428). -/
structure Prob (κ R : Type) where
  dirD : List (ℕ × R)
  hngD : List (ℕ × (List ℕ × List R))
  a0 : Option (AF0 κ R)
  a1 : Option (AF1 κ R)
  a2 : Option (AF2 κ R)
  c0 : Option R
  c1 : Option (List ℕ × List R)
  c2 : Option (Sys2 R)

/-- The dictionaries as `distribute` sees them (assembler.py 2475-2490). -/
def Prob.cons (p : Prob κ R) : Cons R := ⟨dictGet p.hngD, dictGet p.dirD⟩

/-- The dimension of a form (assembler.py 1151-1170). -/
inductive Dim where
  | d0 | d1 | d2
deriving DecidableEq

/-- `__init__` for one problem whose forms have the dimensions `ds`: an `AssembledForm` is made for
every dimension that occurs, empty dictionaries (assembler.py 2135-2165). -/
def Prob.new (ds : List Dim) : Prob κ R where
  dirD := []
  hngD := []
  a0 := if Dim.d0 ∈ ds then some AF0.new else none
  a1 := if Dim.d1 ∈ ds then some AF1.new else none
  a2 := if Dim.d2 ∈ ds then some AF2.new else none
  c0 := none
  c1 := none
  c2 := none

/-- What a form gives on a cell: a constant, a vector with its dofs, a matrix with its dofs
(assembler.py 2390-2466).  An `IPForm` gives several matrices. -/
inductive Loc (R : Type) where
  | c (vs : List R)
  | l (v : Loc1 R)
  | b (m : Loc2 R)

/-- `aform.update_cellwise(ci, form_loc, dofs)` on the assembled form of the right dimension
(assembler.py 2381-2466); on `None` it is an `AttributeError`. -/
def Prob.update (k : κ) (p : Prob κ R) : Loc R → Except Err (Prob κ R)
  | .c vs => match p.a0 with
    | none => .error .attr
    | some a => .ok { p with a0 := some (a.update k vs) }
  | .l v => match p.a1 with
    | none => .error .attr
    | some a => .ok { p with a1 := some (a.update k v.tst v.vec) }
  | .b m => match p.a2 with
    | none => .error .attr
    | some a => .ok { p with a2 := some (a.update k m.tst m.trl m.mat) }

/-- `if aform is not None: aform.distribute(..); aform.clear_cellwise_data(..)`
(assembler.py 2490-2500). -/
def onSome {α : Type} (f : α → Except Asm.Err α) : Option α → Except Err (Option α)
  | none => .ok none
  | some a => (lift (f a)).map some

/-- The three dimensions of one problem on one cell, after the updates (assembler.py 2480-2500). -/
def Prob.distribute (keep : Bool) (fuel : ℕ) (k : κ) (p : Prob κ R) : Except Err (Prob κ R) := do
  let a0 ← onSome (fun a => do
    let a' ← a.distribute false k
    .ok (if keep then a' else a'.clear k)) p.a0
  let a1 ← onSome (fun a => do
    let a' ← a.distribute p.cons false fuel k
    .ok (if keep then a' else a'.clear k)) p.a1
  let a2 ← onSome (fun a => do
    let a' ← a.distribute p.cons false fuel k
    .ok (if keep then a' else a'.clear k)) p.a2
  .ok { p with a0 := a0, a1 := a1, a2 := a2 }

/-- The input of one cell: for problem `i`, what its forms give, in order. -/
abbrev CellIn (κ R : Type) := κ × (ℕ → List (Loc R))

/-- One cell: first all problems are updated, then all are distributed (assembler.py 2363-2500). -/
def cellStep (keep : Bool) (fuel : ℕ) (ps : List (Prob κ R)) (c : CellIn κ R) :
    Except Err (List (Prob κ R)) := do
  let ps1 ← ps.zipIdx.mapM fun q => (c.2 q.2).foldlM (Prob.update c.1) q.1
  ps1.mapM (Prob.distribute keep fuel c.1)

/-- `if aform is not None: aform.consolidate()`; the old array stays if there is no form
(assembler.py 2505-2509). -/
def onArr {α β : Type} (f : α → Except Asm.Err β) : Option α → Option β → Except Err (Option β)
  | none, c => .ok c
  | some a, _ => (lift (f a)).map some

/-- `consolidate` of the assembled forms of one problem (assembler.py 2505-2509, 4336-4428). -/
def Prob.consolidate (ord : List ℕ → List ℕ) (p : Prob κ R) : Except Err (Prob κ R) := do
  let c1 ← onArr (AF1.consolidate ord) p.a1 p.c1
  let c2 ← onArr (AF2.consolidate ord) p.a2 p.c2
  .ok { p with c0 := (p.a0.map AF0.consolidate).or p.c0, c1 := c1, c2 := c2 }

/-- `assemble(keep_cellwise_data=keep, region_flag=..)` (assembler.py 2313-2509) over the cells `cs`. -/
def assemble (ord : List ℕ → List ℕ) (fuel : ℕ) (keep : Bool) (ps : List (Prob κ R))
    (cs : List (CellIn κ R)) : Except Err (List (Prob κ R)) := do
  let ps1 ← cs.foldlM (cellStep keep fuel) ps
  ps1.mapM (Prob.consolidate ord)

/-- `add_dirichlet` once dofs and values are known: the values are written into the dictionary
(assembler.py 3631-3640); the problem needs a bilinear form (3574-3578). -/
def Prob.addDirichlet (vals : List (ℕ × R)) (p : Prob κ R) : Except Err (Prob κ R) :=
  match p.a2 with
  | none => .error .attr
  | some _ => .ok { p with dirD := vals.foldl (fun d q => dictSet d q.1 q.2) p.dirD }

/-- `add_hanging_nodes`: the dictionary is replaced (assembler.py 3655-3670). -/
def Prob.addHanging (hng : List (ℕ × (List ℕ × List R))) (p : Prob κ R) : Except Err (Prob κ R) :=
  match p.a2 with
  | none => .error .attr
  | some _ => .ok { p with hngD := hng }

/-- The calls of a user. -/
inductive Op (κ R : Type) where
  | dirichlet (i : ℕ) (vals : List (ℕ × R))
  | hanging (i : ℕ) (hng : List (ℕ × (List ℕ × List R)))
  | assemble (keep : Bool) (cs : List (CellIn κ R))

/-- A change of problem `i` only; `IndexError` if there is none (assembler.py 3634, 3669). -/
def atProb (f : Prob κ R → Except Err (Prob κ R)) (i : ℕ) (ps : List (Prob κ R)) :
    Except Err (List (Prob κ R)) :=
  match ps[i]? with
  | none => .error (.asm .index)
  | some p => (f p).map (ps.set i)

/-- One call (assembler.py 2313, 3538, 3655). -/
def step (ord : List ℕ → List ℕ) (fuel : ℕ) (ps : List (Prob κ R)) :
    Op κ R → Except Err (List (Prob κ R))
  | .dirichlet i vals => atProb (Prob.addDirichlet vals) i ps
  | .hanging i hng => atProb (Prob.addHanging hng) i ps
  | .assemble keep cs => assemble ord fuel keep ps cs

/-- A history of calls; it ends with the first exception. -/
def run (ord : List ℕ → List ℕ) (fuel : ℕ) (ps : List (Prob κ R)) (ops : List (Op κ R)) :
    Except Err (List (Prob κ R)) := ops.foldlM (step ord fuel) ps

/-- `get_matrix(i)` together with `assembled_bnd(i)` and `udofs` (assembler.py 2978-2996,
3087-3093). -/
def getMatrix (ps : List (Prob κ R)) (i : ℕ) : Option (Sys2 R) := ps[i]?.bind (·.c2)

/-- `get_vector(i)` with its dofs (assembler.py 2999-3030). -/
def getVector (ps : List (Prob κ R)) (i : ℕ) : Option (List ℕ × List R) := ps[i]?.bind (·.c1)

/-- `get_scalar(i)` (assembler.py 3033-3050). -/
def getScalar (ps : List (Prob κ R)) (i : ℕ) : Option R := ps[i]?.bind (·.c0)

/-- `solve(i)`: `y` is what `spsolve(A, b-x0)` returned (assembler.py 3711-3776). -/
def solve (n : ℕ) (ps : List (Prob κ R)) (i : ℕ) (y : List R) : Except Err (List R) :=
  match ps[i]? with
  | none => .error (.asm .index)
  | some p =>
    match p.c2, p.c1 with
    | some s, some b => lift (finish p.cons n (p.hngD.map (·.1)) (p.dirD.map (·.1)) s b.2 y)
    | _, _ => .error .attr

end Verif.Hist
