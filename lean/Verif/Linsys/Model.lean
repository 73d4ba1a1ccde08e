import Mathlib.LinearAlgebra.Matrix.Trace
import Mathlib.Algebra.Field.Defs
import Mathlib.Data.Matrix.Basic
import Mathlib.Data.Matrix.Mul
import Mathlib.Algebra.Field.Basic

/-!
# Model of `LinearSystem` (`solver.py` 31-904)

Matrices are `Matrix (Fin n) (Fin n) K` over a field (exact arithmetic instead of floating point),
a right-hand side has `m` columns (fixed for the life of the object).  The dofs of the basis are a
list of numbers, equation `i` belongs to `dofs[i]`.  Linear solves (`spsolve`, CHOLMOD, `factorized`)
are modelled by their contract: any `u` with `A u = b` may be returned.
-/

namespace Verif.Linsys

open Matrix

/-- The exceptions that matter here. -/
inductive Err where
  | index
  | assertion
deriving DecidableEq

/-- One constraint of `dofhandler.constraints`: constrained dof, supporting dofs with coefficients,
affine term (fem.py 1201-1205, 2556-2563; solver.py 287-292). -/
structure Con (K : Type) where
  dof : ℕ
  supp : List (ℕ × K)
  aff : K

/-- The same with the numbers the arrays are indexed with: `k = dof2eqn(dof)`, `raw = dof` itself,
supports as equations. -/
structure RCon (K : Type) (n : ℕ) where
  k : Fin n
  raw : Fin n
  supp : List (Fin n × K)
  aff : K

variable {K : Type} [Field K] [DecidableEq K] {n m : ℕ}

/-- `dof2eqn(dof)`: an array of length `dofs[-1]+1`, initialised with zero, `arange` at the dofs
(solver.py 89-97, 143-147). -/
def dof2eqn (n : ℕ) (dofs : List ℕ) (dof : ℕ) : Except Err (Fin n) :=
  match dofs.getLast? with
  | none => .error .index
  | some l =>
    if dof ≤ l then
      if h : dofs.idxOf dof < n then .ok ⟨dofs.idxOf dof, h⟩
      else if h0 : 0 < n then .ok ⟨0, h0⟩ else .error .index
    else .error .index

/-- Using a dof number itself as an index into an array of length `n`
(`d[c_dofs]` solver.py 341, `zc[c_dofs]` 733). -/
def rawIdx (n : ℕ) (dof : ℕ) : Except Err (Fin n) :=
  if h : dof < n then .ok ⟨dof, h⟩ else .error .index

/-- All index conversions for one supporting dof (solver.py 317). -/
def rsupp (n : ℕ) (dofs : List ℕ) (s : ℕ × K) : Except Err (Fin n × K) := do
  let j ← dof2eqn n dofs s.1
  .ok (j, s.2)

/-- All index conversions for one constraint (solver.py 307-341).  Simplification: the conversions
are done once, in the code each array access does its own. -/
def rcon (n : ℕ) (dofs : List ℕ) (c : Con K) : Except Err (RCon K n) := do
  let k ← dof2eqn n dofs c.dof
  let r ← rawIdx n c.dof
  let s ← c.supp.mapM (rsupp n dofs)
  .ok ⟨k, r, s, c.aff⟩

/-- The entry a single support contributes to `C[i,j]`: `coo_matrix` sums duplicates
(solver.py 307-320). -/
def entry (r : RCon K n) (i j : Fin n) : K :=
  (r.supp.map (fun s => if r.k = i ∧ s.1 = j then s.2 else 0)).sum

/-- The constraint matrix (solver.py 294-333). -/
def Cmat (rs : List (RCon K n)) : Matrix (Fin n) (Fin n) K := fun i j =>
  (rs.map (fun r => entry r i j)).sum + (if i = j ∧ i ∉ rs.map (·.k) then 1 else 0)

/-- The affine term: `d[c_dofs] = affine_terms` (solver.py 335-344). -/
def dvec (rs : List (RCon K n)) : Fin n → K :=
  rs.foldl (fun d r => Function.update d r.raw r.aff) 0

/-- `1 - e_k e_k^T` as a diagonal (solver.py 443-446). -/
def Imk (K : Type) [Field K] (k : Fin n) : Matrix (Fin n) (Fin n) K :=
  diagonal (fun i => if i = k then 0 else 1)

/-- One pass of the loop of `constrain_matrix` (solver.py 411-480). -/
def stepA (C A : Matrix (Fin n) (Fin n) K) (k : Fin n) : Matrix (Fin n) (Fin n) K :=
  let ck := C k
  let A1 := A + vecMulVec (fun i => A i k) ck
  let A2 := A1 * Imk K k
  let A3 := A2 + vecMulVec ck (A2 k)
  Imk K k * A3 + diagonal (fun i => if i = k then 1 else 0)

/-- The loop of `constrain_matrix` with the recorded columns (solver.py 398-480). -/
def elimA (C : Matrix (Fin n) (Fin n) K) :
    List (Fin n) → Matrix (Fin n) (Fin n) K → Matrix (Fin n) (Fin n) K × List (Fin n → K)
  | [], A => (A, [])
  | k :: ks, A =>
    let (A', recs) := elimA C ks (stepA C A k)
    (A', (fun i => A i k) :: recs)

/-- The scaling of the constrained diagonal entries (solver.py 483-497). -/
def aveVec (A : Matrix (Fin n) (Fin n) K) (ks : List (Fin n)) : Fin n → K := fun i =>
  if ks.length < n then
    if i ∈ ks then (A.trace - ks.length) / ((n : K) - ks.length) else 1
  else 1

/-- `constrain_matrix` (solver.py 371-516). -/
def constrainMatrix (C : Matrix (Fin n) (Fin n) K) (ks : List (Fin n))
    (A : Matrix (Fin n) (Fin n) K) : Matrix (Fin n) (Fin n) K × List (Fin n → K) :=
  let (A', recs) := elimA C ks A
  (A' * diagonal (aveVec A' ks), recs)

/-- One pass of the loop of `constrain_rhs` (solver.py 709-739); `raws` are the rows set to zero. -/
def stepB (C : Matrix (Fin n) (Fin n) K) (d : Fin n → K) (raws : List (Fin n))
    (k : Fin n) (ak : Fin n → K) (b : Matrix (Fin n) (Fin m) K) : Matrix (Fin n) (Fin m) K :=
  let b1 := b - d k • vecMulVec ak (fun _ => 1)
  let b2 := b1 + vecMulVec (C k) (b1 k)
  diagonal (fun i => if i ∈ raws then (0 : K) else 1) * b2

/-- `constrain_rhs` (solver.py 682-742). -/
def constrainRhs (C : Matrix (Fin n) (Fin n) K) (d : Fin n → K) (raws : List (Fin n)) :
    List (Fin n) → List (Fin n → K) → Matrix (Fin n) (Fin m) K →
      Except Err (Matrix (Fin n) (Fin m) K)
  | [], _, b => .ok b
  | _ :: _, [], _ => .error .index
  | k :: ks, ak :: recs, b => constrainRhs C d raws ks recs (stepB C d raws k ak b)

/-- `resolve_constraints` (solver.py 752-790); `nnz==0` means that the row of `C` vanishes. -/
def resolve (C : Matrix (Fin n) (Fin n) K) (d : Fin n → K) (u : Matrix (Fin n) (Fin m) K) :
    Matrix (Fin n) (Fin m) K :=
  let u1 : Matrix (Fin n) (Fin m) K := of fun i j => if ∀ l, C i l = 0 then d i else u i j
  of fun i j => (C * u1) i j + d i

/-- The state of a `LinearSystem` (solver.py 66-118) and the constraints of its dofhandler. -/
structure St (K : Type) (n m : ℕ) where
  dofs : List ℕ
  cons : List (Con K)
  A : Matrix (Fin n) (Fin n) K
  b : Option (Matrix (Fin n) (Fin m) K)
  Cd : Option (Matrix (Fin n) (Fin n) K × (Fin n → K))
  recs : List (Fin n → K)
  Aconstrained : Bool
  bconstrained : Bool
  invA : Option (Matrix (Fin n) (Fin n) K)
  u : Option (Matrix (Fin n) (Fin m) K)

/-- The constructor (solver.py 66-118), hanging nodes already in `cons`. -/
def init (dofs : List ℕ) (cons : List (Con K)) (A : Matrix (Fin n) (Fin n) K)
    (b : Option (Matrix (Fin n) (Fin m) K)) : St K n m :=
  { dofs := dofs, cons := cons, A := A, b := b, Cd := none, recs := [], Aconstrained := false,
    bconstrained := false, invA := none, u := none }

/-- `set_matrix` (solver.py 347-368): `__invA` keeps its value but is not used before the next
factorisation. -/
def setMatrix (s : St K n m) (A : Matrix (Fin n) (Fin n) K) : St K n m :=
  { s with A := A, invA := none, Aconstrained := false }

/-- `set_rhs` (solver.py 634-661). -/
def setRhs (s : St K n m) (b : Matrix (Fin n) (Fin m) K) : St K n m :=
  { s with b := some b, bconstrained := false }

/-- `add_dirichlet_constraint` with the dofs and values of the boundary (solver.py 287-292). -/
def addDirichlet (s : St K n m) (vals : List (ℕ × K)) : St K n m :=
  { s with cons := s.cons ++ vals.map (fun p => ⟨p.1, [], p.2⟩) }

/-- `matrix_is_constrained`: the method has no `return` (solver.py 528-532). -/
def matrixIsConstrained (_s : St K n m) : Option Bool := none

/-- Python's truth value of the result. -/
def truthy : Option Bool → Bool
  | some true => true
  | _ => false

/-- The constraint system in use (solver.py 834-835). -/
def relOf (s : St K n m) (rs : List (RCon K n)) : Matrix (Fin n) (Fin n) K × (Fin n → K) :=
  match s.Cd with
  | some cd => cd
  | none => (Cmat rs, dvec rs)

/-- The matrix step of `solve_system` (solver.py 845-846). -/
def prepA (s : St K n m) (rs : List (RCon K n)) : St K n m :=
  let cd := relOf s rs
  if truthy (matrixIsConstrained s) then { s with Cd := some cd }
  else
    let (A', recs) := constrainMatrix cd.1 (rs.map (·.k)) s.A
    { s with Cd := some cd, A := A', recs := recs, Aconstrained := true }

/-- The right-hand side step of `solve_system` (solver.py 855-856). -/
def prepB (s : St K n m) (rs : List (RCon K n)) : Except Err (St K n m) :=
  match s.b, s.Cd with
  | some b, some cd =>
    if s.bconstrained then .ok s
    else do
      let b' ← constrainRhs cd.1 cd.2 (rs.map (·.raw)) (rs.map (·.k)) s.recs b
      .ok { s with b := some b', bconstrained := true }
  | _, _ => .error .assertion

/-- `factor_matrix`, only if not yet factored (solver.py 863-865). -/
def prepF (s : St K n m) (factor : Bool) : St K n m :=
  if factor then
    match s.invA with
    | some _ => s
    | none => { s with invA := some s.A }
  else s

/-- Parsing the right-hand side argument of `solve_system` (solver.py 811-822). -/
def takeRhs (s : St K n m) : Option (Matrix (Fin n) (Fin m) K) → St K n m
  | some b => setRhs s b
  | none => s

/-- `solve_system` up to the linear solve (solver.py 793-866). -/
def prepare (s : St K n m) (b : Option (Matrix (Fin n) (Fin m) K)) (factor : Bool) :
    Except Err (St K n m) := do
  let rs ← s.cons.mapM (rcon n s.dofs)
  let s ← prepB (prepA (takeRhs s b) rs) rs
  .ok (prepF s factor)

/-- The matrix `invert_matrix` solves with (solver.py 573-586). -/
def theMatrix (s : St K n m) (factor : Bool) : Matrix (Fin n) (Fin n) K :=
  if factor then s.invA.getD s.A else s.A

/-- `solve_system(b, factor)` (solver.py 793-886) as a relation between states: the linear solver
may return any `u` with `A u = b`. -/
def Solve (s : St K n m) (b : Option (Matrix (Fin n) (Fin m) K)) (factor : Bool)
    (s' : St K n m) : Prop :=
  ∃ s1 u b1 cd, prepare s b factor = .ok s1 ∧ s1.b = some b1 ∧ s1.Cd = some cd ∧
    theMatrix s1 factor * u = b1 ∧ s' = { s1 with u := some (resolve cd.1 cd.2 u) }

end Verif.Linsys
