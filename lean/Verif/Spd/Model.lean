import Mathlib.Data.Real.Sqrt
import Mathlib.LinearAlgebra.Matrix.NonsingularInverse
import Mathlib.LinearAlgebra.Matrix.PosDef

/-!
# Model of `spd.py`

Matrices are real `Fin n × Fin n` matrices (exact arithmetic instead of floating point); the
vectors the operations act on are `n × m` arrays, as in the code.  The library routines are
modelled by their documented contracts, as relations between input and output:

* `scipy.linalg.eigh(C)`, `scipy.linalg.eigh(C,M)`  -> `Eigh`, `EighGen`
* `scipy.linalg.cholesky(C,lower=True)`             -> `Chol`
* `sksparse.cholmod.cholesky(C,mode='supernodal')`  -> `Cholmod`
* `scipy.linalg.ldl(C)`                             -> `Ldl`
* `scipy.linalg.solve_triangular`                   -> `solveTri` (reads one triangle only)

Not modelled: sparse storage, printing, `set_rank`/`is_degenerate` of the base class.
-/

namespace Verif.Spd

open Matrix

/-- Real matrices. -/
abbrev Mat (n m : ℕ) := Matrix (Fin n) (Fin m) ℝ

/-- The exceptions that matter here. -/
inductive Err where
  | assertion
  | linalg
deriving DecidableEq

/-- `np.finfo(float).eps` (spd.py 34, 416, 899). -/
noncomputable def machineEps : ℝ := 1 / 2 ^ 52

/-- `linalg.norm(C,'fro')` (spd.py 417, 900). -/
noncomputable def frobenius {n : ℕ} (C : Mat n n) : ℝ := Real.sqrt (∑ i, ∑ j, C i j ^ 2)

/-- `diagonal_pseudo_inverse(d,eps)` (spd.py 18-46). -/
noncomputable def diagPinv {n : ℕ} (d : Fin n → ℝ) (eps : Option ℝ) : Except Err (Mat n n) :=
  match eps with
  | none => .ok (diagonal fun i => if |d i| > machineEps then 1 / d i else 0)
  | some e =>
    if e > 0 then .ok (diagonal fun i => if |d i| > e then 1 / d i else 0)
    else .error .assertion

/-! ## EigenDecomposition -/

/-- Contract of `d,V = scipy.linalg.eigh(C)`: eigenvalues ascending, columns of `V` orthonormal
eigenvectors (used at spd.py 957). -/
structure Eigh {n : ℕ} (C : Mat n n) (d : Fin n → ℝ) (V : Mat n n) : Prop where
  sorted : Monotone d
  ortho : Vᵀ * V = 1
  eig : C * V = V * diagonal d

/-- Contract of `d,V = scipy.linalg.eigh(C,M)`: `C V = M V diag(d)`, `V' M V = I`
(used at spd.py 952). -/
structure EighGen {n : ℕ} (C M : Mat n n) (d : Fin n → ℝ) (V : Mat n n) : Prop where
  sorted : Monotone d
  ortho : Vᵀ * M * V = 1
  eig : C * V = M * V * diagonal d

/-- The object `EigenDecomposition` (fields `__C`, `__M`, `__delta`, `__d`, `__V`;
spd.py 815-874, 907-913, 976-981). -/
structure Eigen (n : ℕ) where
  C : Mat n n
  M : Option (Mat n n)
  delta : ℝ
  d : Fin n → ℝ
  V : Mat n n

/-- `set_eigenvalue_lower_bound(delta)` (spd.py 877-906). -/
noncomputable def lowerBound {n : ℕ} (C : Mat n n) (delta : Option ℝ) : Except Err ℝ :=
  let dl := match delta with
    | none => Real.sqrt machineEps * frobenius C
    | some x => x
  if dl ≥ 0 then .ok dl else .error .assertion

/-- What `decompose` does with the output of `eigh`: reverse the order, then replace eigenvalues
`<= delta` by `delta` (spd.py 959-973). -/
noncomputable def postEigh {n : ℕ} (delta : ℝ) (d : Fin n → ℝ) (V : Mat n n) :
    (Fin n → ℝ) × Mat n n :=
  let d' := fun i : Fin n => d i.rev
  let V' : Mat n n := Matrix.of fun i j => V i j.rev
  (fun i => if d' i ≤ delta then delta else d' i, V')

/-- `EigenDecomposition(C,M,delta)` returns the object `o` (spd.py 823-846, 916-973). -/
def Eigen.Init {n : ℕ} (C : Mat n n) (M : Option (Mat n n)) (delta : Option ℝ) (o : Eigen n) :
    Prop :=
  ∃ dl d V, lowerBound C delta = .ok dl ∧
    (match M with
      | none => Eigh C d V
      | some M => EighGen C M d V) ∧
    o = ⟨C, M, dl, (postEigh dl d V).1, (postEigh dl d V).2⟩

namespace Eigen

variable {n m : ℕ} (o : Eigen n)

/-- The matrix part of `reconstruct()` (spd.py 1005-1015). -/
def reconstruct : Mat n n := o.V * (diagonal o.d * o.Vᵀ)

/-- `dot(b)` (spd.py 1018-1023). -/
def dot (b : Mat n m) : Mat n m := o.V * (diagonal o.d * (o.Vᵀ * b))

/-- `solve(b,eps,generalized=False)` (spd.py 1026-1065). -/
noncomputable def solve (b : Mat n m) (eps : Option ℝ) : Except Err (Mat n m) := do
  let Dinv ← diagPinv o.d eps
  pure (o.V * (Dinv * (o.Vᵀ * b)))

/-- `solve(b,eps,generalized=True)` (spd.py 1026-1060), on an object with mass matrix `M`. -/
noncomputable def solveGen (M : Mat n n) (b : Mat n m) (eps : Option ℝ) :
    Except Err (Mat n m) := do
  let Dinv ← diagPinv o.d eps
  pure (o.V * (Dinv * (o.Vᵀ * (M * b))))

/-- `sqrt_dot(x,transpose)` (spd.py 1068-1091). -/
noncomputable def sqrtDot (x : Mat n m) (transpose : Bool) : Mat n m :=
  if transpose then diagonal (fun i => Real.sqrt (o.d i)) * (o.Vᵀ * x)
  else o.V * (diagonal (fun i => Real.sqrt (o.d i)) * x)

/-- `sqrt_solve(b,transpose,eps)` (spd.py 1094-1119). -/
noncomputable def sqrtSolve (b : Mat n m) (transpose : Bool) (eps : Option ℝ) :
    Except Err (Mat n m) := do
  let R ← diagPinv (fun i => Real.sqrt (o.d i)) eps
  if transpose then pure (o.V * (R * b)) else pure (R * (o.Vᵀ * b))

/-- The indices selected by `get_nullspace(tol)` (spd.py 1122-1133). -/
noncomputable def nullIdx (tol : ℝ) : Finset (Fin n) := Finset.univ.filter fun i => |o.d i| < tol

/-- The indices selected by `get_range(tol)` (spd.py 1153-1163). -/
noncomputable def rangeIdx (tol : ℝ) : Finset (Fin n) := Finset.univ.filter fun i => |o.d i| > tol

/-- `get_rank(tol)` (spd.py 1136-1150). -/
noncomputable def rank (tol : ℝ) : ℕ := (o.rangeIdx tol).card

/-- `get_nullspace(tol)`: the columns of `V` selected (spd.py 1122-1133). -/
noncomputable def nullspace (tol : ℝ) : Matrix (Fin n) {i // i ∈ o.nullIdx tol} ℝ :=
  Matrix.of fun i j => o.V i j

/-- `get_range(tol)` (spd.py 1153-1163). -/
noncomputable def range (tol : ℝ) : Matrix (Fin n) {i // i ∈ o.rangeIdx tol} ℝ :=
  Matrix.of fun i j => o.V i j

end Eigen

/-! ## CholeskyDecomposition -/

/-- Contract of `L = scipy.linalg.cholesky(C,lower=True)` when it does not raise: lower triangular,
positive diagonal, `L L' = C` (used at spd.py 338). -/
structure Chol {n : ℕ} (C L : Mat n n) : Prop where
  lower : ∀ i j, i < j → L i j = 0
  pos : ∀ i, 0 < L i i
  fact : L * Lᵀ = C

/-- Contract of `f = cholmod.cholesky(C,mode='supernodal')`: `f.P() = p`, `f.L() = L` lower
triangular with positive diagonal and `C[p][:,p] = L L'` (used at spd.py 315). -/
structure Cholmod {n : ℕ} (C : Mat n n) (p : Equiv.Perm (Fin n)) (L : Mat n n) : Prop where
  lower : ∀ i j, i < j → L i j = 0
  pos : ∀ i, 0 < L i i
  fact : L * Lᵀ = Matrix.of fun i j => C (p i) (p j)

/-- Contract of `L,D,p = scipy.linalg.ldl(C)`: `C = L D L'`, `L[p,:]` unit lower triangular, `D`
symmetric, block diagonal with blocks of size 1 and 2 (used at spd.py 424). -/
structure Ldl {n : ℕ} (C L D : Mat n n) (p : Equiv.Perm (Fin n)) : Prop where
  fact : L * D * Lᵀ = C
  lower : ∀ i j, i < j → L (p i) j = 0
  unit : ∀ i, L (p i) i = 1
  symm : Dᵀ = D
  band : ∀ i j : Fin n, (i : ℕ) + 1 < j → D i j = 0
  blocks : ∀ i j k : Fin n, (i : ℕ) + 1 = j → (j : ℕ) + 1 = k → D i j ≠ 0 → D j k = 0

/-- The triangle of `A` that `scipy.linalg.solve_triangular(A,b,lower,unit_diagonal)` reads. -/
def triPart {n : ℕ} (A : Mat n n) (lower unit : Bool) : Mat n n :=
  Matrix.of fun i j =>
    if i = j then (if unit then 1 else A i j)
    else if (if lower then j < i else i < j) then A i j else 0

/-- `scipy.linalg.solve_triangular(A,b,lower,unit_diagonal)`: exact solution of the triangular
system, `LinAlgError` if the diagonal has a zero. -/
noncomputable def solveTri {n m : ℕ} (A : Mat n n) (b : Mat n m) (lower unit : Bool) :
    Except Err (Mat n m) :=
  open Classical in
  if ∀ i, triPart A lower unit i i ≠ 0 then .ok ((triPart A lower unit)⁻¹ * b)
  else .error .linalg

/-- The factors stored by `decompose` (spd.py 302-377): dense Cholesky, CHOLMOD factor, or the tuple
`(L, D, P, D0)` of the modified Cholesky factorization. -/
inductive Factors (n : ℕ) where
  | full (L : Mat n n)
  | sparse (p : Equiv.Perm (Fin n)) (L : Mat n n)
  | modified (L D P D0 : Mat n n)

/-- The object `CholeskyDecomposition` (spd.py 217-282). -/
structure Cholesky (n : ℕ) where
  C : Mat n n
  f : Factors n

/-- `DMC[k,k] = max(D[k,k],delta)` as written at spd.py 440-443. -/
noncomputable def clamp1 (delta x : ℝ) : ℝ := if x ≤ delta then delta else x

/-- Contract of `T,U = scipy.linalg.eigh(E)` for the `2 × 2` block (spd.py 452). -/
structure Eigh2 (E : Matrix (Fin 2) (Fin 2) ℝ) (t : Fin 2 → ℝ) (U : Matrix (Fin 2) (Fin 2) ℝ) :
    Prop where
  sorted : t 0 ≤ t 1
  ortho : Uᵀ * U = 1
  eig : E * U = U * diagonal t

/-- `E = D[k:k+2,k:k+2]` (spd.py 451). -/
def block2 {n : ℕ} (D : Mat n n) (k : ℕ) (h : k + 1 < n) : Matrix (Fin 2) (Fin 2) ℝ :=
  Matrix.of fun a b => D ⟨k + a, by omega⟩ ⟨k + b, by omega⟩

/-- `DMC[k:k+2,k:k+2] = B` (spd.py 459). -/
def setBlock2 {n : ℕ} (W : Mat n n) (k : ℕ) (B : Matrix (Fin 2) (Fin 2) ℝ) : Mat n n :=
  Matrix.of fun i j =>
    if hi : k ≤ i ∧ (i : ℕ) < k + 2 then
      if hj : k ≤ j ∧ (j : ℕ) < k + 2 then
        B ⟨(i : ℕ) - k, by omega⟩ ⟨(j : ℕ) - k, by omega⟩
      else W i j
    else W i j

/-- `(temp + temp.T)/2` with `temp = U T U'`, `T` clamped (spd.py 453-459). -/
noncomputable def clamp2 (delta : ℝ) (t : Fin 2 → ℝ) (U : Matrix (Fin 2) (Fin 2) ℝ) :
    Matrix (Fin 2) (Fin 2) ℝ :=
  let temp := U * (diagonal (fun i => clamp1 delta (t i)) * Uᵀ)
  (1 / 2 : ℝ) • (temp + tempᵀ)

/-- The loop of `modchol_ldlt` (spd.py 425-460), from index `k` with `DMC = W`, ending with
`DMC = W'`.  A relation, because `eigh` of the `2 × 2` blocks is a relation. -/
inductive ModLoop {n : ℕ} (D : Mat n n) (delta : ℝ) : ℕ → Mat n n → Mat n n → Prop where
  | done {k W} : n ≤ k → ModLoop D delta k W W
  | last {k W W'} (h : k < n) : k + 1 = n →
      ModLoop D delta (k + 1)
        (Matrix.updateRow W ⟨k, h⟩ (Function.update (W ⟨k, h⟩) ⟨k, h⟩
          (clamp1 delta (D ⟨k, h⟩ ⟨k, h⟩)))) W' →
      ModLoop D delta k W W'
  | one {k W W'} (h : k + 1 < n) : D ⟨k, by omega⟩ ⟨k + 1, h⟩ = 0 →
      ModLoop D delta (k + 1)
        (Matrix.updateRow W ⟨k, by omega⟩ (Function.update (W ⟨k, by omega⟩) ⟨k, by omega⟩
          (clamp1 delta (D ⟨k, by omega⟩ ⟨k, by omega⟩)))) W' →
      ModLoop D delta k W W'
  | two {k W W'} {t : Fin 2 → ℝ} {U : Matrix (Fin 2) (Fin 2) ℝ} (h : k + 1 < n) :
      D ⟨k, by omega⟩ ⟨k + 1, h⟩ ≠ 0 →
      Eigh2 (block2 D k h) t U →
      ModLoop D delta (k + 2) (setBlock2 W k (clamp2 delta t U)) W' →
      ModLoop D delta k W W'

/-- `P = np.eye(n)[:,p]` (spd.py 461-462). -/
def eyeCols {n : ℕ} (p : Equiv.Perm (Fin n)) : Mat n n :=
  Matrix.of fun i j => if i = p j then 1 else 0

/-- `delta` of `modchol_ldlt` (spd.py 415-420): default `sqrt(eps)*norm(C,'fro')`, an explicit value
must be positive. -/
noncomputable def modDelta {n : ℕ} (C : Mat n n) (delta : Option ℝ) : Except Err ℝ :=
  match delta with
  | none => .ok (Real.sqrt machineEps * frobenius C)
  | some x => if x > 0 then .ok x else .error .assertion

/-- `L, D, P, D0 = modchol_ldlt(C,delta)` (spd.py 380-472); the test that `C` is symmetric is exact
here instead of up to `1e-12`. -/
def ModChol {n : ℕ} (C : Mat n n) (delta : Option ℝ) (L D P D0 : Mat n n) : Prop :=
  Cᵀ = C ∧ ∃ dl p, modDelta C delta = .ok dl ∧ Ldl C L D0 p ∧ ModLoop D0 dl 0 1 D ∧
    P = eyeCols p

/-- `CholeskyDecomposition(C)` of a dense or sparse matrix returns `o` (spd.py 270-377): the library
Cholesky if `C` is positive definite, else the modified factorization. -/
def Cholesky.Init {n : ℕ} (C : Mat n n) (isSparse : Bool) (o : Cholesky n) : Prop :=
  o.C = C ∧
    ((C.PosDef ∧ isSparse = false ∧ ∃ L, Chol C L ∧ o.f = .full L) ∨
     (C.PosDef ∧ isSparse = true ∧ ∃ p L, Cholmod C p L ∧ o.f = .sparse p L) ∨
     (¬ C.PosDef ∧ ∃ L D P D0, ModChol C none L D P D0 ∧ o.f = .modified L D P D0))

namespace Cholesky

variable {n m : ℕ} (o : Cholesky n)

/-- `I[P,:]` and `apply_P` of CHOLMOD: row `i` of the result is row `p i` (spd.py 528-530, 663). -/
def rowsP (p : Equiv.Perm (Fin n)) (b : Mat n m) : Mat n m := Matrix.of fun i j => b (p i) j

/-- `apply_Pt` (spd.py 668). -/
def rowsPt (p : Equiv.Perm (Fin n)) (b : Mat n m) : Mat n m := Matrix.of fun i j => b (p.symm i) j

/-- `reconstruct(degenerate)` (spd.py 516-559). -/
def reconstruct (degenerate : Bool) : Mat n n :=
  match o.f with
  | .sparse p L =>
    let PL := (rowsP p (1 : Mat n n))ᵀ * L
    PL * PLᵀ
  | .full L => L * Lᵀ
  | .modified L D P D0 =>
    if degenerate then Pᵀ * (L * (D0 * (Lᵀ * P))) else Pᵀ * (L * (D * (Lᵀ * P)))

/-- `dot(b)` (spd.py 562-585). -/
def dot (b : Mat n m) : Mat n m := o.C * b

/-- `solve(b)` (spd.py 588-628).  `solve_A` of CHOLMOD is the exact solution of `C x = b`. -/
noncomputable def solve (b : Mat n m) : Except Err (Mat n m) :=
  match o.f with
  | .sparse _ _ => .ok (o.C⁻¹ * b)
  | .full L => do
    let y ← solveTri L b true false
    solveTri Lᵀ y false false
  | .modified L D P _ => do
    let PL := P * L
    let y ← solveTri PL (P * b) true true
    let z := diagonal (fun i => 1 / D i i) * y
    let x ← solveTri PLᵀ z false true
    pure (Pᵀ * x)

/-- `sqrt_dot(b,transpose)` (spd.py 630-699). -/
noncomputable def sqrtDot (b : Mat n m) (transpose : Bool) : Mat n m :=
  match o.f with
  | .sparse p L => if transpose then Lᵀ * rowsP p b else rowsPt p (L * b)
  | .full L => if transpose then Lᵀ * b else L * b
  | .modified L D P _ =>
    let S := diagonal (fun i => Real.sqrt (D i i))
    if transpose then S * (Lᵀ * (P * b)) else Pᵀ * (L * (S * b))

/-- `sqrt_solve(b,transpose)` (spd.py 702-775).  `solve_L`, `solve_Lt` of CHOLMOD are triangular
solves with the factor; `solve_triangular` has the default `lower=False` at 774. -/
noncomputable def sqrtSolve (b : Mat n m) (transpose : Bool) : Except Err (Mat n m) :=
  match o.f with
  | .sparse p L =>
    if transpose then do
      let x ← solveTri Lᵀ b false false
      pure (rowsPt p x)
    else solveTri L (rowsP p b) true false
  | .full L => if transpose then solveTri Lᵀ b false false else solveTri L b true false
  | .modified L D P _ =>
    let S := diagonal (fun i => Real.sqrt (D i i))
    if transpose then do
      let x ← solveTri (S * Lᵀ) b false false
      pure (Pᵀ * x)
    else solveTri (L * S) (P * b) false false

end Cholesky

end Verif.Spd
