import Verif.Spd.Chol

/-!
# Model of `GaussianField` (gmrf.py 736-1669) and `Covariance.assemble` (gmrf.py 603-690)

Modelled: the constructor without `support`, `sample`, `KL_sample`, `condition` with hard constraints
(`Ko = 0`), `update_support(mode='covariance')`.  The mean is a single column.  The random numbers `z`
are an argument.  Not modelled: the branch with a support subspace (after `update_support` the stored
covariance is a bare `SPDMatrix`), soft constraints (they raise `NameError`/`TypeError`: undefined
name `decomposition`, unknown keyword `K`), `truncate` (calls methods that do not exist).
-/

namespace Verif.Gmrf

open Matrix Verif.Spd

/-- Exceptions. -/
inductive FErr where
  | assertion
  | linalg
  | name
  | type
  | value
deriving DecidableEq

/-- Exceptions of the matrix classes. -/
def FErr.ofSpd : Spd.Err → FErr
  | .assertion => .assertion
  | .linalg => .linalg

/-- Pass on an exception of the matrix classes. -/
def lift {α : Type} : Except Spd.Err α → Except FErr α
  | .ok a => .ok a
  | .error e => .error (FErr.ofSpd e)

/-- What `set_covariance`/`set_precision` store (gmrf.py 842-931): an eigendecomposition, a Cholesky
decomposition, or a bare `SPDMatrix` (only `update_support` does that, gmrf.py 1059). -/
inductive Op (n : ℕ) where
  | eig (o : Eigen n)
  | chol (o : Cholesky n)
  | plain (D : Mat n n)

namespace Op

variable {n m : ℕ}

/-- `C.dot(b)` (spd.py 183, 562, 1018); the base class method takes no argument: `TypeError`. -/
def dot : Op n → Mat n m → Except FErr (Mat n m)
  | .eig o, b => .ok (o.dot b)
  | .chol o, b => .ok (o.dot b)
  | .plain _, _ => .error .type

/-- `C.solve(b)` (spd.py 190, 588, 1026). -/
noncomputable def solve : Op n → Mat n m → Except FErr (Mat n m)
  | .eig o, b => lift (o.solve b none)
  | .chol o, b => lift (o.solve b)
  | .plain _, _ => .error .type

/-- `C.sqrt_dot(z,transpose=False)` (spd.py 197, 630, 1068). -/
noncomputable def sqrtDot : Op n → Mat n m → Except FErr (Mat n m)
  | .eig o, b => .ok (o.sqrtDot b false)
  | .chol o, b => .ok (o.sqrtDot b false)
  | .plain _, _ => .error .type

/-- `C.sqrt_solve(z,transpose=True)` (spd.py 204, 702, 1094). -/
noncomputable def sqrtSolveT : Op n → Mat n m → Except FErr (Mat n m)
  | .eig o, b => lift (o.sqrtSolve b true none)
  | .chol o, b => lift (o.sqrtSolve b true)
  | .plain _, _ => .error .type

/-- `C.get_matrix()` (spd.py 86-95). -/
def getMatrix : Op n → Mat n n
  | .eig o => o.C
  | .chol o => o.C
  | .plain D => D

end Op

/-- `GaussianField(size,mean,covariance=..,precision=..)` (gmrf.py 755-789). -/
structure Field (n : ℕ) where
  mean : Mat n 1
  cov : Option (Op n)
  prec : Option (Op n)

/-- The argument `mode`. -/
inductive Mode where
  | covariance
  | precision
deriving DecidableEq

/-- `np.tile(mean,(1,n_samples))` (gmrf.py 1351). -/
def tile {n : ℕ} (mean : Mat n 1) (m : ℕ) : Mat n m := Matrix.of fun i _ => mean i 0

/-- `sample(z=z,mode=mode)` (gmrf.py 1272-1358). -/
noncomputable def Field.sample {n m : ℕ} (f : Field n) (mode : Mode) (z : Mat n m) :
    Except FErr (Mat n m) :=
  match mode with
  | .covariance =>
    match f.cov with
    | none => .error .assertion
    | some C => do
      let Lz ← C.sqrtDot z
      pure (Lz + tile f.mean m)
  | .precision =>
    match f.prec with
    | none => .error .assertion
    | some Q => do
      let Lz ← Q.sqrtSolveT z
      pure (Lz + tile f.mean m)

open Classical in
/-- `scipy.linalg.solve(W,r)`: the exact solution, `LinAlgError` if `W` is singular. -/
noncomputable def linSolve {k m : ℕ} (W : Mat k k) (r : Mat k m) : Except FErr (Mat k m) :=
  if IsUnit W.det then .ok (W⁻¹ * r) else .error .linalg

/-- `KAT` of `condition` (gmrf.py 1456-1467): `K.dot(A.T)` or `Q.solve(A.T)`. -/
noncomputable def Field.kat {n k : ℕ} (f : Field n) (mode : Mode) (A : Mat k n) :
    Except FErr (Mat n k) :=
  match mode with
  | .covariance =>
    match f.cov with
    | none => .error .assertion
    | some K => K.dot Aᵀ
  | .precision =>
    match f.prec with
    | none => .error .assertion
    | some Q => Q.solve Aᵀ

/-- The matrix built from an index vector `A` (gmrf.py 1419-1424): row `i` selects entry `idx i`. -/
def selection {n k : ℕ} (idx : Fin k → Fin n) : Mat k n :=
  Matrix.of fun i j => if j = idx i then 1 else 0

/-- `condition(A,e,Ko=0,output='sample',z=z,mode=mode)` without support (gmrf.py 1379-1492).  `e` is
the array after broadcasting against `A.dot(Xs)`, i.e. one column per sample. -/
noncomputable def Field.conditionSample {n k m : ℕ} (f : Field n) (mode : Mode) (A : Mat k n)
    (e : Mat k m) (z : Mat n m) : Except FErr (Mat n m) := do
  let KAT ← f.kat mode A
  let AKAT := A * KAT
  let Xs ← f.sample mode z
  let r := A * Xs - e
  let U ← linSolve AKAT r
  pure (Xs - (1 : Mat n n) * (KAT * U))

/-- The field returned by `condition(..,output='field')`: its mean, and the eigendecomposition
computed from the conditional covariance (gmrf.py 1507-1514). -/
structure Conditioned (n : ℕ) where
  mean : Mat n 1
  kcnd : Mat n n
  eig : Eigen n

/-- `condition(A,e,Ko=0,output='field',mode=mode)` without support returns the field `c`
(gmrf.py 1494-1516).  A relation because the eigendecomposition is.  In mode `'precision'` the name
`K` is not bound (line 1506): no field is returned. -/
def Field.ConditionField {n k : ℕ} (f : Field n) (mode : Mode) (A : Mat k n) (e : Mat k 1)
    (c : Conditioned n) : Prop :=
  match mode with
  | .precision => False
  | .covariance =>
    ∃ K KAT w U, f.cov = some K ∧ f.kat mode A = .ok KAT ∧
      linSolve (A * KAT) (A * f.mean - e) = .ok w ∧ linSolve (A * KAT) KATᵀ = .ok U ∧
      c.mean = f.mean - (1 : Mat n n) * (KAT * w) ∧
      c.kcnd = (1 : Mat n n) * ((K.getMatrix - KAT * U) * (1 : Mat n n)ᵀ) ∧
      Eigen.Init c.kcnd none none c.eig

/-- The indices kept by `update_support()` with its default `tol=1e-12` (gmrf.py 1050-1051). -/
noncomputable def Conditioned.idx {n : ℕ} (c : Conditioned n) : Finset (Fin n) :=
  Finset.univ.filter fun i => |c.eig.d i| > 1 / 10 ^ 12

/-- The support set by `update_support()` (gmrf.py 1064-1068). -/
noncomputable def Conditioned.support {n : ℕ} (c : Conditioned n) :
    Matrix (Fin n) {i // i ∈ c.idx} ℝ := Matrix.of fun i j => c.eig.V i j

/-- The reduced covariance stored by `update_support()` (gmrf.py 1054-1059): a bare `SPDMatrix`. -/
noncomputable def Conditioned.reduced {n : ℕ} (c : Conditioned n) :
    Matrix {i // i ∈ c.idx} {i // i ∈ c.idx} ℝ := diagonal fun i => c.eig.d i

/-- The covariance of the returned field: `V D V'` with `V` the support (documented at gmrf.py
1003-1006, 975-977). -/
noncomputable def Conditioned.covariance {n : ℕ} (c : Conditioned n) : Mat n n :=
  c.support * c.reduced * c.supportᵀ

/-- `sample(z=z)` of the conditioned field: the stored covariance is a bare `SPDMatrix`, whose
`sqrt_dot` takes no argument (gmrf.py 1350, spd.py 197). -/
noncomputable def Conditioned.sample {n s m : ℕ} (_ : Conditioned n) (D : Mat s s) (z : Mat s m) :
    Except FErr (Mat s m) := Op.sqrtDot (.plain D) z

/-- `KL_sample(i_min,i_max,z=z)` with explicit `z` of `r` rows (gmrf.py 1165-1224).  The slice
`z[i_min:i_max+1,:]` must have as many rows as eigenvalues are selected, else `ValueError`. -/
noncomputable def Field.klSample {n r m : ℕ} (f : Field n) (imin : ℕ) (imax : Option ℕ)
    (z : Mat r m) : Except FErr (Mat n m) :=
  match f.cov with
  | some (.eig o) =>
    let imx := imax.getD (n - 1)
    if imx < imin then .error .assertion
    else if n ≤ imx then .error .assertion
    else if r ≠ imx - imin + 1 then .error .assertion
    else if min (imx + 1) r - imin ≠ imx + 1 - imin then .error .value
    else .ok (Matrix.of fun i j => (∑ l : Fin n, if h : imin ≤ l ∧ (l : ℕ) ≤ imx ∧ (l : ℕ) < r then
        o.V i l * (Real.sqrt (o.d l) * z ⟨l, h.2.2⟩ j) else 0) + tile f.mean m i j)
  | _ => .error .assertion

/-- `KL_sample(i_min,i_max)` without `z`: the random numbers drawn are `z` with `n` rows
(gmrf.py 1214-1216, 1222). -/
noncomputable def Field.klSampleRandom {n m : ℕ} (f : Field n) (imin : ℕ) (imax : Option ℕ)
    (z : Mat n m) : Except FErr (Mat n m) :=
  match f.cov with
  | some (.eig o) =>
    let imx := imax.getD (n - 1)
    if imx < imin then .error .assertion
    else if n ≤ imx then .error .assertion
    else .ok (Matrix.of fun i j => (∑ l : Fin n, if imin ≤ l ∧ (l : ℕ) ≤ imx then
        o.V i l * (Real.sqrt (o.d l) * z l j) else 0) + tile f.mean m i j)
  | _ => .error .assertion

/-- `Covariance.assemble` with `discretization='interpolation'` (gmrf.py 649-676): kernel matrix `K`
at the dof vertices, mass matrix `M`, `C = M K M'`, generalized eigendecomposition. -/
def CovInterp {n : ℕ} (K M : Mat n n) (o : Eigen n) : Prop :=
  Eigen.Init (M * (K * Mᵀ)) (some M) none o

/-- `Covariance.assemble` with `discretization='galerkin'` (gmrf.py 631-647): `B` the matrix of the
double integrals, `M` the mass matrix. -/
def CovGalerkin {n : ℕ} (B M : Mat n n) (o : Eigen n) : Prop := Eigen.Init B (some M) none o

end Verif.Gmrf
