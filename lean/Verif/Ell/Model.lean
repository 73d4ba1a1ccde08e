import Verif.Sum.Props
import Verif.Gal.SystemRun
import Verif.Neu.Model
import Verif.Form.Line
import Mathlib.Analysis.Matrix.Order
import Mathlib.LinearAlgebra.Matrix.PosDef

/-!
# Model: elliptic Gaussian fields

`EllipticField.__init__` (gmrf.py 2139-2294): the matrices it assembles and the loop that computes a factor of the precision matrix.
-/

namespace Verif.Ell
open Verif.Mesh Verif.Dof Verif.Quad Verif.Fem Verif.Form Verif.Asm Verif.Phys Verif.Gal Verif.Sum Verif.Dir Matrix

/-- The argument `tau` (gmrf.py 2148-2160): missing, a function, or the entries of a symmetric tensor. -/
inductive Tau where
  | none
  | fn (k : Kernel (Pt ℝ))
  | tensor (axx axy ayy : Kernel (Pt ℝ))

/-- The argument `kappa` as it is turned into a kernel by `Form` (gmrf.py 2244, assembler.py 1065-1091): the default `None` becomes the constant 1. -/
def kappaOf : Option (Kernel (Pt ℝ)) → Kernel (Pt ℝ)
  | .none => one (Pt ℝ)
  | some k => k

/-- The forms of the diffusion (gmrf.py 2194-2240), two dimensional meshes.  `ux` is the derivative `[1,0]`, `uy` is `[1,1]`. -/
def tauForms : Tau → List BTerm
  | .none => [⟨one (Pt ℝ), [1, 0], [1, 0], .dx, .none⟩, ⟨one (Pt ℝ), [1, 1], [1, 1], .dx, .none⟩]
  | .fn k => [⟨k, [1, 0], [1, 0], .dx, .none⟩, ⟨k, [1, 1], [1, 1], .dx, .none⟩]
  | .tensor axx axy ayy =>
    [⟨axx, [1, 0], [1, 0], .dx, .none⟩, ⟨axy, [1, 1], [1, 0], .dx, .none⟩, ⟨axy, [1, 0], [1, 1], .dx, .none⟩, ⟨ayy, [1, 1], [1, 1], .dx, .none⟩]

/-- `elliptic_forms` (gmrf.py 2189-2244). -/
def ellForms (tau : Tau) (kappa : Option (Kernel (Pt ℝ))) : List BTerm := tauForms tau ++ [⟨kappaOf kappa, [0], [0], .dx, .none⟩]

/-- `mass` (gmrf.py 2249). -/
def massForms : List BTerm := [⟨one (Pt ℝ), [0], [0], .dx, .none⟩]

/-- `assembler.get_matrix(i)` (gmrf.py 2259-2270) for a problem with `n` dofs. -/
def matOf (A : Sys2 ℝ) (n : Nat) : Matrix (Fin n) (Fin n) ℝ := Matrix.of (fun i j => A.entry i j)

/-- `m_lumped`: the row sums of the mass matrix (gmrf.py 2270-2271). -/
def lump {n : Nat} (M : Matrix (Fin n) (Fin n) ℝ) (i : Fin n) : ℝ := ∑ j, M i j

/-- `K` and `m_lumped` as the constructor gets them from `Assembler(problems, mesh=...)` (gmrf.py 2244-2271), without constraints, sample `j`. -/
def Assembled {κ : Type} [DecidableEq κ] (e : ET) (tau : Tau) (kappa : Option (Kernel (Pt ℝ))) (rc : List ((ℝ × ℝ) × ℝ)) (re : List (ℝ × ℝ)) (j : Nat)
    (cells : List (DCell κ)) (keep : Bool) (fuel : ℕ) (ord : List ℕ → List ℕ) {n : Nat} (K : Matrix (Fin n) (Fin n) ℝ) (m : Fin n → ℝ) : Prop :=
  ∃ af A af' A', assemble2 (consOf [] []) keep fuel (mats e (ellForms tau kappa) rc re j cells) = .ok af ∧ af.consolidate ord = .ok A ∧
    assemble2 (consOf [] []) keep fuel (mats e massForms rc re j cells) = .ok af' ∧ af'.consolidate ord = .ok A' ∧
    K = matOf A n ∧ m = lump (matOf A' n)

/-- The exceptions of the constructor. -/
inductive EErr where
  | nameError
  | typeError
  | notPosDef
deriving DecidableEq

/-- `sksparse.cholmod`: `cholesky(A)` and `cholesky_AAt(A)`; a factor is represented by the matrix `apply_Pt(L())`, i.e. `PᵀL` with
`L Lᵀ = P A Pᵀ` (used in gmrf.py 2276, 2282, 2289). -/
structure Cholmod (n : Nat) where
  cholesky : Matrix (Fin n) (Fin n) ℝ → Except EErr (Matrix (Fin n) (Fin n) ℝ)
  choleskyAAt : Matrix (Fin n) (Fin n) ℝ → Except EErr (Matrix (Fin n) (Fin n) ℝ)

/-- `while count < gamma` (gmrf.py 2285-2290). -/
noncomputable def loop {n : Nat} (ch : Cholmod n) (K : Matrix (Fin n) (Fin n) ℝ) (m : Fin n → ℝ) (γ count : Nat) (R : Matrix (Fin n) (Fin n) ℝ) :
    Except EErr (Matrix (Fin n) (Fin n) ℝ) :=
  if count < γ then
    match ch.choleskyAAt (K * diagonal (fun i => 1 / m i) * R) with
    | .ok R' => loop ch K m γ (count + 2) R'
    | .error x => .error x
  else .ok R
termination_by γ - count

/-- The factor `Q` of the precision matrix (gmrf.py 2272-2290). -/
noncomputable def factor {n : Nat} (ch : Cholmod n) (K : Matrix (Fin n) (Fin n) ℝ) (m : Fin n → ℝ) (γ : Nat) :
    Except EErr (Matrix (Fin n) (Fin n) ℝ) :=
  if γ % 2 = 0 then
    match ch.cholesky K with
    | .ok R => loop ch K m γ 1 R
    | .error x => .error x
  else
    match ch.choleskyAAt (K * diagonal (fun i => 1 / Real.sqrt (m i))) with
    | .ok R => loop ch K m γ 2 R
    | .error x => .error x

/-- The end of the constructor (gmrf.py 2272-2294): `cholesky` is not imported into the module (gmrf.py 1-39), which is `none` here; and
`GaussianField.__init__` has no parameters `K` and `mode` (gmrf.py 755). -/
noncomputable def init {n : Nat} (ch : Option (Cholmod n)) (K : Matrix (Fin n) (Fin n) ℝ) (m : Fin n → ℝ) (γ : Nat) :
    Except EErr (Matrix (Fin n) (Fin n) ℝ) :=
  match ch with
  | none => .error .nameError
  | some ch =>
    match factor ch K m γ with
    | .ok _ => .error .typeError
    | .error x => .error x

/-! ## Specification -/

/-- What CHOLMOD promises: factors are factors, positive definite matrices have one. -/
structure Cholmod.Spec {n : Nat} (ch : Cholmod n) : Prop where
  chol : ∀ A R, ch.cholesky A = .ok R → R * Rᵀ = A
  chol_ok : ∀ A, A.PosDef → ∃ R, ch.cholesky A = .ok R
  aat : ∀ A R, ch.choleskyAAt A = .ok R → R * Rᵀ = A * Aᵀ
  aat_ok : ∀ A, IsUnit A → ∃ R, ch.choleskyAAt A = .ok R

/-- The diffusion tensor `T` at a point, sample `j`: the entries `xx`, `xy`, `yy`. -/
noncomputable def Tau.at (tau : Tau) (j : Nat) (x : ℝ × ℝ) : ℝ × ℝ × ℝ :=
  match tau with
  | .none => (1, 0, 1)
  | .fn k => (Neu.kval k j x, 0, Neu.kval k j x)
  | .tensor axx axy ayy => (Neu.kval axx j x, Neu.kval axy j x, Neu.kval ayy j x)

/-- The kernels of `tau` have compatible sample sizes. -/
def Tau.Sized : Tau → Prop
  | .none => True
  | .fn k => ∃ S, sampleSize k = .ok S
  | .tensor axx axy ayy => (∃ S, sampleSize axx = .ok S) ∧ (∃ S, sampleSize axy = .ok S) ∧ ∃ S, sampleSize ayy = .ok S

/-- `v · T u`. -/
def inner (T : ℝ × ℝ × ℝ) (v u : ℝ × ℝ) : ℝ := v.1 * (T.1 * u.1 + T.2.1 * u.2) + v.2 * (T.2.1 * u.1 + T.2.2 * u.2)

/-- `T` is positive semidefinite at all points of a set. -/
def Tau.Psd (tau : Tau) (j : Nat) (X : Set (ℝ × ℝ)) : Prop := ∀ x ∈ X, ∀ v, 0 ≤ inner (tau.at j x) v v

/-- The value, or a derivative (`[1,0]`: `∂/∂x`, `[1,1]`: `∂/∂y`), of the finite element function with coefficients `v` at a reference point of a cell. -/
noncomputable def fld {κ : Type} (e : ET) (d : DCell κ) (der : List Nat) (v : ℕ → ℝ) (r : ℝ × ℝ) : ℝ :=
  fieldAt d.c ⟨e, der⟩ (fun a => v (d.dofs.getD a 0)) r

/-- The gradient. -/
noncomputable def grd {κ : Type} (e : ET) (d : DCell κ) (v : ℕ → ℝ) (r : ℝ × ℝ) : ℝ × ℝ := (fld e d [1, 0] v r, fld e d [1, 1] v r)

/-- `Q` is the precision matrix of the field `X = ∑ X_i φ_i` with `L^{γ/2} X = W`: `L = M⁻¹K` is the discrete operator, `S` its square root
(symmetric and positive with respect to the inner product of the mass matrix `M`), `W = ∑ W_i φ_i` discrete white noise, whose coefficients have
the covariance `M⁻¹`; so `S^γ Cov(X) (S^γ)ᵀ = M⁻¹`. -/
def Solves {n : Nat} (K M : Matrix (Fin n) (Fin n) ℝ) (γ : Nat) (Q : Matrix (Fin n) (Fin n) ℝ) : Prop :=
  IsUnit Q ∧ ∃ S, S * S = M⁻¹ * K ∧ (M * S).PosDef ∧ S ^ γ * Q⁻¹ * (S ^ γ)ᵀ = M⁻¹

end Verif.Ell
