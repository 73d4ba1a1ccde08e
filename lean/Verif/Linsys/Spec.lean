import Verif.Linsys.Model

/-!
# Specification for C37/C38: the constrained Galerkin problem

Everything here speaks about dof numbers only, not about equation numbers or the matrices `C`, `d`.
-/

namespace Verif.Linsys

open Matrix

variable {K : Type} [Field K] {n m : ℕ}

/-- `x` satisfies every constraint `x_dof = Σ coeff * x_supp + affine`. -/
def Feasible (cons : List (Con K)) (x : ℕ → K) : Prop :=
  ∀ c ∈ cons, x c.dof = (c.supp.map (fun s => s.2 * x s.1)).sum + c.aff

/-- `v` is an admissible test direction: it satisfies the homogeneous constraints. -/
def Direction (cons : List (Con K)) (v : ℕ → K) : Prop :=
  ∀ c ∈ cons, v c.dof = (c.supp.map (fun s => s.2 * v s.1)).sum

/-- The Galerkin equations: the residual `A x - b` is orthogonal to every admissible direction;
dof `i` is equation `i`. -/
def Galerkin (A : Matrix (Fin n) (Fin n) K) (b : Fin n → K) (cons : List (Con K)) (x : ℕ → K) :
    Prop :=
  ∀ v, Direction cons v →
    ∑ i : Fin n, v i * ((∑ j : Fin n, A i j * x j) - b i) = 0

/-- Column `j` of a solution array as a function of the dof number (zero outside). -/
def colOf (u : Matrix (Fin n) (Fin m) K) (j : Fin m) : ℕ → K := fun k =>
  if h : k < n then u ⟨k, h⟩ j else 0

/-- `u` solves the constrained problem with matrix `A` and right-hand side `b`, column by column. -/
def SolvesProblem (A : Matrix (Fin n) (Fin n) K) (b : Matrix (Fin n) (Fin m) K)
    (cons : List (Con K)) (u : Matrix (Fin n) (Fin m) K) : Prop :=
  ∀ j, Feasible cons (colOf u j) ∧ Galerkin A (fun i => b i j) cons (colOf u j)

/-- A list of constraints as the library produces it for dofs `0..n-1`: first the hanging nodes
(affine term 0), each supported by dofs that are not hanging, then Dirichlet values. -/
structure WellFormed (n : ℕ) (hs ds : List (Con K)) : Prop where
  /-- all dofs exist -/
  dofs : ∀ c ∈ hs ++ ds, c.dof < n
  supps : ∀ c ∈ hs, ∀ s ∈ c.supp, s.1 < n
  /-- hanging nodes have no affine term, Dirichlet dofs have no support -/
  hanging : ∀ c ∈ hs, c.aff = 0
  dirichlet : ∀ c ∈ ds, c.supp = []
  /-- every dof is constrained once as a hanging node, and then not as a Dirichlet dof -/
  nodup : (hs.map (·.dof)).Nodup
  disj : ∀ c ∈ hs, ∀ c' ∈ ds, c.dof ≠ c'.dof
  /-- no hanging node supports a hanging node -/
  chain : ∀ c ∈ hs, ∀ s ∈ c.supp, ∀ c' ∈ hs, s.1 ≠ c'.dof
  /-- a dof listed twice as Dirichlet dof has the same value -/
  consistent : ∀ c ∈ ds, ∀ c' ∈ ds, c.dof = c'.dof → c.aff = c'.aff

/-- The right-hand side with the loads of the hanging nodes in `hs` set to zero. -/
def dropLoads (hs : List (Con K)) (b : Matrix (Fin n) (Fin m) K) : Matrix (Fin n) (Fin m) K :=
  fun i j => if (i : ℕ) ∈ hs.map (·.dof) then 0 else b i j

end Verif.Linsys
