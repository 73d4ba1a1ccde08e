import Verif.Intg.Model
import Verif.Asm.Spec

/-!
# Specification: quadrature of an integral operator

Test and trial functions are given by their values at the quadrature nodes.
-/

namespace Verif.Intg
open Verif.Asm (localBilin)
variable {κ X R : Type} [CommRing R]

/-- The value at node `g` of the function with dof values `v`: `Σ_a φ_a(x_g) v(dof_a)`. -/
def feVal (phi : ℕ → ℕ → R) (dofs : List ℕ) (v : ℕ → R) (g : ℕ) : R := ∑ a : Fin dofs.length, phi g a * v dofs[a]

/-- The quadrature nodes of a mesh with weights times the values of the test function `v` there. -/
def tstNodes (regs : κ → List (Reg X R)) (dofs : κ → List ℕ) (cells : List κ) (v : ℕ → R) : List (X × R) :=
  cells.flatMap fun c => (regs c).flatMap fun r => (List.range r.n).map fun g => (r.x g, r.w g * feVal r.tst (dofs c) v g)

/-- The same for a trial function. -/
def trlNodes (regs : κ → List (Reg X R)) (dofs : κ → List ℕ) (cells : List κ) (u : ℕ → R) : List (X × R) :=
  cells.flatMap fun c => (regs c).flatMap fun r => (List.range r.n).map fun g => (r.x g, r.w g * feVal r.trl (dofs c) u g)

/-- `Σ_p Σ_q m_p k(x_p, y_q) n_q` for two lists of points with masses: for nodes with weights, the double integral of `v(x) k(x,y) u(y)`. -/
def double (k : X → X → R) (ps qs : List (X × R)) : R := (ps.map fun p => (qs.map fun q => p.2 * k p.1 q.1 * q.2).sum).sum

/-- `Σ_q k(x, y_q) n_q`: the integral of `k(x,y) u(y)` over `y`. -/
def single (k : X → X → R) (x : X) (qs : List (X × R)) : R := (qs.map fun q => k x q.1 * q.2).sum

/-- What a form should be for functions with dof values `v`, `u`: an ordinary form the sum of its contributions, `IPForm` the double integral over
all pairs of cells, `IIForm` the sum over all dofs of `v` times the integral at the vertex of the dof. -/
def value {F : Type} (cells : List κ) (v u : ℕ → R) : BForm κ X R F → R
  | .plain loc => (cells.map fun c => localBilin (loc c).tst (loc c).trl (loc c).mat v u).sum
  | .ip k _ _ regs tst trl => double k (tstNodes regs tst cells v) (trlNodes regs trl cells u)
  | .ii k _ regs _ vert all trl => (all.map fun d => v d * single k (vert d) (trlNodes regs trl cells u)).sum

/-- Forms that are assembled correctly.  One sample, at least one region in every cell.  All rules have the same number of nodes (`IPForm`); if the kernel claims to be symmetric, it
is, and test and trial functions are the same (`IPForm`); one region in every cell and no submesh (`IIForm`). -/
def BForm.Ok {F : Type} (cells : List κ) : BForm κ X R F → Prop
  | .plain _ => True
  | .ip k samples sym regs tst trl => samples = 1 ∧ (∀ c ∈ cells, regs c ≠ []) ∧ (∃ n, ∀ c ∈ cells, ∀ r ∈ regs c, r.n = n) ∧
      (sym = true → (∀ x y, k x y = k y x) ∧ tst = trl ∧ ∀ c ∈ cells, ∀ r ∈ regs c, r.tst = r.trl)
  | .ii _ samples regs flag _ _ _ => samples = 1 ∧ (∀ c ∈ cells, (regs c).length = 1) ∧ flag = none

/-- Test and trial functions have the same dofs. -/
def BForm.Same {F : Type} (cells : List κ) : BForm κ X R F → Prop
  | .plain loc => ∀ c ∈ cells, (loc c).tst = (loc c).trl
  | .ip _ _ _ _ tst trl => tst = trl
  | .ii _ _ _ _ _ all trl => ∀ d, d ∈ all ↔ ∃ c ∈ cells, d ∈ trl c

/-- The dofs of the test functions of a form. -/
def BForm.dofs {F : Type} (cells : List κ) : BForm κ X R F → List ℕ
  | .plain loc => cells.flatMap fun c => (loc c).tst
  | .ip _ _ _ _ tst _ => cells.flatMap tst
  | .ii _ _ _ _ _ all _ => all

end Verif.Intg
