import Verif.Gal.Props
import Mathlib.Analysis.Calculus.ContDiff.Basic
import Mathlib.Analysis.Calculus.ContDiff.Operations

/-!
# Specification: the error of a finite element function

Nothing here is code: the problem `−div(κ∇u) = f`, the energy of a function and the error in the energy norm.
-/

namespace Verif.Cea
open Verif.Mesh Verif.Dof Verif.Quad Verif.Fem Verif.Form Verif.Asm Verif.Phys Verif.Bnd Verif.Reg Verif.Dir Verif.Gauss Verif.Gal MeasureTheory

/-- Partial derivatives. -/
noncomputable def px (w : ℝ × ℝ → ℝ) (p : ℝ × ℝ) : ℝ := fderiv ℝ w p (1, 0)
noncomputable def py (w : ℝ × ℝ → ℝ) (p : ℝ × ℝ) : ℝ := fderiv ℝ w p (0, 1)

/-- `u` is a classical solution of `−div(κ∇u) = f` in the domain `Ω`. -/
structure Classical (κ f : Poly) (u : ℝ × ℝ → ℝ) (Ω : Set (ℝ × ℝ)) : Prop where
  smooth : ContDiff ℝ 2 u
  eq : ∀ p ∈ Ω, -(px (fun z => ev κ z * px u z) p + py (fun z => ev κ z * py u z) p) = ev f p

/-- Inside each leaf `c`, `w c` is the finite element function with dof values `U`. -/
def IsFn (sf : Bool) (s : St ℝ) (e : ET) (D : DH) (U : Nat → ℝ) (w : CN → ℝ × ℝ → ℝ) : Prop :=
  ∀ c ∈ leaves sf s, ∀ z, InOpen z → w c (F (cellQ s c) z) = feFn e D U c z

/-- The square of the error of `w` in the energy norm, `∫ κ |∇w − ∇u|²`. -/
noncomputable def errE (κ : Poly) (sf : Bool) (s : St ℝ) (u : ℝ × ℝ → ℝ) (w : CN → ℝ × ℝ → ℝ) : ℝ :=
  ((leaves sf s).map (fun c => ∫ p in Quad.region (cellQ s c), ev κ p * ((px (w c) p - px u p) ^ 2 + (py (w c) p - py u p) ^ 2))).sum

/-- The square of the energy norm of the difference of `w` and `w'`. -/
noncomputable def distE (κ : Poly) (sf : Bool) (s : St ℝ) (w w' : CN → ℝ × ℝ → ℝ) : ℝ :=
  ((leaves sf s).map (fun c => ∫ p in Quad.region (cellQ s c), ev κ p *
    ((px (w c) p - px (w' c) p) ^ 2 + (py (w c) p - py (w' c) p) ^ 2))).sum

/-- The energy `½ ∫ κ |∇w|² − ∫ f w`. -/
noncomputable def energy (κ f : Poly) (sf : Bool) (s : St ℝ) (w : CN → ℝ × ℝ → ℝ) : ℝ :=
  ((leaves sf s).map (fun c => ∫ p in Quad.region (cellQ s c), (1 / 2 * (ev κ p * (px (w c) p ^ 2 + py (w c) p ^ 2)) - ev f p * w c p))).sum

/-- The initial cells are parallelograms. -/
def Par (B : Base ℝ) : Prop := ∀ f < B.n, hDx (rootQ B f) = 0 ∧ hDy (rootQ B f) = 0

/-- The problem `−div(κ∇u) = f` with polynomials `κ` and `f`, given to the forms as kernels, and quadrature rules that integrate it exactly on
parallelograms. -/
structure Problem (e : ET) (n n1 j : Nat) (rc : List ((ℝ × ℝ) × ℝ)) (re : List (ℝ × ℝ)) (k kf : Kernel (Pt ℝ)) (κ f : Poly) : Prop where
  rule2 : Gauss.rule2 (n ^ 2) = .ok rc
  five : n ≤ 5
  rule1 : Gauss.rule1 n1 = .ok re
  degk : κ.totalDegree + 2 * deg e < 2 * n
  degf : f.totalDegree + deg e < 2 * n
  diff : IsPoly k j κ
  load : IsPoly kf j f

/-- The finite element function with dof values `U` is single-valued (continuous), with the values of `g` at the nodes on the boundary. -/
structure Admissible (B : Base ℝ) (sf : Bool) (s : St ℝ) (e : ET) (D : DH) (g : Pt ℝ → ℝ) (U : Nat → ℝ) : Prop where
  single : Single B sf s e D U
  bnd : ∀ c ∈ leaves sf s, ∀ a < nd2 e, BndPt B (rootPt c (node e a)) → U (dofAt D c a) = g (place s e c a)

/-- `w` is a finite element solution of `−div(κ∇u) = f` on the (sub)mesh `s`, computed by the program with the values of `g` at the boundary nodes:
dofs and dof vertices, hanging nodes, quadrature, assembly and `solve`. -/
def Computed (B : Base ℝ) (e : ET) (κ f : Poly) (g : Pt ℝ → ℝ) (sf : Bool) (s : St ℝ) (w : CN → ℝ × ℝ → ℝ) : Prop :=
  ∃ close D V rect n n1 j rc re k kf, ∃ H C : List (Linsys.Con ℝ), ∃ d keep fuel ord y U,
    Setting close B e sf s D V rect ∧ Problem e n n1 j rc re k kf κ f ∧ setHanging sf s e D [] = some (H, C) ∧ BndDict B sf s e D g d ∧
    SetOrder ord ∧ Ascending ord ∧ Solved e k kf rc re j rect sf s D H d keep fuel ord y U ∧ IsFn sf s e D (fun a => U.getD a 0) w

end Verif.Cea
