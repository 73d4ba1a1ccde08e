import Mathlib.Algebra.BigOperators.Group.List.Basic
import Mathlib.Data.Finset.Basic
import Mathlib.Algebra.BigOperators.Group.Finset.Basic
import Mathlib.Algebra.Ring.Defs
import Mathlib.Data.Fintype.Basic
import Mathlib.Logic.Relation
import Verif.Asm.Model

/-!
# Specification for C35, C36, C54: constrained finite element functions

This file uses nothing of the assembly algorithm (of the model only the records `Loc1`, `Loc2` of
local contributions): it speaks about functions on the dofs, the
hanging-node relations, Dirichlet values, and local matrices.
-/

namespace Verif.Asm

variable {R : Type} [CommRing R] {κ : Type}

/-- The linear combination `Σ coeff * v supp` that a hanging node takes its value from. -/
def combo (S : List ℕ × List R) (v : ℕ → R) : R := ((S.1.zip S.2).map fun p => p.2 * v p.1).sum

/-- A dof without any constraint. -/
def Free (hng : ℕ → Option (List ℕ × List R)) (dir : ℕ → Option R) (d : ℕ) : Prop :=
  hng d = none ∧ dir d = none

/-- `v` obeys all hanging-node relations. -/
def Conforms (hng : ℕ → Option (List ℕ × List R)) (v : ℕ → R) : Prop :=
  ∀ h S, hng h = some S → v h = combo S v

/-- `v` takes `t` times the Dirichlet values (`t = 1` for trial, `t = 0` for test functions). -/
def OnDirichlet (hng : ℕ → Option (List ℕ × List R)) (dir : ℕ → Option R) (t : R) (v : ℕ → R) :
    Prop :=
  ∀ d g, hng d = none → dir d = some g → v d = t * g

/-- An admissible test function: conforming, zero at the Dirichlet dofs. -/
def Test (hng : ℕ → Option (List ℕ × List R)) (dir : ℕ → Option R) (v : ℕ → R) : Prop :=
  Conforms hng v ∧ OnDirichlet hng dir 0 v

/-- An admissible trial function: conforming, with the Dirichlet values. -/
def Trial (hng : ℕ → Option (List ℕ × List R)) (dir : ℕ → Option R) (v : ℕ → R) : Prop :=
  Conforms hng v ∧ OnDirichlet hng dir 1 v

/-- No cycles among the hanging nodes: some rank decreases from a hanging node to its supports. -/
def Acyclic (hng : ℕ → Option (List ℕ × List R)) : Prop :=
  ∃ rank : ℕ → ℕ, ∀ h S, hng h = some S → ∀ s ∈ S.1, rank s < rank h

/-- `P f` is the basis function of the free dof `f` in the constrained space: admissible as a test
function, `1` at `f` and `0` at all other free dofs. -/
def IsProlongation (hng : ℕ → Option (List ℕ × List R)) (dir : ℕ → Option R) (P : ℕ → ℕ → R) :
    Prop :=
  ∀ f, Free hng dir f → Test hng dir (P f) ∧
    ∀ f', Free hng dir f' → P f f' = if f' = f then 1 else 0

/-- `d` is the lifting of the Dirichlet values: an admissible trial function that vanishes at the
free dofs. -/
def IsLifting (hng : ℕ → Option (List ℕ × List R)) (dir : ℕ → Option R) (d : ℕ → R) : Prop :=
  Trial hng dir d ∧ ∀ f, Free hng dir f → d f = 0

/-- The value of a local bilinear form with test dofs `tst`, trial dofs `trl` and matrix `M` at
`v`, `x`: `Σ_j Σ_i v(tst_j) M_ji x(trl_i)`. -/
def localBilin (tst trl : List ℕ) (M : ℕ → ℕ → R) (v x : ℕ → R) : R :=
  ∑ j : Fin tst.length, ∑ i : Fin trl.length, v tst[j] * M j i * x trl[i]

/-- The value of a local linear form at `v`. -/
def localLin (tst : List ℕ) (m : ℕ → R) (v : ℕ → R) : R :=
  ∑ j : Fin tst.length, v tst[j] * m j

/-- Sum of all local forms over all cells at `(v, x)`. -/
def total2 (cs : List (κ × List (Loc2 R))) (v x : ℕ → R) : R :=
  (cs.map fun c => (c.2.map fun l => localBilin l.tst l.trl l.mat v x).sum).sum

/-- Sum of all local linear forms over all cells at `v`. -/
def total1 (cs : List (κ × List (Loc1 R))) (v : ℕ → R) : R :=
  (cs.map fun c => (c.2.map fun l => localLin l.tst l.vec v).sum).sum

/-- One support step. -/
def Supp (hng : ℕ → Option (List ℕ × List R)) (r s : ℕ) : Prop :=
  ∃ S, hng r = some S ∧ ∃ c, (s, c) ∈ S.1.zip S.2

/-- `s` is reached from `r` by replacing hanging nodes by supports. -/
def Reach (hng : ℕ → Option (List ℕ × List R)) : ℕ → ℕ → Prop := Relation.ReflTransGen (Supp hng)

/-- `list(set(l))`: every element once, in some order. -/
def SetOrder (ord : List ℕ → List ℕ) : Prop := ∀ l, (ord l).Nodup ∧ ∀ x, x ∈ ord l ↔ x ∈ l

/-- `list(set(l))` happens to be sorted. -/
def Ascending (ord : List ℕ → List ℕ) : Prop := ∀ l, (ord l).Pairwise (· < ·)

/-- The constraints as `Assembler.solve` needs them, for dofs `0..n-1`: `hdofs`, `ddofs` are the keys
of the two dictionaries; no hanging node supports a hanging node or is a Dirichlet dof. -/
structure OneLevel (hng : ℕ → Option (List ℕ × List R)) (dir : ℕ → Option R) (n : ℕ)
    (hdofs ddofs : List ℕ) : Prop where
  hkeys : ∀ h, h ∈ hdofs ↔ (hng h).isSome
  hnodup : hdofs.Nodup
  dkeys : ∀ d, d ∈ ddofs ↔ (dir d).isSome
  dnodup : ddofs.Nodup
  below : ∀ h S, hng h = some S → h < n ∧ ∀ s ∈ S.1, s < n
  chain : ∀ h S, hng h = some S → ∀ s ∈ S.1, hng s = none
  disj : ∀ h, (hng h).isSome → dir h = none

/-- Test and trial dofs coincide in every local form. -/
def SameBasis (cs : List (κ × List (Loc2 R))) : Prop := ∀ c ∈ cs, ∀ l ∈ c.2, l.tst = l.trl

/-- The dofs that occur in some local bilinear form. -/
def Uses2 (cs : List (κ × List (Loc2 R))) (r : ℕ) : Prop := ∃ c ∈ cs, ∃ l ∈ c.2, r ∈ l.tst
/-- The dofs that occur in some local linear form. -/
def Uses1 (cs : List (κ × List (Loc1 R))) (r : ℕ) : Prop := ∃ c ∈ cs, ∃ l ∈ c.2, r ∈ l.tst

/-- `x` is the solution of the constrained variational problem: an admissible trial function with
`a(v,x) = ℓ(v)` for every admissible test function `v`. -/
def SolvesVariational (hng : ℕ → Option (List ℕ × List R)) (dir : ℕ → Option R)
    (a : (ℕ → R) → (ℕ → R) → R) (ℓ : (ℕ → R) → R) (x : ℕ → R) : Prop :=
  Trial hng dir x ∧ ∀ v, Test hng dir v → a v x = ℓ v

end Verif.Asm
