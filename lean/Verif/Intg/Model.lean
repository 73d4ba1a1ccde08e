import Verif.Asm.Model
import Mathlib.Algebra.BigOperators.Group.Finset.Basic

/-!
# Model: integral operators

The integral forms `IIForm` (assembler.py 1468-1586) and `IPForm` (1588-1738), and their part in the cell loop of `Assembler.assemble`
(2363-2480).  `κ`: cells, `X`: points, `R`: numbers (exact).
-/

namespace Verif.Intg
open Verif.Asm (Loc2)

/-- Exceptions. -/
inductive Err where
  /-- `None` has no attribute `reshape` (`update_cellwise`, assembler.py 4087) or `T` (2473) -/
  | attribute
  /-- shapes do not fit -/
  | shape
  /-- `KeyError` -/
  | key
  deriving DecidableEq, Repr

/-- What `shape_eval` gives for one region (assembler.py 3330-3535): `n` quadrature nodes with weights, the values (or derivatives) of the test and
the trial shape functions there, `tst g a` for node `g` and local dof `a`. -/
structure Reg (X R : Type) where
  n : ℕ
  x : ℕ → X
  w : ℕ → R
  tst : ℕ → ℕ → R
  trl : ℕ → ℕ → R

variable {κ X R : Type} [CommRing R] [DecidableEq κ]

/-- `np.dot(Wphii.T, C_loc.dot(Wphij))` for one pair of regions (assembler.py 1709-1736); `ig` has as many elements as the first region has nodes. -/
def blockIP (k : X → X → R) (r s : Reg X R) (a b : ℕ) : R :=
  ∑ g ∈ Finset.range r.n, (r.w g * r.tst g a) * ∑ h ∈ Finset.range r.n, k (r.x g) (s.x h) * (s.w h * s.trl h b)

/-- One pass of the loop over pairs of regions (assembler.py 1684-1736).  `C_loc.reshape(n, n)` fails if the kernel has several samples, and the shapes
do not fit if the regions have different numbers of nodes. -/
def passIP (samples : ℕ) (k : X → X → R) (f : Option (ℕ → ℕ → R)) (p : Reg X R × Reg X R) : Except Err (Option (ℕ → ℕ → R)) :=
  if samples = 1 ∧ p.1.n = p.2.n then .ok (some fun a b => (match f with | none => 0 | some f => f a b) + blockIP k p.1 p.2 a b)
  else .error .shape

/-- `IPForm.eval((ci, cj), ...)` (assembler.py 1639-1738); `None` if one of the cells has no region. -/
def evalIP (samples : ℕ) (k : X → X → R) (ri rj : List (Reg X R)) : Except Err (Option (ℕ → ℕ → R)) :=
  (ri.flatMap fun r => rj.map fun s => (r, s)).foldlM (passIP samples k) none

/-- `C_loc.dot(Wphi)` (assembler.py 1566-1584): rows are the interpolation points. -/
def blockII (k : X → X → R) (xs : ℕ → X) (r : Reg X R) (i b : ℕ) : R :=
  ∑ g ∈ Finset.range r.n, k (xs i) (r.x g) * (r.w g * r.trl g b)

/-- `IIForm.eval(cell, ...)` (assembler.py 1510-1586).  Everything, the sum as well, is inside `if f_loc is None`: only the first region contributes. -/
def evalII (samples : ℕ) (k : X → X → R) (xs : ℕ → X) (rs : List (Reg X R)) : Except Err (Option (ℕ → ℕ → R)) :=
  match rs with
  | [] => .ok none
  | r :: _ => if samples = 1 then .ok (some (blockII k xs r)) else .error .shape

/-- `get_dof_vertices(test.subforest_flag())` (assembler.py 1534; fem.py 2227-2283): the flag is taken for the list of dofs.  Without flag these are the
vertices of all dofs; the characters of a string are not dofs, and a number is one dof at most, for which the result has no `shape`. -/
def vertsII {F : Type} (flag : Option F) (vert : ℕ → X) (dofs : List ℕ) : Except Err (List X) :=
  match flag with
  | none => .ok (dofs.map vert)
  | some _ => .error .key

/-- A bilinear form of a problem: an ordinary one, with its local contributions; an `IPForm`; an `IIForm`.  `regs c` are the regions of a cell,
`sym` is `kernel.is_symmetric()`. -/
inductive BForm (κ X R F : Type) where
  | plain (loc : κ → Loc2 R)
  | ip (k : X → X → R) (samples : ℕ) (sym : Bool) (regs : κ → List (Reg X R)) (tst trl : κ → List ℕ)
  | ii (k : X → X → R) (samples : ℕ) (regs : κ → List (Reg X R)) (flag : Option F) (vert : ℕ → X) (all : List ℕ) (trl : κ → List ℕ)

/-- `vals.reshape` in `update_cellwise` (assembler.py 4087), where `vals` may be `None`. -/
def notNone (f : Option (ℕ → ℕ → R)) : Except Err (ℕ → ℕ → R) :=
  match f with
  | none => .error .attribute
  | some f => .ok f

/-- The inner loop `for cj in cells` for an `IPForm` (assembler.py 2436-2480): the contributions of the cell `ci` in order. -/
def rowIP (k : X → X → R) (samples : ℕ) (sym : Bool) (regs : κ → List (Reg X R)) (tst trl : κ → List ℕ) (ci : κ) : List κ → Except Err (List (Loc2 R))
  | [] => .ok []
  | cj :: rest => do
    let M ← notNone (← evalIP samples k (regs ci) (regs cj))
    if sym then
      if ci ≠ cj then
        let more ← rowIP k samples sym regs tst trl ci rest
        .ok (⟨tst ci, trl cj, M⟩ :: ⟨trl cj, tst ci, fun a b => M b a⟩ :: more)
      else .ok [⟨tst ci, trl cj, M⟩]
    else
      let more ← rowIP k samples sym regs tst trl ci rest
      .ok (⟨tst ci, trl cj, M⟩ :: more)

/-- The contributions of one form on the cell `ci` (assembler.py 2376-2480). -/
def localOf {F : Type} (cells : List κ) (ci : κ) : BForm κ X R F → Except Err (List (Loc2 R))
  | .plain loc => .ok [loc ci]
  | .ip k samples sym regs tst trl => rowIP k samples sym regs tst trl ci cells
  | .ii k samples regs flag vert all trl => do
    let xs ← vertsII flag vert all
    let M ← notNone (← evalII samples k (fun i => xs.getD i (vert 0)) (regs ci))
    .ok [⟨all, trl ci, M⟩]

/-- All contributions to the bilinear forms of a problem on one cell (assembler.py 2376-2480). -/
def cellOf {F : Type} (cells : List κ) (forms : List (BForm κ X R F)) (ci : κ) : Except Err (κ × List (Loc2 R)) := do
  let ls ← forms.mapM (localOf cells ci)
  .ok (ci, ls.flatten)

/-- All contributions to the bilinear forms of a problem, cell by cell (assembler.py 2363-2480); `distribute` and `consolidate` follow (`Asm`). -/
def contribs {F : Type} (cells : List κ) (forms : List (BForm κ X R F)) : Except Err (List (κ × List (Loc2 R))) :=
  cells.mapM (cellOf cells forms)

end Verif.Intg
