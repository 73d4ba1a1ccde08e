import Verif.Fn.Value
import Verif.Cea.Core

/-!
# Finite element functions as coefficients

function.py `Nodal.eval` with shape functions and dofs given (1835-1926), assembler.py `Kernel.eval` (924-993), `shape_info` (3148-3178), `shape_eval` (3330-3535, cells),
`Form.eval` (1246-1303); fem.py `Basis.dofs` (1065-1088); mesh.py `nearest_ancestor` (975-989).
-/

namespace Verif.Coef
open Verif.Mesh Verif.Dof Verif.Quad Verif.Fem Verif.Form Verif.Phys Verif.Gal

/-- `nearest_ancestor(flag)` of a cell of the tree `f` with a flag (mesh.py 982-989); `none` is `None`. -/
def nearestP (mk : CN → Bool) (f : Nat) : List (Fin 4) → Option CN
  | [] => if mk (f, []) then some (f, []) else none
  | k :: p => if mk (f, k :: p) then some (f, k :: p) else nearestP mk f p

/-- `nearest_ancestor(flag)` (mesh.py 975-989): without a flag the cell itself. -/
def nearest (mk : Option (CN → Bool)) (c : CN) : Option CN :=
  match mk with
  | none => some c
  | some m => nearestP m c.1 c.2

/-- A `Nodal` of one variable (function.py 1583-1640) with its `Basis` (fem.py 894-931): element, dofs, derivative, subforest flag, dofs in order, data (one row for
each dof), number of samples. -/
structure Nod where
  e : ET
  D : DH
  der : List Nat
  flag : Option (CN → Bool)
  L : List Nat
  data : List (List ℝ)
  m : Nat

/-- `basis.dofs(cell)` (fem.py 1065-1083); a cell without flagged ancestor raises. -/
def localDofs (f : Nod) (c : CN) : Option (List Nat) := (nearest f.flag c).bind (rowOf f.D)

/-- `phi[region][basis]` (assembler.py 3514-3532), one quadrature point: the shape functions of the basis on the cell that is assembled. -/
noncomputable def localPhi (rect : Nat → Bool) (s : St ℝ) (f : Nod) (c : CN) (r : ℝ × ℝ) : Option (List ℝ) :=
  allSome ((List.range (nd2 f.e)).map fun n => (Form.shapeAt (qcell rect s c) ⟨f.e, f.der⟩ r n).toOption)

/-- `Nodal.eval(phi=phi, dofs=dofs)` (function.py 1850-1926), sample `j`, one point: `phi · data[d2i[dofs]]`.  The argument `derivative` is not read on this branch. -/
noncomputable def evalPhi (f : Nod) (phi : List ℝ) (dofs : List Nat) (j : Nat) : Option ℝ :=
  (allSome (dofs.map (Fn.rowAt f.L f.data))).bind fun rows =>
    if phi.length = rows.length then some ((phi.zip rows).map fun y => y.1 * y.2.getD j 0).sum else none

/-- A function of a kernel: any map of the points with its number of samples, or a `Nodal` with the derivative that the kernel asks for
(`Kernel(f, derivatives=...)`, assembler.py 790-810). -/
inductive Fac where
  | map (ns : Nat) (f : Pt ℝ → Nat → ℝ)
  | nodal (f : Nod) (dfdx : Option (List Nat))

/-- `f.n_samples()` (assembler.py 868). -/
def Fac.ns : Fac → Nat
  | .map ns _ => ns
  | .nodal f _ => f.m

/-- `set_sample_size()` (assembler.py 857-892). -/
def size (fs : List Fac) : Except Fem.Err Nat := fs.foldlM (fun n f => sizeStep n f.ns) 1

/-- One function at one quadrature point (assembler.py 953-966).  `Form.basis` adds the bases of the kernel's functions (assembler.py 1139-1142), so `shape_info` lists
them, and in a form the shape functions and dofs are always found. -/
noncomputable def facAt (rect : Nat → Bool) (s : St ℝ) (c : CN) (p : QP) (j : Nat) : Fac → Option ℝ
  | .map _ f => some (f p.x j)
  | .nodal f _ => (localDofs f c).bind fun dofs => (localPhi rect s f c p.ref).bind fun phi => evalPhi f phi dofs j

/-- `Kernel.eval` (assembler.py 947-993), sample `j`: deterministic functions are tiled. -/
noncomputable def evalK (rect : Nat → Bool) (s : St ℝ) (fs : List Fac) (F : List ℝ → ℝ) (S : Nat) (c : CN) (p : QP) (j : Nat) : Option ℝ :=
  (allSome (fs.map fun f => facAt rect s c p (if S > 1 ∧ f.ns = 1 then 0 else j) f)).map F

/-- `Form(kernel, test)` of type 'linear' on a cell (assembler.py 1282-1303), entry `a`, sample `j`. -/
noncomputable def evalLinK (rect : Nat → Bool) (s : St ℝ) (fs : List Fac) (F : List ℝ → ℝ) (tst : Basis) (rc : List ((ℝ × ℝ) × ℝ)) (re : List (ℝ × ℝ)) (c : CN)
    (a j : Nat) : Option ℝ :=
  (size fs).toOption.bind fun S =>
    (allSome ((qps .dx none rc re (qcell rect s c)).map fun p => (Form.shapeAt (qcell rect s c) tst p.ref a).toOption.bind fun u =>
      (evalK rect s fs F S c p j).map fun k => u * (p.w * k))).map List.sum

/-- Type 'bilinear' (assembler.py 1304-1400), entry `(a, i)`, sample `j`. -/
noncomputable def evalBilK (rect : Nat → Bool) (s : St ℝ) (fs : List Fac) (F : List ℝ → ℝ) (tst trl : Basis) (rc : List ((ℝ × ℝ) × ℝ)) (re : List (ℝ × ℝ)) (c : CN)
    (a i j : Nat) : Option ℝ :=
  (size fs).toOption.bind fun S =>
    (allSome ((qps .dx none rc re (qcell rect s c)).map fun p => (Form.shapeAt (qcell rect s c) tst p.ref a).toOption.bind fun u =>
      (Form.shapeAt (qcell rect s c) trl p.ref i).toOption.bind fun v => (evalK rect s fs F S c p j).map fun k => u * (v * (p.w * k)))).map List.sum

/-- Type 'constant' (assembler.py 1270-1280), sample `j`. -/
noncomputable def evalConstK (rect : Nat → Bool) (s : St ℝ) (fs : List Fac) (F : List ℝ → ℝ) (rc : List ((ℝ × ℝ) × ℝ)) (re : List (ℝ × ℝ)) (c : CN) (j : Nat) : Option ℝ :=
  (size fs).toOption.bind fun S =>
    (allSome ((qps .dx none rc re (qcell rect s c)).map fun p => (evalK rect s fs F S c p j).map fun k => p.w * k)).map List.sum

end Verif.Coef
