import Verif.Line.VEx
import Verif.Form.Line
import Verif.Form.Definite
import Verif.Asm.Total
import Verif.Dir.Assembler

/-!
# Model: assembling and solving on one-dimensional meshes

`Assembler.assemble` on the leaves of a `Mesh1D` (assembler.py 2340-2440, 1177-1406, 3330-3535).  The pieces are those of C16 (intervals), C56 (forms on
intervals), C70 and C71 (dofs, markers, Dirichlet values), C35 and C54 (assembly, solving).
-/

namespace Verif.Bvp
open Verif.Line Verif.OneD Verif.Fem Verif.Form Verif.Asm Verif.Geom

/-! ### Forms at vertices -/

/-- `Form.regions` and `Form.eval`, type 'linear', `dmu='dv'`, on an `Interval` with ends `0` and `1` (assembler.py 1207-1220, 1282-1303, 3487-3512): the
reference vertex is `0` or `1`, the weight is 1.  `mk i`: the flag is `None` or vertex `i` has it. -/
noncomputable def evalLinV (k : Kernel ℝ) (tst : Basis) (mk : Fin 2 → Bool) (d : Itv ℝ) (a s : Nat) : Except Fem.Err ℝ := do
  let S ← sampleSize k
  sumE ((List.finRange 2).filter mk) (fun i => do
    let u ← shapeAt1 d tst (i.1 : ℝ) a
    pure (u * (1 * k.eval S (toPhys d (i.1 : ℝ)) s)))

/-- A term of a linear form: `∫ f Dφ_a` over the cells with a flag, or `Σ f Dφ_a` over the vertices with a flag. -/
inductive LTerm where
  | dx (k : Kernel ℝ) (der : List Nat) (flag : Option Nat)
  | dv (k : Kernel ℝ) (der : List Nat) (m : Option (VX → Bool))

/-- A term `∫ κ Dφ_a D'φ_i` of a bilinear form. -/
structure BTerm where
  k : Kernel ℝ
  tst : List Nat
  trl : List Nat
  flag : Option Nat

/-- The data of the cell with a name. -/
noncomputable def dataAt (F : List (Cell ℝ)) (c : IN) : Itv ℝ := ((cellAt F c).map (·.data)).getD ⟨0, 1, 0, ∅⟩

/-- Entry `a` of a term of a linear form on a cell. -/
noncomputable def evalL (e : ET) (re : List (ℝ × ℝ)) (j : Nat) (F : List (Cell ℝ)) (c : IN) (a : Nat) : LTerm → ℝ
  | .dx k der flag => Fem.val (evalLin1 k ⟨e, der⟩ flag re (dataAt F c) a j)
  | .dv k der m => Fem.val (evalLinV k ⟨e, der⟩ (fun i => want m (vertOf c i)) (dataAt F c) a j)

/-- What `assemble` collects cell by cell for bilinear forms (assembler.py 2363-2440), sample `j`. -/
noncomputable def contribs1 (e : ET) (ts : List BTerm) (re : List (ℝ × ℝ)) (j : Nat) (F : List (Cell ℝ)) (D : DH) (L : List IN) :
    List (IN × List (Loc2 ℝ)) :=
  L.map (fun c => (c, ts.map (fun t => ⟨(rowOf D c).getD [], (rowOf D c).getD [], fun a i =>
    Fem.val (evalBil1 t.k ⟨e, t.tst⟩ ⟨e, t.trl⟩ t.flag re (dataAt F c) a i j)⟩)))

/-- The same for linear forms (assembler.py 2363-2415). -/
noncomputable def loads1 (e : ET) (ls : List LTerm) (re : List (ℝ × ℝ)) (j : Nat) (F : List (Cell ℝ)) (D : DH) (L : List IN) :
    List (IN × List (Loc1 ℝ)) :=
  L.map (fun c => (c, ls.map (fun t => ⟨(rowOf D c).getD [], fun a => evalL e re j F c a t⟩)))

/-- `Form(kernel=k, test=ux, trial=ux)`. -/
def stiffness (k : Kernel ℝ) : List BTerm := [⟨k, [1, 0], [1, 0], none⟩]

/-- `Form(kernel=f, test=u)` and `Form(kernel=g, test=u, dmu='dv', flag=...)`. -/
def rhs (kf kn : Kernel ℝ) (m : VX → Bool) : List LTerm := [.dx kf [0] none, .dv kn [0] (some m)]

/-! ## Specification -/

/-- `x` is an end of the domain. -/
def IsEnd (xs : List ℝ) (x : ℝ) : Prop := xs.head? = some x ∨ xs.getLast? = some x

/-- The finite element function with dof values `u` on the cell `c`. -/
noncomputable def feFn (e : ET) (F : List (Cell ℝ)) (D : DH) (u : Nat → ℝ) (c : IN) (x : ℝ) : ℝ :=
  ((List.range (nd1 e)).map (fun a => u ((val D c a).getD 0) *
    Fem.val (phi1 e a ((x - (dataAt F c).lo) / ((dataAt F c).hi - (dataAt F c).lo))))).sum

/-- The kernel is the polynomial. -/
def IsPoly (k : Kernel ℝ) (j : Nat) (p : Polynomial ℝ) : Prop := ∃ S, sampleSize k = .ok S ∧ ∀ x, k.eval S x j = p.eval x

/-- `x` lies in the domain. -/
def InDom (xs : List ℝ) (x : ℝ) : Prop := ∃ a b, xs.head? = some a ∧ xs.getLast? = some b ∧ a ≤ x ∧ x ≤ b

/-- `u`, with derivative `u'`, solves `−(κu')' = f` on the domain; `u = g` at the ends where `dir` holds; at the other ends the flux `±κu'` out of
the domain is `gN` where `neu` holds and zero elsewhere. -/
structure Classical (xs : List ℝ) (κ f : ℝ → ℝ) (dir neu : ℝ → Bool) (g gN : ℝ → ℝ) (u u' : ℝ → ℝ) : Prop where
  deriv : ∀ x, InDom xs x → HasDerivAt u (u' x) x
  flux : ∀ x, InDom xs x → HasDerivAt (fun y => κ y * u' y) (-f x) x
  value : ∀ x, IsEnd xs x → dir x = true → u x = g x
  left : ∀ x, xs.head? = some x → dir x = false → -(κ x * u' x) = if neu x then gN x else 0
  right : ∀ x, xs.getLast? = some x → dir x = false → κ x * u' x = if neu x then gN x else 0

end Verif.Bvp
