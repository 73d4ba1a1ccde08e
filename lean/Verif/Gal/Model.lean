import Verif.Gal.Local
import Verif.Gal.Boundary
import Verif.Dir.Whole

/-!
# Model: assembling and solving on a mesh

`Assembler.assemble` on the leaves of a mesh (assembler.py 2363-2411): the pieces are those of the properties C34 (dofs), C56 (local
forms), C61 (bilinear forms of a mesh), C63 (coordinates), C66 (constraints).
-/

namespace Verif.Gal
open Verif.Mesh Verif.Dof Verif.Quad Verif.Fem Verif.Form Verif.Asm Verif.Phys

/-- A term `∫ f Dφ_a dμ` of a linear form. -/
structure LTerm where
  k : Kernel (Pt ℝ)
  der : List Nat
  dmu : Dmu
  flag : Option Nat

/-- What `assemble` collects cell by cell for the linear forms of a problem (assembler.py 2363-2411), sample `j`. -/
noncomputable def loads {κ : Type} (e : ET) (ls : List LTerm) (rc : List ((ℝ × ℝ) × ℝ)) (re : List (ℝ × ℝ)) (j : Nat) (cells : List (DCell κ)) :
    List (κ × List (Loc1 ℝ)) :=
  cells.map (fun d => (d.name, ls.map (fun t => ⟨d.dofs, fun a => Fem.val (evalLin t.k ⟨e, t.der⟩ t.dmu t.flag rc re d.c a j)⟩)))

/-- The load of `∫ f φ_a`. -/
def source (kf : Kernel (Pt ℝ)) : List LTerm := [⟨kf, [0], .dx, none⟩]

/-- The cells `assemble` visits: `mesh.cells.get_leaves(subforest_flag=sf)` (assembler.py 2363), with `dofhandler.get_cell_dofs`
(fem.py 2033-2055), the vertices of the cell, and `is_rectangle()` of its initial cell (children inherit the shape).  Half-edge and
vertex markers do not matter for the forms below. -/
noncomputable def meshCells (rect : Nat → Bool) (sf : Bool) (s : St ℝ) (D : DH) : List (DCell CN) :=
  (leaves sf s).map (fun c => ⟨c, (rowOf D c).getD [], ⟨cellQ s c, rect c.1, fun _ => ∅, fun _ => ∅⟩⟩)

/-! ## Specification -/

/-- The domain: the union of the initial cells. -/
def Dom (B : Base ℝ) : Set (ℝ × ℝ) := {p | ∃ f < B.n, p ∈ Quad.region (rootQ B f)}

/-- Cells that are treated as rectangles are axis-parallel rectangles that start with a horizontal edge. -/
def RectOk (rect : Nat → Bool) (B : Base ℝ) : Prop := ∀ f < B.n, rect f = true → Upright (rootQ B f)

/-- `−div(κ ∇p)`. -/
noncomputable def diffuse (κ p : Poly) : Poly := -(dx (κ * dx p) + dy (κ * dy p))

/-- The kernel `k` (sample `j`) is the polynomial `κ`. -/
def IsPoly (k : Kernel (Pt ℝ)) (j : Nat) (κ : Poly) : Prop := ∃ S, sampleSize k = .ok S ∧ ∀ x, k.eval S x j = ev κ (x.x, x.y)

end Verif.Gal
