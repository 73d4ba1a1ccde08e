import Verif.Neu.Edge
import Verif.Gal.Total

/-!
# Model: natural boundary conditions

Problems with boundary forms (`Form(kernel, test=v, trial=u, dmu='ds', flag=...)`, assembler.py 984-1220) next to the volume forms, and Dirichlet
conditions on a part of the boundary (assembler.py 3577-3640).
-/

namespace Verif.Neu
open Verif.Mesh Verif.Dof Verif.Quad Verif.Fem Verif.Form Verif.Asm Verif.Phys Verif.Gal Verif.Bnd Verif.Reg Verif.Dir Verif.Gauss

/-- The flags out of `fl` that half-edge `i` of the cell carries (`half_edge.is_marked(flag)`, mesh.py 26-120), for the marks `mk flag entity`. -/
def edgeMarks {K : Type} (fl : List Nat) (mk : Nat → Ent → Bool) (s : St K) (c : CN) (i : Fin 4) : Finset Nat :=
  (fl.filter (fun t => mk t (.half (s.sides c i)))).toFinset

/-- What a form sees of a leaf: its vertices, `is_rectangle()`, and the flags of its half-edges (assembler.py 1177-1220). -/
noncomputable def qcellM (em : CN → Fin 4 → Finset Nat) (rect : Nat → Bool) (s : St ℝ) (c : CN) : QCell := ⟨cellQ s c, rect c.1, em c, fun _ => ∅⟩

/-- The cells `assemble` visits (assembler.py 2363), as in `Gal.meshCells`, with the flags of the half-edges. -/
noncomputable def meshCellsM (em : CN → Fin 4 → Finset Nat) (rect : Nat → Bool) (sf : Bool) (s : St ℝ) (D : DH) : List (DCell CN) :=
  (leaves sf s).map (fun c => ⟨c, (rowOf D c).getD [], qcellM em rect s c⟩)

/-- The bilinear forms: `∫ κ ∇u·∇v` and `∫_Γ α u v` for the pairs of a kernel `α` and the flag of `Γ`
(`Form(α, test=v, trial=u, dmu='ds', flag=t)`, assembler.py 984-1100). -/
def mixedBil (k : Kernel (Pt ℝ)) (rob : List (Kernel (Pt ℝ) × Nat)) : List Term := laplace k ++ rob.map (fun y => ⟨y.1, [0], .ds, some y.2⟩)

/-- The linear forms: `∫ f v` and `∫_Γ h v` for the pairs of a kernel `h` and the flag of `Γ` (`Form(h, test=v, dmu='ds', flag=t)`,
assembler.py 984-1100). -/
def mixedLin (kf : Kernel (Pt ℝ)) (neu : List (Kernel (Pt ℝ) × Nat)) : List LTerm := source kf ++ neu.map (fun y => ⟨y.1, [0], .ds, some y.2⟩)

/-! ## Specification -/

/-- The value of a kernel at a point, sample `j`. -/
noncomputable def kval (k : Kernel (Pt ℝ)) (j : Nat) (x : ℝ × ℝ) : ℝ :=
  match sampleSize k with
  | .ok S => k.eval S ⟨x.1, x.2⟩ j
  | .error _ => 0

/-- The outward unit normal of side `i` of a cell whose vertices are listed counter-clockwise. -/
noncomputable def normal (q : QD ℝ) (i : Fin 4) : ℝ × ℝ :=
  (((q.v (i + 1)).y - (q.v i).y) / sideLen q i, -((q.v (i + 1)).x - (q.v i).x) / sideLen q i)

/-- The sum of the kernels whose flag is in `m`. -/
noncomputable def sideSum (l : List (Kernel (Pt ℝ) × Nat)) (j : Nat) (m : Finset Nat) (x : ℝ × ℝ) : ℝ :=
  (l.map (fun y => if y.2 ∈ m then kval y.1 j x else 0)).sum

/-- `κ ∂p/∂n + α p = h` at all points of side `i` of the leaf `c`. -/
def Natural (s : St ℝ) (em : CN → Fin 4 → Finset Nat) (rob neu : List (Kernel (Pt ℝ) × Nat)) (j : Nat) (κ p : Poly) (c : CN) (i : Fin 4) : Prop :=
  ∀ r : ℝ, 0 ≤ r → r ≤ 1 → ev κ (F (cellQ s c) (E i r)) * (ev (dx p) (F (cellQ s c) (E i r)) * (normal (cellQ s c) i).1 +
      ev (dy p) (F (cellQ s c) (E i r)) * (normal (cellQ s c) i).2) + sideSum rob j (em c i) (F (cellQ s c) (E i r)) * ev p (F (cellQ s c) (E i r)) =
    sideSum neu j (em c i) (F (cellQ s c) (E i r))

/-- All dofs on side `i` of the leaf `c` have a Dirichlet value. -/
def Fixed (e : ET) (D : DH) (d : List (Nat × ℝ)) (c : CN) (i : Fin 4) : Prop :=
  ∀ p < nd2 e, (∃ t : ℚ, 0 ≤ t ∧ t ≤ 1 ∧ node e p = E i t) → (Dir.look d (dofAt D c p)).isSome

/-- The dictionary of Dirichlet values holds values of `g` at boundary nodes. -/
def Holds (B : Base ℝ) (sf : Bool) (s : St ℝ) (e : ET) (D : DH) (g : Pt ℝ → ℝ) (d : List (Nat × ℝ)) : Prop :=
  (d.map (·.1)).Nodup ∧ ∀ a v, Dir.look d a = some v →
    ∃ c ∈ leaves sf s, ∃ i < nd2 e, Dof.val D c i = some a ∧ BndPt B (rootPt c (node e i)) ∧ v = g (place s e c i)

/-- The initial cells hang together through common sides. -/
def Connected {K : Type} (B : Base K) : Prop :=
  ∀ f < B.n, ∀ g < B.n, Relation.ReflTransGen (fun f g => ∃ i j : Fin 4, B.T (4 * f + i) = some (4 * g + j)) f g

/-- The problem `−div(κ∇u) = f` with natural conditions on the sides with flags, solved by the polynomial `p`, and quadrature rules that fit.  Only
boundary sides carry the flags of the boundary terms; every boundary side has Dirichlet values or satisfies `κ ∂p/∂n + α p = h`. -/
structure Mixed (B : Base ℝ) (sf : Bool) (s : St ℝ) (e : ET) (D : DH) (em : CN → Fin 4 → Finset Nat) (d : List (Nat × ℝ)) (n n1 j : Nat)
    (rc : List ((ℝ × ℝ) × ℝ)) (re : List (ℝ × ℝ)) (k kf : Kernel (Pt ℝ)) (rob neu : List (Kernel (Pt ℝ) × Nat)) (κ p : Poly) : Prop where
  data : Data B e n n1 j rc re k kf κ p
  five1 : n1 ≤ 5
  robs : ∀ y ∈ rob, ∃ α, IsPoly y.1 j α ∧ α.totalDegree + 2 * deg e ≤ 2 * n1 - 1 ∧ ∀ z ∈ Dom B, 0 ≤ ev α z
  neus : ∀ y ∈ neu, ∃ η, IsPoly y.1 j η ∧ η.totalDegree + deg e ≤ 2 * n1 - 1
  inner : ∀ c ∈ leaves sf s, ∀ i, ¬ OnBoundary B c i → ∀ y ∈ rob ++ neu, y.2 ∉ em c i
  side : ∀ c ∈ leaves sf s, ∀ i, OnBoundary B c i → Fixed e D d c i ∨ Natural s em rob neu j κ p c i

end Verif.Neu
