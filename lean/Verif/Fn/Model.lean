import Verif.Phys.VertProps
import Verif.Phys.Grid
import Verif.Fem.Shape
import Verif.Reg.Dofs

/-!
# Functions on the mesh

`Nodal` (function.py 1583-2372), `Explicit`, `Constant`, `Map.interpolant`, `Basis.d2i` (fem.py 894-1170), `bin_points` (mesh.py
3797-3866, 7747-7795) on a refined mesh.  One input variable, two-dimensional meshes.  Exact arithmetic.
-/

namespace Verif.Fn
open Verif.Mesh Verif.Dof Verif.Fem Verif.Quad Verif.Phys Verif.Reg

section model
variable {K : Type} [Field K] [LinearOrder K]

/-! ## `bin_points` -/

/-- A list of (cell, indices of points). -/
abbrev Bins := List (CN × List Nat)

/-- `cell.contains_points(x)` (mesh.py 3554-3591) for one point, with the tolerance as a parameter. -/
def inCell (tol : K) (s : St K) (c : CN) (x : Pt K) : Bool := contains tol (cellQ s c) x

/-- The loop over cells in both functions (mesh.py 3846-3858, 7775-7791): the points in the cell are binned there and removed.  The
second component are the points that are left. -/
def binLoop (tol : K) (s : St K) (f : CN → List (Nat × Pt K) → Option Bins) : List CN → List (Nat × Pt K) → Option (Bins × List (Nat × Pt K))
  | [], pts => some ([], pts)
  | c :: l, pts =>
    if pts.any (fun x => inCell tol s c x.2) then
      (f c (pts.filter (fun x => inCell tol s c x.2))).bind (fun b =>
        (binLoop tol s f l (pts.filter (fun x => !inCell tol s c x.2))).map (fun r => (b ++ r.1, r.2)))
    else binLoop tol s f l pts

/-- `get_children(flag)` of a cell with children (mesh.py 692-745). -/
def kidsOf (sf : Bool) (s : St K) (c : CN) : List CN := (four.map (child c)).filter (fun d => !sf || s.mkd d)

/-- `QuadCell.bin_points(points, i_points, subforest_flag)` (mesh.py 3797-3866); the first argument bounds the depth of the recursion.
`none`: an exception. -/
def binCell (tol : K) (sf : Bool) (s : St K) : Nat → CN → List (Nat × Pt K) → Option Bins
  | 0, _, _ => none
  | n + 1, c, pts =>
    if pts.all (fun x => inCell tol s c x.2) then
      if sf && !s.mkd c then
        match c.2 with
        | [] => some []
        | _ :: p => binCell tol sf s n (c.1, p) pts
      else if hasCh sf s c then (binLoop tol s (binCell tol sf s n) (kidsOf sf s c) pts).map (·.1)
      else some [(c, pts.map (·.1))]
    else none

/-- `Mesh2D.bin_points(points, subforest_flag)` (mesh.py 7747-7795) on a mesh with `N` initial cells. -/
def binMesh (tol : K) (sf : Bool) (N : Nat) (s : St K) (n : Nat) (pts : List (Nat × Pt K)) : Option Bins :=
  (binLoop tol s (binCell tol sf s n) (((List.range N).map (fun f => ((f, []) : CN))).filter (fun d => !sf || s.mkd d)) pts).bind
    (fun r => if r.2.isEmpty then some r.1 else none)

/-! ## The physical point in the reference cell -/

/-- `cell.reference_map(x, mapsto='reference')` (mesh.py 3936-3986).  `rect f` is `is_rectangle()` of the initial cell `f`, which all
its descendants inherit (mesh.py 3638-3640). -/
def refMap (rect : Nat → Bool) (s : St K) (c : CN) (x : Pt K) : Option (Pt K) :=
  if rect c.1 then (rectToRef (cellQ s c) x).toOption else some (newtonToRef (cellQ s c) x)

/-- `mg['hess_p2r']` (mesh.py 4047-4094): zero for rectangles. -/
def hessOf (rect : Nat → Bool) (s : St K) (c : CN) (r : Pt K) : (K × K × K) × (K × K × K) :=
  if rect c.1 then ((0, 0, 0), (0, 0, 0)) else hessP2R (cellQ s c) r

/-- `element.shape(x_ref, cell, derivatives=der, jac_p2r, hess_p2r)` as called in `Nodal.eval` (function.py 2057-2060), one point and
one local dof. -/
def shapeAt (rect : Nat → Bool) (s : St K) (e : ET) (der : List Nat) (c : CN) (r : Pt K) (p : Nat) : Option K :=
  (shape2 e (r.x, r.y) (some (rect c.1)) der (some (jacP2R (cellQ s c) r)) (some (hessOf rect s c r)) p).toOption

/-! ## The basis -/

/-- The array `__d2i` of a `Basis` with the dofs `L` (fem.py 925-931); `none` is the entry `-1`.  The array has `L[-1] + 1` entries; a
larger dof raises `IndexError`. -/
def d2iArr (L : List Nat) : Option (List (Option Nat)) :=
  L.getLast?.bind (fun m => if L.all (fun a => decide (a ≤ m)) then some ((List.range (m + 1)).map (fun a => L.idxOf? a)) else none)

/-- `data[d2i[a]]`: one row of the data; the index `-1` is the last row. -/
def rowAt {F : Type} (L : List Nat) (data : List (List F)) (a : Nat) : Option (List F) :=
  (d2iArr L).bind (fun A => (A[a]?).bind (fun i => match i with
    | some k => data[k]?
    | none => data.getLast?))

/-! ## `Nodal.eval` -/

/-- What is recorded for one bin (function.py 2036-2062): the points, the dofs of the cell, the shape functions (rows: points). -/
structure Part (K : Type) where
  pts : List Nat
  dofs : List Nat
  phi : List (List K)

/-- One bin (function.py 2036-2062). -/
def part (rect : Nat → Bool) (s : St K) (e : ET) (D : DH) (der : List Nat) (xs : List (Pt K)) (b : CN × List Nat) : Option (Part K) :=
  (rowOf D b.1).bind (fun dofs =>
    (allSome (b.2.map (fun i => (xs[i]?).bind (fun x => (refMap rect s b.1 x).bind (fun r =>
      allSome ((List.range (nd2 e)).map (shapeAt rect s e der b.1 r))))))).map (fun phi => ⟨b.2, dofs, phi⟩))

/-- `Phi[np.ix_(i_pt, i_col)] = phi` (function.py 2074-2075): entry (point `i`, dof `a`).  Where indices are repeated, the last entry
counts. -/
def setBlock (Phi : Nat → Nat → K) (q : Part K) : Nat → Nat → K := fun i a =>
  if i ∈ q.pts ∧ a ∈ q.dofs then
    (((q.pts.zip q.phi).reverse.lookup i).bind (fun row => (q.dofs.zip row).reverse.lookup a)).getD 0
  else Phi i a

/-- `eval(phi=Phi, dofs=udofs)` for one variable (function.py 1850-1973): `Phi @ data[d2i[udofs]]`. -/
def contract (n m : Nat) (L : List Nat) (data : List (List K)) (ud : List Nat) (Phi : Nat → Nat → K) : Option (List (List K)) :=
  (allSome (ud.map (rowAt L data))).map (fun rows =>
    (List.range n).map (fun i => (List.range m).map (fun j =>
      ((ud.zip rows).map (fun y => Phi i y.1 * y.2.getD j 0)).sum)))

/-- `Nodal.eval(x, derivative)` (function.py 1779-2082) without `cell`.  `L`: the dofs of the basis in its order, `data`: one row for
each of them, with `m` samples.  `none`: an exception. -/
def evalN (tol : K) (rect : Nat → Bool) (sf : Bool) (N : Nat) (s : St K) (n : Nat) (e : ET) (D : DH) (L : List Nat) (data : List (List K))
    (m : Nat) (der : List Nat) (xs : List (Pt K)) : Option (List (List K)) :=
  (binMesh tol sf N s n ((List.range xs.length).zip xs)).bind (fun bins =>
    (allSome (bins.map (part rect s e D der xs))).bind (fun parts =>
      contract xs.length m L data (parts.flatMap (·.dofs)).dedup (parts.foldl setBlock (fun _ _ => 0))))

/-! ## Construction from a function -/

/-- `Nodal(f=f, basis=basis)` (function.py 1681-1697): `data = f(vertices of the dofs)`; `f` lists the samples. -/
def nodalData (V : DV K) (L : List Nat) (f : List (Pt K → K)) : Option (List (List K)) :=
  (getVerts V L).map (fun xs => xs.map (fun x => f.map (fun g => g x)))

end model

/-! ## Specification -/

section spec
variable {K : Type} [Field K] [LinearOrder K]

/-- The dof values of sample `j`: the entry of the data that belongs to the position of the dof in the basis. -/
def dofVal (L : List Nat) (data : List (List K)) (j : Nat) (a : Nat) : K :=
  match L.idxOf? a with
  | some k => (data.getD k []).getD j 0
  | none => 0

/-- `L` lists the dofs of the leaves of the (sub)mesh, each once, with the largest last (see C67_basis_order_violated). -/
structure BasisOf (sf : Bool) (s : St K) (e : ET) (D : DH) (L : List Nat) : Prop where
  nodup : L.Nodup
  last : ∀ m, L.getLast? = some m → ∀ a ∈ L, a ≤ m
  mem : ∀ a, a ∈ L ↔ ∃ c ∈ leaves sf s, ∃ p < nd2 e, Dof.val D c p = some a

/-- The point `x` is the image of the point `r` of the unit square under the map of the cell `c`. -/
def At (s : St K) (c : CN) (r : K × K) (x : Pt K) : Prop := InSq r ∧ phys (cellQ s c) r = x

/-- The initial cells are convex. -/
def Convex (B : Base K) : Prop := ∀ f < B.n, ConvexCCW (rootQ B f)

/-- The initial cells are axis-parallel rectangles starting with a horizontal edge, or parallelograms that are not called rectangles. -/
def Affine (rect : Nat → Bool) (B : Base K) : Prop := ∀ f < B.n,
  (rect f = true ∧ (rootQ B f).v0.y = (rootQ B f).v1.y ∧ (rootQ B f).v1.x = (rootQ B f).v2.x ∧ (rootQ B f).v2.y = (rootQ B f).v3.y ∧
    (rootQ B f).v3.x = (rootQ B f).v0.x) ∨
  (rect f = false ∧ hDx (rootQ B f) = 0 ∧ hDy (rootQ B f) = 0)

end spec
end Verif.Fn
