import Verif.Neu.Flux
import Verif.Neu.Core
import Verif.Quad.SegModel

/-!
# Model: mapped quadrature rules and unit normals

`GaussRule.mapped_rule` (assembler.py 666-764) and `HalfEdge.unit_normal` (mesh.py 2350-2359).
-/

namespace Verif.Nrm
open Verif.Mesh Verif.Dof Verif.Quad Verif.Fem Verif.Phys Verif.Gal Verif.Bnd Verif.Reg Verif.Gauss

/-- What a rule can be mapped to (assembler.py 690, 717, 739, 757); `other` is an object of another class (a `TriCell`, a `Vertex`, …). -/
inductive Region where
  | interval (d : OneD.Itv ℝ)
  | halfEdge (e : Seg ℝ)
  | quadCell (q : QD ℝ)
  | other

/-- A `GaussRule` of dimension 1 or 2 (assembler.py 60-240): nodes and weights. -/
inductive Rule where
  | one (r : List (ℝ × ℝ))
  | two (r : List ((ℝ × ℝ) × ℝ))

/-- The mapped nodes and weights: numbers on an interval, points in the plane otherwise. -/
inductive Mapped where
  | line (l : List (ℝ × ℝ))
  | plane (l : List (Pt ℝ × ℝ))

/-- The exceptions: the assertion on the dimension (assembler.py 695, 722, 744), the exception for other regions (assembler.py 758). -/
inductive Fail where
  | dimension
  | unsupported
deriving DecidableEq

/-- `mapped_rule(region)` (assembler.py 666-764), without the derivatives of the inverse map. -/
noncomputable def mappedRule (rule : Rule) (region : Region) : Except Fail Mapped :=
  match region with
  | .interval d =>
    match rule with
    | .one r => .ok (.line (map1 d r))
    | .two _ => .error .dimension
  | .halfEdge e =>
    match rule with
    | .one r => .ok (.plane (mapE e.1 e.2 r))
    | .two _ => .error .dimension
  | .quadCell q =>
    match rule with
    | .one _ => .error .dimension
    | .two r => .ok (.plane (map2 q r))
  | .other => .error .unsupported

/-- `unit_normal()` (mesh.py 2350-2359); for an edge of length zero numpy divides zero by zero: both entries are `nan`, here `none`. -/
noncomputable def unitNormal (e : Seg ℝ) : Option (ℝ × ℝ) :=
  let u := (e.2.y - e.1.y, e.1.x - e.2.x)
  let l := √(u.1 ^ 2 + u.2 ^ 2)
  if l = 0 then none else some (u.1 / l, u.2 / l)

/-- A half-edge of the mesh with the coordinates of `base()` and `head()` (mesh.py 2250-2275). -/
def segOf {K : Type} (s : St K) (h : HN) : Pt K × Pt K := (s.vx (ends s h).1, s.vx (ends s h).2)

/-! ## Specification -/

/-- `Σ w f(x)` over the points of a mapped rule in the plane. -/
noncomputable def quad (m : Except Fail Mapped) (f : ℝ × ℝ → ℝ) : ℝ :=
  match m with
  | .ok (.plane l) => (l.map (fun p => p.2 * f (p.1.x, p.1.y))).sum
  | _ => 0

/-- What the program computes for the flux of a field `(P, Q)` out of a half-edge: `Σ w (P n_x + Q n_y)`. -/
noncomputable def edgeFlux (rule : Rule) (e : Seg ℝ) (P Q : Poly) : ℝ :=
  match unitNormal e with
  | some n => quad (mappedRule rule (.halfEdge e)) (fun x => ev P x * n.1 + ev Q x * n.2)
  | none => 0

/-- What the program computes for the integral of `div(P, Q)` over a cell. -/
noncomputable def cellDiv (rule : Rule) (q : QD ℝ) (P Q : Poly) : ℝ := quad (mappedRule rule (.quadCell q)) (fun x => ev (dx P + dy Q) x)

end Verif.Nrm
