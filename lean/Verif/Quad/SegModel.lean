import Verif.Quad.Model

/-!
# Model of the geometric queries of `HalfEdge` and of `Cell.intersects_line_segment`

`/repo/src/mesh.py` 2280-2330 (children), 2362-2640, 3594-3621.  A half-edge is the pair
(base, head) of its end points.  The numeric tolerances of the code are parameters.
-/

namespace Verif.Quad
open Verif.Geom

variable {K : Type} [Field K]

abbrev Seg (K : Type) := Pt K × Pt K

/-- `to_vector()` (mesh.py 2333-2339). -/
def vec (e : Seg K) : Pt K := ⟨e.2.x - e.1.x, e.2.y - e.1.y⟩

/-- Child 0 or 1 of a half-edge: base to midpoint, midpoint to head (mesh.py 2311-2320). -/
def subEdge (e : Seg K) : Bool → Seg K
  | false => (e.1, mid e.1 e.2)
  | true => (mid e.1 e.2, e.2)

/-- A descendant of a half-edge. -/
def descEdge (e : Seg K) : List Bool → Seg K
  | [] => e
  | b :: r => descEdge (subEdge e b) r

/-- `reference_map(mapsto='physical')` of a half-edge (mesh.py 2604-2609), one point.  The
check `x_in.max()>=0 and x_in.min()<=1` (mesh.py 2592) is `segAssert`. -/
def segMap (e : Seg K) (t : K) : Pt K :=
  ⟨e.1.x + (e.2.x - e.1.x) * t, e.1.y + (e.2.y - e.1.y) * t⟩

/-- `mg['jac_r2p']` (mesh.py 2630-2634). -/
def segJacR2P (e : Seg K) : K × K := (e.2.x - e.1.x, e.2.y - e.1.y)

variable [LinearOrder K]

/-- `mg['jac_p2r']` (mesh.py 2636-2640); division by zero is an error. -/
def segJacP2R (e : Seg K) : Except Err (K × K) :=
  if e.2.x - e.1.x = 0 ∨ e.2.y - e.1.y = 0 then .error .zeroDivision
  else .ok (1 / (e.2.x - e.1.x), 1 / (e.2.y - e.1.y))

/-- `HalfEdge.contains_points` for one point, in two dimensions (mesh.py 2362-2421): `tol` is
`1e-10`, `tol'` is `1e-14`.  The second test is `np.abs(v[1]<1e-14)`, which is `v[1]<1e-14`. -/
def heContains (tol tol' : K) (e : Seg K) (p : Pt K) : Except Err Bool :=
  let v := vec e
  if |v.x| < tol then
    if |v.y| > tol then
      let t := (p.y - e.1.y) / v.y
      .ok (!decide (|t - 1 / 2| > 1 / 2) && !decide (|p.x - e.1.x| > tol))
    else .error .assertion
  else if v.y < tol' then
    if |v.x| > tol then
      let t := (p.x - e.1.x) / v.x
      .ok (!decide (|t - 1 / 2| > 1 / 2) && !decide (|p.y - e.1.y| > tol))
    else .error .assertion
  else
    let s := (p.x - e.1.x) / v.x
    let t := (p.y - e.1.y) / v.y
    .ok (!decide (|t - s| > tol) && !decide (|t - 1 / 2| > 1 / 2))

/-- `np.cross` of plane vectors. -/
def cross (a b : Pt K) : K := a.x * b.y - a.y * b.x
/-- `np.dot` of plane vectors. -/
def dot (a b : Pt K) : K := a.x * b.x + a.y * b.y
/-- Difference of points. -/
def Pt.sub (a b : Pt K) : Pt K := ⟨a.x - b.x, a.y - b.y⟩

/-- `HalfEdge.intersects_line_segment(line)` (mesh.py 2424-2485), `τ` is `1e-14`. -/
def heIntersects (τ : K) (e line : Seg K) : Bool :=
  let p := e.1
  let r := vec e
  let q := line.1
  let s := vec line
  if |cross r s| < τ then
    if |cross (q.sub p) r| < τ then
      let t0 := dot (q.sub p) r / dot r r
      let t1 := t0 + dot s r / dot r r
      decide (max t0 t1 ≥ 0) && decide (min t0 t1 ≤ 1)
    else false
  else
    let t := cross (q.sub p) s / cross r s
    let u := cross (p.sub q) r / cross s r
    decide (0 ≤ t ∧ t ≤ 1) && decide (0 ≤ u ∧ u ≤ 1)

/-- `Cell.intersects_line_segment(line)` (mesh.py 3594-3621); `tol` is the tolerance of
`contains_points` (its default `1e-10`). -/
def cellIntersects (tol τ : K) (q : QD K) (line : Seg K) : Bool :=
  if contains tol q line.1 && contains tol q line.2 then true
  else q.edges.any (fun e => heIntersects τ e line)

/-- `np.isclose(a, b)`: `|a-b| <= atol + rtol*|b|`. -/
def isClose (atol rtol a b : K) : Bool := decide (|a - b| ≤ atol + rtol * |b|)

/-- `reference_map(mapsto='reference')` of a half-edge for one point (mesh.py 2594-2623); if
both coordinates are `isclose` the result variable is unbound. -/
def segToRef (tol tol' atol rtol : K) (e : Seg K) (p : Pt K) : Except Err K :=
  match heContains tol tol' e p with
  | .error x => .error x
  | .ok false => .error .assertion
  | .ok true =>
    if !isClose atol rtol e.1.x e.2.x then .ok ((p.x - e.1.x) / (e.2.x - e.1.x))
    else if !isClose atol rtol e.1.y e.2.y then .ok ((p.y - e.1.y) / (e.2.y - e.1.y))
    else .error .name

/-- `HalfEdge.subcell_position(subedge)` (mesh.py 2488-2535).  `len` is `length()`
(mesh.py 2342-2346). -/
def segSubPos (len : Seg K → K) (tol tol' : K) (e sub : Seg K) : Except Err (K × K) :=
  match heContains tol tol' e sub.1, heContains tol tol' e sub.2 with
  | .ok true, .ok true =>
    if e.2.x - e.1.x = 0 then .error .zeroDivision
    else .ok ((sub.1.x - e.1.x) / (e.2.x - e.1.x), len sub / len e)
  | .error x, _ => .error x
  | _, .error x => .error x
  | _, _ => .error .assertion

end Verif.Quad
