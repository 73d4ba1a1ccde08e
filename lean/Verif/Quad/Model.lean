import Verif.Geom.GTree
import Mathlib.Algebra.Order.Field.Basic
import Mathlib.Algebra.Order.Ring.Rat
import Mathlib.Data.List.Rotate

/-!
# Model of the geometry of `Cell` and `QuadCell` (`/repo/src/mesh.py` 3262-4122)

Coordinates live in a field `K` (rounding is not modelled).  A vertex is its coordinates.
A quadrilateral is the list of base vertices of its four half-edges (mesh.py 3404-3413).
-/

namespace Verif.Quad
open Verif.Geom

variable {K : Type} [Field K]

@[ext] structure Pt (K : Type) where
  x : K
  y : K
deriving DecidableEq

/-- The four vertices `get_vertices()` and the flags of a `QuadCell`. -/
structure QD (K : Type) where
  v0 : Pt K
  v1 : Pt K
  v2 : Pt K
  v3 : Pt K
  flags : Finset Nat

abbrev Cell (K : Type) := GTree (QD K)

/-- `get_vertices()` (mesh.py 3404-3413). -/
def QD.verts (q : QD K) : List (Pt K) := [q.v0, q.v1, q.v2, q.v3]

/-- The half-edges as pairs (base, head): edge `i` runs from vertex `i` to vertex `i+1`
(mesh.py 3295-3308). -/
def QD.edges (q : QD K) : List (Pt K × Pt K) :=
  [(q.v0, q.v1), (q.v1, q.v2), (q.v2, q.v3), (q.v3, q.v0)]

/-- `Cell.area` (mesh.py 3361-3370). -/
def QD.area (q : QD K) : K :=
  (1 / 2) * (q.edges.foldl (fun a e => a + (e.1.x + e.2.x) * (e.2.y - e.1.y)) 0)

/-- Midpoint of a half-edge, `0.5*(x[0,:]+x[1,:])` (mesh.py 2311-2315).  When the twin was
split before, its midpoint is shared (mesh.py 2302-2306): the same point, since twins have
the same end points (see `Verif.Quad.HalfEdges`). -/
def mid (a b : Pt K) : Pt K := ⟨(1 / 2) * (a.x + b.x), (1 / 2) * (a.y + b.y)⟩

/-- The middle vertex, the mean of the four vertices (mesh.py 3673-3674). -/
def QD.center (q : QD K) : Pt K :=
  ⟨(q.v0.x + q.v1.x + q.v2.x + q.v3.x) / 4, (q.v0.y + q.v1.y + q.v2.y + q.v3.y) / 4⟩

/-- Vertex number `i` (modulo 4). -/
def QD.v (q : QD K) (i : Nat) : Pt K :=
  match i % 4 with
  | 0 => q.v0
  | 1 => q.v1
  | 2 => q.v2
  | _ => q.v3

/-- Midpoint of half-edge `i`. -/
def QD.m (q : QD K) (i : Nat) : Pt K := mid (q.v i) (q.v (i + 1))

/-- The base vertices of the half-edges `hes` of child `i` (mesh.py 3693-3707): `h1` starts
at the vertex `i`, `h2` at the midpoint of edge `i`, `h3` at the centre, `h4` at the
midpoint of the previous edge; `deque.rotate(i)` rotates to the right. -/
def QD.childVerts (q : QD K) (i : Nat) : List (Pt K) :=
  [q.v i, q.m i, q.center, q.m (i + 3)].rotateRight i

/-- A quadrilateral from its list of vertices. -/
def ofVerts (l : List (Pt K)) (flags : Finset Nat) : Option (QD K) :=
  match l with
  | [a, b, c, d] => some ⟨a, b, c, d, flags⟩
  | _ => none

/-- The child `i` of a cell (mesh.py 3689-3716), marked with `flag` if given. -/
def QD.child (q : QD K) (flags : Finset Nat) (i : Nat) : QD K :=
  match ofVerts (q.childVerts i) flags with
  | some c => c
  | none => q

section Order
variable [LinearOrder K]

/-- `QuadCell.split(flag)` (mesh.py 3664-3716).  The constructor of each child checks the
winding order (mesh.py 3315, 3385-3391). The pairing of periodic vertices is not part of
the geometry. -/
def split (flag : Option Nat) : Cell K → Except Err (Cell K)
  | .node q ks =>
    if ks ≠ [] then .error .assertion else
    let fl : Finset Nat := match flag with
      | some f => {f}
      | none => ∅
    let cs := [q.child fl 0, q.child fl 1, q.child fl 2, q.child fl 3]
    if cs.all (fun c => decide (c.area > 0)) then .ok (.node q (cs.map (fun c => .node c [])))
    else .error .assertion

/-- `delete_children()` (mesh.py 850-879). -/
def deleteKids : Cell K → Cell K
  | .node d _ => .node d []

/-- `mark(flag)` (mesh.py 503-521). -/
def mark (f : Nat) : Cell K → Cell K
  | .node d ks => .node { d with flags := insert f d.flags } ks

/-- `unmark(flag)` without recursion (mesh.py 524-571). -/
def unmark (f : Nat) : Cell K → Cell K
  | .node d ks => .node { d with flags := d.flags.erase f } ks

/-- Operations on single cells, given by their path. -/
inductive Op where
  | split (p : Path) (flag : Option Nat)
  | coarsen (p : Path)
  | mark (p : Path) (f : Nat)
  | unmark (p : Path) (f : Nat)

def step (F : List (Cell K)) : Op → Except Err (List (Cell K))
  | .split p flag =>
    match getL F p with
    | none => .error .attribute
    | some t =>
      match split flag t with
      | .error e => .error e
      | .ok t' => .ok (modifyL (fun _ => t') F p)
  | .coarsen p => .ok (modifyL deleteKids F p)
  | .mark p f => .ok (modifyL (mark f) F p)
  | .unmark p f => .ok (modifyL (unmark f) F p)

def run (F : List (Cell K)) : List Op → Except Err (List (Cell K))
  | [] => .ok F
  | op :: ops => match step F op with
    | .error e => .error e
    | .ok F' => run F' ops

/-- Is the cell in the submesh? -/
def inSub (sf : Option Nat) (d : QD K) : Bool :=
  match sf with
  | none => true
  | some f => decide (f ∈ d.flags)

/-- `pos_means_left` (mesh.py 3579). -/
def left (e : Pt K × Pt K) (p : Pt K) : K :=
  (p.y - e.1.y) * (e.2.x - e.1.x) - (p.x - e.1.x) * (e.2.y - e.1.y)

/-- `Cell.contains_points(points, tol)` for one point (mesh.py 3554-3591). -/
def contains (tol : K) (q : QD K) (p : Pt K) : Bool :=
  q.edges.all (fun e => !decide (left e p < -tol))

/-- The default tolerance `1e-10`. -/
def tol0 : K := 1 / 10 ^ 10

/-- `is_rectangle` of a cell without parent (mesh.py 3643-3653), with the tolerance
`1e-12` as a parameter. -/
def isRect (tol : K) (q : QD K) : Bool :=
  let vec (e : Pt K × Pt K) : Pt K := ⟨e.2.x - e.1.x, e.2.y - e.1.y⟩
  let es := q.edges.map vec
  (es.zip (es.rotate 1)).all (fun e =>
    decide (min |e.1.x| |e.1.y| < tol) && decide (|e.1.x * e.2.x + e.1.y * e.2.y| < tol))

end Order

/-- `reference_map(mapsto='physical')` (mesh.py 3914-3931). -/
def toPhys (q : QD K) (r : Pt K) : Pt K :=
  let s := r.x
  let t := r.y
  ⟨q.v0.x * (1 - s) * (1 - t) + q.v1.x * s * (1 - t) + q.v2.x * s * t + q.v3.x * (1 - s) * t,
   q.v0.y * (1 - s) * (1 - t) + q.v1.y * s * (1 - t) + q.v2.y * s * t + q.v3.y * (1 - s) * t⟩

/-- `xs, ys, xt, yt` (mesh.py 4000-4003, and 3967-3970). -/
def jxs (q : QD K) (r : Pt K) : K :=
  -q.v0.x * (1 - r.y) + q.v1.x * (1 - r.y) + q.v2.x * r.y - q.v3.x * r.y
def jys (q : QD K) (r : Pt K) : K :=
  -q.v0.y * (1 - r.y) + q.v1.y * (1 - r.y) + q.v2.y * r.y - q.v3.y * r.y
def jxt (q : QD K) (r : Pt K) : K :=
  -q.v0.x * (1 - r.x) - q.v1.x * r.x + q.v2.x * r.x + q.v3.x * (1 - r.x)
def jyt (q : QD K) (r : Pt K) : K :=
  -q.v0.y * (1 - r.x) - q.v1.y * r.x + q.v2.y * r.x + q.v3.y * (1 - r.x)

/-- `Det` (mesh.py 4018, 3975). -/
def det (q : QD K) (r : Pt K) : K := jxs q r * jyt q r - jxt q r * jys q r

/-- `mg['jac_r2p']` (mesh.py 4005-4010): rows `[xs, xt], [ys, yt]`. -/
def jacR2P (q : QD K) (r : Pt K) : (K × K) × (K × K) := ((jxs q r, jxt q r), (jys q r, jyt q r))

/-- `mg['jac_p2r']` (mesh.py 4011-4024): rows `[sx, sy], [tx, ty]`. -/
def jacP2R (q : QD K) (r : Pt K) : (K × K) × (K × K) :=
  ((jyt q r / det q r, -jxt q r / det q r), (-jys q r / det q r, jxs q r / det q r))

/-- `Dx`, `Dy` (= `xts`, `yts`, mesh.py 4040-4041, 4062-4063). -/
def hDx (q : QD K) : K := q.v0.x - q.v1.x + q.v2.x - q.v3.x
def hDy (q : QD K) : K := q.v0.y - q.v1.y + q.v2.y - q.v3.y

/-- The second derivatives `(sxx, sxy, syy, txx, txy, tyy)` of `mg['hess_p2r']` for a
non-rectangular cell (mesh.py 4056-4086). -/
def hessP2R (q : QD K) (r : Pt K) : (K × K × K) × (K × K × K) :=
  let xs := jxs q r
  let ys := jys q r
  let xt := jxt q r
  let yt := jyt q r
  let D := det q r
  let sx := yt / D
  let sy := -xt / D
  let tx := -ys / D
  let ty := xs / D
  let dxt_dx := hDx q * sx
  let dxt_dy := hDx q * sy
  let dyt_dx := hDy q * sx
  let dyt_dy := hDy q * sy
  let dxs_dx := hDx q * tx
  let dxs_dy := hDx q * ty
  let dys_dx := hDy q * tx
  let dys_dy := hDy q * ty
  let dDet_dx := dxs_dx * yt + dyt_dx * xs - dys_dx * xt - dxt_dx * ys
  let dDet_dy := dxs_dy * yt + dyt_dy * xs - dys_dy * xt - dxt_dy * ys
  ((dyt_dx / D - yt * dDet_dx / D ^ 2, dyt_dy / D - yt * dDet_dy / D ^ 2,
      -dxt_dy / D + xt * dDet_dy / D ^ 2),
   (-dys_dx / D + ys * dDet_dx / D ^ 2, -dys_dy / D + ys * dDet_dy / D ^ 2,
      dxs_dy / D - xs * dDet_dy / D ^ 2))

section Rect
variable [LinearOrder K]

/-- `reference_map(mapsto='reference')` of a rectangle (mesh.py 3940-3948); a zero
denominator (numpy: `nan`/`inf`) is an error. -/
def rectToRef (q : QD K) (p : Pt K) : Except Err (Pt K) :=
  if q.v1.x - q.v0.x = 0 ∨ q.v3.y - q.v0.y = 0 then .error .zeroDivision
  else .ok ⟨(p.x - q.v0.x) / (q.v1.x - q.v0.x), (p.y - q.v0.y) / (q.v3.y - q.v0.y)⟩

/-- One Newton step with projection onto `[0,1]^2` (mesh.py 3957-3984). -/
def newtonStep (q : QD K) (p : Pt K) (r : Pt K) : Pt K :=
  let rx := (toPhys q r).x - p.x
  let ry := (toPhys q r).y - p.y
  let s := r.x - (jyt q r * rx - jxt q r * ry) / det q r
  let t := r.y - (-jys q r * rx + jxs q r * ry) / det q r
  ⟨min (max s 0) 1, min (max t 0) 1⟩

/-- `reference_map(mapsto='reference')` of a non-rectangle: five Newton steps from the
centre (mesh.py 3949-3986). -/
def newtonToRef (q : QD K) (p : Pt K) : Pt K :=
  (newtonStep q p)^[5] ⟨1 / 2, 1 / 2⟩

end Rect

/-- The table `sign` (mesh.py 3783). -/
def sign : List (K × K) := [(0, 0), (1, 0), (0, 1), (-1, 0), (0, -1)]

/-- The loop over `range(pos+1)` (mesh.py 3786-3787); `h` is `2**(-(level+1))`. -/
def posLoop (h : K) (pos : Nat) (acc : K × K) : K × K :=
  ((sign (K := K)).take (pos + 1)).foldl (fun a s => (a.1 + h * s.1, a.2 + h * s.2)) acc

/-- The loop over the relative address (mesh.py 3785-3787); returns position and the last
`2**(-(level+1))`; `none` if the loop body never runs (`level` unbound). -/
def relLoop (h : K) (acc : K × K) : List Nat → (K × K) × Option K
  | [] => (acc, none)
  | pos :: r =>
    let acc' := posLoop h pos acc
    match relLoop (h / 2) acc' r with
    | (a, none) => (a, some h)
    | (a, some w) => (a, some w)

/-- `QuadCell.subcell_position(subcell)` (mesh.py 3726-3793), for a cell in a forest with
address `own` and a cell with address `sub`. -/
def subcellPosition (own sub : List Nat) : Except Err ((K × K) × K) :=
  if own <+: sub then
    match relLoop (1 / 2 : K) (0, 0) (sub.drop own.length) with
    | (a, some w) => .ok (a, w)
    | (_, none) => .error .name
  else .error .assertion

/-- A mesh of quadrilaterals before refinement. -/
def rootCells (qs : List (QD K)) : List (Cell K) := qs.map (fun q => .node q [])

end Verif.Quad
