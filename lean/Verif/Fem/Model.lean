import Verif.Forest.Model
import Mathlib.Algebra.Field.Basic
import Mathlib.Data.Fin.Basic
import Mathlib.Data.List.Basic

/-!
# Model of the Lagrange elements (`fem.py`, `QuadFE`) and their reference cells

Arithmetic is exact, over a field.  Arrays of points are handled pointwise.
-/

namespace Verif.Fem

/-- The element types accepted by `QuadFE` (fem.py 108-276). -/
inductive ET where
  | DQ0 | Q1 | DQ1 | Q2 | DQ2 | Q3 | DQ3
deriving DecidableEq

/-- The exceptions raised. -/
inductive Err where
  | assertion
  | exception
  | index
  | value
deriving DecidableEq

/-- `polynomial_degree()`: the last character of the type (fem.py 297-301). -/
def deg : ET → Nat
  | .DQ0 => 0
  | .Q1 => 1
  | .DQ1 => 1
  | .Q2 => 2
  | .DQ2 => 2
  | .Q3 => 3
  | .DQ3 => 3

/-- `torn_element()` (fem.py 267, 290-294). -/
def torn : ET → Bool
  | .DQ0 => true
  | .DQ1 => true
  | .DQ2 => true
  | .DQ3 => true
  | _ => false

/-- `n_dofs('vertex')` (fem.py 120-130, 148-163, 190-206, 233-246). -/
def dpv : ET → Nat
  | .DQ0 => 0
  | _ => 1

/-- `n_dofs('edge')` in one dimension (same lines). -/
def dpe1 : ET → Nat
  | .DQ0 => 1
  | .Q1 | .DQ1 => 0
  | .Q2 | .DQ2 => 1
  | .Q3 | .DQ3 => 2

/-- `n_dofs('edge')` in two dimensions (same lines). -/
def dpe2 : ET → Nat
  | .DQ0 => 0
  | .Q1 | .DQ1 => 0
  | .Q2 | .DQ2 => 1
  | .Q3 | .DQ3 => 2

/-- `n_dofs('cell')` in two dimensions (same lines). -/
def dpc2 : ET → Nat
  | .DQ0 => 1
  | .Q1 | .DQ1 => 0
  | .Q2 | .DQ2 => 1
  | .Q3 | .DQ3 => 4

/-- `n_dofs()` in one dimension (fem.py 304-318). -/
def nd1 (e : ET) : Nat := 2 * dpv e + dpe1 e

/-- `n_dofs()` in two dimensions (fem.py 304-318). -/
def nd2 (e : ET) : Nat := 4 * dpv e + 4 * dpe2 e + dpc2 e

section
variable {K : Type} [Field K]

/-- The list `p` (fem.py 117, 144, 180-182, 221-224). -/
def pTab : ET → List (K → K)
  | .DQ0 => [fun _ => 1]
  | .Q1 | .DQ1 => [fun x => 1 - x, fun x => x]
  | .Q2 | .DQ2 => [fun x => 2 * x * x - 3 * x + 1, fun x => 2 * x * x - x, fun x => 4 * x - 4 * x * x]
  | .Q3 | .DQ3 => [fun x => -(9 / 2) * (x - 1 / 3) * (x - 2 / 3) * (x - 1),
      fun x => 9 / 2 * x * (x - 1 / 3) * (x - 2 / 3),
      fun x => 27 / 2 * x * (x - 2 / 3) * (x - 1),
      fun x => -(27 / 2) * x * (x - 1 / 3) * (x - 1)]

/-- The list `px` (fem.py 118, 145, 184-186, 226-229). -/
def pxTab : ET → List (K → K)
  | .DQ0 => [fun _ => 0]
  | .Q1 | .DQ1 => [fun _ => -1, fun _ => 1]
  | .Q2 | .DQ2 => [fun x => 4 * x - 3, fun x => 4 * x - 1, fun x => 4 - 8 * x]
  | .Q3 | .DQ3 => [fun x => -(27 / 2) * x * x + 18 * x - 11 / 2,
      fun x => 27 / 2 * x * x - 9 * x + 1,
      fun x => 81 / 2 * x * x - 45 * x + 9,
      fun x => -(81 / 2) * x * x + 36 * x - 9 / 2]

/-- The list `pxx` (fem.py 119, 146, 188-190, 231-234). -/
def pxxTab : ET → List (K → K)
  | .DQ0 => [fun _ => 0]
  | .Q1 | .DQ1 => [fun _ => 0, fun _ => 0]
  | .Q2 | .DQ2 => [fun _ => 4, fun _ => 4, fun _ => -8]
  | .Q3 | .DQ3 => [fun x => -27 * x + 18, fun x => 27 * x - 9, fun x => 81 * x - 45, fun x => -81 * x + 36]

/-- `basis_index` in one dimension (fem.py 124, 152, 200, 240). -/
def bi1 : ET → List Nat
  | .DQ0 => [0]
  | .Q1 | .DQ1 => [0, 1]
  | .Q2 | .DQ2 => [0, 1, 2]
  | .Q3 | .DQ3 => [0, 1, 2, 3]

/-- `basis_index` in two dimensions (fem.py 129, 161, 208-209, 249-251). -/
def bi2 : ET → List (Nat × Nat)
  | .DQ0 => [(0, 0)]
  | .Q1 | .DQ1 => [(0, 0), (1, 0), (1, 1), (0, 1)]
  | .Q2 | .DQ2 => [(0, 0), (1, 0), (1, 1), (0, 1), (2, 0), (1, 2), (2, 1), (0, 2), (2, 2)]
  | .Q3 | .DQ3 => [(0, 0), (1, 0), (1, 1), (0, 1),
      (2, 0), (3, 0), (1, 2), (1, 3), (3, 1), (2, 1), (0, 3), (0, 2),
      (2, 2), (3, 2), (2, 3), (3, 3)]

/-- `self.__p[i]` and the like: a list lookup. -/
def look (l : List (K → K)) (i : Nat) (x : K) : Except Err K :=
  match l[i]? with
  | some f => .ok (f x)
  | none => .error .index

/-- Product of two values that may fail. -/
def mulE (a b : Except Err K) : Except Err K :=
  match a, b with
  | .ok x, .ok y => .ok (x * y)
  | .error e, _ => .error e
  | _, .error e => .error e

/-- `phi(n, x)` in one dimension (fem.py 346-376). -/
def phi1 (e : ET) (n : Nat) (x : K) : Except Err K :=
  if n < nd1 e then
    match (bi1 e)[n]? with
    | some i => look (pTab e) i x
    | none => .error .index
  else .error .assertion

/-- `dphi(n, x, var)` in one dimension (fem.py 379-402): `var` is not used. -/
def dphi1 (e : ET) (n : Nat) (x : K) : Except Err K :=
  if n < nd1 e then
    match (bi1 e)[n]? with
    | some i => look (pxTab e) i x
    | none => .error .index
  else .error .assertion

/-- `d2phi(n, x, var)` in one dimension (fem.py 421-450). -/
def d2phi1 (e : ET) (n : Nat) (x : K) : Except Err K :=
  if n < nd1 e then
    match (bi1 e)[n]? with
    | some i => look (pxxTab e) i x
    | none => .error .index
  else .error .assertion

/-- `phi(n, x)` in two dimensions (fem.py 346-376). -/
def phi2 (e : ET) (n : Nat) (x : K × K) : Except Err K :=
  if n < nd2 e then
    match (bi2 e)[n]? with
    | some (i, j) => mulE (look (pTab e) i x.1) (look (pTab e) j x.2)
    | none => .error .index
  else .error .assertion

/-- `dphi(n, x, var)` in two dimensions (fem.py 379-418). -/
def dphi2 (e : ET) (n : Nat) (x : K × K) (var : Nat) : Except Err K :=
  if n < nd2 e then
    if var < 2 then
      match (bi2 e)[n]? with
      | some (i, j) =>
        if var = 0 then mulE (look (pxTab e) i x.1) (look (pTab e) j x.2)
        else mulE (look (pTab e) i x.1) (look (pxTab e) j x.2)
      | none => .error .index
    else .error .assertion
  else .error .assertion

/-- `d2phi(n, x, (v, w))` in two dimensions (fem.py 421-474).  Variables other than 0, 1 pass the
assertion `all(var) < 2` and make the function return `None`, here `value`. -/
def d2phi2 (e : ET) (n : Nat) (x : K × K) (v w : Nat) : Except Err K :=
  if n < nd2 e then
    match (bi2 e)[n]? with
    | some (i, j) =>
      if v = 0 ∧ w = 0 then mulE (look (pxxTab e) i x.1) (look (pTab e) j x.2)
      else if (v = 0 ∧ w = 1) ∨ (v = 1 ∧ w = 0) then mulE (look (pxTab e) i x.1) (look (pxTab e) j x.2)
      else if v = 1 ∧ w = 1 then mulE (look (pTab e) i x.1) (look (pxxTab e) j x.2)
      else .error .value
    | none => .error .index
  else .error .assertion

/-! ### The nodes of the reference cell -/

/-- The dof vertices in the interior of an interval with `d` of them (mesh.py 4680-4703). -/
def intDofs (d : Nat) (x0 x1 : K) : List K :=
  (List.range d).map (fun i => x0 + (i + 1) * (1 / (d + 1)) * (x1 - x0))

/-- `reference_nodes()` in one dimension: vertices and then interior nodes of `[0,1]`
(fem.py 330-335, mesh.py 4743-4765). -/
def nodes1 (e : ET) : List K :=
  (if dpv e = 0 then [] else [0, 1]) ++ intDofs (dpe1 e) 0 1

/-- The dof vertices of a half-edge from `a` to `b` (mesh.py 4207-4243). -/
def edgeDofs (d : Nat) (a b : K × K) : List (K × K) :=
  (List.range d).map (fun i => (a.1 + (i + 1) * (1 / (d + 1)) * (b.1 - a.1), a.2 + (i + 1) * (1 / (d + 1)) * (b.2 - a.2)))

/-- The corners of the reference cell (mesh.py 4309-4313). -/
def corners : List (K × K) := [(0, 0), (1, 0), (1, 1), (0, 1)]

/-- The dof vertices inside a cell with bounding box `[x0,x1] x [y0,y1]`, `n` in each direction
(mesh.py 4419-4448). -/
def cellDofs (n : Nat) (x0 x1 y0 y1 : K) : List (K × K) :=
  (List.range n).flatMap (fun i => (List.range n).map (fun j =>
    (x0 + (j + 1) * (1 / (n + 1)) * (x1 - x0), y0 + (i + 1) * (1 / (n + 1)) * (y1 - y0))))

/-- `int(np.sqrt(dofs_per_cell))` (mesh.py 4426). -/
def isqrt (n : Nat) : Nat := Nat.sqrt n

/-- `reference_nodes()` in two dimensions: corners, half-edges, interior (mesh.py 4462-4483). -/
def nodes2 (e : ET) : List (K × K) :=
  (if dpv e = 0 then [] else corners) ++
  (List.range 4).flatMap (fun i => edgeDofs (dpe2 e) (corners.getD i (0, 0)) (corners.getD ((i + 1) % 4) (0, 0))) ++
  (if dpc2 e = 0 then [] else cellDofs (isqrt (dpc2 e)) 0 1 0 1)

/-! ### Constraint coefficients of a bisected edge -/

/-- `edge_shapefn_index` (fem.py 696). -/
def edgeIdx (d : Nat) : List Nat := 0 :: ((List.range d).map (· + 2) ++ [1])

/-- The values `c` of the edge shape functions at fine node `i` (fem.py 702-704). -/
def constr (e : ET) (i : Nat) : List (Except Err K) :=
  (edgeIdx (dpe2 e)).map (fun j => look (pTab e) j (1 / 2 * i / (dpe2 e + 1)))

/-- `constraint_coefficients()[child]`: a dictionary from node numbers within the child edge to
coefficients (fem.py 681-712); `none` if the key is missing. -/
def constrOf (e : ET) (ch : Nat) (k : Nat) : Option (List (Except Err K)) :=
  let d := dpe2 e
  let i := if ch = 0 then k else k + (d + 1)
  if i < 2 * d + 3 ∧ (∀ r < d + 2, i ≠ 2 * r) ∧ ((ch = 0 ∧ i ≤ d + 1) ∨ (ch = 1 ∧ d + 1 ≤ i)) then
    some (constr e i)
  else none

end

/-! ### Requests for derivatives -/

/-- `parse_derivative_info(dstring)` for a string (fem.py 10-62); the result is the tuple. -/
def parseDer (s : List Char) : Except Err (List Nat) :=
  match s with
  | [_] => .ok [0]
  | [_, a] => if a = 'x' then .ok [1, 0] else if a = 'y' then .ok [1, 1] else .error .exception
  | [_, a, b] =>
    if a = 'x' ∧ b = 'x' then .ok [2, 0, 0]
    else if a = 'x' ∧ b = 'y' then .ok [2, 0, 1]
    else if a = 'y' ∧ b = 'x' then .ok [2, 1, 0]
    else if a = 'y' ∧ b = 'y' then .ok [2, 1, 1]
    else .error .exception
  | _ => .error .exception

end Verif.Fem
