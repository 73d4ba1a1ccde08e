import Mathlib.Analysis.Real.Sqrt
import Verif.OneD.Model
import Verif.Quad.Model

/-!
# Model of `GaussRule` (`assembler.py` 13-510)

Floating-point literals are read as the exact decimal numbers, `np.sqrt` as the real square root.
A rule is the list of pairs (node, weight); the code keeps two arrays of the same length.
-/

namespace Verif.Gauss

/-- The exceptions raised. -/
inductive Err where
  | assertion
  | attribute
deriving DecidableEq

/-- The rules on `[-1,1]` before the transformation (assembler.py 70-135), as (node, weight). -/
noncomputable def raw : Nat → List (ℝ × ℝ)
  | 1 => [(0, 2)]
  | 2 =>
    let r0 := -1 / √3
    [(r0, 1), (-r0, 1)]
  | 3 =>
    let r0 := -√(3 / 5)
    [(r0, 5 / 9), (0, 8 / 9), (-r0, 5 / 9)]
  | 4 =>
    let r0 := -√((3 + 2 * √(6 / 5)) / 7)
    let r1 := -√((3 - 2 * √(6 / 5)) / 7)
    let w0 := 0.5 - 1 / (6 * √(6 / 5))
    let w1 := 0.5 + 1 / (6 * √(6 / 5))
    [(r0, w0), (r1, w1), (-r1, w1), (-r0, w0)]
  | 5 =>
    let r0 := -√(5 + 4 * √(5 / 14)) / 3
    let r1 := -√(5 - 4 * √(5 / 14)) / 3
    let w0 := 161 / 450 - 13 / (180 * √(5 / 14))
    let w1 := 161 / 450 + 13 / (180 * √(5 / 14))
    [(r0, w0), (r1, w1), (0, 128 / 225), (-r1, w1), (-r0, w0)]
  | 6 =>
    let r0 := -0.2386191861
    let r1 := -0.6612093865
    let r2 := -0.9324695142
    let w0 := 0.4679139346
    let w1 := 0.3607615730
    let w2 := 0.1713244924
    [(r0, w0), (r1, w1), (r2, w2), (-r0, w0), (-r1, w1), (-r2, w2)]
  | _ => []

/-- The transformation from `[-1,1]` to `[0,1]` (assembler.py 137-141). -/
noncomputable def rule01 (n : Nat) : List (ℝ × ℝ) :=
  (raw n).map (fun q => (0.5 + 0.5 * q.1, 0.5 * q.2))

/-- `GaussRule(order, shape='interval')` (assembler.py 20-145). -/
noncomputable def rule1 (order : Nat) : Except Err (List (ℝ × ℝ)) :=
  if order ∈ [1, 2, 3, 4, 5, 6] then .ok (rule01 order) else .error .assertion

/-- `int(np.sqrt(order))` (assembler.py 68). -/
def isqrt (n : Nat) : Nat := Nat.sqrt n

/-- The tensor product: the first index is the slow one (assembler.py 147-157). -/
noncomputable def tensor (r : List (ℝ × ℝ)) : List ((ℝ × ℝ) × ℝ) :=
  r.flatMap (fun p => r.map (fun q => ((p.1, q.1), p.2 * q.2)))

/-- `GaussRule(order, shape='quadrilateral')` (assembler.py 20-157). -/
noncomputable def rule2 (order : Nat) : Except Err (List ((ℝ × ℝ) × ℝ)) :=
  if order ∈ [1, 4, 9, 16, 25, 36] then .ok (tensor (rule01 (isqrt order))) else .error .assertion

/-- `GaussRule(order, shape='triangle')`: the branch tests the bound method `element.cell_type`
against a string (assembler.py 159); without element it raises, with an element no rule is set. -/
noncomputable def ruleTri (_order : Nat) : Except Err (List ((ℝ × ℝ) × ℝ)) := .error .attribute

/-- `scale_rule(position, scale)` on an interval (assembler.py 359-380). -/
noncomputable def scale1 (pos s : ℝ) (r : List (ℝ × ℝ)) : List (ℝ × ℝ) :=
  r.map (fun q => (pos + s * q.1, s * q.2))

/-- `scale_rule(position, scale)` on the square (assembler.py 359-398). -/
noncomputable def scale2 (pos : ℝ × ℝ) (s : ℝ) (r : List ((ℝ × ℝ) × ℝ)) : List ((ℝ × ℝ) × ℝ) :=
  r.map (fun q => ((pos.1 + s * q.1.1, pos.2 + s * q.1.2), s ^ 2 * q.2))

/-- `map_rule(interval)` (assembler.py 461-494; the same formula in `mapped_rule` 697-716 and in
`Assembler.shape_eval` 3407-3429). -/
noncomputable def map1 (d : OneD.Itv ℝ) (r : List (ℝ × ℝ)) : List (ℝ × ℝ) :=
  r.map (fun q => (OneD.toPhys d q.1, q.2 * OneD.jacR2P d))

/-- `map_rule(half_edge)`: nodes `reference_map`, weights times the length of the jacobian
(assembler.py 461-494, 3431-3446, mesh.py 2596-2637). -/
noncomputable def mapE (a b : Quad.Pt ℝ) (r : List (ℝ × ℝ)) : List (Quad.Pt ℝ × ℝ) :=
  r.map (fun q => (⟨a.x + q.1 * (b.x - a.x), a.y + q.1 * (b.y - a.y)⟩,
    q.2 * √((b.x - a.x) ^ 2 + (b.y - a.y) ^ 2)))

/-- `np.linalg.det` of `jac_r2p`. -/
noncomputable def detJ (q : Quad.QD ℝ) (r : Quad.Pt ℝ) : ℝ :=
  let J := Quad.jacR2P q r
  J.1.1 * J.2.2 - J.1.2 * J.2.1

/-- `map_rule(quad_cell)` (assembler.py 461-494, 3468-3489). -/
noncomputable def map2 (c : Quad.QD ℝ) (r : List ((ℝ × ℝ) × ℝ)) : List (Quad.Pt ℝ × ℝ) :=
  r.map (fun q => (Quad.toPhys c ⟨q.1.1, q.1.2⟩, q.2 * detJ c ⟨q.1.1, q.1.2⟩))

/-- Applying a rule to a function: `np.sum(w*f(x))`. -/
noncomputable def apply {X : Type} (r : List (X × ℝ)) (f : X → ℝ) : ℝ :=
  (r.map (fun q => q.2 * f q.1)).sum

end Verif.Gauss
