import Mathlib.Analysis.SpecialFunctions.Gamma.Basic
import Mathlib.Analysis.SpecialFunctions.Pow.Real
import Mathlib.LinearAlgebra.Matrix.PosDef
import Mathlib.MeasureTheory.Integral.Bochner.Set

/-!
# Model of the distance function and the covariance kernels of `gmrf.py`

The functions act on arrays row by row (numpy broadcasting), so the model describes one row: a pair
of points of `ℝ` (1D) or `ℝ × ℝ` (2D).  Arithmetic is exact.  `scipy.special.gamma` is the Gamma
function and `scipy.special.kv` the modified Bessel function of the second kind (`besselK`).
-/

namespace Verif.Gmrf

/-- Exceptions. -/
inductive Err where
  | assertion
deriving DecidableEq

/-- `distance(x,y,M,periodic,box)` for `(n,1)` arrays (gmrf.py 173-224); `M` a number. -/
noncomputable def dist1 (x y : ℝ) (M : Option ℝ) (periodic : Bool) (box : Option (ℝ × ℝ)) :
    Except Err ℝ := do
  let dx ← if periodic then
      match box with
      | none => .error .assertion
      | some (xmin, xmax) => .ok (min |x - y| ((xmax - xmin) - |x - y|))
    else .ok |x - y|
  match M with
  | none => .ok dx
  | some M => if M ≥ 0 then .ok (Real.sqrt M * dx) else .error .assertion

/-- `ddx.T M ddx` as computed at gmrf.py 241-244. -/
def quadForm (M : Matrix (Fin 2) (Fin 2) ℝ) (dx dy : ℝ) : ℝ :=
  dx * (M 0 0 * dx + M 0 1 * dy) + dy * (M 1 0 * dx + M 1 1 * dy)

open Classical in
/-- `distance(x,y,M,periodic,box)` for `(n,2)` arrays (gmrf.py 225-244); the test "eigenvalues
`>= 0` and symmetric" is `PosSemidef` (exact instead of `allclose`).  The box is
`((x_min,x_max),(y_min,y_max))`. -/
noncomputable def dist2 (x y : ℝ × ℝ) (M : Option (Matrix (Fin 2) (Fin 2) ℝ)) (periodic : Bool)
    (box : Option ((ℝ × ℝ) × (ℝ × ℝ))) : Except Err ℝ := do
  let dx := |x.1 - y.1|
  let dy := |x.2 - y.2|
  let d ← if periodic then
      match box with
      | none => .error .assertion
      | some ((xmin, xmax), (ymin, ymax)) =>
        .ok (min dx ((xmax - xmin) - dx), min dy ((ymax - ymin) - dy))
    else .ok (dx, dy)
  match M with
  | none => .ok (Real.sqrt (d.1 ^ 2 + d.2 ^ 2))
  | some M =>
    if M.PosSemidef then .ok (Real.sqrt (quadForm M d.1 d.2)) else .error .assertion

/-- `constant(x,y,sgm)` (gmrf.py 247-266). -/
def constantK (sgm : ℝ) : ℝ := sgm * 1

/-- `linear(x,y,sgm,M)` for `(n,1)` arrays (gmrf.py 269-292). -/
def linear1 (x y sgm : ℝ) (M : Option ℝ) : ℝ :=
  match M with
  | none => sgm ^ 2 + x * y
  | some M => x * M * y

/-- `linear(x,y,sgm,M)` for `(n,2)` arrays (gmrf.py 293-305). -/
def linear2 (x y : ℝ × ℝ) (sgm : ℝ) (M : Option (Matrix (Fin 2) (Fin 2) ℝ)) : ℝ :=
  match M with
  | none => sgm ^ 2 + (x.1 * y.1 + x.2 * y.2)
  | some M => sgm ^ 2 +
      (x.1 * (M 0 0 * y.1 + M 0 1 * y.2) + x.2 * (M 1 0 * y.1 + M 1 1 * y.2))

/-- `gaussian`, as a function of the computed distance (gmrf.py 308-316). -/
noncomputable def gaussianK (sgm l d : ℝ) : ℝ := sgm ^ 2 * Real.exp (-d ^ 2 / (2 * l ^ 2))

/-- `exponential`, as a function of the computed distance (gmrf.py 319-332). -/
noncomputable def exponentialK (sgm l d : ℝ) : ℝ := sgm ^ 2 * Real.exp (-d / l)

/-- The modified Bessel function of the second kind for `z > 0`
(`scipy.special.kv`; DLMF 10.32.10 with 10.27.3):
`K_ν(z) = ½ (z/2)^(-ν) ∫_0^∞ exp(-t - z²/(4t)) t^(ν-1) dt`. -/
noncomputable def besselK (nu z : ℝ) : ℝ :=
  (1 / 2) * (z / 2) ^ (-nu) *
    ∫ t in Set.Ioi (0 : ℝ), Real.exp (-t - z ^ 2 / (4 * t)) * t ^ (nu - 1)

/-- `matern`, as a function of the computed distance (gmrf.py 335-359).  For `d = 0` the product
`0^nu * kv(nu,0) = 0 * inf` is NaN and is replaced by `1` (line 358); for a negative argument (periodic
distances of points outside the box) `kv` is NaN. -/
noncomputable def maternK (sgm nu l d : ℝ) : ℝ :=
  open Classical in
  let z := Real.sqrt (2 * nu) * d / l
  if z ≤ 0 then 1
  else sgm ^ 2 * 2 ^ (1 - nu) / Real.Gamma nu * z ^ nu * besselK nu z

/-- `rational`, as a function of the computed distance (gmrf.py 362-371). -/
noncomputable def rationalK (a d : ℝ) : ℝ := (1 / (1 + d ^ 2)) ^ a

/-- The stationary kernels with their parameters (`Covariance.set_kernel`, gmrf.py 548-594). -/
inductive Stat where
  | gaussian (sgm l : ℝ)
  | exponential (sgm l : ℝ)
  | matern (sgm nu l : ℝ)
  | rational (a : ℝ)

/-- The value of the kernel for a computed distance (gmrf.py 308-371). -/
noncomputable def Stat.eval : Stat → ℝ → ℝ
  | .gaussian sgm l, d => gaussianK sgm l d
  | .exponential sgm l, d => exponentialK sgm l d
  | .matern sgm nu l, d => maternK sgm nu l d
  | .rational a, d => rationalK a d

/-- `gaussian(x,y,...)`, ..., `rational(x,y,...)` in 1D (gmrf.py 308-371). -/
noncomputable def stat1 (s : Stat) (x y : ℝ) (M : Option ℝ) (periodic : Bool)
    (box : Option (ℝ × ℝ)) : Except Err ℝ := do
  let d ← dist1 x y M periodic box
  pure (s.eval d)

/-- The same in 2D (gmrf.py 308-371). -/
noncomputable def stat2 (s : Stat) (x y : ℝ × ℝ) (M : Option (Matrix (Fin 2) (Fin 2) ℝ))
    (periodic : Bool) (box : Option ((ℝ × ℝ) × (ℝ × ℝ))) : Except Err ℝ := do
  let d ← dist2 x y M periodic box
  pure (s.eval d)

end Verif.Gmrf
