import Mathlib.Data.Real.Basic

/-!
# Model of the triangular elements (`fem.py`, `TriFE`)

Arithmetic is exact, over the reals.  Arrays of points are handled pointwise.
-/

namespace Verif.Tri

/-- The values of `element_type`: the four documented ones (fem.py 729-730) and all other strings. -/
inductive Ty where
  | P1 | P2 | P3 | Bubble | other
deriving DecidableEq

/-- The exceptions raised. -/
inductive Err where
  | typeError      -- wrong number of arguments
  | attribute      -- no such method
  | unbound        -- local variable used before it is assigned
  | exception
  | index
deriving DecidableEq

/-- The element object (fem.py 715-843): dimension and the lists `__phi`, `__phix`, `__phiy`.
A function of one variable ignores its second argument. -/
structure El where
  dim : Nat
  nDof : Nat
  phi : List (ℝ → ℝ → ℝ)
  phix : List (ℝ → ℝ → ℝ)
  phiy : List (ℝ → ℝ → ℝ)

/-- The lists in one dimension (fem.py 737-766). -/
noncomputable def tab1 : Ty → Except Err El
  | .P1 => .ok ⟨1, 2, [fun x _ => 1 - x, fun x _ => x], [fun _ _ => -1, fun _ _ => 1], []⟩
  | .P2 => .ok ⟨1, 3,
      [fun x _ => 2 * x * x - 3 * x + 1, fun x _ => 2 * x * x - x, fun x _ => 4 * x - 4 * x * x],
      [fun x _ => 4 * x - 3, fun x _ => 4 * x - 1, fun x _ => 4 - 8 * x], []⟩
  | .P3 => .ok ⟨1, 4,
      [fun x _ => -(9 / 2) * (x - 1 / 3) * (x - 2 / 3) * (x - 1),
       fun x _ => 9 / 2 * x * (x - 1 / 3) * (x - 2 / 3),
       fun x _ => 27 / 2 * x * (x - 2 / 3) * (x - 1),
       fun x _ => -(27 / 2) * x * (x - 1 / 3) * (x - 1)],
      [fun x _ => -(27 / 2) * x * x + 18 * x - 11 / 2,
       fun x _ => 27 / 2 * x * x - 9 * x + 1,
       fun x _ => 81 / 2 * x * x - 45 * x + 9,
       fun x _ => -(81 / 2) * x * x + 36 * x - 9 / 2], []⟩
  | _ => .error .exception

/-- The lists in two dimensions (fem.py 768-843).  Without a branch for the type, `n_dof` is not
assigned and line 842 raises `UnboundLocalError`. -/
def tab2 : Ty → Except Err El
  | .P1 => .ok ⟨2, 3, [fun x y => 1 - x - y, fun x _ => x, fun _ y => y],
      [fun _ _ => -1, fun _ _ => 1, fun _ _ => 0], [fun _ _ => -1, fun _ _ => 0, fun _ _ => 1]⟩
  | .P2 => .ok ⟨2, 6,
      [fun x y => 1 - 3 * x - 3 * y + 2 * x * x + 4 * x * y + 2 * y * y,
       fun x _ => -1 * x + 2 * x * x,
       fun _ y => -1 * y + 2 * y * y,
       fun x y => 4 * x - 4 * x * x - 4 * x * y,
       fun x y => 4 * x * y,
       fun x y => 4 * y - 4 * x * y - 4 * y * y],
      [fun x y => -3 + 4 * x + 4 * y,
       fun x _ => -1 + 4 * x,
       fun _ _ => 0,
       fun x y => 4 - 8 * x - 4 * y,
       fun _ y => 4 * y,
       fun _ y => -4 * y],
      [fun x y => -3 + 4 * x + 4 * y,
       fun _ _ => 0,
       fun _ y => -1 + 4 * y,
       fun x _ => -4 * x,
       fun x _ => 4 * x,
       fun x y => 4 - 4 * x - 8 * y]⟩
  | .Bubble => .ok ⟨2, 7,
      [fun x y => (1 - x - y) * (2 * (1 - x - y) - 1) + 3 * (1 - x - y) * x * y,
       fun x y => x * (2 * x - 1) + 3 * (1 - x - y) * x * y,
       fun x y => y * (2 * y - 1) + 3 * (1 - x - y) * x * y,
       fun x y => 4 * (1 - x - y) * x - 12 * (1 - x - y) * x * y,
       fun x y => 4 * x * y - 12 * (1 - x - y) * x * y,
       fun x y => 4 * y * (1 - x - y) - 12 * (1 - x - y) * x * y,
       fun x y => 27 * (1 - x - y) * x * y],
      [fun x y => -3 + 4 * x + 7 * y - 6 * x * y - 3 * y ^ 2,
       fun x y => -1 + 4 * x + 3 * y - 6 * x * y - 3 * y ^ 2,
       fun x y => 3 * y - 6 * x * y - 3 * y ^ 2,
       fun x y => 4 - 8 * x - 16 * y + 24 * x * y + 12 * y ^ 2,
       fun x y => -8 * y + 24 * x * y + 12 * y ^ 2,
       fun x y => -16 * y + 24 * x * y + 12 * y ^ 2,
       fun x y => 27 * y - 54 * x * y - 27 * y ^ 2],
      [fun x y => -3 + 7 * x + 4 * y - 6 * x * y - 3 * x ^ 2,
       fun x y => 3 * x - 6 * x * y - 3 * x ^ 2,
       fun x y => -1 + 3 * x + 4 * y - 6 * x * y - 3 * x ^ 2,
       fun x y => -16 * x + 24 * x * y + 12 * x ^ 2,
       fun x y => -8 * x + 24 * x * y + 12 * x ^ 2,
       fun x y => 4 - 16 * x - 8 * y + 24 * x * y + 12 * x ^ 2,
       fun x y => 27 * x - 54 * x * y - 27 * x ^ 2]⟩
  | _ => .error .unbound

/-- Lines 735-843: the part of the constructor after the call of the parent's one.  A dimension
other than 1 and 2 also reaches line 842 without `n_dof`. -/
noncomputable def tables (dim : Nat) (ty : Ty) : Except Err El :=
  if dim = 1 then tab1 ty else if dim = 2 then tab2 ty else .error .unbound

/-- `Element.__init__(self, dim, element_type, cell_type)` (fem.py 73-76) has three parameters
besides `self`, none with a default. -/
def elementInit (nargs : Nat) : Except Err Unit := if nargs = 3 then .ok () else .error .typeError

/-- `TriFE(dim, element_type)` (fem.py 723-843): line 732 calls the parent's constructor with two
arguments. -/
noncomputable def triFE (dim : Nat) (ty : Ty) : Except Err El :=
  match elementInit 2 with
  | .error e => .error e
  | .ok () => tables dim ty

/-- `self.__phi[n](x)` and `self.__phi[n](*x)` (fem.py 861, 866), and the same for derivatives. -/
def call (l : List (ℝ → ℝ → ℝ)) (n : Nat) (x y : ℝ) : Except Err ℝ :=
  match l[n]? with
  | some f => .ok (f x y)
  | none => .error .index

/-- `self.n_dofs()` (fem.py 856, 873): neither `Element` (fem.py 68-90) nor `TriFE` defines it. -/
def nDofs (_ : El) : Except Err Nat := .error .attribute

/-- `phi(n, x)` (fem.py 846-866). -/
def phi (E : El) (n : Nat) (x y : ℝ) : Except Err ℝ :=
  match nDofs E with
  | .error e => .error e
  | .ok N => if n < N then call E.phi n x y else .error .exception

/-- `dphi(n, x, var)` after the assertion (fem.py 874-890). -/
def dcall (E : El) (n : Nat) (x y : ℝ) (var : Nat) : Except Err ℝ :=
  if E.dim = 1 then call E.phix n x y
  else if var = 0 then call E.phix n x y
  else if var = 1 then call E.phiy n x y
  else .error .exception

end Verif.Tri
