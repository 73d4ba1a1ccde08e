import Verif.Fem.ShapeProps
import Verif.Gauss.Composite

/-!
# Model of `Kernel`, `Form.regions`, `Assembler.shape_eval` and `Form.eval`

(assembler.py 766-981, 984-1406, 3330-3535.)  Exact real arithmetic.  Arrays are handled entry by entry:
`eval` returns, for local dofs `a` (test), `i` (trial) and sample `s`, the entry `f_loc[a,i,s]`.
-/

namespace Verif.Form

open Verif.Quad Verif.Fem Verif.Gauss

/-- The measures `'dx'`, `'ds'`, `'dv'` (assembler.py 1026-1028). -/
inductive Dmu where
  | dx | ds | dv
deriving DecidableEq

/-! ## Kernels -/

/-- A `Map` that is combined into a kernel: its number of samples and its values.  The modelled functions
depend on the point only (`f.eval(x=x)`, assembler.py 952); nodal functions are evaluated through
`phi`/`dofs` instead, see `Verif.Coef`. -/
structure Fn (X : Type) where
  ns : Nat
  f : X → Nat → ℝ

/-- `Kernel(f, F=F)` (assembler.py 770-842).  `F` is a function of the values of the `f`s, applied point by
point and sample by sample; `F=None` is the identity on one function. -/
structure Kernel (X : Type) where
  fs : List (Fn X)
  F : List ℝ → ℝ

/-- One round of `set_sample_size` (assembler.py 868-883). -/
def sizeStep (n : Nat) (k : Nat) : Except Fem.Err Nat :=
  if k > 1 then
    if n = 1 then .ok k
    else if n = k then .ok n
    else .error .assertion
  else .ok n

/-- `set_sample_size()` (assembler.py 855-886). -/
def sampleSize {X : Type} (k : Kernel X) : Except Fem.Err Nat := k.fs.foldlM (fun n f => sizeStep n f.ns) 1

/-- `Kernel.eval(x)` at one point, sample `s` (assembler.py 917-981): deterministic functions are tiled. -/
def Kernel.eval {X : Type} (k : Kernel X) (S : Nat) (x : X) (s : Nat) : ℝ :=
  k.F (k.fs.map (fun f => if S > 1 ∧ f.ns = 1 then f.f x 0 else f.f x s))

/-! ## Regions and quadrature points -/

/-- What a form sees of a `QuadCell`: vertices, flags, the stored `is_rectangle()`, the flags of the
half-edges and of the vertices. -/
structure QCell where
  q : QD ℝ
  rect : Bool
  em : Fin 4 → Finset Nat
  vm : Fin 4 → Finset Nat

/-- An integration region of a quadrilateral. -/
inductive Region where
  | cell
  | edge (i : Fin 4)
  | vertex (i : Fin 4)
deriving DecidableEq

/-- `self.flag is None or entity.is_marked(self.flag)` (assembler.py 1189, 1202, 1215). -/
def marked (flag : Option Nat) (s : Finset Nat) : Bool :=
  match flag with
  | none => true
  | some f => decide (f ∈ s)

/-- `Form.regions(cell)` (assembler.py 1177-1220). -/
def regions (dmu : Dmu) (flag : Option Nat) (c : QCell) : List Region :=
  match dmu with
  | .dx => if marked flag c.q.flags then [.cell] else []
  | .ds => ((List.finRange 4).filter (fun i => marked flag (c.em i))).map .edge
  | .dv => ((List.finRange 4).filter (fun i => marked flag (c.vm i))).map .vertex

/-- A quadrature point: reference point, physical point, weight. -/
structure QP where
  ref : ℝ × ℝ
  x : Pt ℝ
  w : ℝ

/-- Point `r` of half-edge `i` of the reference cell: `b[i]+r*(h[i]-b[i])` (assembler.py 3456-3462). -/
noncomputable def edgeRef (i : Fin 4) (r : ℝ) : ℝ × ℝ :=
  let b : ℝ × ℝ := corner i
  let h : ℝ × ℝ := corner ((i.1 + 1) % 4)
  (b.1 + r * (h.1 - b.1), b.2 + r * (h.2 - b.2))

/-- `shape_eval`: quadrature nodes and weights of a region (assembler.py 3400-3512); `rc` and `re` are the
rules of the cell and of the edges. -/
noncomputable def points (rc : List ((ℝ × ℝ) × ℝ)) (re : List (ℝ × ℝ)) (c : QCell) : Region → List QP
  | .cell => rc.map (fun p => ⟨p.1, toPhys c.q ⟨p.1.1, p.1.2⟩, p.2 * detJ c.q ⟨p.1.1, p.1.2⟩⟩)
  | .edge i =>
    let a := c.q.v i
    let b := c.q.v (i + 1)
    re.map (fun p => ⟨edgeRef i p.1, toPhys c.q ⟨(edgeRef i p.1).1, (edgeRef i p.1).2⟩,
      p.2 * √((b.x - a.x) ^ 2 + (b.y - a.y) ^ 2)⟩)
  | .vertex i => [⟨corner i, toPhys c.q ⟨(corner i.1).1, (corner i.1).2⟩, 1⟩]

/-- A `Basis`: element type and derivative. -/
structure Basis where
  e : ET
  der : List Nat
deriving DecidableEq

/-- `phi[region][basis][p, n]` (assembler.py 3514-3532): `jac_p2r` is handed over for derivatives of order
1 and 2, `hess_p2r` for order 2. -/
noncomputable def shapeAt (c : QCell) (b : Basis) (r : ℝ × ℝ) (n : Nat) : Except Fem.Err ℝ :=
  match b.der with
  | 1 :: l => shape2 b.e r (some c.rect) (1 :: l) (some (jacP2R c.q ⟨r.1, r.2⟩)) none n
  | 2 :: l => shape2 b.e r (some c.rect) (2 :: l) (some (jacP2R c.q ⟨r.1, r.2⟩))
      (some (refHess c.rect c.q ⟨r.1, r.2⟩)) n
  | l => shape2 b.e r (some c.rect) l none none n

/-! ## Forms -/

/-- A sum `np.sum`/`np.dot` of terms that may raise. -/
def sumE {α : Type} (l : List α) (f : α → Except Fem.Err ℝ) : Except Fem.Err ℝ :=
  l.foldlM (fun acc x => do
    let y ← f x
    pure (acc + y)) 0

/-- `Form(kernel, test, trial, dmu, flag)` of type 'bilinear', entry `(a,i)`, sample `s`
(assembler.py 1246-1400). -/
noncomputable def evalBil (k : Kernel (Pt ℝ)) (tst trl : Basis) (dmu : Dmu) (flag : Option Nat)
    (rc : List ((ℝ × ℝ) × ℝ)) (re : List (ℝ × ℝ)) (c : QCell) (a i s : Nat) : Except Fem.Err ℝ := do
  let S ← sampleSize k
  sumE (regions dmu flag c) (fun r => sumE (points rc re c r) (fun p => do
    let u ← shapeAt c tst p.ref a
    let v ← shapeAt c trl p.ref i
    pure (u * (v * (p.w * k.eval S p.x s)))))

/-- Type 'linear', entry `a`, sample `s` (assembler.py 1282-1303). -/
noncomputable def evalLin (k : Kernel (Pt ℝ)) (tst : Basis) (dmu : Dmu) (flag : Option Nat)
    (rc : List ((ℝ × ℝ) × ℝ)) (re : List (ℝ × ℝ)) (c : QCell) (a s : Nat) : Except Fem.Err ℝ := do
  let S ← sampleSize k
  sumE (regions dmu flag c) (fun r => sumE (points rc re c r) (fun p => do
    let u ← shapeAt c tst p.ref a
    pure (u * (p.w * k.eval S p.x s))))

/-- Type 'constant', sample `s` (assembler.py 1270-1280).  On a vertex there is no basis to ask for the
reference cell: `list(shape_info[region])[0]` raises (assembler.py 3500). -/
noncomputable def evalConst (k : Kernel (Pt ℝ)) (dmu : Dmu) (flag : Option Nat)
    (rc : List ((ℝ × ℝ) × ℝ)) (re : List (ℝ × ℝ)) (c : QCell) (s : Nat) : Except Fem.Err ℝ := do
  let S ← sampleSize k
  sumE (regions dmu flag c) (fun r => match r with
    | .vertex _ => .error .index
    | r => sumE (points rc re c r) (fun p => pure (p.w * k.eval S p.x s)))

/-! ## One dimension -/

/-- `phi[cell][basis][p, n]` on an `Interval` (assembler.py 3400-3421, 3514-3532). -/
noncomputable def shapeAt1 (d : OneD.Itv ℝ) (b : Basis) (r : ℝ) (n : Nat) : Except Fem.Err ℝ :=
  match b.der with
  | 1 :: l => shape1 b.e r (1 :: l) (some (OneD.jacP2R d)) none n
  | 2 :: l => shape1 b.e r (2 :: l) (some (OneD.jacP2R d)) (some 0) n
  | l => shape1 b.e r l none none n

/-- A quadrature point of an interval (assembler.py 3407-3421). -/
noncomputable def points1 (r : List (ℝ × ℝ)) (d : OneD.Itv ℝ) : List (ℝ × ℝ × ℝ) :=
  r.map (fun p => (p.1, OneD.toPhys d p.1, p.2 * OneD.jacR2P d))

/-- `Form.eval`, type 'bilinear', `dmu='dx'` on an `Interval` (assembler.py 1246-1400). -/
noncomputable def evalBil1 (k : Kernel ℝ) (tst trl : Basis) (flag : Option Nat) (r : List (ℝ × ℝ))
    (d : OneD.Itv ℝ) (a i s : Nat) : Except Fem.Err ℝ := do
  let S ← sampleSize k
  if marked flag d.flags then
    sumE (points1 r d) (fun p => do
      let u ← shapeAt1 d tst p.1 a
      let v ← shapeAt1 d trl p.1 i
      pure (u * (v * (p.2.2 * k.eval S p.2.1 s))))
  else pure 0

/-- Type 'linear' on an `Interval` (assembler.py 1282-1303). -/
noncomputable def evalLin1 (k : Kernel ℝ) (tst : Basis) (flag : Option Nat) (r : List (ℝ × ℝ))
    (d : OneD.Itv ℝ) (a s : Nat) : Except Fem.Err ℝ := do
  let S ← sampleSize k
  if marked flag d.flags then
    sumE (points1 r d) (fun p => do
      let u ← shapeAt1 d tst p.1 a
      pure (u * (p.2.2 * k.eval S p.2.1 s)))
  else pure 0

end Verif.Form
