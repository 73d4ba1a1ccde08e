import Verif.Sum.Assembled

/-!
# Model of problems with several samples

`AssembledForm.add_form`, `update_cellwise`, `distribute`, `consolidate` and `Assembler.solve` (assembler.py 3711-3776, 3907-4428) with the
arrays they really work on: a value is a one-dimensional array with one entry for every sample, arrays of different lengths can meet.
`Verif.Asm` models one sample.
-/

namespace Verif.Samp
open Verif.Asm

variable {K : Type} [CommRing K] {κ : Type} [DecidableEq κ]

/-! ## Arrays -/

/-- The dictionaries given to `distribute` (assembler.py 4114, 4170-4176): a Dirichlet value is a row of `dir_vals` (assembler.py 3603-3633),
one entry for every sample of the boundary function. -/
structure ConsS (K : Type) where
  hng : ℕ → Option (List ℕ × List K)
  dir : ℕ → Option (List K)

/-- `v*g` for one-dimensional arrays: an array of length one is broadcast, other lengths must agree (numpy; assembler.py 4272). -/
def mulB (v g : List K) : Except Err (List K) :=
  if v.length = g.length then .ok (List.zipWith (· * ·) v g)
  else if g.length = 1 then .ok (v.map (· * g.getD 0 0))
  else if v.length = 1 then .ok (g.map (v.getD 0 0 * ·))
  else .error .shape

/-- `np.array(rows)` for a list of one-dimensional arrays: rows of different lengths raise (assembler.py 3652, 4370, 4406).
Simplification: numpy before 1.24 makes an array of objects instead, for which the slices `[:,i]` that follow raise. -/
def toArray (rows : List (List K)) : Except Err (List (List K)) :=
  if rows.all (fun r => r.length == (rows.headD []).length) then .ok rows else .error .shape

/-- `A[:,i]` for what `np.array(rows)` returned (assembler.py 3768, 4391, 4417, 4423). -/
def column (rows : List (List K)) (i : ℕ) : Except Err (List K) :=
  if i < (rows.headD []).length then .ok (rows.map (·.getD i 0)) else .error .index

/-! ## Sample sizes -/

/-- The sample size of an `AssembledForm` when a form with `S` samples is added (assembler.py 4031-4045). -/
def addSize (n S : ℕ) : Except Err ℕ :=
  if S > 1 then
    if n = 1 then .ok S
    else if n = S then .ok n
    else .error .shape
  else .ok n

/-- The sample size after all forms are added, starting with 1 (assembler.py 3919, 2137-2147). -/
def sizes (Ss : List ℕ) : Except Err ℕ := Ss.foldlM addSize 1

/-! ## Bilinear forms -/

/-- What one bilinear form contributes on one cell: dofs, sample size of its kernel, and `f_loc` of shape `(n_test, n_trial, S)`
(assembler.py 1318-1350, 2413-2433). -/
structure Loc2S (K : Type) where
  tst : List ℕ
  trl : List ℕ
  S : ℕ
  mat : ℕ → ℕ → ℕ → K

/-- `np.tile(vals, (1,n_samples))` if there is one sample to be copied (assembler.py 4078-4083): the length of the last axis, and the array. -/
def tile (n : ℕ) (l : Loc2S K) : ℕ × (ℕ → ℕ → ℕ → K) :=
  if n > 1 ∧ l.S = 1 then (n, fun a i s => l.mat a i (s % 1)) else (l.S, l.mat)

/-- Element number `q` of an array of shape `(nt, nu, _)`, read in Fortran order (assembler.py 4085). -/
def flatF (nt nu : ℕ) (f : ℕ → ℕ → ℕ → K) (q : ℕ) : K := f (q % nt) (q / nt % nu) (q / (nt * nu))

/-- The rows and dofs that `update_cellwise` appends for a bilinear form (assembler.py 4067-4109): `meshgrid` and `ravel` as in
`Asm.gridEntries`; the values are reshaped to `(n_entries, n_samples)` in Fortran order, which raises if the sizes differ. -/
def gridS (n : ℕ) (l : Loc2S K) : Except Err (List (Ent (List K))) :=
  let nt := l.tst.length
  let nu := l.trl.length
  let N := nu * nt
  if nt * nu * (tile n l).1 = N * n then
    .ok ((List.range N).map fun k => ⟨l.tst.getD (k % nt) 0, l.trl.getD (k / nt) 0,
      (List.range n).map fun s => flatF nt nu (tile n l).2 (k + N * s)⟩)
  else .error .shape

/-- One pass of the loop of `distribute`, entry `e` popped (assembler.py 4232-4282). -/
def step2S (C : ConsS K) (e : Ent (List K)) (rest agg : List (Ent (List K))) (bnd : List (ℕ × List K)) : Except Err (St2 (List K)) :=
  match C.hng e.row with
  | some h => .ok ⟨((h.1.zip h.2).map fun p => (⟨p.1, e.col, e.val.map (· * p.2)⟩ : Ent (List K))).reverse ++ rest, agg, bnd⟩
  | none =>
    match C.dir e.row with
    | some _ => .ok ⟨rest, agg, bnd⟩
    | none =>
      match C.hng e.col with
      | some h => .ok ⟨((h.1.zip h.2).map fun p => (⟨e.row, p.1, e.val.map (· * p.2)⟩ : Ent (List K))).reverse ++ rest, agg, bnd⟩
      | none =>
        match C.dir e.col with
        | some g => do
          let w ← mulB e.val g
          .ok ⟨rest, agg, bnd ++ [(e.row, w)]⟩
        | none => .ok ⟨rest, agg ++ [e], bnd⟩

/-- The `while` loop (assembler.py 4230-4282). -/
def loop2S (C : ConsS K) : ℕ → St2 (List K) → Except Err (St2 (List K))
  | _, ⟨[], agg, bnd⟩ => .ok ⟨[], agg, bnd⟩
  | 0, ⟨_ :: _, _, _⟩ => .error .running
  | fuel + 1, ⟨e :: rest, agg, bnd⟩ => do
    let s ← step2S C e rest agg bnd
    loop2S C fuel s

/-- `update_cellwise` (assembler.py 4049-4111). -/
def update2S (n : ℕ) (k : κ) (af : AF2 κ (List K)) (l : Loc2S K) : Except Err (AF2 κ (List K)) := do
  let es ← gridS n l
  .ok { af with cells := Function.update af.cells k (some (es.reverse ++ (af.cells k).getD [])) }

/-- `distribute(cell, dir_bc, hng)` (assembler.py 4178-4289), as in `Asm.AF2.distribute`. -/
def distribute2S (C : ConsS K) (fuel : ℕ) (af : AF2 κ (List K)) (k : κ) : Except Err (AF2 κ (List K)) :=
  match af.cells k with
  | none => .error .key
  | some stk => do
    let s ← loop2S C fuel ⟨stk, af.agg, af.bnd⟩
    .ok ⟨Function.update af.cells k (some s.stack), s.agg, s.bnd⟩

/-- One cell of the loop of `assemble` (assembler.py 2363-2495). -/
def cell2S (C : ConsS K) (n : ℕ) (keep : Bool) (fuel : ℕ) (af : AF2 κ (List K)) (c : κ × List (Loc2S K)) : Except Err (AF2 κ (List K)) := do
  let af1 ← c.2.foldlM (update2S n c.1) af
  let af2 ← distribute2S C fuel af1 c.1
  .ok (if keep then af2 else { af2 with cells := Function.update af2.cells c.1 none })

/-- The cell loop of `assemble` for the bilinear forms of one problem (assembler.py 2353-2495), on a new `AssembledForm` of `n` samples. -/
def assemble2S (C : ConsS K) (n : ℕ) (keep : Bool) (fuel : ℕ) (cs : List (κ × List (Loc2S K))) : Except Err (AF2 κ (List K)) :=
  cs.foldlM (cell2S C n keep fuel) ⟨fun _ => none, [], []⟩

/-- What `consolidate` stores for a bilinear form: `udofs`, the list of matrices (`coo` triples) and the list of Dirichlet vectors
(assembler.py 4425-4428). -/
structure Sys2S (K : Type) where
  urow : List ℕ
  ucol : List ℕ
  mats : List (List (ℕ × ℕ × K))
  x0 : List (List K)

/-- `consolidate` for a bilinear form (assembler.py 4336-4428). -/
def consolidate2S (ord : List ℕ → List ℕ) (n : ℕ) (af : AF2 κ (List K)) : Except Err (Sys2S K) := do
  let ur := ord (af.agg.map (·.row))
  let ir ← mkIdx ur
  let uc := ord (af.agg.map (·.col))
  let ic ← mkIdx uc
  let vals ← toArray (af.agg.map (·.val))
  let xd ← Asm.look ir (af.bnd.map (·.1))
  let xv ← toArray (af.bnd.map (·.2))
  let rows ← Asm.look ir (af.agg.map (·.row))
  let cols ← Asm.look ic (af.agg.map (·.col))
  let mats ← (List.range n).mapM fun i => do
    let v ← column vals i
    .ok (rows.zip (cols.zip v))
  let x0 ← if xd = [] then .ok [] else (List.range n).mapM fun i => do
    let v ← column xv i
    .ok (bincount xd v ur.length)
  .ok ⟨ur, uc, mats, x0⟩

/-- What `get_matrix(i_sample=j)`, `get_dofs('interior')` and `assembled_bnd(i_sample=j)` return (assembler.py 2978-2996, 3053-3093): `none`
for a sample that is not there. -/
def Sys2S.sample (s : Sys2S K) (j : ℕ) : Sys2 K := ⟨s.urow, s.ucol, s.mats.getD j [], s.x0[j]?⟩

/-! ## Linear forms -/

/-- What one linear form contributes on one cell: `f_loc` of shape `(n_test, S)` (assembler.py 1282-1303, 2405-2411). -/
structure Loc1S (K : Type) where
  tst : List ℕ
  S : ℕ
  vec : ℕ → ℕ → K

/-- The rows that `update_cellwise` appends for a linear form: neither copied nor reshaped (assembler.py 4103-4109). -/
def vecS (l : Loc1S K) : List (Ent1 (List K)) :=
  (List.range l.tst.length).map fun k => ⟨l.tst.getD k 0, (List.range l.S).map (l.vec k)⟩

/-- One pass of the loop for a linear form (assembler.py 4206-4224). -/
def step1S (C : ConsS K) (e : Ent1 (List K)) (rest agg : List (Ent1 (List K))) : St1 (List K) :=
  match C.hng e.row with
  | some h => ⟨((h.1.zip h.2).map fun p => (⟨p.1, e.val.map (p.2 * ·)⟩ : Ent1 (List K))).reverse ++ rest, agg⟩
  | none =>
    match C.dir e.row with
    | some _ => ⟨rest, agg⟩
    | none => ⟨rest, agg ++ [e]⟩

/-- The `while` loop (assembler.py 4205-4224). -/
def loop1S (C : ConsS K) : ℕ → St1 (List K) → Except Err (St1 (List K))
  | _, ⟨[], agg⟩ => .ok ⟨[], agg⟩
  | 0, ⟨_ :: _, _⟩ => .error .running
  | fuel + 1, ⟨e :: rest, agg⟩ => loop1S C fuel (step1S C e rest agg)

/-- `update_cellwise` (assembler.py 4049-4111). -/
def update1S (k : κ) (af : AF1 κ (List K)) (l : Loc1S K) : AF1 κ (List K) :=
  { af with cells := Function.update af.cells k (some ((vecS l).reverse ++ (af.cells k).getD [])) }

/-- `distribute(cell, dir_bc, hng)` (assembler.py 4178-4224, 4284-4289). -/
def distribute1S (C : ConsS K) (fuel : ℕ) (af : AF1 κ (List K)) (k : κ) : Except Err (AF1 κ (List K)) :=
  match af.cells k with
  | none => .error .key
  | some stk => do
    let s ← loop1S C fuel ⟨stk, af.agg⟩
    .ok ⟨Function.update af.cells k (some s.stack), s.agg⟩

/-- One cell of the loop of `assemble` (assembler.py 2363-2495). -/
def cell1S (C : ConsS K) (keep : Bool) (fuel : ℕ) (af : AF1 κ (List K)) (c : κ × List (Loc1S K)) : Except Err (AF1 κ (List K)) := do
  let af2 ← distribute1S C fuel (c.2.foldl (update1S c.1) af) c.1
  .ok (if keep then af2 else { af2 with cells := Function.update af2.cells c.1 none })

/-- The cell loop of `assemble` for the linear forms of one problem (assembler.py 2353-2495). -/
def assemble1S (C : ConsS K) (keep : Bool) (fuel : ℕ) (cs : List (κ × List (Loc1S K))) : Except Err (AF1 κ (List K)) :=
  cs.foldlM (cell1S C keep fuel) ⟨fun _ => none, []⟩

/-- `consolidate` for a linear form (assembler.py 4336-4393): `udofs` and the list of vectors. -/
def consolidate1S (ord : List ℕ → List ℕ) (n : ℕ) (af : AF1 κ (List K)) : Except Err (List ℕ × List (List K)) := do
  let ur := ord (af.agg.map (·.row))
  let ir ← mkIdx ur
  let vals ← toArray (af.agg.map (·.val))
  let rows ← Asm.look ir (af.agg.map (·.row))
  let b ← (List.range n).mapM fun i => do
    let v ← column vals i
    .ok (bincount rows v ur.length)
  .ok (ur, b)

/-! ## Constant forms -/

/-- An element of a list of values: a number, or a one-dimensional array. -/
inductive NV (K : Type) where
  | num (x : K)
  | arr (l : List K)

/-- What one constant form contributes on one cell (assembler.py 1270-1280, 1356-1368): `f_loc` has the shape `(1, S)` if the cell has a
region of the form, and the shape `(S,)` if it has none. -/
structure Loc0S (K : Type) where
  S : ℕ
  hit : Bool
  val : ℕ → K

/-- What `extend(vals)` appends: the rows of an array of two axes, the numbers of an array of one axis (assembler.py 4109). -/
def appS (l : Loc0S K) : List (NV K) :=
  if l.hit then [.arr ((List.range l.S).map l.val)] else (List.range l.S).map fun _ => .num 0

/-- `distribute` and `consolidate` for the constant forms of a problem (assembler.py 4195-4199, 4370-4380): all values of all cells in one
list, `np.sum(np.array(vals), axis=0)`.  Arrays only: an array with an entry for every sample; numbers only: one number, which has no entries;
otherwise numpy raises (since 1.24). -/
def sumS (cs : List (κ × List (Loc0S K))) : Except Err (List K ⊕ K) :=
  let vs := cs.flatMap fun c => c.2.flatMap appS
  if vs.all (fun v => match v with | .num _ => true | .arr _ => false) then
    .ok (.inr (vs.map fun v => match v with | .num x => x | .arr _ => 0).sum)
  else if vs.all (fun v => match v with | .num _ => false | .arr _ => true) then do
    let A ← toArray (vs.map fun v => match v with | .num _ => [] | .arr l => l)
    .ok (.inl ((List.range (A.headD []).length).map fun i => (A.map (·.getD i 0)).sum))
  else .error .shape

/-- `get_scalar(i_sample=j)` (assembler.py 3033-3050): a number cannot be indexed. -/
def scalarS (cs : List (κ × List (Loc0S K))) (j : ℕ) : Except Err K := do
  match ← sumS cs with
  | .inl l => match l[j]? with
    | some x => .ok x
    | none => .error .index
  | .inr _ => .error .index

/-! ## Solving -/

/-- `Assembler.solve(i_matrix, i_vector)` (assembler.py 3711-3776) after `consolidate`, with what `spsolve(A, b-x0)` returned: the Dirichlet
values are `dir_vals[:,0]` whatever the samples (3768). -/
def finishS (C : ConsS K) (N : ℕ) (hdofs ddofs : List ℕ) (s : Sys2S K) (bs : List (List K)) (iM iV : ℕ) (y : List K) : Except Err (List K) := do
  if iM < s.mats.length then
    match bs[iV]? with
    | none => .error .index
    | some b =>
      match s.x0[iM]? with
      | none => .error .index
      | some x0 =>
        if b.length = x0.length ∧ b.length = s.urow.length ∧ s.urow.length = s.ucol.length ∧ y.length = s.ucol.length then
          let u1 ← scatter (List.replicate N 0) s.urow y
          let dv ← toArray (ddofs.map fun d => (C.dir d).getD [])
          let d0 ← column dv 0
          let u2 ← scatter u1 ddofs d0
          .ok ((List.range N).map fun i => u2.getD i 0 + hangDot ⟨C.hng, fun _ => none⟩ hdofs u2 i)
        else .error .shape
  else .error .index

/-! ## Specification: one sample -/

/-- Sample `j` of a list of values: the only value of a deterministic quantity. -/
def pick (S j : ℕ) : ℕ := if S > 1 then j else 0

/-- The dictionaries of sample `j`. -/
def ConsS.at (C : ConsS K) (j : ℕ) : Cons K := ⟨C.hng, fun a => (C.dir a).map fun g => g.getD (pick g.length j) 0⟩

/-- Sample `j` of a bilinear form. -/
def Loc2S.at (l : Loc2S K) (j : ℕ) : Loc2 K := ⟨l.tst, l.trl, fun a i => l.mat a i (pick l.S j)⟩

/-- Sample `j` of a linear form. -/
def Loc1S.at (l : Loc1S K) (j : ℕ) : Loc1 K := ⟨l.tst, fun a => l.vec a (pick l.S j)⟩

/-- All local forms of sample `j`. -/
def at2 (cs : List (κ × List (Loc2S K))) (j : ℕ) : List (κ × List (Loc2 K)) := cs.map fun c => (c.1, c.2.map (·.at j))

/-- All local forms of sample `j`. -/
def at1 (cs : List (κ × List (Loc1S K))) (j : ℕ) : List (κ × List (Loc1 K)) := cs.map fun c => (c.1, c.2.map (·.at j))

/-- The Dirichlet values have one sample, or as many as the matrix. -/
def ConsS.Fits (C : ConsS K) (n : ℕ) : Prop := ∀ a g, C.dir a = some g → g.length = 1 ∨ g.length = n

end Verif.Samp
