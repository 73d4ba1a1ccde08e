import Verif.Asm.Solve
import Mathlib.Data.Rat.Defs
import Mathlib.Algebra.Field.Rat
import Mathlib.Algebra.Order.Ring.Rat
import Mathlib.Tactic.NormNum
import Mathlib.Data.List.Dedup
import Mathlib.Tactic.Linarith
import Mathlib.LinearAlgebra.Matrix.NonsingularInverse
import Mathlib.LinearAlgebra.Matrix.ToLin

/-! # C35, C36, C54: solvability, concrete cases, counterexamples -/

set_option linter.unusedSectionVars false

namespace Verif.Asm

variable {κ : Type} [DecidableEq κ]

/-! ### solvability of the system -/

lemma OneLevel.acyclic {R : Type} {hng : ℕ → Option (List ℕ × List R)} {dir : ℕ → Option R}
    {n hdofs ddofs} (h : OneLevel hng dir n hdofs ddofs) : Acyclic hng := by
  refine ⟨fun d => if (hng d).isSome then 1 else 0, fun k S hS s hs => ?_⟩
  simp [hS, h.chain k S hS s hs]

/-- The matrix of a consolidated form with as many rows as columns. -/
def Sys2.mat {K : Type} [CommRing K] (s : Sys2 K) :
    Matrix (Fin s.urow.length) (Fin s.urow.length) K :=
  Matrix.of fun i j => s.entry i j

/-- **C54** If the bilinear form is definite on the admissible test functions (`a(v,v) = 0` only if
`v` vanishes at all free dofs in use), the assembled matrix is invertible, hence `spsolve` has
exactly one answer. -/
theorem C54_solvable {K : Type} [Field K] {C : Cons K} (hac : Acyclic C.hng)
    {keep fuel} {cs : List (κ × List (Loc2 K))} (hb : SameBasis cs)
    {af : AF2 κ K} (h : assemble2 C keep fuel cs = .ok af)
    {ord : List ℕ → List ℕ} (ho : SetOrder ord) (ha : Ascending ord)
    {s : Sys2 K} (hs : af.consolidate ord = .ok s)
    (hdef : ∀ v, Test C.hng C.dir v → total2 cs v v = 0 →
      ∀ f r, Free C.hng C.dir f → Uses2 cs r → Reach C.hng r f → v f = 0) :
    s.ucol = s.urow ∧ IsUnit s.mat := by
  obtain ⟨_, _, _, _, hur, huc, _⟩ := consolidate2_ok hs
  have n1 : s.urow.Nodup := hur ▸ (ho _).1
  have e1 : s.ucol = s.urow := sorted_ext (huc ▸ ha _) (hur ▸ ha _) fun f => by
    rw [(uses_rows h hb ho hs f).1, (uses_rows h hb ho hs f).2]
  refine ⟨e1, ?_⟩
  rw [← Matrix.mulVec_injective_iff_isUnit]
  intro z z' hz
  have hz0 : s.mat.mulVec (z - z') = 0 := by rw [Matrix.mulVec_sub]; exact sub_eq_zero.2 hz
  suffices hw : z - z' = 0 by exact sub_eq_zero.1 hw
  set w := z - z' with hwdef
  obtain ⟨v, v1, v2, v3⟩ := exists_conforming (dir := C.dir) hac
    (fun f => if hf : s.urow.idxOf f < s.urow.length then w ⟨s.urow.idxOf f, hf⟩ else 0) 0
  have vr : ∀ i : Fin s.urow.length, v s.urow[i] = w i := by
    intro i
    simp only [Fin.getElem_fin]
    rw [v3 _ (urow_free h ho hs i.2)]
    have : s.urow.idxOf s.urow[(i : ℕ)] = i := by
      exact List.Nodup.idxOf_getElem n1 i i.2
    simp [this]
  have hval := assemble2_val (t := 0) h ⟨v1, v2⟩ v1 v2
  rw [zero_mul, add_zero, ← matrix_val ho hs] at hval
  have hzero : ∑ i : Fin s.urow.length, ∑ j : Fin s.ucol.length,
      v s.urow[i] * s.entry i j * v s.ucol[j] = 0 := by
    apply Finset.sum_eq_zero
    intro i _
    have hi := congrFun hz0 i
    simp only [Matrix.mulVec, dotProduct, Sys2.mat, Matrix.of_apply, Pi.zero_apply] at hi
    have : ∑ j : Fin s.ucol.length, s.entry i j * v s.ucol[j] = 0 := by
      rw [← hi]
      have hl : s.ucol.length = s.urow.length := by rw [e1]
      apply Fintype.sum_equiv (finCongr hl)
      intro j
      rw [← vr]
      simp [e1]
    calc _ = v s.urow[i] * ∑ j : Fin s.ucol.length, s.entry i j * v s.ucol[j] := by
          rw [Finset.mul_sum]; apply Finset.sum_congr rfl; intro j _; ring
      _ = 0 := by rw [this, mul_zero]
  rw [hzero] at hval
  funext i
  obtain ⟨r, hr, hre⟩ := ((uses_rows h hb ho hs s.urow[i]).1.1 (List.getElem_mem i.2)).2
  have := hdef v ⟨v1, v2⟩ hval.symm s.urow[i] r (urow_free h ho hs i.2) hr hre
  rw [vr] at this
  exact this

/-! ### set orders -/

/-- A sorted `list(set(l))`. -/
def sortedSet (l : List ℕ) : List ℕ := (List.range (l.foldr max 0 + 1)).filter (· ∈ l)

lemma sortedSet_spec : SetOrder sortedSet ∧ Ascending sortedSet := by
  have le : ∀ (l : List ℕ) x, x ∈ l → x ≤ l.foldr max 0 := by
    intro l
    induction l with
    | nil => intro x hx; cases hx
    | cons a l ih =>
      intro x hx
      rcases List.mem_cons.1 hx with rfl | hx
      · exact le_max_left _ _
      · exact le_trans (ih x hx) (le_max_right _ _)
  have asc : Ascending sortedSet := fun l => List.Pairwise.filter _ List.pairwise_lt_range
  refine ⟨fun l => ⟨(asc l).imp (fun h => Nat.ne_of_lt h), fun x => ?_⟩, asc⟩
  simp only [sortedSet, List.mem_filter, List.mem_range, decide_eq_true_eq]
  exact ⟨fun h => h.2, fun h => ⟨Nat.lt_succ_of_le (le l x h), h⟩⟩

/-- `list(set(l))` in the order of insertion.  CPython lists `set([8,0])` as `[8,0]`. -/
def insertionSet (l : List ℕ) : List ℕ := l.reverse.dedup.reverse

lemma insertionSet_spec : SetOrder insertionSet := fun l =>
  ⟨by simp [insertionSet, List.nodup_dedup], fun x => by simp [insertionSet]⟩

/-! ### a complete run

A path of three elements with dofs `0..3`, stiffness matrices `[[1,-1],[-1,1]]`, a load, `u_0 = 3`,
and dof `3` hanging with `u_3 = (u_1 + u_2) / 2`. -/

/-- Constraints of the example. -/
def exC : Cons ℚ where
  hng := fun d => if d = 3 then some ([1, 2], [1/2, 1/2]) else none
  dir := fun d => if d = 0 then some 3 else none

/-- A local stiffness matrix. -/
def stiff (j i : ℕ) : ℚ := if j = i then 1 else -1

/-- Local forms of the example. -/
def exCs2 : List (ℕ × List (Loc2 ℚ)) :=
  [(0, [⟨[0, 1], [0, 1], stiff⟩]), (1, [⟨[1, 2], [1, 2], stiff⟩]),
   (2, [⟨[2, 3], [2, 3], stiff⟩, ⟨[2, 3], [2, 3], fun j i => if j = i then 1 else 0⟩])]

/-- Local loads of the example. -/
def exCs1 : List (ℕ × List (Loc1 ℚ)) :=
  [(0, [⟨[0, 1], fun _ => 1⟩]), (1, [⟨[1, 2], fun _ => 2⟩]), (2, [⟨[2, 3], fun j => j⟩])]

lemma exC_acyclic : Acyclic exC.hng := by
  refine ⟨fun d => if d = 3 then 1 else 0, fun h S hS s hs => ?_⟩
  simp only [exC] at hS
  split_ifs at hS with h3
  simp only [Option.some.injEq] at hS
  subst hS
  simp only [List.mem_cons, List.not_mem_nil, or_false] at hs
  rcases hs with rfl | rfl <;> simp [h3]

/-- The whole pipeline with a given answer `y` of `spsolve`, which is checked. -/
def runSolve (C : Cons ℚ) (n : ℕ) (hdofs ddofs : List ℕ) (fuel : ℕ)
    (cs2 : List (ℕ × List (Loc2 ℚ))) (cs1 : List (ℕ × List (Loc1 ℚ))) (ord : List ℕ → List ℕ)
    (y : List ℚ) : Except Err (List ℚ × List ℕ × List (List ℚ) × Bool) := do
  let a2 ← assemble2 C false fuel cs2
  let a1 ← assemble1 C false fuel cs1
  let s ← a2.consolidate ord
  let (_, b) ← a1.consolidate ord
  let u ← finish C n hdofs ddofs s b y
  let x0 := s.x0.getD []
  .ok (u, s.urow, (List.range s.urow.length).map (fun i =>
    (List.range s.ucol.length).map (s.entry i)) ++ [b, x0],
    (List.range s.urow.length).all fun i =>
      decide (((List.range s.ucol.length).map fun j => s.entry i j * y.getD j 0).sum
        = b.getD i 0 - x0.getD i 0))

lemma runSolve_ok {C : Cons ℚ} {n : ℕ} {hdofs ddofs : List ℕ} {fuel : ℕ}
    {cs2 : List (ℕ × List (Loc2 ℚ))} {cs1 : List (ℕ × List (Loc1 ℚ))} {ord : List ℕ → List ℕ}
    {y u : List ℚ} {r A}
    (h : (runSolve C n hdofs ddofs fuel cs2 cs1 ord y).toOption = some (u, r, A, true)) :
    ∃ a2 a1 s ub b', assemble2 C false fuel cs2 = .ok a2 ∧ assemble1 C false fuel cs1 = .ok a1 ∧
      a2.consolidate ord = .ok s ∧ a1.consolidate ord = .ok (ub, b') ∧
      finish C n hdofs ddofs s b' y = .ok u ∧ s.urow = r ∧
      (∀ x0, s.x0 = some x0 → Solves s b' x0 y) := by
  unfold runSolve at h
  simp only [bind, Except.bind] at h
  cases h1 : assemble2 C false fuel cs2 with
  | error e => simp [h1, Except.toOption] at h
  | ok a2 =>
  cases h2 : assemble1 C false fuel cs1 with
  | error e => simp [h1, h2, Except.toOption] at h
  | ok a1 =>
  simp only [h1, h2] at h
  cases h3 : a2.consolidate ord with
  | error e => simp [h3, Except.toOption] at h
  | ok s =>
  cases h4 : a1.consolidate ord with
  | error e => simp [h3, h4, Except.toOption] at h
  | ok ub =>
  simp only [h3, h4] at h
  cases h5 : finish C n hdofs ddofs s ub.2 y with
  | error e => simp [h5, Except.toOption] at h
  | ok u' =>
  simp only [h5, Except.toOption, Option.some.injEq, Prod.mk.injEq] at h
  obtain ⟨rfl, rfl, _, h6⟩ := h
  refine ⟨a2, a1, s, ub.1, ub.2, rfl, rfl, h3, h4, h5, rfl, ?_⟩
  intro x0 hx0 i hi
  have := List.all_eq_true.1 h6 i (List.mem_range.2 hi)
  rw [hx0] at this
  simpa using this

/-- The example runs, with the dofs, the matrix, the vector and the correction computed by hand. -/
lemma ex_run : (runSolve exC 4 [3] [0] 100 exCs2 exCs1 sortedSet [25/7, 17/7]).toOption
    = some ([3, 25/7, 17/7, 3], [1, 2], [[5/2, -1], [-1, 5/2], [7/2, 5/2], [-3, 0]], true) := by
  decide +kernel

lemma exC_oneLevel : OneLevel exC.hng exC.dir 4 [3] [0] where
  hkeys := fun h => by simp only [exC]; split_ifs with hh <;> simp [hh]
  hnodup := by simp
  dkeys := fun h => by simp only [exC]; split_ifs with hh <;> simp [hh]
  dnodup := by simp
  below := fun h S hS => by
    simp only [exC] at hS
    split_ifs at hS with h3
    simp only [Option.some.injEq] at hS
    subst hS
    exact ⟨by omega, by simp⟩
  chain := fun h S hS s hs => by
    simp only [exC] at hS ⊢
    split_ifs at hS with h3
    simp only [Option.some.injEq] at hS
    subst hS
    simp only [List.mem_cons, List.not_mem_nil, or_false] at hs
    rcases hs with rfl | rfl <;> simp
  disj := fun h hh => by
    simp only [exC] at hh ⊢
    split_ifs at hh ⊢ <;> simp_all

lemma exCs2_same : SameBasis exCs2 := by
  intro c hc l hl
  simp only [exCs2, List.mem_cons, List.not_mem_nil, or_false] at hc
  rcases hc with rfl | rfl | rfl <;> simp at hl <;> (first | subst hl; rfl | rcases hl with rfl | rfl <;> rfl)

lemma ex_uses (r : ℕ) : Uses2 exCs2 r ↔ Uses1 exCs1 r := by
  simp [Uses2, Uses1, exCs2, exCs1]

/-- Non-vacuity of C35 and C54: the example meets all hypotheses at once. -/
example : ∃ a2 a1 s ub b u y,
    Acyclic exC.hng ∧ OneLevel exC.hng exC.dir 4 [3] [0] ∧ SameBasis exCs2 ∧
    (∀ r, Uses2 exCs2 r ↔ Uses1 exCs1 r) ∧ (∀ c ∈ exCs2, c.2 ≠ []) ∧ (∀ c ∈ exCs1, c.2 ≠ []) ∧
    assemble2 exC false 100 exCs2 = .ok a2 ∧ assemble1 exC false 100 exCs1 = .ok a1 ∧
    SetOrder sortedSet ∧ Ascending sortedSet ∧ a2.consolidate sortedSet = .ok s ∧
    a1.consolidate sortedSet = .ok (ub, b) ∧ (∀ x0, s.x0 = some x0 → Solves s b x0 y) ∧
    finish exC 4 [3] [0] s b y = .ok u ∧ s.urow = [1, 2] ∧ u = [3, 25/7, 17/7, 3] ∧
    (∃ P, IsProlongation exC.hng exC.dir P) ∧ (∃ d, IsLifting exC.hng exC.dir d) := by
  obtain ⟨a2, a1, s, ub, b, h1, h2, h3, h4, h5, h6, h7⟩ := runSolve_ok ex_run
  exact ⟨a2, a1, s, ub, b, _, _, exC_acyclic, exC_oneLevel, exCs2_same, ex_uses,
    by simp [exCs2], by simp [exCs1], h1, h2, sortedSet_spec.1, sortedSet_spec.2, h3, h4, h7, h5,
    h6, rfl, (C35_prolongation exC_acyclic).1, (C35_prolongation exC_acyclic).2.1⟩

/-- Non-vacuity of `C35_order`: another order of the cells, other insertion, same multiset. -/
example : (exCs2.flatMap (·.2)).Perm (exCs2.reverse.flatMap (·.2)) :=
  (List.reverse_perm exCs2).symm.flatMap_right _

example : ((assemble2 exC true 100 exCs2.reverse).toOption.map fun a => a.agg.length) = some 23 := by
  decide +kernel

/-- Non-vacuity of `C35_constant`. -/
example : ((assemble0 (κ := ℕ) (R := ℚ) false [(0, [[1], [2]]), (1, [[5]])]).toOption.map
    (·.consolidate)) = some 8 := by
  decide +kernel

/-! ### counterexamples -/

/-- **C35** fails when `list(set(..))` is not sorted (python does not promise an order, CPython lists
`set([8,0])` as `[8,0]`): `consolidate` raises an `IndexError` although the assembly is regular. -/
theorem C35_setorder_violated : ∃ (cs : List (ℕ × List (Loc2 ℚ))) (af : AF2 ℕ ℚ)
    (ord : List ℕ → List ℕ), SameBasis cs ∧
    assemble2 ⟨fun _ => none, fun _ => none⟩ false 100 cs = .ok af ∧ SetOrder ord ∧
    ord (af.agg.map (·.row)) = [8, 0] ∧ af.consolidate ord = .error .index := by
  let cs : List (ℕ × List (Loc2 ℚ)) := [(0, [⟨[0, 8], [0, 8], stiff⟩])]
  have h : (assemble2 ⟨fun _ => none, fun _ => none⟩ false 100 cs).toOption.map (fun af =>
      (insertionSet (af.agg.map (·.row)), match af.consolidate insertionSet with
        | .error .index => true
        | _ => false)) = some ([8, 0], true) := by decide +kernel
  cases h1 : assemble2 ⟨fun _ => none, fun _ => none⟩ false 100 cs with
  | error e => simp [h1, Except.toOption] at h
  | ok af =>
    simp only [h1, Except.toOption, Option.map_some, Option.some.injEq, Prod.mk.injEq] at h
    refine ⟨cs, af, insertionSet, by simp [cs, SameBasis], h1, insertionSet_spec, h.1, ?_⟩
    have := h.2
    split at this
    · assumption
    · cases this

/-- **C35** fails for different test and trial dofs: a test dof that couples only to Dirichlet
columns is no row of the matrix, and its correction is booked on the first row.  Here row dofs are
`0, 7`; test dof `5` sees only the Dirichlet dof `9`. -/
theorem C35_petrov_violated : ∃ (C : Cons ℚ) (cs : List (ℕ × List (Loc2 ℚ))) (af : AF2 ℕ ℚ)
    (s : Sys2 ℚ), Acyclic C.hng ∧ assemble2 C false 100 cs = .ok af ∧
    af.consolidate sortedSet = .ok s ∧ s.urow = [0, 7] ∧
    ∀ P d, IsProlongation C.hng C.dir P → IsLifting C.hng C.dir d →
      ∃ hi : 0 < s.urow.length, corr s 0 ≠ total2 cs (P s.urow[0]) d := by
  let C : Cons ℚ := ⟨fun _ => none, fun d => if d = 9 then some 1 else none⟩
  let cs : List (ℕ × List (Loc2 ℚ)) :=
    [(0, [⟨[0, 7], [0, 7], stiff⟩]), (1, [⟨[5], [9], fun _ _ => 4⟩])]
  have h : ((assemble2 C false 100 cs).toOption.bind fun af =>
      (af.consolidate sortedSet).toOption.map fun s => (s.urow, corr s 0)) = some ([0, 7], 4) := by
    decide +kernel
  cases h1 : assemble2 C false 100 cs with
  | error e => simp [h1, Except.toOption] at h
  | ok af =>
    simp only [h1, Except.toOption, Option.bind_some] at h
    cases h2 : af.consolidate sortedSet with
    | error e => simp [h2] at h
    | ok s =>
      simp only [h2, Option.map_some, Option.some.injEq, Prod.mk.injEq] at h
      obtain ⟨hu, hc⟩ := h
      refine ⟨C, cs, af, s, ⟨fun _ => 0, fun _ _ h => by cases h⟩, h1, h2, hu, ?_⟩
      intro P d hP hd
      refine ⟨by rw [hu]; decide, ?_⟩
      have h0 : s.urow[0]'(by rw [hu]; decide) = 0 := by simp [hu]
      rw [hc, h0]
      have f : ∀ k, k ≠ 9 → Free C.hng C.dir k := fun k hk => ⟨rfl, by simp [C, hk]⟩
      have p5 : P 0 5 = 0 := by rw [(hP 0 (f 0 (by decide))).2 5 (f 5 (by decide))]; simp
      have d0 : d 0 = 0 := hd.2 0 (f 0 (by decide))
      have d7 : d 7 = 0 := hd.2 7 (f 7 (by decide))
      simp [total2, cs, localBilin, Fin.sum_univ_succ, p5, d0, d7]

/-- Constraints with a chain: `u_3 = u_2`, `u_2 = u_1`. -/
def chC : Cons ℚ where
  hng := fun d => if d = 3 then some ([2], [1]) else if d = 2 then some ([1], [1]) else none
  dir := fun d => if d = 0 then some 3 else none

lemma chC_acyclic : Acyclic chC.hng := by
  refine ⟨id, fun h S hS s hs => ?_⟩
  simp only [chC] at hS
  split_ifs at hS with h3 h2 <;> simp only [Option.some.injEq] at hS <;> subst hS <;>
    simp at hs <;> subst hs <;> simp [*]

/-- **C54** fails for chains of hanging nodes: assembly treats them correctly, but `solve`
interpolates only once, so that the returned vector breaks the relation `u_3 = u_2`. -/
theorem C54_chain_violated : ∃ (a2 : AF2 ℕ ℚ) (a1 : AF1 ℕ ℚ) (s : Sys2 ℚ) (ub : List ℕ)
    (b y u : List ℚ), Acyclic chC.hng ∧ SameBasis exCs2 ∧ (∀ r, Uses2 exCs2 r ↔ Uses1 exCs1 r) ∧
    assemble2 chC false 100 exCs2 = .ok a2 ∧ assemble1 chC false 100 exCs1 = .ok a1 ∧
    a2.consolidate sortedSet = .ok s ∧ a1.consolidate sortedSet = .ok (ub, b) ∧
    (∀ x0, s.x0 = some x0 → Solves s b x0 y) ∧ finish chC 4 [3, 2] [0] s b y = .ok u ∧
    u = [3, 3, 3, 0] ∧ ¬ Conforms chC.hng (fun d => u.getD d 0) := by
  have run : (runSolve chC 4 [3, 2] [0] 100 exCs2 exCs1 sortedSet [3]).toOption
      = some ([3, 3, 3, 0], [1], [[3], [6], [-3]], true) := by decide +kernel
  obtain ⟨a2, a1, s, ub, b, h1, h2, h3, h4, h5, h6, h7⟩ := runSolve_ok run
  refine ⟨a2, a1, s, ub, b, _, _, chC_acyclic, exCs2_same, ex_uses, h1, h2, h3, h4, h7, h5, rfl, ?_⟩
  intro hc
  have := hc 3 ([2], [1]) (by simp [chC])
  norm_num [combo] at this

/-- Constraints with a hanging node that is also a Dirichlet dof. -/
def ovC : Cons ℚ where
  hng := fun d => if d = 3 then some ([1, 2], [1/2, 1/2]) else none
  dir := fun d => if d = 0 ∨ d = 3 then some 3 else none

/-- **C54** fails for a hanging node at a Dirichlet dof: the two values are added. -/
theorem C54_overlap_violated : ∃ (a2 : AF2 ℕ ℚ) (a1 : AF1 ℕ ℚ) (s : Sys2 ℚ) (ub : List ℕ)
    (b y u : List ℚ), SameBasis exCs2 ∧ (∀ r, Uses2 exCs2 r ↔ Uses1 exCs1 r) ∧
    assemble2 ovC false 100 exCs2 = .ok a2 ∧ assemble1 ovC false 100 exCs1 = .ok a1 ∧
    a2.consolidate sortedSet = .ok s ∧ a1.consolidate sortedSet = .ok (ub, b) ∧
    (∀ x0, s.x0 = some x0 → Solves s b x0 y) ∧ finish ovC 4 [3] [0, 3] s b y = .ok u ∧
    u.getD 3 0 = 6 ∧ ovC.dir 3 = some 3 ∧ ¬ Conforms ovC.hng (fun d => u.getD d 0) := by
  have run : (runSolve ovC 4 [3] [0, 3] 100 exCs2 exCs1 sortedSet [25/7, 17/7]).toOption
      = some ([3, 25/7, 17/7, 6], [1, 2], [[5/2, -1], [-1, 5/2], [7/2, 5/2], [-3, 0]], true) := by
    decide +kernel
  obtain ⟨a2, a1, s, ub, b, h1, h2, h3, h4, h5, h6, h7⟩ := runSolve_ok run
  refine ⟨a2, a1, s, ub, b, _, _, exCs2_same, ex_uses, h1, h2, h3, h4, h7, h5, rfl, by simp [ovC], ?_⟩
  intro hc
  have := hc 3 ([1, 2], [1/2, 1/2]) (by simp [ovC])
  norm_num [combo] at this

/-- **C54** fails without Dirichlet conditions: the correction is an empty list and `solve` always
raises an `IndexError`, whatever the forms are. -/
theorem C54_no_dirichlet_violated {R : Type} [CommRing R] {C : Cons R}
    (hd : ∀ d, C.dir d = none) {keep fuel} {cs : List (κ × List (Loc2 R))} {af : AF2 κ R}
    (h : assemble2 C keep fuel cs = .ok af) {ord : List ℕ → List ℕ} {s : Sys2 R}
    (hs : af.consolidate ord = .ok s) (n : ℕ) (hdofs ddofs : List ℕ) (b y : List R) :
    finish C n hdofs ddofs s b y = .error .index := by
  have hb : af.bnd = [] := by
    cases hb : af.bnd with
    | nil => rfl
    | cons p bs =>
      obtain ⟨_, _, _, _, _, _, _, _, _, _, d, _, h2, _⟩ := (assemble2_bnd h p.1).1 (by simp [hb])
      rw [hd] at h2; cases h2
  obtain ⟨_, _, _, _, _, _, _, hx, _⟩ := consolidate2_ok hs
  rw [if_pos hb] at hx
  simp [finish, hx]

example : ((assemble2 ⟨fun _ => none, fun _ => none⟩ false 100 exCs2).toOption.bind fun a =>
    (a.consolidate sortedSet).toOption.map fun s => s.urow) = some [0, 1, 2, 3] := by
  decide +kernel

/-- Non-vacuity of `C36_violated`: a form with data on a cell, which `distribute` without clearing
empties, and a second `distribute` adds nothing. -/
example : let af := (AF2.new : AF2 ℕ ℚ).update 0 [0, 1] [0, 1] stiff
    (af.cells 0).map List.length = some 4 ∧
    ((af.distribute exC false 100 0).toOption.map fun a =>
      ((a.cells 0).map List.length, a.agg.length)) = some (some 0, 1) ∧
    (((af.distribute exC false 100 0).toOption.bind fun a =>
      (a.distribute exC false 100 0).toOption).map fun a =>
      ((a.cells 0).map List.length, a.agg.length)) = some (some 0, 1) := by
  decide +kernel

/-- Non-vacuity of `C36_constant_partial`. -/
example : ∃ af', ((AF0.new : AF0 ℕ ℚ).update 0 [5]).distribute false 0 = .ok af' ∧ af'.agg = [5] :=
  ⟨_, rfl, rfl⟩

end Verif.Asm
