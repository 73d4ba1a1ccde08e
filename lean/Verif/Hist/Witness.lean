import Verif.Hist.Solve

/-! # C91: runs of complete histories, and what goes wrong -/

namespace Verif.Hist

open Verif.Asm

/-- Two elements with dofs `0,1` and `1,2`, stiffness matrices, no load, and the constant form `1`. -/
def bar : List (CellIn ℕ ℚ) :=
  [(0, fun _ => [.b ⟨[0, 1], [0, 1], stiff⟩, .l ⟨[0, 1], fun _ => 0⟩, .c [1]]),
   (1, fun _ => [.b ⟨[1, 2], [1, 2], stiff⟩, .l ⟨[1, 2], fun _ => 0⟩, .c [1]])]

/-- The dimensions of the forms of the problem. -/
def barDims : List (List Dim) := [[.d2, .d1, .d0]]

/-- The system of problem `i` as plain data: dofs, matrix, correction, vector, number. -/
def view (ps : List (Prob ℕ ℚ)) (i : ℕ) : Option (List ℕ × List (List ℚ) × Option (List ℚ) × List ℚ × ℚ) := do
  let s ← getMatrix ps i
  let b ← getVector ps i
  let c ← getScalar ps i
  some (s.urow, (List.range s.urow.length).map (fun a => (List.range s.ucol.length).map (s.entry a)), s.x0, b.2, c)

/-- Is `y` the exact solution of the linear system of `solve(i)`? -/
def solvesB (ps : List (Prob ℕ ℚ)) (i : ℕ) (y : List ℚ) : Bool :=
  match getMatrix ps i, getVector ps i with
  | some s, some b => (List.range s.urow.length).all fun a =>
      decide (((List.range s.ucol.length).map fun j => s.entry a j * y.getD j 0).sum
        = b.2.getD a 0 - (s.x0.getD []).getD a 0)
  | _, _ => false

lemma solvesB_ok {ps : List (Prob ℕ ℚ)} {i : ℕ} {y : List ℚ} (h : solvesB ps i y = true) :
    ∀ s b x0, getMatrix ps i = some s → getVector ps i = some b → s.x0 = some x0 → Solves s b.2 x0 y := by
  intro s b x0 hs hb hx a ha
  unfold solvesB at h
  rw [hs, hb] at h
  have := List.all_eq_true.1 h a (List.mem_range.2 ha)
  rw [hx] at this
  simpa using this

/-- One call: the matrix, the correction for `u_0 = 3`, the measure `2`. -/
lemma bar_once : ((run sortedSet 100 (barDims.map Prob.new) [.dirichlet 0 [(0, 3)], .assemble false bar]).toOption.bind (view · 0))
    = some ([1, 2], [[2, -1], [-1, 1]], some [-3, 0], [0, 0], 2) := by decide +kernel

/-- The same call again: everything is doubled. -/
lemma bar_twice : ((run sortedSet 100 (barDims.map Prob.new)
      [.dirichlet 0 [(0, 3)], .assemble false bar, .assemble false bar]).toOption.bind (view · 0))
    = some ([1, 2], [[4, -2], [-2, 2]], some [-6, 0], [0, 0], 4) := by decide +kernel

/-- **C91** fails as an idempotence: calling `assemble()` again, with nothing changed in between, changes
`get_matrix`, `assembled_bnd` and `get_scalar`. -/
theorem C91_again_violated : ∃ (ps ps' : List (Prob ℕ ℚ)) (s s' : Sys2 ℚ) (c c' : ℚ),
    run sortedSet 100 (barDims.map Prob.new) [.dirichlet 0 [(0, 3)], .assemble false bar] = .ok ps ∧
    assemble sortedSet 100 false ps bar = .ok ps' ∧ getMatrix ps 0 = some s ∧ getMatrix ps' 0 = some s' ∧
    getScalar ps 0 = some c ∧ getScalar ps' 0 = some c' ∧ s.urow = s'.urow ∧
    s.entry 0 0 ≠ s'.entry 0 0 ∧ corr s 0 ≠ corr s' 0 ∧ c ≠ c' := by
  have key : ((run sortedSet 100 (barDims.map Prob.new) [.dirichlet 0 [(0, 3)], .assemble false bar]).toOption.bind fun ps =>
      (assemble sortedSet 100 false ps bar).toOption.bind fun ps' => do
        let s ← getMatrix ps 0
        let s' ← getMatrix ps' 0
        let c ← getScalar ps 0
        let c' ← getScalar ps' 0
        some (decide (s.urow = s'.urow ∧ s.entry 0 0 ≠ s'.entry 0 0 ∧ corr s 0 ≠ corr s' 0 ∧ c ≠ c'))) = some true := by
    decide +kernel
  cases h1 : run sortedSet 100 (barDims.map Prob.new) [.dirichlet 0 [(0, 3)], .assemble false bar] with
  | error e => simp [h1, Except.toOption] at key
  | ok ps =>
  rw [h1] at key
  simp only [Except.toOption, Option.bind_some] at key
  cases h2 : assemble sortedSet 100 false ps bar with
  | error e => simp [h2] at key
  | ok ps' =>
  rw [h2] at key
  simp only [Option.bind_some, bind] at key
  simp only [Option.bind_eq_some_iff] at key
  obtain ⟨s, hs, s', hs', c, hc, c', hc', hd⟩ := key
  simp only [Option.some.injEq, decide_eq_true_eq] at hd
  exact ⟨ps, ps', s, s', c, c', rfl, h2, hs, hs', hc, hc', hd⟩

/-- A history with a change of the boundary value between two calls of `assemble`. -/
def changed : List (Op ℕ ℚ) :=
  [.dirichlet 0 [(0, 3)], .assemble false bar, .dirichlet 0 [(0, 5)], .assemble false bar]

/-- **C91** fails when the boundary values change between two calls of `assemble`: the problem
`-u'' = 0`, `u(0) = g`, is solved with `g = 3`, then with `g = 5` on the same assembler.  `solve` returns
`[5, 4, 4]`; the only solution of the problem with `g = 5` is `[5, 5, 5]`. -/
theorem C91_dirichlet_violated : ∃ (ps : List (Prob ℕ ℚ)) (hi : 0 < ps.length) (y u : List ℚ),
    run sortedSet 100 (barDims.map Prob.new) changed = .ok ps ∧
    (∀ s b x0, getMatrix ps 0 = some s → getVector ps 0 = some b → s.x0 = some x0 → Solves s b.2 x0 y) ∧
    solve 3 ps 0 y = .ok u ∧ u = [5, 4, 4] ∧ ps[0].cons.dir 0 = some 5 ∧
    ¬ SolvesVariational ps[0].cons.hng ps[0].cons.dir (total2 (callOf ps[0].cons 0 bar).bil)
      (total1 (callOf ps[0].cons 0 bar).lin) (fun d => u.getD d 0) := by
  have key : ((run sortedSet 100 (barDims.map Prob.new) changed).toOption.map fun ps =>
      decide (solvesB ps 0 [4, 4] = true ∧ (solve 3 ps 0 [4, 4]).toOption = some [5, 4, 4] ∧ ps.map (·.dirD) = [[(0, 5)]] ∧
        ps.map (·.hngD) = [[]])) = some true := by decide +kernel
  cases h1 : run sortedSet 100 (barDims.map Prob.new) changed with
  | error e => simp [h1, Except.toOption] at key
  | ok ps =>
  rw [h1] at key
  obtain ⟨k1, k2, k3, k4⟩ := of_decide_eq_true (Option.some.inj key)
  have hlen : ps.length = 1 := by
    have := run_length h1
    simpa [barDims] using this
  have hi : 0 < ps.length := by omega
  have hps : ps = [ps[0]] := by
    obtain ⟨p, rfl⟩ := List.length_eq_one_iff.1 hlen
    rfl
  have hd : ps[0].dirD = [(0, 5)] := by rw [hps] at k3; simpa using k3
  have hh : ps[0].hngD = [] := by rw [hps] at k4; simpa using k4
  have hsol : solve 3 ps 0 [4, 4] = .ok [5, 4, 4] := by
    cases hx : solve 3 ps 0 [4, 4] with
    | error e => simp [hx, Except.toOption] at k2
    | ok u => simpa [hx, Except.toOption] using k2
  refine ⟨ps, hi, [4, 4], [5, 4, 4], rfl, solvesB_ok k1, hsol, rfl, by simp [Prob.cons, hd, dictGet], ?_⟩
  rintro ⟨-, hv⟩
  have := hv (fun d => if d = 1 then 1 else 0) (by
    refine ⟨fun h S hS => ?_, fun d _ g hg => ?_⟩
    · simp [Prob.cons, hh, dictGet] at hS
    · simp only [Prob.cons, hd, dictGet, List.find?_cons, List.find?_nil] at hg
      by_cases h0 : (0 : ℕ) = d
      · subst h0; simp
      · simp [h0] at hg)
  revert this
  simp only [total2, total1, callOf, bar, bils, lins]
  decide +kernel

/-- **C91** (the number) fails with `keep_cellwise_data=True`: the second call adds the values kept from
the first one once more, so that two calls give three times the measure. -/
theorem C91_scalar_violated : ((run sortedSet 100 (barDims.map Prob.new)
      [.dirichlet 0 [(0, 3)], .assemble true bar, .assemble true bar]).toOption.bind (getScalar · 0)) = some 6 ∧
    ((callsOf 0 [] [] ([.dirichlet 0 [(0, 3)], .assemble true bar, .assemble true bar] : List (Op ℕ ℚ))).map
      fun k => (k.con.map fun c => (c.2.map List.sum).sum).sum).sum = 4 := by
  constructor <;> decide +kernel

/-- Two problems, hanging nodes in the first, Dirichlet values in both, the two regions assembled one
after the other, the first problem constrained at dof `2` only for the second region. -/
def regions : List (Op ℕ ℚ) :=
  [.dirichlet 1 [(0, 7)], .hanging 0 [(1, ([0, 2], [1/2, 1/2]))], .assemble false (bar.take 1), .dirichlet 0 [(2, 1)],
    .assemble true (bar.drop 1)]

/-- Non-vacuity of `C91_matrix`, `C91_correction_partial`, `C91_vector`: the run, with its numbers. -/
example : ((run sortedSet 100 ((barDims ++ barDims).map Prob.new) regions).toOption.bind (view · 0))
    = some ([0, 2], [[1/2, -1/4], [-1/4, 1/4]], some [-1/4, 0], [0, 0], 2) := by decide +kernel

example : ((run sortedSet 100 ((barDims ++ barDims).map Prob.new) regions).toOption.bind (view · 1))
    = some ([1, 2], [[2, -1], [-1, 1]], some [-7, 0], [0, 0], 2) := by decide +kernel

/-- Non-vacuity: the forms are evaluated on every cell, with the same dofs for test and trial. -/
example : Evaluates 0 [.d2, .d1, .d0] regions ∧ Evaluates 1 [.d2, .d1, .d0] regions ∧
    (∀ k ∈ callsOf 0 [] [] regions, SameBasis k.bil) ∧ (callsOf 0 [] [] regions).length = 2 := by
  refine ⟨?_, ?_, ?_, rfl⟩
  · intro keep cs hm c hc
    simp only [regions, List.mem_cons, reduceCtorEq, false_or, Op.assemble.injEq, List.not_mem_nil, or_false] at hm
    rcases hm with ⟨-, rfl⟩ | ⟨-, rfl⟩ <;> simp only [bar, List.take, List.drop, List.mem_cons, List.not_mem_nil, or_false] at hc <;>
      subst hc <;> simp [bils, lins]
  · intro keep cs hm c hc
    simp only [regions, List.mem_cons, reduceCtorEq, false_or, Op.assemble.injEq, List.not_mem_nil, or_false] at hm
    rcases hm with ⟨-, rfl⟩ | ⟨-, rfl⟩ <;> simp only [bar, List.take, List.drop, List.mem_cons, List.not_mem_nil, or_false] at hc <;>
      subst hc <;> simp [bils, lins]
  · intro k hk c hc l hl
    simp only [regions, callsOf, List.mem_cons, List.not_mem_nil, or_false] at hk
    rcases hk with rfl | rfl <;> simp [callOf, bar, bils] at hc <;> subst hc <;> simp at hl <;> subst hl <;> rfl

/-- The history of `C91_solve_again_partial`: the same call three times. -/
def thrice : List (Op ℕ ℚ) := [.dirichlet 0 [(0, 3)], .assemble false bar, .assemble true bar, .assemble false bar]

/-- Non-vacuity of `C91_solve_partial` and `C91_solve_again_partial`: all hypotheses hold at once. -/
example : ∃ (ps : List (Prob ℕ ℚ)) (hi : 0 < ps.length) (u : List ℚ),
    run sortedSet 100 (barDims.map Prob.new) thrice = .ok ps ∧ Evaluates 0 [.d2, .d1, .d0] thrice ∧
    callsOf 0 [] [] thrice = List.replicate 3 (callOf ps[0].cons 0 bar) ∧
    OneLevel ps[0].cons.hng ps[0].cons.dir 3 (ps[0].hngD.map (·.1)) (ps[0].dirD.map (·.1)) ∧
    SameBasis (callOf ps[0].cons 0 bar).bil ∧
    (∀ r, Uses2 (callOf ps[0].cons 0 bar).bil r ↔ Uses1 (callOf ps[0].cons 0 bar).lin r) ∧
    (∀ s b x0, getMatrix ps 0 = some s → getVector ps 0 = some b → s.x0 = some x0 → Solves s b.2 x0 [3, 3]) ∧
    solve 3 ps 0 [3, 3] = .ok u ∧ u = [3, 3, 3] := by
  have key : ((run sortedSet 100 (barDims.map Prob.new) thrice).toOption.map fun ps =>
      decide (solvesB ps 0 [3, 3] = true ∧ (solve 3 ps 0 [3, 3]).toOption = some [3, 3, 3] ∧ ps.map (·.dirD) = [[(0, 3)]] ∧
        ps.map (·.hngD) = [[]])) = some true := by decide +kernel
  cases h1 : run sortedSet 100 (barDims.map Prob.new) thrice with
  | error e => simp [h1, Except.toOption] at key
  | ok ps =>
  rw [h1] at key
  obtain ⟨k1, k2, k3, k4⟩ := of_decide_eq_true (Option.some.inj key)
  have hlen : ps.length = 1 := by
    have := run_length h1
    simpa [barDims] using this
  have hi : 0 < ps.length := by omega
  have hps : ps = [ps[0]] := by
    obtain ⟨p, rfl⟩ := List.length_eq_one_iff.1 hlen
    rfl
  have hd : ps[0].dirD = [(0, 3)] := by rw [hps] at k3; simpa using k3
  have hh : ps[0].hngD = [] := by rw [hps] at k4; simpa using k4
  have hsol : solve 3 ps 0 [3, 3] = .ok [3, 3, 3] := by
    cases hx : solve 3 ps 0 [3, 3] with
    | error e => simp [hx, Except.toOption] at k2
    | ok u => simpa [hx, Except.toOption] using k2
  refine ⟨ps, hi, _, rfl, ?_, ?_, ?_, ?_, ?_, solvesB_ok k1, hsol, rfl⟩
  · intro keep cs hm c hc
    simp only [thrice, List.mem_cons, reduceCtorEq, false_or, Op.assemble.injEq, List.not_mem_nil, or_false] at hm
    have : cs = bar := by rcases hm with ⟨-, rfl⟩ | ⟨-, rfl⟩ | ⟨-, rfl⟩ <;> rfl
    subst this
    simp only [bar, List.mem_cons, List.not_mem_nil, or_false] at hc
    rcases hc with rfl | rfl <;> simp [bils, lins]
  · have : ps[0].cons = (⟨dictGet [], dictGet [(0, 3)]⟩ : Cons ℚ) := by simp [Prob.cons, hd, hh]
    rw [this]
    rfl
  · refine ⟨fun h => ?_, by simp [hh], fun d => ?_, by simp [hd], ?_, ?_, ?_⟩
    · simp [Prob.cons, hh, dictGet]
    · simp only [Prob.cons, hd, dictGet, List.map_cons, List.map_nil, List.mem_singleton, List.find?_cons, List.find?_nil]
      by_cases h0 : (0 : ℕ) = d
      · simp [← h0]
      · simp [h0, Ne.symm h0]
    all_goals simp [Prob.cons, hh, dictGet]
  · intro c hc l hl
    simp only [callOf, bar, bils, List.map_cons, List.map_nil, List.mem_cons, List.not_mem_nil, or_false] at hc
    rcases hc with rfl | rfl <;> simp at hl <;> subst hl <;> rfl
  · intro r
    simp [Uses2, Uses1, callOf, bar, bils, lins]

end Verif.Hist
