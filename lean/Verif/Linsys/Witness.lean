import Verif.Linsys.Props
import Mathlib.Data.Fintype.Prod

/-!
# C37: concrete cases and violations
-/

namespace Verif.Linsys

open Matrix

section run
variable {K : Type} [Field K] [DecidableEq K] {n m : ℕ}

/-- Executable check of one `Solve` with a proposed solution `u` of the linear system. -/
def runSolve (s : St K n m) (b : Option (Matrix (Fin n) (Fin m) K)) (factor : Bool)
    (u : Matrix (Fin n) (Fin m) K) : Option (St K n m) :=
  match prepare s b factor with
  | .error _ => none
  | .ok s1 =>
    match s1.b, s1.Cd with
    | some b1, some cd =>
      if ∀ p : Fin n × Fin m, (theMatrix s1 factor * u) p.1 p.2 = b1 p.1 p.2
      then some { s1 with u := some (resolve cd.1 cd.2 u) } else none
    | _, _ => none

theorem runSolve_sound {s s' : St K n m} {b : Option (Matrix (Fin n) (Fin m) K)} {factor : Bool}
    {u : Matrix (Fin n) (Fin m) K} (h : runSolve s b factor u = some s') :
    Solve s b factor s' := by
  unfold runSolve at h
  split at h
  · simp at h
  · next s1 h1 =>
    split at h
    · next b1 cd h2 h3 =>
      split at h
      · next h4 =>
        simp only [Option.some.injEq] at h
        exact ⟨s1, u, b1, cd, h1, h2, h3, by ext i j; exact h4 (i, j), h.symm⟩
      · simp at h
    · simp at h

end run

/-! ### A well-formed system: one hanging node, two Dirichlet values -/

/-- Dof 3 hangs between 0 and 1, dof 2 has value 7, dof 1 has value 5. -/
def exH : List (Con ℚ) := [⟨3, [(0, 1 / 2), (1, 1 / 2)], 0⟩]
def exD : List (Con ℚ) := [⟨2, [], 7⟩, ⟨1, [], 5⟩]
def exA : Matrix (Fin 4) (Fin 4) ℚ := !![4, -1, 0, -1; -1, 4, -1, 0; 0, -1, 4, -1; -1, 0, -1, 4]
def exB : Matrix (Fin 4) (Fin 1) ℚ := !![1; 2; 3; 4]

theorem exWF : WellFormed 4 exH exD := by
  constructor <;> simp [exH, exD]
  · rintro a b (⟨rfl, -⟩ | ⟨rfl, -⟩) <;> norm_num
  · rintro a b (⟨rfl, -⟩ | ⟨rfl, -⟩) <;> norm_num

/-- Non-vacuity of `C37_solve`, `C37_constraints`, `C37_galerkin_partial`: a solve exists. -/
theorem ex_solve : ∃ s', Solve (init (List.range 4) (exH ++ exD) exA (some exB)) none false s' := by
  have h : (runSolve (init (List.range 4) (exH ++ exD) exA (some exB)) none false
      !![9 / 4; 0; 0; 0]).isSome = true := by decide +kernel
  obtain ⟨s', hs⟩ := Option.isSome_iff_exists.1 h
  exact ⟨s', runSolve_sound hs⟩

example : ∃ u : Matrix (Fin 4) (Fin 1) ℚ, SolvesProblem exA exB (exH ++ exD) u := by
  obtain ⟨s', hs⟩ := ex_solve
  obtain ⟨u, _, h⟩ := C37_galerkin_partial exWF exA (some exB) exB none false (Or.inr ⟨rfl, rfl⟩)
    (by simp [exH]) s' hs
  exact ⟨u, h⟩

/-- Non-vacuity of `C37_spd_directions`, `C37_solvable_directions`: the (singular) stiffness matrix of two intervals with one Dirichlet value. -/
example : ∃ s' : St ℚ 3 1, Solve (init (List.range 3) ([] ++ [⟨0, [], 3⟩]) (!![1, -1, 0; -1, 2, -1; 0, -1, 1] : Matrix (Fin 3) (Fin 3) ℚ)
    (some !![1; 1; 1])) none true s' := by
  refine C37_solvable_directions (by constructor <;> simp) (by simp) _ (by intro i j; fin_cases i <;> fin_cases j <;> rfl) (fun v hv hne => ?_) _ !![1; 1; 1] _ _ (Or.inr ⟨rfl, rfl⟩)
  have h0 : v 0 = 0 := by simpa using hv ⟨0, [], 3⟩ (by simp)
  simp [Fin.sum_univ_three, h0]
  by_contra hcon
  have h1 : (v 1) ^ 2 + (v 2 - v 1) ^ 2 ≤ 0 := by nlinarith
  have h2 : v 1 = 0 := by nlinarith [sq_nonneg (v 1), sq_nonneg (v 2 - v 1)]
  have h3 : v 2 = 0 := by
    have : v 2 - v 1 = 0 := by nlinarith [sq_nonneg (v 1), sq_nonneg (v 2 - v 1)]
    rw [h2] at this
    linarith
  obtain ⟨i, hi, hne⟩ := hne
  have : i = 0 ∨ i = 1 ∨ i = 2 := by omega
  rcases this with rfl | rfl | rfl
  · exact hne h0
  · exact hne h2
  · exact hne h3

/-- Non-vacuity of `C37_dirichlet`. -/
example : ∃ u : Matrix (Fin 3) (Fin 1) ℚ,
    SolvesProblem (!![2, -1, 0; -1, 2, -1; 0, -1, 2] : Matrix (Fin 3) (Fin 3) ℚ) !![1; 1; 1]
      [⟨0, [], 3⟩, ⟨2, [], 4⟩] u := by
  have W : WellFormed (K := ℚ) 3 [] [⟨0, [], 3⟩, ⟨2, [], 4⟩] := by constructor <;> simp
  have h : (runSolve (init (List.range 3) [⟨0, [], 3⟩, ⟨2, [], 4⟩]
      (!![2, -1, 0; -1, 2, -1; 0, -1, 2] : Matrix (Fin 3) (Fin 3) ℚ)
      (some (!![1; 1; 1] : Matrix (Fin 3) (Fin 1) ℚ))) none true !![0; 4; 0]).isSome = true := by
    decide +kernel
  obtain ⟨s', hs⟩ := Option.isSome_iff_exists.1 h
  obtain ⟨u, _, h⟩ := C37_dirichlet W _ _ _ none true (Or.inr ⟨rfl, rfl⟩) s' (runSolve_sound hs)
  exact ⟨u, h⟩

/-- Non-vacuity of `C37_spd`, `C37_solvable`. -/
example : Spd (!![2, -1; -1, 2] : Matrix (Fin 2) (Fin 2) ℚ) ∧
    WellFormed (K := ℚ) 2 [⟨1, [(0, 1 / 2)], 0⟩] [] := by
  refine ⟨⟨by intro i j; fin_cases i <;> fin_cases j <;> rfl, ?_⟩, by constructor <;> simp⟩
  intro x hx
  simp only [Fin.sum_univ_two, Matrix.of_apply, Matrix.cons_val', Matrix.cons_val_zero,
    Matrix.cons_val_one, Matrix.cons_val_fin_one]
  by_contra hcon
  push Not at hcon
  have h0 : x 0 = 0 := by nlinarith [sq_nonneg (x 0 - x 1), sq_nonneg (x 0), sq_nonneg (x 1)]
  have h1 : x 1 = 0 := by nlinarith [sq_nonneg (x 0 - x 1), sq_nonneg (x 0), sq_nonneg (x 1)]
  apply hx
  ext i
  fin_cases i
  · exact h0
  · exact h1

/-! ### Violations -/

/-- **C37 violated**: with two hanging nodes that carry loads, the result does not satisfy the
Galerkin equations: `constrain_rhs` sets *all* constrained rows to zero in the first pass of its
loop (solver.py 729-736), so the load of the second hanging node is lost. -/
theorem C37_load_violated : ¬ ∀ (hs ds : List (Con ℚ)) (A : Matrix (Fin 3) (Fin 3) ℚ)
    (b : Matrix (Fin 3) (Fin 1) ℚ) (s' : St ℚ 3 1), WellFormed 3 hs ds →
    Solve (init (List.range 3) (hs ++ ds) A (some b)) none false s' →
    ∃ u, s'.u = some u ∧ SolvesProblem A b (hs ++ ds) u := by
  intro hall
  have W : WellFormed (K := ℚ) 3 [⟨1, [(0, 1)], 0⟩, ⟨2, [(0, 1)], 0⟩] [] := by
    constructor <;> simp
  have h : (runSolve (init (List.range 3) [⟨1, [(0, 1)], 0⟩, ⟨2, [(0, 1)], 0⟩]
      (1 : Matrix (Fin 3) (Fin 3) ℚ) (some (!![0; 0; 1] : Matrix (Fin 3) (Fin 1) ℚ))) none false
      !![0; 0; 0]).isSome = true := by decide +kernel
  obtain ⟨s', hs⟩ := Option.isSome_iff_exists.1 h
  have hS := runSolve_sound hs
  obtain ⟨u, hu, h1⟩ := hall _ [] _ _ s' W hS
  obtain ⟨u', hu', h2⟩ := C37_solve W _ _ _ none false (Or.inr ⟨rfl, rfl⟩) s' hS
  rw [hu] at hu'
  cases hu'
  have g1 := (h1 0).2 (fun _ => 1) (by intro c hc; simp at hc; rcases hc with rfl | rfl <;> simp)
  have g2 := (h2 0).2 (fun _ => 1) (by intro c hc; simp at hc; rcases hc with rfl | rfl <;> simp)
  simp only [Fin.sum_univ_three, one_mul, dropLoads] at g1 g2
  simp at g1 g2
  linarith

/-- **C37 violated**: a hanging node supported by another hanging node (both supports are listed,
no cycle, the dependent one first): the stored result does not satisfy the constraints, because
`resolve_constraints` applies `x = C x + d` only once (solver.py 773-784). -/
theorem C37_chain_violated : ∃ s' : St ℚ 3 1, ∃ u,
    Solve (init (List.range 3) [⟨2, [(1, 1)], 0⟩, ⟨1, [(0, 1)], 0⟩]
      (1 : Matrix (Fin 3) (Fin 3) ℚ) (some (!![3; 0; 0] : Matrix (Fin 3) (Fin 1) ℚ))) none false s' ∧
    s'.u = some u ∧ ¬ Feasible [⟨2, [(1, 1)], 0⟩, ⟨1, [(0, 1)], 0⟩] (colOf u 0) := by
  have h : ((runSolve (init (List.range 3) [⟨2, [(1, 1)], 0⟩, ⟨1, [(0, 1)], 0⟩]
      (1 : Matrix (Fin 3) (Fin 3) ℚ) (some (!![3; 0; 0] : Matrix (Fin 3) (Fin 1) ℚ))) none false
      !![1; 0; 0]).bind (fun s => s.u.map (fun u => (u 1 0, u 2 0)))) = some (1, 0) := by
    decide +kernel
  obtain ⟨s', hs, h2⟩ := Option.bind_eq_some_iff.1 h
  obtain ⟨u, hu, h3⟩ := Option.map_eq_some_iff.1 h2
  refine ⟨s', u, runSolve_sound hs, hu, ?_⟩
  intro hF
  have := hF ⟨2, [(1, 1)], 0⟩ (by simp)
  simp only [colOf, Prod.mk.injEq] at this h3
  simp at this
  have e1 : u 1 0 = 1 := h3.1
  have e2 : u 2 0 = 0 := h3.2
  rw [e2, e1] at this
  norm_num at this

/-- **C37 violated** on a submesh whose dof numbers are not `0..n-1`: `d[c_dofs]` and `zc[c_dofs]`
are indexed with dof numbers instead of equation numbers (solver.py 341, 733).  With dofs `[1,2]`
the Dirichlet value 5 of dof 1 (equation 0) is not attained; with dofs `[0,2]` the code raises. -/
theorem C37_submesh_violated :
    (∃ s' : St ℚ 2 1, ∃ u, Solve (init [1, 2] [⟨1, [], 5⟩] (1 : Matrix (Fin 2) (Fin 2) ℚ)
        (some (!![0; 0] : Matrix (Fin 2) (Fin 1) ℚ))) none false s' ∧ s'.u = some u ∧ u 0 0 ≠ 5) ∧
    (prepare (init [0, 2] [⟨2, [], 5⟩] (1 : Matrix (Fin 2) (Fin 2) ℚ)
        (some (!![0; 0] : Matrix (Fin 2) (Fin 1) ℚ))) none false).isOk = false := by
  constructor
  · have h : ((runSolve (init [1, 2] [⟨1, [], 5⟩] (1 : Matrix (Fin 2) (Fin 2) ℚ)
        (some (!![0; 0] : Matrix (Fin 2) (Fin 1) ℚ))) none false
        !![0; 0]).bind (fun s => s.u.map (fun u => u 0 0))) = some 0 := by
      decide +kernel
    obtain ⟨s', hs, h2⟩ := Option.bind_eq_some_iff.1 h
    obtain ⟨u, hu, h3⟩ := Option.map_eq_some_iff.1 h2
    exact ⟨s', u, runSolve_sound hs, hu, by rw [h3]; norm_num⟩
  · decide +kernel

/-- **C37 violated**: a dof listed twice as Dirichlet dof (a corner shared by two boundary pieces,
same value): the constrained matrix of an spd matrix can be singular, because the mean diagonal is
computed with the length of the list (solver.py 483-497). -/
theorem C37_duplicate_violated :
    ∃ A : Matrix (Fin 3) (Fin 3) ℚ, (∀ i j, A i j = if i = j then 1 / 2 else 0) ∧
      WellFormed (K := ℚ) 3 [] [⟨0, [], 1⟩, ⟨0, [], 1⟩] ∧
      ∃ s1 : St ℚ 3 1, prepare (init (List.range 3) [⟨0, [], 1⟩, ⟨0, [], 1⟩] A (some 0)) none false
        = .ok s1 ∧ ∃ x : Fin 3 → ℚ, x ≠ 0 ∧ ∀ i, ∑ j, theMatrix s1 false i j * x j = 0 := by
  refine ⟨fun i j => if i = j then 1 / 2 else 0, fun i j => rfl, by constructor <;> simp, ?_⟩
  have h : (match prepare (m := 1) (init (List.range 3) [⟨0, [], 1⟩, ⟨0, [], 1⟩]
      ((fun i j => if i = j then 1 / 2 else 0) : Matrix (Fin 3) (Fin 3) ℚ) (some 0)) none false with
    | .ok s1 => decide (∀ i, ∑ j, theMatrix s1 false i j * (if j = 0 then 1 else 0) = 0)
    | .error _ => false) = true := by decide +kernel
  split at h
  · next s1 h1 =>
    refine ⟨s1, h1, (fun j => if j = 0 then 1 else 0), ?_, of_decide_eq_true h⟩
    intro e
    have := congrFun e 0
    simp at this
  · simp at h

end Verif.Linsys
