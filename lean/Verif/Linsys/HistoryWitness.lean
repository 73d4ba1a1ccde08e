import Verif.Linsys.History

/-!
# C38: concrete histories and violations
-/

namespace Verif.Linsys

open Matrix

/-- One Dirichlet condition `x_1 = 5`. -/
def dir5 : List (Con ℚ) := [⟨1, [], 5⟩]
def A2 : Matrix (Fin 2) (Fin 2) ℚ := !![2, 1; 1, 2]
def A3 : Matrix (Fin 2) (Fin 2) ℚ := !![2, 3; 3, 9]
def z2 : Matrix (Fin 2) (Fin 1) ℚ := !![0; 0]

theorem dir5_wf : WellFormed 2 [] dir5 := by
  constructor <;> simp [dir5]

theorem galerkin_free {A : Matrix (Fin 2) (Fin 2) ℚ} {b u : Matrix (Fin 2) (Fin 1) ℚ}
    (h : SolvesProblem A b dir5 u) : A 0 0 * u 0 0 + A 0 1 * u 1 0 = b 0 0 := by
  have := (h 0).2 (fun k => if k = 0 then 1 else 0)
    (by intro c hc; simp [dir5] at hc; subst hc; simp)
  simp only [Fin.sum_univ_two, colOf_val] at this
  simp at this
  linarith

/-- **C38 violated**: the second `solve_system(b)` with inhomogeneous Dirichlet values loses their
contribution: `matrix_is_constrained` has no return value, so the matrix is constrained again and
the recorded columns are those of the constrained matrix (solver.py 528-532, 845-846, 437). -/
theorem C38_new_rhs_violated : ∃ s s' u, Hist dir5 s A2 (some z2) ∧ Solve s (some z2) false s' ∧
    s'.u = some u ∧ ¬ SolvesProblem A2 z2 dir5 u := by
  have h : ((runSolve (init (List.range 2) dir5 A2 (some z2)) none false !![-5 / 2; 0]).bind
      (fun s => (runSolve s (some z2) false !![0; 0]).bind
        (fun s' => s'.u.map (fun u => (u 0 0, u 1 0))))) = some (0, 5) := by decide +kernel
  obtain ⟨s, h1, h2⟩ := Option.bind_eq_some_iff.1 h
  obtain ⟨s', h3, h4⟩ := Option.bind_eq_some_iff.1 h2
  obtain ⟨u, h5, h6⟩ := Option.map_eq_some_iff.1 h4
  refine ⟨s, s', u, .solveOld false (.start _ _) (runSolve_sound h1), runSolve_sound h3, h5, ?_⟩
  intro hS
  have := galerkin_free hS
  simp only [Prod.mk.injEq] at h6
  rw [h6.1, h6.2] at this
  simp [A2, z2] at this

/-- **C38 violated**: after `set_matrix`, `solve_system()` uses the right-hand side that was
constrained with the *old* matrix (solver.py 855-856). -/
theorem C38_new_matrix_violated : ∃ s s' u, Hist dir5 s A3 (some z2) ∧ Solve s none false s' ∧
    s'.u = some u ∧ ¬ SolvesProblem A3 z2 dir5 u := by
  have h : ((runSolve (init (List.range 2) dir5 A2 (some z2)) none false !![-5 / 2; 0]).bind
      (fun s => (runSolve (setMatrix s A3) none false !![-5 / 2; 0]).bind
        (fun s' => s'.u.map (fun u => (u 0 0, u 1 0))))) = some (-5 / 2, 5) := by decide +kernel
  obtain ⟨s, h1, h2⟩ := Option.bind_eq_some_iff.1 h
  obtain ⟨s', h3, h4⟩ := Option.bind_eq_some_iff.1 h2
  obtain ⟨u, h5, h6⟩ := Option.map_eq_some_iff.1 h4
  refine ⟨setMatrix s A3, s', u, .matrix _ (.solveOld false (.start A2 _) (runSolve_sound h1)),
    runSolve_sound h3, h5, ?_⟩
  intro hS
  have := galerkin_free hS
  simp only [Prod.mk.injEq] at h6
  rw [h6.1, h6.2] at this
  simp [A3, z2] at this
  norm_num at this

/-- **C38 violated**: with a hanging node, a second `solve_system()` (without factorisation) of the
same data gives a different, wrong answer: the hanging node's own diagonal entry is distributed to
its supports when the matrix is constrained again. -/
theorem C38_hanging_violated : ∃ s s' u, Again [⟨1, [(0, 1)], 0⟩] (1 : Matrix (Fin 2) (Fin 2) ℚ)
      (!![2; 0] : Matrix (Fin 2) (Fin 1) ℚ) s ∧ Solve s none false s' ∧ s'.u = some u ∧
    WellFormed (K := ℚ) 2 [⟨1, [(0, 1)], 0⟩] [] ∧
    ¬ SolvesProblem (1 : Matrix (Fin 2) (Fin 2) ℚ) !![2; 0] [⟨1, [(0, 1)], 0⟩] u := by
  have h : ((runSolve (init (List.range 2) [⟨1, [(0, 1)], 0⟩] (1 : Matrix (Fin 2) (Fin 2) ℚ)
      (some (!![2; 0] : Matrix (Fin 2) (Fin 1) ℚ))) none false !![1; 0]).bind
      (fun s => (runSolve s none false !![1 / 2; 0]).bind
        (fun s' => s'.u.map (fun u => (u 0 0, u 1 0))))) = some (1 / 2, 1 / 2) := by decide +kernel
  obtain ⟨s, h1, h2⟩ := Option.bind_eq_some_iff.1 h
  obtain ⟨s', h3, h4⟩ := Option.bind_eq_some_iff.1 h2
  obtain ⟨u, h5, h6⟩ := Option.map_eq_some_iff.1 h4
  refine ⟨s, s', u, .first false (runSolve_sound h1), runSolve_sound h3, h5,
    by constructor <;> simp, ?_⟩
  intro hS
  have := (hS 0).2 (fun _ => 1) (by intro c hc; simp at hc; subst hc; simp)
  simp only [Fin.sum_univ_two, colOf_val] at this
  simp only [Prod.mk.injEq] at h6
  rw [h6.1, h6.2] at this
  norm_num [Matrix.one_apply] at this

/-- **C38 violated**: a Dirichlet condition added after a first solve is not attained, because the
constraint relation is only computed once (solver.py 834-835). -/
theorem C38_late_constraint_violated : ∃ s s' u, Hist [] s A2 (some z2) ∧
    Solve (setRhs (setMatrix (addDirichlet s [(1, 5)]) A2) z2) none false s' ∧ s'.u = some u ∧
    (addDirichlet s [(1, 5)]).cons.map (fun c => (c.dof, c.supp, c.aff)) = [(1, [], 5)] ∧
    colOf u 0 1 ≠ 5 := by
  have h : ((runSolve (init (List.range 2) [] A2 (some z2)) none false !![0; 0]).bind
      (fun s => (runSolve (setRhs (setMatrix (addDirichlet s [(1, 5)]) A2) z2) none false
          !![0; 0]).bind
        (fun s' => s'.u.map (fun u => (u 1 0, s.cons.isEmpty))))) = some (0, true) := by
    decide +kernel
  obtain ⟨s, h1, h2⟩ := Option.bind_eq_some_iff.1 h
  obtain ⟨s', h3, h4⟩ := Option.bind_eq_some_iff.1 h2
  obtain ⟨u, h5, h6⟩ := Option.map_eq_some_iff.1 h4
  simp only [Prod.mk.injEq] at h6
  refine ⟨s, s', u, .solveOld false (.start _ _) (runSolve_sound h1), runSolve_sound h3, h5, ?_, ?_⟩
  · have := List.isEmpty_iff.1 h6.2
    simp [addDirichlet, this]
  · have : colOf u 0 1 = u 1 0 := colOf_val u 0 1
    rw [this, h6.1]; norm_num

/-- Non-vacuity of `C38_repeat_partial`: three solves in a row. -/
example : ∃ s, Again dir5 A2 z2 s := by
  have h : ((runSolve (init (List.range 2) dir5 A2 (some z2)) none false !![-5 / 2; 0]).bind
      (fun s => (runSolve s none true !![-5 / 2; 0]).bind
        (fun s' => runSolve s' none false !![-5 / 2; 0]))).isSome = true := by decide +kernel
  obtain ⟨s'', h0⟩ := Option.isSome_iff_exists.1 h
  obtain ⟨s, h1, h2⟩ := Option.bind_eq_some_iff.1 h0
  obtain ⟨s', h3, h4⟩ := Option.bind_eq_some_iff.1 h2
  exact ⟨s'', .next false (.next true (.first false (runSolve_sound h1)) (runSolve_sound h3))
    (runSolve_sound h4)⟩

/-- Non-vacuity of `C38_homogeneous_partial` and `C38_fresh`: a history with a new right-hand side
and a new matrix between solves. -/
example : ∃ s s', Hist [(⟨1, [], 0⟩ : Con ℚ)] s A3 (some !![4; 0]) ∧
    Solve (m := 1) s none true s' ∧ WellFormed (K := ℚ) 2 [] [⟨1, [], 0⟩] := by
  have h : ((runSolve (init (List.range 2) [⟨1, [], 0⟩] A2 (some z2)) none false !![0; 0]).bind
      (fun s => (runSolve s (some !![4; 0]) false !![2; 0]).bind
        (fun s' => runSolve (setMatrix s' A3) none true !![2; 0]))).isSome = true := by
    decide +kernel
  obtain ⟨s'', h0⟩ := Option.isSome_iff_exists.1 h
  obtain ⟨s, h1, h2⟩ := Option.bind_eq_some_iff.1 h0
  obtain ⟨s', h3, h4⟩ := Option.bind_eq_some_iff.1 h2
  exact ⟨_, s'', .matrix A3 (.solveNew _ false (.solveOld false (.start A2 _) (runSolve_sound h1))
    (runSolve_sound h3)), runSolve_sound h4, by constructor <;> simp⟩

/-- Non-vacuity of `C38_factored_partial`: a hanging node, two right-hand sides. -/
example : ∃ s s', Factored ([⟨1, [(0, 1)], 0⟩] ++ []) (1 : Matrix (Fin 2) (Fin 2) ℚ) s
      (some (!![2; 0] : Matrix (Fin 2) (Fin 1) ℚ)) ∧ Solve s (some !![6; 2]) true s' ∧
      WellFormed (K := ℚ) 2 [⟨1, [(0, 1)], 0⟩] [] := by
  have h : ((runSolve (init (List.range 2) ([⟨1, [(0, 1)], 0⟩] ++ [])
      (1 : Matrix (Fin 2) (Fin 2) ℚ)
      (some (!![2; 0] : Matrix (Fin 2) (Fin 1) ℚ))) none true !![1; 0]).bind
      (fun s => runSolve s (some !![6; 2]) true !![4; 0])).isSome = true := by decide +kernel
  obtain ⟨s'', h0⟩ := Option.isSome_iff_exists.1 h
  obtain ⟨s, h1, h2⟩ := Option.bind_eq_some_iff.1 h0
  exact ⟨s, s'', .solveOld (.start _) (runSolve_sound h1), runSolve_sound h2,
    by constructor <;> simp⟩

end Verif.Linsys
