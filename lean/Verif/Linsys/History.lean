import Verif.Linsys.Witness

/-!
# C38: histories of `set_matrix`, `set_rhs`, `solve_system`
-/

namespace Verif.Linsys

open Matrix

variable {K : Type} [Field K] [DecidableEq K] {n m : ℕ}

/-- All states reachable by `set_rhs`, `set_matrix` and `solve_system` in any order, together with
the matrix and the right-hand side the user supplied last. -/
inductive Hist (cons : List (Con K)) :
    St K n m → Matrix (Fin n) (Fin n) K → Option (Matrix (Fin n) (Fin m) K) → Prop
  | start (A) (b0) : Hist cons (init (List.range n) cons A b0) A b0
  | rhs {s A b} (b') : Hist cons s A b → Hist cons (setRhs s b') A (some b')
  | matrix {s A b} (A') : Hist cons s A b → Hist cons (setMatrix s A') A' b
  | solveNew {s A b s'} (b') (f) : Hist cons s A b → Solve s (some b') f s' →
      Hist cons s' A (some b')
  | solveOld {s A b s'} (f) : Hist cons s A b → Solve s none f s' → Hist cons s' A b

/-- What stays true of the fixed part of the state. -/
structure Fixed (cons : List (Con K)) (rs : List (RCon K n)) (s : St K n m) : Prop where
  dofs : s.dofs = List.range n
  cons_eq : s.cons = cons
  Cd : s.Cd = none ∨ s.Cd = some (Cmat rs, dvec rs)

theorem relOf_eq {cons : List (Con K)} {rs : List (RCon K n)} {s : St K n m}
    (h : Fixed cons rs s) : relOf s rs = (Cmat rs, dvec rs) := by
  rcases h.Cd with h | h <;> simp [relOf, h]

/-- One `prepare` in detail. -/
theorem prepare_ok {cons : List (Con K)} {rs : List (RCon K n)} {s s1 : St K n m}
    (h : Fixed cons rs s) (hmap : cons.mapM (rcon n (List.range n)) = .ok rs)
    {bo : Option (Matrix (Fin n) (Fin m) K)} {f : Bool} (hp : prepare s bo f = .ok s1) :
    ∃ b b1, (takeRhs s bo).b = some b ∧
      (if (takeRhs s bo).bconstrained then b1 = b else
        constrainRhs (Cmat rs) (dvec rs) (rs.map (·.raw)) (rs.map (·.k))
          (constrainMatrix (Cmat rs) (rs.map (·.k)) s.A).2 b = .ok b1) ∧
      s1.b = some b1 ∧ s1.bconstrained = true ∧ s1.Cd = some (Cmat rs, dvec rs) ∧
      s1.A = (constrainMatrix (Cmat rs) (rs.map (·.k)) s.A).1 ∧
      s1.invA = (if f then (some (s.invA.getD s1.A)) else s.invA) ∧ Fixed cons rs s1 := by
  have htA : (takeRhs s bo).A = s.A := by cases bo <;> rfl
  have htI : (takeRhs s bo).invA = s.invA := by cases bo <;> rfl
  have htF : Fixed cons rs (takeRhs s bo) := by cases bo <;> exact ⟨h.dofs, h.cons_eq, h.Cd⟩
  set t := takeRhs s bo with ht
  simp only [prepare, h.dofs, h.cons_eq, hmap, bind, Except.bind] at hp
  rw [← ht] at hp
  have hA : prepA t rs = { t with
      Cd := some (Cmat rs, dvec rs)
      A := (constrainMatrix (Cmat rs) (rs.map (·.k)) t.A).1
      recs := (constrainMatrix (Cmat rs) (rs.map (·.k)) t.A).2
      Aconstrained := true } := by
    simp only [prepA, matrixIsConstrained, truthy, Bool.false_eq_true, if_false, relOf_eq htF]
  rw [hA] at hp
  simp only [prepB] at hp
  cases hb : t.b with
  | none => simp [hb] at hp
  | some b =>
    simp only [hb] at hp
    by_cases hc : t.bconstrained = true
    · simp only [hc, if_true] at hp
      simp only [Except.ok.injEq] at hp
      subst hp
      refine ⟨b, b, rfl, by simp [hc], ?_, ?_, ?_, ?_, ?_, ?_⟩
      · cases f <;> simp only [prepF, Bool.false_eq_true, if_false, if_true] <;> (try split) <;> rfl
      · cases f <;> simp only [prepF, Bool.false_eq_true, if_false, if_true] <;> (try split) <;> rfl
      · cases f <;> simp only [prepF, Bool.false_eq_true, if_false, if_true] <;> (try split) <;> rfl
      · cases f <;> simp only [prepF, Bool.false_eq_true, if_false, if_true] <;> (try split) <;>
          simp only [htA]
      · cases f <;> simp only [prepF, Bool.false_eq_true, if_false, if_true]
        · exact htI
        · cases hi : t.invA with
          | none => rw [← htI, hi]; simp
          | some M => rw [← htI, hi]; simp [hi]
      · cases f <;> simp only [prepF, Bool.false_eq_true, if_false, if_true] <;> (try split) <;>
          exact ⟨htF.dofs, htF.cons_eq, Or.inr rfl⟩
    · simp only [hc, if_false] at hp
      cases hr : constrainRhs (Cmat rs) (dvec rs) (rs.map (·.raw)) (rs.map (·.k))
          (constrainMatrix (Cmat rs) (rs.map (·.k)) t.A).2 b with
      | error e => simp [hr, bind, Except.bind] at hp
      | ok b1 =>
        simp only [hr, Bool.false_eq_true, if_false, bind, Except.bind, Except.ok.injEq] at hp
        subst hp
        refine ⟨b, b1, rfl, by rw [htA] at hr; simp [hc, hr], ?_, ?_, ?_, ?_, ?_, ?_⟩
        · cases f <;> simp only [prepF, Bool.false_eq_true, if_false, if_true] <;> (try split) <;> rfl
        · cases f <;> simp only [prepF, Bool.false_eq_true, if_false, if_true] <;> (try split) <;> rfl
        · cases f <;> simp only [prepF, Bool.false_eq_true, if_false, if_true] <;> (try split) <;> rfl
        · cases f <;> simp only [prepF, Bool.false_eq_true, if_false, if_true] <;> (try split) <;>
            simp only [htA]
        · cases f <;> simp only [prepF, Bool.false_eq_true, if_false, if_true]
          · exact htI
          · cases hi : t.invA with
            | none => rw [← htI, hi]; simp
            | some M => rw [← htI, hi]; simp [hi]
        · cases f <;> simp only [prepF, Bool.false_eq_true, if_false, if_true] <;> (try split) <;>
            exact ⟨htF.dofs, htF.cons_eq, Or.inr rfl⟩

theorem solve_ok {cons : List (Con K)} {rs : List (RCon K n)} {s s' : St K n m}
    (h : Fixed cons rs s) (hmap : cons.mapM (rcon n (List.range n)) = .ok rs)
    {bo : Option (Matrix (Fin n) (Fin m) K)} {f : Bool} (hp : Solve s bo f s') :
    ∃ b b1 u, (takeRhs s bo).b = some b ∧
      (if (takeRhs s bo).bconstrained then b1 = b else
        constrainRhs (Cmat rs) (dvec rs) (rs.map (·.raw)) (rs.map (·.k))
          (constrainMatrix (Cmat rs) (rs.map (·.k)) s.A).2 b = .ok b1) ∧
      s'.b = some b1 ∧ s'.bconstrained = true ∧ s'.Cd = some (Cmat rs, dvec rs) ∧
      s'.A = (constrainMatrix (Cmat rs) (rs.map (·.k)) s.A).1 ∧
      s'.invA = (if f then (some (s.invA.getD s'.A)) else s.invA) ∧
      (if f then s.invA.getD s'.A else s'.A) * u = b1 ∧
      s'.u = some (resolve (Cmat rs) (dvec rs) u) ∧ Fixed cons rs s' := by
  obtain ⟨s1, u, b2, cd, g1, g2, g3, g4, rfl⟩ := hp
  obtain ⟨b, b1, h1, h2, h3, h4, h5, h6, h7, h8⟩ := prepare_ok h hmap g1
  rw [h3] at g2
  cases g2
  rw [h5] at g3
  cases g3
  refine ⟨b, b2, u, h1, h2, h3, h4, h5, h6, h7, ?_, rfl, ⟨h8.dofs, h8.cons_eq, h8.Cd⟩⟩
  rw [← g4]
  cases f <;> simp [theMatrix, h7]

/-! ### Fresh systems -/

theorem fixed_hist {hs ds : List (Con K)} {rs : List (RCon K n)}
    (hmap : (hs ++ ds).mapM (rcon n (List.range n)) = .ok rs) {s : St K n m}
    {A : Matrix (Fin n) (Fin n) K} {b : Option (Matrix (Fin n) (Fin m) K)}
    (h : Hist (hs ++ ds) s A b) : Fixed (hs ++ ds) rs s := by
  induction h with
  | start A b0 => exact ⟨rfl, rfl, Or.inl rfl⟩
  | rhs b' _ ih => exact ⟨ih.dofs, ih.cons_eq, ih.Cd⟩
  | matrix A' _ ih => exact ⟨ih.dofs, ih.cons_eq, ih.Cd⟩
  | solveNew b' f _ hS ih => exact (solve_ok ih hmap hS).choose_spec.choose_spec.choose_spec.2.2.2.2.2.2.2.2.2
  | solveOld f _ hS ih => exact (solve_ok ih hmap hS).choose_spec.choose_spec.choose_spec.2.2.2.2.2.2.2.2.2

/-- The safe protocol: after any history, supplying the matrix *and* the right-hand side again
before solving gives the answer of a new system (`C37_solve`). -/
theorem C38_fresh {hs ds : List (Con K)} (W : WellFormed n hs ds) {s s' : St K n m}
    {A0 A : Matrix (Fin n) (Fin n) K} {b0 : Option (Matrix (Fin n) (Fin m) K)}
    {b : Matrix (Fin n) (Fin m) K} (f : Bool) (h : Hist (hs ++ ds) s A0 b0)
    (hS : Solve (setMatrix s A) (some b) f s' ∨ Solve (setRhs (setMatrix s A) b) none f s' ∨
      Solve (setMatrix (setRhs s b) A) none f s') :
    ∃ u, s'.u = some u ∧ SolvesProblem A (dropLoads hs.tail b) (hs ++ ds) u := by
  obtain ⟨hr, dr, hmap, F1, F2, H, hC, hd⟩ := link W
  have hF := fixed_hist hmap h
  have key : ∀ (t : St K n m) (bo), Fixed (hs ++ ds) (hr ++ dr) t → t.A = A → t.invA = none →
      (takeRhs t bo).b = some b → (takeRhs t bo).bconstrained = false → Solve t bo f s' →
      ∃ u, s'.u = some u ∧ SolvesProblem A (dropLoads hs.tail b) (hs ++ ds) u := by
    intro t bo hFt hA hI hb hbc hS
    obtain ⟨b2, b1, u, h1, h2, h3, h4, h5, h6, h7, h8, h9, h10⟩ := solve_ok hFt hmap hS
    rw [hb] at h1
    cases h1
    rw [hbc] at h2
    simp only [Bool.false_eq_true, if_false] at h2
    obtain ⟨b3, g1, g2, g3⟩ := rhs_all H A b
    have hraw : (hr ++ dr).map (·.raw) = hr.map (·.k) ++ dr.map (·.k) := by
      rw [List.map_append, rel_raw F1, rel_raw F2]
    rw [hraw, hA, List.map_append] at h2
    simp only [constrainMatrix] at h2
    rw [g1] at h2
    cases h2
    refine ⟨_, h9, solved W F1 F2 H hC hd A b b1 g2
      (aveVec (elimA (Cmat (hr ++ dr)) (hr.map (·.k) ++ dr.map (·.k)) A).1
        (hr.map (·.k) ++ dr.map (·.k))) (fun i hi => aveVec_one _ _ i hi) u ?_⟩
    rw [← h8, h6, hI, hA, List.map_append]
    cases f <;> rfl
  rcases hS with hS | hS | hS
  · exact key (setMatrix s A) (some b) ⟨hF.dofs, hF.cons_eq, hF.Cd⟩ rfl rfl rfl rfl hS
  · exact key (setRhs (setMatrix s A) b) none ⟨hF.dofs, hF.cons_eq, hF.Cd⟩ rfl rfl rfl rfl hS
  · exact key (setMatrix (setRhs s b) A) none ⟨hF.dofs, hF.cons_eq, hF.Cd⟩ rfl rfl rfl rfl hS

/-! ### Dirichlet constraints only -/

/-- From the reduced equations to the solution of the problem. -/
theorem solved_dirichlet {ds : List (Con K)} (W : WellFormed n [] ds) {dr : List (RCon K n)}
    (F2 : List.Forall₂ Rel ds dr)
    {C : Matrix (Fin n) (Fin n) K} {d : Fin n → K} (H : CoreH C d [] (dr.map (·.k)))
    (hd : ∀ r ∈ dr, d r.k = r.aff)
    (A M : Matrix (Fin n) (Fin n) K) (b b' u : Matrix (Fin n) (Fin m) K)
    (hM : ∀ i ∉ dr.map (·.k), ∀ j, M i j = if j ∈ dr.map (·.k) then 0 else A i j)
    (hb : ∀ i ∉ dr.map (·.k), ∀ j, b' i j = b i j - ∑ k ∈ (dr.map (·.k)).toFinset, d k * A i k)
    (hu : M * u = b') : SolvesProblem A b ds (resolve C d u) := by
  have hres : ∀ i j, resolve C d u i j = if i ∈ dr.map (·.k) then d i else u i j := by
    intro i j
    rw [resolve_eq H, unit_row_mul _ _ i (fun l => by simp [QS])]
    rfl
  intro j
  constructor
  · intro c hc
    obtain ⟨r, hr', R⟩ := rel_mem' F2 hc
    have hmem : r.k ∈ dr.map (·.k) := List.mem_map_of_mem hr'
    rw [← R.1, colOf_val, hres, if_pos hmem, hd r hr', W.dirichlet c hc, R.2.2.2]
    simp
  · intro v hv
    apply Finset.sum_eq_zero
    intro i _
    by_cases hi : i ∈ dr.map (·.k)
    · obtain ⟨r, hr', rfl⟩ := List.mem_map.1 hi
      obtain ⟨c, hc, R⟩ := rel_mem F2 hr'
      rw [R.1, hv c hc, W.dirichlet c hc]; simp
    · have h1 := congrFun (congrFun hu i) j
      rw [hb i hi j, Matrix.mul_apply] at h1
      have e1 : ∀ l, A i l * colOf (resolve C d u) j l =
          M i l * u l j + (if l ∈ (dr.map (·.k)).toFinset then d l * A i l else 0) := by
        intro l
        rw [colOf_val, hres, hM i hi l]
        by_cases hl : l ∈ dr.map (·.k)
        · simp only [hl, if_true, List.mem_toFinset]; ring
        · simp only [hl, if_false, List.mem_toFinset]; ring
      rw [Finset.sum_congr rfl (fun l _ => e1 l), Finset.sum_add_distrib, h1,
        Finset.sum_ite_mem, Finset.univ_inter]
      ring

/-- The constrained matrix in the free rows. -/
theorem constrainMatrix_dirichlet {C : Matrix (Fin n) (Fin n) K} {d : Fin n → K} {dk : List (Fin n)}
    (H : CoreH C d [] dk) (A : Matrix (Fin n) (Fin n) K) (i : Fin n) (hi : i ∉ dk) (j : Fin n) :
    (constrainMatrix C dk A).1 i j = if j ∈ dk then 0 else A i j := by
  simp only [constrainMatrix, Matrix.mul_diagonal]
  rw [elimA_dirichlet C dk H.drow]
  by_cases hj : j ∈ dk
  · have : i ≠ j := fun e => hi (e ▸ hj)
    simp [hj, this]
  · rw [aveVec_one _ _ j hj]; simp [hi, hj]

theorem link_dirichlet {ds : List (Con K)} (W : WellFormed n [] ds) :
    ∃ dr : List (RCon K n), ds.mapM (rcon n (List.range n)) = .ok dr ∧
      List.Forall₂ Rel ds dr ∧ CoreH (Cmat dr) (dvec dr) [] (dr.map (·.k)) ∧
      (∀ r ∈ dr, dvec dr r.k = r.aff) := by
  obtain ⟨hr, dr, hmap, F1, F2, H, hC, hd⟩ := link W
  cases F1
  exact ⟨dr, hmap, F2, H, hd⟩

/-- The invariant for homogeneous Dirichlet conditions. -/
structure Inv (cons : List (Con K)) (rs : List (RCon K n)) (s : St K n m)
    (A : Matrix (Fin n) (Fin n) K) (b : Option (Matrix (Fin n) (Fin m) K)) : Prop where
  fixed : Fixed cons rs s
  mat : ∀ i ∉ rs.map (·.k), ∀ j ∉ rs.map (·.k), s.A i j = A i j
  fac : ∀ M, s.invA = some M → ∀ i ∉ rs.map (·.k), ∀ j, M i j = if j ∈ rs.map (·.k) then 0 else A i j
  rhs : ∀ b1, s.b = some b1 → ∃ b2, b = some b2 ∧ ∀ i ∉ rs.map (·.k), ∀ j, b1 i j = b2 i j

theorem inv_solve {ds : List (Con K)} (W : WellFormed n [] ds) (h0 : ∀ c ∈ ds, c.aff = 0)
    {dr : List (RCon K n)} (hmap : ds.mapM (rcon n (List.range n)) = .ok dr)
    (F2 : List.Forall₂ Rel ds dr) (H : CoreH (Cmat dr) (dvec dr) [] (dr.map (·.k)))
    (hd : ∀ r ∈ dr, dvec dr r.k = r.aff) {s s' : St K n m} {A : Matrix (Fin n) (Fin n) K}
    {b : Option (Matrix (Fin n) (Fin m) K)} {bo : Option (Matrix (Fin n) (Fin m) K)} {f : Bool}
    (hI : Inv ds dr (takeRhs s bo) A b) (hS : Solve s bo f s') :
    Inv ds dr s' A b ∧ ∃ u b2, s'.u = some u ∧ b = some b2 ∧ SolvesProblem A b2 ds u := by
  have hd0 : dvec dr = 0 := by
    funext k
    by_cases hk : k ∈ dr.map (·.k)
    · obtain ⟨r, hr', rfl⟩ := List.mem_map.1 hk
      obtain ⟨c, hc, R⟩ := rel_mem F2 hr'
      rw [hd r hr', R.2.2.2, h0 c hc]; rfl
    · exact H.dz k hk
  have htA : (takeRhs s bo).A = s.A := by cases bo <;> rfl
  have htI : (takeRhs s bo).invA = s.invA := by cases bo <;> rfl
  have hFs : Fixed ds dr s := by
    have := hI.fixed
    cases bo <;> exact ⟨this.dofs, this.cons_eq, this.Cd⟩
  obtain ⟨b3, b1, u, h1, h2, h3, h4, h5, h6, h7, h8, h9, h10⟩ := solve_ok hFs hmap hS
  obtain ⟨b2, e1, e2⟩ := hI.rhs b3 h1
  have hb1 : ∀ i ∉ dr.map (·.k), ∀ j, b1 i j = b2 i j := by
    intro i hi j
    by_cases hc : (takeRhs s bo).bconstrained = true
    · rw [if_pos hc] at h2; rw [h2]; exact e2 i hi j
    · rw [if_neg hc, rel_raw F2] at h2
      obtain ⟨b4, g1, g2, g3⟩ := constrainRhs_dirichlet (Cmat dr) (dvec dr) (dr.map (·.k))
        (dr.map (·.k)) (fun k hk => hk) H.drow s.A b3
      simp only [constrainMatrix] at h2
      rw [g1] at h2
      cases h2
      rw [g2 i hi j, e2 i hi j, hd0]; simp
  have hA' : ∀ i ∉ dr.map (·.k), ∀ j, s'.A i j = if j ∈ dr.map (·.k) then 0 else A i j := by
    intro i hi j
    rw [h6, constrainMatrix_dirichlet H _ i hi j]
    split
    · rfl
    · next hj => rw [← htA]; exact hI.mat i hi j hj
  have hM : ∀ i ∉ dr.map (·.k), ∀ j, (if f then s.invA.getD s'.A else s'.A) i j =
      if j ∈ dr.map (·.k) then 0 else A i j := by
    intro i hi j
    cases f
    · exact hA' i hi j
    · simp only [if_true]
      cases hv : s.invA with
      | none => exact hA' i hi j
      | some M => exact hI.fac M (by rw [htI, hv]) i hi j
  refine ⟨⟨h10, ?_, ?_, ?_⟩, _, b2, h9, e1, ?_⟩
  · intro i hi j hj
    rw [hA' i hi j, if_neg hj]
  · intro M hM' i hi j
    rw [h7] at hM'
    cases f
    · simp only [Bool.false_eq_true, if_false] at hM'
      exact hI.fac M (by rw [htI, hM']) i hi j
    · simp only [if_true, Option.some.injEq] at hM'
      rw [← hM']
      have := hM i hi j
      simpa using this
  · intro b5 hb5
    rw [h3] at hb5
    cases hb5
    exact ⟨b2, e1, hb1⟩
  · exact solved_dirichlet W F2 H hd A _ b2 b1 u hM
      (fun i hi j => by rw [hb1 i hi j, hd0]; simp) h8

theorem inv_hist {ds : List (Con K)} (W : WellFormed n [] ds) (h0 : ∀ c ∈ ds, c.aff = 0)
    {dr : List (RCon K n)} (hmap : ds.mapM (rcon n (List.range n)) = .ok dr)
    (F2 : List.Forall₂ Rel ds dr) (H : CoreH (Cmat dr) (dvec dr) [] (dr.map (·.k)))
    (hd : ∀ r ∈ dr, dvec dr r.k = r.aff) {s : St K n m} {A : Matrix (Fin n) (Fin n) K}
    {b : Option (Matrix (Fin n) (Fin m) K)} (h : Hist ds s A b) : Inv ds dr s A b := by
  induction h with
  | start A b0 =>
    refine ⟨⟨rfl, rfl, Or.inl rfl⟩, fun _ _ _ _ => rfl, fun M hM => by simp [init] at hM, ?_⟩
    intro b1 hb1; exact ⟨b1, hb1, fun _ _ _ => rfl⟩
  | rhs b' _ ih =>
    refine ⟨⟨ih.fixed.dofs, ih.fixed.cons_eq, ih.fixed.Cd⟩, ih.mat, ih.fac, ?_⟩
    intro b1 hb1; exact ⟨b1, hb1, fun _ _ _ => rfl⟩
  | matrix A' _ ih =>
    exact ⟨⟨ih.fixed.dofs, ih.fixed.cons_eq, ih.fixed.Cd⟩, fun _ _ _ _ => rfl,
      fun M hM => by simp [setMatrix] at hM, ih.rhs⟩
  | @solveNew s A b s' b' f _ hS ih =>
    refine (inv_solve W h0 hmap F2 H hd (bo := some b') ?_ hS).1
    refine ⟨⟨ih.fixed.dofs, ih.fixed.cons_eq, ih.fixed.Cd⟩, ih.mat, ih.fac, ?_⟩
    intro b1 hb1; exact ⟨b1, hb1, fun _ _ _ => rfl⟩
  | @solveOld s A b s' f _ hS ih => exact (inv_solve W h0 hmap F2 H hd (bo := none) ih hS).1

/-- **C38** With homogeneous Dirichlet conditions and no hanging nodes, in *every* history of
`set_rhs`, `set_matrix` and `solve_system` (with or without factorisation, with or without a new
right-hand side), each solve gives the solution of the problem with the current data.
Missing: inhomogeneous conditions and hanging nodes (false, see below). -/
theorem C38_homogeneous_partial {ds : List (Con K)} (W : WellFormed n [] ds)
    (h0 : ∀ c ∈ ds, c.aff = 0) {s s' : St K n m} {A : Matrix (Fin n) (Fin n) K}
    {b0 : Option (Matrix (Fin n) (Fin m) K)} (h : Hist ds s A b0)
    (bo : Option (Matrix (Fin n) (Fin m) K)) (b : Matrix (Fin n) (Fin m) K)
    (hb : bo = some b ∨ (bo = none ∧ b0 = some b)) (f : Bool) (hS : Solve s bo f s') :
    ∃ u, s'.u = some u ∧ SolvesProblem A b ds u := by
  obtain ⟨dr, hmap, F2, H, hd⟩ := link_dirichlet W
  have ih := inv_hist W h0 hmap F2 H hd h
  have hI : Inv ds dr (takeRhs s bo) A (some b) := by
    rcases hb with rfl | ⟨rfl, rfl⟩
    · refine ⟨⟨ih.fixed.dofs, ih.fixed.cons_eq, ih.fixed.Cd⟩, ih.mat, ih.fac, ?_⟩
      intro b1 hb1; exact ⟨b1, hb1, fun _ _ _ => rfl⟩
    · exact ih
  obtain ⟨_, u, b2, h1, h2, h3⟩ := inv_solve W h0 hmap F2 H hd hI hS
  cases h2
  exact ⟨u, h1, h3⟩

/-! ### Solving again with the same data -/

/-- States after at least one solve of a new system, with no new data. -/
inductive Again (cons : List (Con K)) (A : Matrix (Fin n) (Fin n) K)
    (b : Matrix (Fin n) (Fin m) K) : St K n m → Prop
  | first {s'} (f) : Solve (init (List.range n) cons A (some b)) none f s' → Again cons A b s'
  | next {s s'} (f) : Again cons A b s → Solve s none f s' → Again cons A b s'

/-- **C38** With Dirichlet conditions (any values) and no hanging nodes, calling `solve_system()`
any number of times without new data always gives the solution.
Missing: hanging nodes (false, `C38_hanging_violated`). -/
theorem C38_repeat_partial {ds : List (Con K)} (W : WellFormed n [] ds)
    {A : Matrix (Fin n) (Fin n) K} {b : Matrix (Fin n) (Fin m) K} {s : St K n m}
    (h : Again ds A b s) : ∃ u, s.u = some u ∧ SolvesProblem A b ds u := by
  obtain ⟨dr, hmap, F2, H, hd⟩ := link_dirichlet W
  have key : Fixed ds dr s ∧ s.bconstrained = true ∧
      (∃ b1, s.b = some b1 ∧ ∀ i ∉ dr.map (·.k), ∀ j, b1 i j =
        b i j - ∑ k ∈ (dr.map (·.k)).toFinset, dvec dr k * A i k) ∧
      (∀ i ∉ dr.map (·.k), ∀ j, s.A i j = if j ∈ dr.map (·.k) then 0 else A i j) ∧
      (∀ M, s.invA = some M → ∀ i ∉ dr.map (·.k), ∀ j, M i j =
        if j ∈ dr.map (·.k) then 0 else A i j) ∧
      ∃ u, s.u = some u ∧ SolvesProblem A b ds u := by
    have main : ∀ (s s' : St K n m) (f : Bool), Fixed ds dr s → Solve s none f s' →
        (∀ i ∉ dr.map (·.k), ∀ j ∉ dr.map (·.k), s.A i j = A i j) →
        (∀ M, s.invA = some M → ∀ i ∉ dr.map (·.k), ∀ j, M i j =
          if j ∈ dr.map (·.k) then 0 else A i j) →
        (∀ b1, s'.b = some b1 → ∀ i ∉ dr.map (·.k), ∀ j, b1 i j =
          b i j - ∑ k ∈ (dr.map (·.k)).toFinset, dvec dr k * A i k) →
        Fixed ds dr s' ∧ s'.bconstrained = true ∧
        (∃ b1, s'.b = some b1 ∧ ∀ i ∉ dr.map (·.k), ∀ j, b1 i j =
          b i j - ∑ k ∈ (dr.map (·.k)).toFinset, dvec dr k * A i k) ∧
        (∀ i ∉ dr.map (·.k), ∀ j, s'.A i j = if j ∈ dr.map (·.k) then 0 else A i j) ∧
        (∀ M, s'.invA = some M → ∀ i ∉ dr.map (·.k), ∀ j, M i j =
          if j ∈ dr.map (·.k) then 0 else A i j) ∧
        ∃ u, s'.u = some u ∧ SolvesProblem A b ds u := by
      intro s s' f hF hS hA hfac hrhs
      obtain ⟨b3, b1, u, h1, h2, h3, h4, h5, h6, h7, h8, h9, h10⟩ := solve_ok hF hmap hS
      have hA' : ∀ i ∉ dr.map (·.k), ∀ j, s'.A i j = if j ∈ dr.map (·.k) then 0 else A i j := by
        intro i hi j
        rw [h6, constrainMatrix_dirichlet H _ i hi j]
        split
        · rfl
        · next hj => exact hA i hi j hj
      have hM : ∀ i ∉ dr.map (·.k), ∀ j, (if f then s.invA.getD s'.A else s'.A) i j =
          if j ∈ dr.map (·.k) then 0 else A i j := by
        intro i hi j
        cases f
        · exact hA' i hi j
        · simp only [if_true]
          cases hv : s.invA with
          | none => exact hA' i hi j
          | some M => exact hfac M hv i hi j
      refine ⟨h10, h4, ⟨b1, h3, hrhs b1 h3⟩, hA', ?_, _, h9,
        solved_dirichlet W F2 H hd A _ b b1 u hM (hrhs b1 h3) h8⟩
      intro M hM' i hi j
      rw [h7] at hM'
      cases f
      · simp only [Bool.false_eq_true, if_false] at hM'
        exact hfac M hM' i hi j
      · simp only [if_true, Option.some.injEq] at hM'
        rw [← hM']
        simpa using hM i hi j
    induction h with
    | @first s' f hS =>
      have hF : Fixed ds dr (init (List.range n) ds A (some b)) := ⟨rfl, rfl, Or.inl rfl⟩
      refine main _ s' f hF hS (fun _ _ _ _ => rfl) (fun M hM => by simp [init] at hM) ?_
      obtain ⟨b3, b1, u, h1, h2, h3, h4, h5, h6, h7, h8, h9, h10⟩ := solve_ok hF hmap hS
      intro b5 hb5 i hi j
      rw [h3] at hb5
      cases hb5
      simp only [takeRhs, init, Option.some.injEq] at h1
      subst h1
      simp only [takeRhs, init, Bool.false_eq_true, if_false, rel_raw F2] at h2
      obtain ⟨b4, g1, g2, g3⟩ := constrainRhs_dirichlet (Cmat dr) (dvec dr) (dr.map (·.k))
        (dr.map (·.k)) (fun k hk => hk) H.drow A b
      simp only [constrainMatrix] at h2
      rw [g1] at h2
      cases h2
      exact g2 i hi j
    | @next s s' f _ hS ih =>
      obtain ⟨i1, i2, ⟨b1, i3, i4⟩, i5, i6, -⟩ := ih
      refine main s s' f i1 hS (fun i hi j hj => by rw [i5 i hi j, if_neg hj]) i6 ?_
      obtain ⟨b3, b1', u, h1, h2, h3, h4, h5, h6, h7, h8, h9, h10⟩ := solve_ok i1 hmap hS
      intro b5 hb5
      rw [h3] at hb5
      cases hb5
      have hc : (takeRhs s none).bconstrained = true := i2
      rw [if_pos hc] at h2
      simp only [takeRhs] at h1
      rw [i3] at h1
      cases h1
      rw [h2]
      exact i4
  exact key.2.2.2.2.2

/-! ### Hanging nodes with factorisation -/

theorem constrainRhs_d0 (C : Matrix (Fin n) (Fin n) K) (raws : List (Fin n))
    (S : List (Fin n)) (r1 r2 : List (Fin n → K)) (h : r1.length = r2.length)
    (b : Matrix (Fin n) (Fin m) K) :
    constrainRhs C 0 raws S r1 b = constrainRhs C 0 raws S r2 b := by
  induction S generalizing r1 r2 b with
  | nil => rfl
  | cons k S ih =>
    match r1, r2, h with
    | [], [], _ => rfl
    | a1 :: r1, a2 :: r2, h =>
      simp only [constrainRhs]
      have : stepB C 0 raws k a1 b = stepB C 0 raws k a2 b := by
        ext i j; rw [stepB_apply, stepB_apply]; simp
      rw [this]
      exact ih r1 r2 (by simpa using h) _

/-- Histories in which the matrix is never replaced and every solve is factored. -/
inductive Factored (cons : List (Con K)) (A : Matrix (Fin n) (Fin n) K) :
    St K n m → Option (Matrix (Fin n) (Fin m) K) → Prop
  | start (b0) : Factored cons A (init (List.range n) cons A b0) b0
  | rhs {s b} (b') : Factored cons A s b → Factored cons A (setRhs s b') (some b')
  | solveNew {s b s'} (b') : Factored cons A s b → Solve s (some b') true s' →
      Factored cons A s' (some b')
  | solveOld {s b s'} : Factored cons A s b → Solve s none true s' → Factored cons A s' b

/-- **C38** With hanging nodes and homogeneous Dirichlet conditions, in every history of `set_rhs`
and `solve_system(factor=True)` each solve gives what a new system would give (the answer
described in `C37_solve`).
Missing: unfactored solves and Dirichlet values (false, see below). -/
theorem C38_factored_partial {hs ds : List (Con K)} (W : WellFormed n hs ds)
    (h0 : ∀ c ∈ ds, c.aff = 0) {s s' : St K n m} {A : Matrix (Fin n) (Fin n) K}
    {b0 : Option (Matrix (Fin n) (Fin m) K)} (h : Factored (hs ++ ds) A s b0)
    (bo : Option (Matrix (Fin n) (Fin m) K)) (b : Matrix (Fin n) (Fin m) K)
    (hb : bo = some b ∨ (bo = none ∧ b0 = some b)) (hS : Solve s bo true s') :
    ∃ u, s'.u = some u ∧ SolvesProblem A (dropLoads hs.tail b) (hs ++ ds) u := by
  obtain ⟨hr, dr, hmap, F1, F2, H, hC, hd⟩ := link W
  have hd0 : dvec (hr ++ dr) = 0 := by
    funext k
    by_cases hk : k ∈ dr.map (·.k)
    · obtain ⟨r, hr', rfl⟩ := List.mem_map.1 hk
      obtain ⟨c, hc, R⟩ := rel_mem F2 hr'
      rw [hd r hr', R.2.2.2, h0 c hc]; rfl
    · exact H.dz k hk
  have hraw : (hr ++ dr).map (·.raw) = (hr ++ dr).map (·.k) := by
    rw [List.map_append, List.map_append, rel_raw F1, rel_raw F2]
  -- the right-hand side the code computes from `b`, whatever the records are
  have good : ∀ b : Matrix (Fin n) (Fin m) K, ∃ b1,
      (∀ recs : List (Fin n → K), recs.length = ((hr ++ dr).map (·.k)).length →
        constrainRhs (Cmat (hr ++ dr)) (dvec (hr ++ dr)) ((hr ++ dr).map (·.raw))
          ((hr ++ dr).map (·.k)) recs b = .ok b1) ∧
      (∀ i ∉ hr.map (·.k) ++ dr.map (·.k), ∀ j, b1 i j =
        (∑ l, QS (Cmat (hr ++ dr)) (hr.map (·.k)) l i *
          (if l ∈ (hr.map (·.k)).tail then 0 else b l j)) -
          ∑ k ∈ (dr.map (·.k)).toFinset, dvec (hr ++ dr) k *
            MS (Cmat (hr ++ dr)) (hr.map (·.k)) A i k) := by
    intro b
    obtain ⟨b1, g1, g2, _⟩ := rhs_all H A b
    refine ⟨b1, ?_, g2⟩
    intro recs hl
    rw [hraw, List.map_append, ← g1, hd0]
    apply constrainRhs_d0
    rw [hl, elimA_len, List.map_append]
  have hlen : ∀ X : Matrix (Fin n) (Fin n) K, (constrainMatrix (Cmat (hr ++ dr))
      ((hr ++ dr).map (·.k)) X).2.length = ((hr ++ dr).map (·.k)).length := by
    intro X; simp only [constrainMatrix]; rw [elimA_len]
  have inv : Fixed (hs ++ ds) (hr ++ dr) s ∧
      ((s.invA = none ∧ s.A = A) ∨
        s.invA = some (constrainMatrix (Cmat (hr ++ dr)) ((hr ++ dr).map (·.k)) A).1) ∧
      (∀ b1, s.b = some b1 → ∃ b2, b0 = some b2 ∧
        if s.bconstrained then
          constrainRhs (Cmat (hr ++ dr)) (dvec (hr ++ dr)) ((hr ++ dr).map (·.raw))
            ((hr ++ dr).map (·.k)) (elimA (Cmat (hr ++ dr)) ((hr ++ dr).map (·.k)) A).2 b2 = .ok b1
        else b1 = b2) := by
    clear hS hb
    have step : ∀ (s s' : St K n m) (b : Option (Matrix (Fin n) (Fin m) K)) (bo),
        Fixed (hs ++ ds) (hr ++ dr) s →
        ((s.invA = none ∧ s.A = A) ∨
          s.invA = some (constrainMatrix (Cmat (hr ++ dr)) ((hr ++ dr).map (·.k)) A).1) →
        (∀ b1, (takeRhs s bo).b = some b1 → ∃ b2, b = some b2 ∧
          if (takeRhs s bo).bconstrained then
            constrainRhs (Cmat (hr ++ dr)) (dvec (hr ++ dr)) ((hr ++ dr).map (·.raw))
              ((hr ++ dr).map (·.k)) (elimA (Cmat (hr ++ dr)) ((hr ++ dr).map (·.k)) A).2 b2 = .ok b1
          else b1 = b2) → Solve s bo true s' →
        Fixed (hs ++ ds) (hr ++ dr) s' ∧
        ((s'.invA = none ∧ s'.A = A) ∨
          s'.invA = some (constrainMatrix (Cmat (hr ++ dr)) ((hr ++ dr).map (·.k)) A).1) ∧
        (∀ b1, s'.b = some b1 → ∃ b2, b = some b2 ∧
          if s'.bconstrained then
            constrainRhs (Cmat (hr ++ dr)) (dvec (hr ++ dr)) ((hr ++ dr).map (·.raw))
              ((hr ++ dr).map (·.k)) (elimA (Cmat (hr ++ dr)) ((hr ++ dr).map (·.k)) A).2 b2 = .ok b1
          else b1 = b2) := by
      intro s s' b bo hF hI hR hS
      obtain ⟨b3, b1, u, h1, h2, h3, h4, h5, h6, h7, h8, h9, h10⟩ := solve_ok hF hmap hS
      refine ⟨h10, Or.inr ?_, ?_⟩
      · rw [h7, if_pos rfl]
        rcases hI with ⟨hI, hA⟩ | hI
        · rw [hI, h6, hA]; rfl
        · rw [hI]; rfl
      · intro b5 hb5
        rw [h3] at hb5
        cases hb5
        obtain ⟨b2, e1, e2⟩ := hR b3 h1
        refine ⟨b2, e1, ?_⟩
        rw [if_pos h4]
        by_cases hc : (takeRhs s bo).bconstrained = true
        · rw [if_pos hc] at h2 e2; rw [h2]; exact e2
        · rw [if_neg hc] at h2 e2
          subst e2
          obtain ⟨b6, g1, g2⟩ := good b3
          rw [g1 _ (hlen _)] at h2
          rw [g1 _ (by rw [elimA_len]), h2]
    induction h with
    | start b0 =>
      exact ⟨⟨rfl, rfl, Or.inl rfl⟩, Or.inl ⟨rfl, rfl⟩, fun b1 hb1 => ⟨b1, hb1, by simp [init]⟩⟩
    | rhs b' _ ih =>
      exact ⟨⟨ih.1.dofs, ih.1.cons_eq, ih.1.Cd⟩, ih.2.1, fun b1 hb1 => ⟨b1, hb1, by simp [setRhs]⟩⟩
    | @solveNew s b s' b' _ hS ih =>
      exact step s s' (some b') (some b') ih.1 ih.2.1
        (fun b1 hb1 => ⟨b1, hb1, by simp [takeRhs, setRhs]⟩) hS
    | @solveOld s b s' _ hS ih => exact step s s' b none ih.1 ih.2.1 ih.2.2 hS
  obtain ⟨b3, b1, u, h1, h2, h3, h4, h5, h6, h7, h8, h9, h10⟩ := solve_ok inv.1 hmap hS
  obtain ⟨b6, g1, g2⟩ := good b
  have hb1 : b1 = b6 := by
    rcases hb with rfl | ⟨rfl, rfl⟩
    · simp only [takeRhs, setRhs, Option.some.injEq] at h1
      subst h1
      simp only [takeRhs, setRhs, Bool.false_eq_true, if_false] at h2
      rw [g1 _ (hlen _)] at h2
      cases h2; rfl
    · obtain ⟨b2, e1, e2⟩ := inv.2.2 b3 h1
      cases e1
      by_cases hc : s.bconstrained = true
      · have hc' : (takeRhs s none).bconstrained = true := hc
        rw [if_pos hc'] at h2
        rw [if_pos hc] at e2
        rw [g1 _ (by rw [elimA_len])] at e2
        cases e2; exact h2
      · have hc' : ¬ (takeRhs s none).bconstrained = true := hc
        rw [if_neg hc'] at h2
        rw [if_neg hc] at e2
        subst e2
        rw [g1 _ (hlen _)] at h2
        cases h2; rfl
  subst hb1
  refine ⟨_, h9, solved W F1 F2 H hC hd A b b1 g2
    (aveVec (elimA (Cmat (hr ++ dr)) (hr.map (·.k) ++ dr.map (·.k)) A).1
      (hr.map (·.k) ++ dr.map (·.k))) (fun i hi => aveVec_one _ _ i hi) u ?_⟩
  rw [← h8, if_pos rfl]
  rcases inv.2.1 with ⟨hI, hA⟩ | hI
  · rw [hI, h6, hA]
    simp only [constrainMatrix, List.map_append, Option.getD_none]
  · rw [hI]
    simp only [constrainMatrix, List.map_append, Option.getD_some]

end Verif.Linsys
