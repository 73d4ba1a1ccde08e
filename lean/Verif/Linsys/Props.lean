import Verif.Linsys.Link
import Mathlib.LinearAlgebra.Matrix.NonsingularInverse
import Mathlib.LinearAlgebra.Matrix.ToLin
import Mathlib.Algebra.Order.Field.Basic
import Mathlib.Algebra.Order.BigOperators.Ring.Finset
import Mathlib.Tactic.Positivity
import Mathlib.Tactic.NormNum
import Mathlib.Tactic.FinCases
import Mathlib.Tactic.Linarith
import Mathlib.Algebra.Order.Ring.Rat
import Mathlib.LinearAlgebra.Matrix.Notation

/-!
# C37: `solve_system` solves the constrained problem
-/

namespace Verif.Linsys

open Matrix

variable {K : Type} [Field K] [DecidableEq K] {n m : ℕ}

theorem colOf_val (u : Matrix (Fin n) (Fin m) K) (j : Fin m) (i : Fin n) :
    colOf u j i = u i j := by
  simp [colOf]

theorem rel_sum {c : Con K} {r : RCon K n} (R : Rel c r) (v : ℕ → K) :
    (c.supp.map (fun s => s.2 * v s.1)).sum = (r.supp.map (fun s => s.2 * v s.1)).sum := by
  rw [← R.2.2.1, List.map_map]; rfl

theorem mem_tail_iff {hs : List (Con K)} {hr : List (RCon K n)} (h : List.Forall₂ Rel hs hr)
    (l : Fin n) : l ∈ (hr.map (·.k)).tail ↔ (l : ℕ) ∈ hs.tail.map (·.dof) := by
  cases h with
  | nil => simp
  | cons h1 h2 =>
    simp only [List.map_cons, List.tail_cons]
    rw [← rel_ks h2]
    constructor
    · intro h; obtain ⟨r, hr, e⟩ := List.mem_map.1 h; exact List.mem_map.2 ⟨r, hr, by rw [e]⟩
    · intro h; obtain ⟨r, hr, e⟩ := List.mem_map.1 h
      exact List.mem_map.2 ⟨r, hr, Fin.ext e⟩

/-- What the code computes from a correctly constrained system. -/
theorem solved {hs ds : List (Con K)} (W : WellFormed n hs ds) {hr dr : List (RCon K n)}
    (F1 : List.Forall₂ Rel hs hr) (F2 : List.Forall₂ Rel ds dr)
    {C : Matrix (Fin n) (Fin n) K} {d : Fin n → K}
    (H : CoreH C d (hr.map (·.k)) (dr.map (·.k)))
    (hC : ∀ r ∈ hr, ∀ v : Fin n → K, ∑ j, C r.k j * v j = (r.supp.map (fun s => s.2 * v s.1)).sum)
    (hd : ∀ r ∈ dr, d r.k = r.aff)
    (A : Matrix (Fin n) (Fin n) K) (b b' : Matrix (Fin n) (Fin m) K)
    (hb : ∀ i ∉ hr.map (·.k) ++ dr.map (·.k), ∀ j, b' i j =
        (∑ l, QS C (hr.map (·.k)) l i * (if l ∈ (hr.map (·.k)).tail then 0 else b l j)) -
          ∑ k ∈ (dr.map (·.k)).toFinset, d k * MS C (hr.map (·.k)) A i k)
    (w : Fin n → K) (hw : ∀ i ∉ hr.map (·.k) ++ dr.map (·.k), w i = 1)
    (u : Matrix (Fin n) (Fin m) K)
    (hu : ((elimA C (hr.map (·.k) ++ dr.map (·.k)) A).1 * diagonal w) * u = b') :
    SolvesProblem A (dropLoads hs.tail b) (hs ++ ds) (resolve C d u) := by
  have hres : ∀ i j, resolve C d u i j =
      if i ∈ hr.map (·.k) then ∑ l, C i l * resolve C d u l j
      else if i ∈ dr.map (·.k) then d i else u i j := by
    intro i j
    by_cases hi : i ∈ hr.map (·.k)
    · rw [if_pos hi]
      conv_lhs => rw [resolve_eq H, Matrix.mul_apply]
      apply Finset.sum_congr rfl
      intro l _
      by_cases hl : l ∈ hr.map (·.k)
      · rw [QS_col H hl, H.hrow i hi l hl, zero_mul, zero_mul]
      · rw [resolve_eq H, unit_row_mul _ _ l (fun p => by simp only [QS, hl, if_false])]
        simp only [QS, hi, if_true]
    · rw [if_neg hi, resolve_eq H, unit_row_mul _ _ i (fun p => by simp only [QS, hi, if_false])]
      rfl
  intro j
  constructor
  · intro c hc
    rcases List.mem_append.1 hc with hc | hc
    · obtain ⟨r, hr', R⟩ := rel_mem' F1 hc
      rw [← R.1, colOf_val, hres, if_pos (List.mem_map_of_mem hr'), hC r hr', W.hanging c hc,
        add_zero, rel_sum R]
      simp only [colOf_val]
    · obtain ⟨r, hr', R⟩ := rel_mem' F2 hc
      have hmem : r.k ∈ dr.map (·.k) := List.mem_map_of_mem hr'
      rw [← R.1, colOf_val, hres, if_neg (fun h => H.disj _ h hmem), if_pos hmem, hd r hr',
        W.dirichlet c hc, R.2.2.2]
      simp
  · intro v hv
    have hcore := core_solve H A b b' hb w hw u hu
    have := core_galerkin H
      (fun l => (∑ p : Fin n, A l p * colOf (resolve C d u) j p) - dropLoads hs.tail b l j) ?_
      (fun l => v l) ?_ ?_
    · exact this
    · intro i hi
      have h1 := hcore i hi j
      rw [Matrix.mul_apply] at h1
      simp only [mul_sub, Finset.sum_sub_distrib]
      rw [sub_eq_zero]
      have e1 : ∀ l, dropLoads hs.tail b l j =
          if l ∈ (hr.map (·.k)).tail then 0 else b l j := by
        intro l
        simp only [dropLoads, mem_tail_iff F1]
      simp only [e1]
      rw [← h1]
      apply Finset.sum_congr rfl
      intro l _
      rw [Matrix.transpose_apply, Matrix.mul_apply]
      simp only [colOf_val]
    · intro k hk
      obtain ⟨r, hr', rfl⟩ := List.mem_map.1 hk
      obtain ⟨c, hc, R⟩ := rel_mem F1 hr'
      rw [hC r hr' (fun l => v l), R.1, hv c (by simp [hc]), rel_sum R]
    · intro k hk
      obtain ⟨r, hr', rfl⟩ := List.mem_map.1 hk
      obtain ⟨c, hc, R⟩ := rel_mem F2 hr'
      rw [R.1, hv c (by simp [hc]), W.dirichlet c hc]; simp

theorem aveVec_one (A : Matrix (Fin n) (Fin n) K) (ks : List (Fin n)) (i : Fin n) (hi : i ∉ ks) :
    aveVec A ks i = 1 := by
  simp [aveVec, hi]

/-- The state before factorisation. -/
def prepped (cs : List (Con K)) (rs : List (RCon K n)) (A : Matrix (Fin n) (Fin n) K)
    (b1 : Matrix (Fin n) (Fin m) K) : St K n m where
  dofs := List.range n
  cons := cs
  A := (constrainMatrix (Cmat rs) (rs.map (·.k)) A).1
  b := some b1
  Cd := some (Cmat rs, dvec rs)
  recs := (constrainMatrix (Cmat rs) (rs.map (·.k)) A).2
  Aconstrained := true
  bconstrained := true
  invA := none
  u := none

/-- The state `solve_system` reaches before the linear solve, from a new system. -/
theorem prepare_init {hs ds : List (Con K)} (W : WellFormed n hs ds)
    (A : Matrix (Fin n) (Fin n) K) (b0 : Option (Matrix (Fin n) (Fin m) K))
    (b : Matrix (Fin n) (Fin m) K) (bopt : Option (Matrix (Fin n) (Fin m) K)) (factor : Bool)
    (hbo : bopt = some b ∨ (bopt = none ∧ b0 = some b)) :
    ∃ s1 b1 C d, ∃ hr dr : List (RCon K n),
      prepare (init (List.range n) (hs ++ ds) A b0) bopt factor = .ok s1 ∧
      s1.b = some b1 ∧ s1.Cd = some (C, d) ∧
      theMatrix s1 factor = (elimA C (hr.map (·.k) ++ dr.map (·.k)) A).1 *
        diagonal (aveVec (elimA C (hr.map (·.k) ++ dr.map (·.k)) A).1
          (hr.map (·.k) ++ dr.map (·.k))) ∧
      List.Forall₂ Rel hs hr ∧ List.Forall₂ Rel ds dr ∧
      CoreH C d (hr.map (·.k)) (dr.map (·.k)) ∧
      (∀ r ∈ hr, ∀ v : Fin n → K, ∑ j, C r.k j * v j = (r.supp.map (fun s => s.2 * v s.1)).sum) ∧
      (∀ r ∈ dr, d r.k = r.aff) ∧
      (∀ i ∉ hr.map (·.k) ++ dr.map (·.k), ∀ j, b1 i j =
        (∑ l, QS C (hr.map (·.k)) l i * (if l ∈ (hr.map (·.k)).tail then 0 else b l j)) -
          ∑ k ∈ (dr.map (·.k)).toFinset, d k * MS C (hr.map (·.k)) A i k) := by
  obtain ⟨hr, dr, hmap, F1, F2, H, hC, hd⟩ := link W
  obtain ⟨b1, hb1, hb2, hb3⟩ := rhs_all H A b
  have hraw : (hr ++ dr).map (·.raw) = (hr ++ dr).map (·.k) := by
    rw [List.map_append, List.map_append, rel_raw F1, rel_raw F2]
  refine ⟨prepF (prepped (m := m) (hs ++ ds) (hr ++ dr) A b1) factor,
    b1, Cmat (hr ++ dr), dvec (hr ++ dr), hr, dr, ?_, ?_, ?_, ?_, F1, F2, H, hC, hd, hb2⟩
  · have : takeRhs (init (List.range n) (hs ++ ds) A b0) bopt =
        init (List.range n) (hs ++ ds) A (some b) := by
      rcases hbo with rfl | ⟨rfl, rfl⟩ <;> rfl
    simp only [prepare, this]
    simp only [init, hmap]
    simp only [bind, Except.bind, prepA, matrixIsConstrained, truthy, prepB, relOf]
    simp only [Bool.false_eq_true, if_false]
    rw [hraw]
    have h2 : (constrainMatrix (Cmat (hr ++ dr)) ((hr ++ dr).map (·.k)) A).2 =
      (elimA (Cmat (hr ++ dr)) (hr.map (·.k) ++ dr.map (·.k)) A).2 := by
      simp only [constrainMatrix, List.map_append]
    rw [h2, List.map_append]
    rw [hb1]
    simp only [prepped, List.map_append]
    rfl
  · cases factor <;> rfl
  · cases factor <;> rfl
  · have : theMatrix (prepF (prepped (m := m) (hs ++ ds) (hr ++ dr) A b1) factor) factor =
        (constrainMatrix (Cmat (hr ++ dr)) ((hr ++ dr).map (·.k)) A).1 := by
      cases factor <;> rfl
    rw [this]
    simp only [constrainMatrix, List.map_append]

/-- **C37** (exact description).  For a new system with dofs `0..n-1` and well-formed constraints,
whatever `solve_system` stores satisfies every constraint exactly and the Galerkin equations for
all admissible test directions -- with the loads of all hanging nodes *except the first one* set to
zero.  The last clause is a defect of the code; see `C37_galerkin_partial`, `C37_load_violated`. -/
theorem C37_solve {hs ds : List (Con K)} (W : WellFormed n hs ds)
    (A : Matrix (Fin n) (Fin n) K) (b0 : Option (Matrix (Fin n) (Fin m) K))
    (b : Matrix (Fin n) (Fin m) K) (bopt : Option (Matrix (Fin n) (Fin m) K)) (factor : Bool)
    (hbo : bopt = some b ∨ (bopt = none ∧ b0 = some b)) (s' : St K n m)
    (hs' : Solve (init (List.range n) (hs ++ ds) A b0) bopt factor s') :
    ∃ u, s'.u = some u ∧ SolvesProblem A (dropLoads hs.tail b) (hs ++ ds) u := by
  obtain ⟨s1, b1, C, d, hr, dr, h1, h2, h3, h4, F1, F2, H, hC, hd, hb⟩ :=
    prepare_init W A b0 b bopt factor hbo
  obtain ⟨s2, u, b2, cd, g1, g2, g3, g4, rfl⟩ := hs'
  rw [h1] at g1
  cases g1
  rw [h2] at g2
  cases g2
  rw [h3] at g3
  cases g3
  rw [h4] at g4
  exact ⟨_, rfl, solved W F1 F2 H hC hd A b b1 hb _ (fun i hi => aveVec_one _ _ i hi) u g4⟩

/-- **C37** Every constraint is satisfied exactly; Dirichlet dofs get their prescribed values. -/
theorem C37_constraints {hs ds : List (Con K)} (W : WellFormed n hs ds)
    (A : Matrix (Fin n) (Fin n) K) (b0 : Option (Matrix (Fin n) (Fin m) K))
    (b : Matrix (Fin n) (Fin m) K) (bopt : Option (Matrix (Fin n) (Fin m) K)) (factor : Bool)
    (hbo : bopt = some b ∨ (bopt = none ∧ b0 = some b)) (s' : St K n m)
    (hs' : Solve (init (List.range n) (hs ++ ds) A b0) bopt factor s') :
    ∃ u, s'.u = some u ∧ ∀ j, Feasible (hs ++ ds) (colOf u j) := by
  obtain ⟨u, h1, h2⟩ := C37_solve W A b0 b bopt factor hbo s' hs'
  exact ⟨u, h1, fun j => (h2 j).1⟩

/-- **C37** The full statement holds when at most one hanging node carries a load, e.g. on meshes
without hanging nodes (only Dirichlet constraints) or with loads vanishing at hanging nodes.
Missing: several loaded hanging nodes (false, `C37_load_violated`). -/
theorem C37_galerkin_partial {hs ds : List (Con K)} (W : WellFormed n hs ds)
    (A : Matrix (Fin n) (Fin n) K) (b0 : Option (Matrix (Fin n) (Fin m) K))
    (b : Matrix (Fin n) (Fin m) K) (bopt : Option (Matrix (Fin n) (Fin m) K)) (factor : Bool)
    (hbo : bopt = some b ∨ (bopt = none ∧ b0 = some b))
    (hload : ∀ c ∈ hs.tail, ∀ i : Fin n, (i : ℕ) = c.dof → ∀ j, b i j = 0) (s' : St K n m)
    (hs' : Solve (init (List.range n) (hs ++ ds) A b0) bopt factor s') :
    ∃ u, s'.u = some u ∧ SolvesProblem A b (hs ++ ds) u := by
  obtain ⟨u, h1, h2⟩ := C37_solve W A b0 b bopt factor hbo s' hs'
  refine ⟨u, h1, ?_⟩
  have : dropLoads hs.tail b = b := by
    ext i j
    simp only [dropLoads]
    split
    · next h =>
      obtain ⟨c, hc, e⟩ := List.mem_map.1 h
      exact (hload c hc i e.symm j).symm
    · rfl
  rwa [this] at h2

/-- **C37** Dirichlet conditions only (every mesh without hanging nodes): the full statement. -/
theorem C37_dirichlet {ds : List (Con K)} (W : WellFormed n [] ds)
    (A : Matrix (Fin n) (Fin n) K) (b0 : Option (Matrix (Fin n) (Fin m) K))
    (b : Matrix (Fin n) (Fin m) K) (bopt : Option (Matrix (Fin n) (Fin m) K)) (factor : Bool)
    (hbo : bopt = some b ∨ (bopt = none ∧ b0 = some b)) (s' : St K n m)
    (hs' : Solve (init (List.range n) ds A b0) bopt factor s') :
    ∃ u, s'.u = some u ∧ SolvesProblem A b ds u :=
  C37_galerkin_partial W A b0 b bopt factor hbo (by simp) s' hs'

/-! ### Solvability -/

section spd
variable [LinearOrder K] [IsStrictOrderedRing K]

/-- Symmetric positive definite. -/
def Spd (A : Matrix (Fin n) (Fin n) K) : Prop :=
  (∀ i j, A i j = A j i) ∧ ∀ x : Fin n → K, x ≠ 0 → 0 < ∑ i, x i * ∑ j, A i j * x j

theorem MS_symm {C A : Matrix (Fin n) (Fin n) K} (S : List (Fin n)) (h : ∀ i j, A i j = A j i)
    (i j : Fin n) : MS C S A i j = MS C S A j i := by
  have hA : Aᵀ = A := by ext i j; rw [transpose_apply, h]
  have : (MS C S A)ᵀ = MS C S A := by
    simp only [MS, transpose_mul, transpose_transpose, hA, Matrix.mul_assoc]
  conv_lhs => rw [← this]
  rfl

theorem MS_form (C A : Matrix (Fin n) (Fin n) K) (S : List (Fin n)) (y : Fin n → K) :
    ∑ i, y i * ∑ j, MS C S A i j * y j =
      ∑ a, (∑ i, QS C S a i * y i) * ∑ c, A a c * ∑ j, QS C S c j * y j := by
  have h1 : ∀ i, ∑ j, MS C S A i j * y j = (MS C S A *ᵥ y) i := fun i => rfl
  have h2 : ∀ i, ∑ j, QS C S i j * y j = (QS C S *ᵥ y) i := fun i => rfl
  simp only [h2]
  have h3 : ∀ i, ∑ c, A i c * (QS C S *ᵥ y) c = (A *ᵥ (QS C S *ᵥ y)) i := fun i => rfl
  simp only [h1, h3]
  change y ⬝ᵥ _ = (QS C S *ᵥ y) ⬝ᵥ _
  rw [MS, Matrix.mul_assoc, ← Matrix.mulVec_mulVec, ← Matrix.mulVec_mulVec, Matrix.dotProduct_mulVec,
    Matrix.vecMul_transpose]

variable {C : Matrix (Fin n) (Fin n) K} {d : Fin n → K} {hk dk : List (Fin n)}

theorem QS_apply_pos (A : Matrix (Fin n) (Fin n) K) (hA : Spd A) (y : Fin n → K)
    (i : Fin n) (hi : i ∉ hk) (hy : y i ≠ 0) : 0 < ∑ i, y i * ∑ j, MS C hk A i j * y j := by
  rw [MS_form]
  apply hA.2 (fun a => ∑ i, QS C hk a i * y i)
  intro h
  have := congrFun h i
  simp only [Pi.zero_apply, QS, hi, if_false, ite_mul, one_mul, zero_mul, Finset.sum_ite_eq,
    Finset.mem_univ, if_true] at this
  exact hy this

theorem spd_core' (H : CoreH C d hk dk) (hnd : (hk ++ dk).Nodup) (A : Matrix (Fin n) (Fin n) K)
    (hsym : ∀ i j, A i j = A j i)
    (hpos : ∀ y : Fin n → K, (∀ i ∈ hk ++ dk, y i = 0) → y ≠ 0 → 0 < ∑ i, y i * ∑ j, MS C hk A i j * y j) :
    Spd ((elimA C (hk ++ dk) A).1 *
      diagonal (aveVec (elimA C (hk ++ dk) A).1 (hk ++ dk))) := by
  set A' := (elimA C (hk ++ dk) A).1 with hA'
  set w := aveVec A' (hk ++ dk) with hwd
  have hcard : (hk ++ dk).toFinset.card = (hk ++ dk).length := List.toFinset_card_of_nodup hnd
  have entry : ∀ i j, A' i j = if i ∈ hk ++ dk ∨ j ∈ hk ++ dk then (if i = j then 1 else 0)
      else MS C hk A i j := by
    intro i j
    rw [hA', elimA_all H]
    by_cases h1 : i ∈ dk
    · simp [h1]
    by_cases h2 : j ∈ dk
    · simp [h2]
    by_cases h3 : j ∈ hk
    · have := MS_col H A h3 i
      by_cases h4 : i = j
      · subst h4; simp [h1, h3, this]
      · simp [h1, h2, h3, h4, this]
    by_cases h5 : i ∈ hk
    · have : MS C hk A i j = 0 := by rw [MS_symm hk hsym]; exact MS_col H A h5 j
      have h4 : i ≠ j := fun e => h3 (e ▸ h5)
      simp [h1, h2, h3, h4, h5, this]
    · simp [h1, h2, h3, h5]
  have hdiag : ∀ i, i ∉ hk ++ dk → 0 < MS C hk A i i := by
    intro i hi
    have := hpos (Pi.single i 1) (fun l hl => Pi.single_eq_of_ne (show l ≠ i from fun e => hi (e ▸ hl)) 1) (by simp)
    simpa [Pi.single_apply] using this
  have hw1 : ∀ i, i ∉ hk ++ dk → w i = 1 := fun i hi => aveVec_one _ _ i hi
  have hw : ∀ i, 0 < w i := by
    intro i
    by_cases hi : i ∈ hk ++ dk
    · by_cases hlt : (hk ++ dk).length < n
      · have : w i = (A'.trace - (hk ++ dk).length) / ((n : K) - (hk ++ dk).length) := by
          simp only [hwd, aveVec, hlt, if_true, hi]
        rw [this]
        apply div_pos
        · have ht : A'.trace = ∑ i, if i ∈ (hk ++ dk).toFinset then 1 else MS C hk A i i := by
            simp only [Matrix.trace, Matrix.diag_apply]
            apply Finset.sum_congr rfl
            intro l _
            rw [entry]; simp
          rw [ht, ← Finset.sum_filter_add_sum_filter_not Finset.univ (· ∈ (hk ++ dk).toFinset)]
          have e1 : ∑ x with x ∈ (hk ++ dk).toFinset,
              (if x ∈ (hk ++ dk).toFinset then (1 : K) else MS C hk A x x) = (hk ++ dk).length := by
            rw [Finset.sum_congr rfl (g := fun _ => (1 : K))
              (fun x hx => by rw [if_pos (Finset.mem_filter.1 hx).2])]
            rw [Finset.sum_const, nsmul_eq_mul, mul_one, Finset.filter_mem_eq_inter,
              Finset.univ_inter, hcard]
          rw [e1, add_sub_cancel_left]
          obtain ⟨p, hp⟩ : ∃ p, p ∉ (hk ++ dk).toFinset := by
            by_contra hcon
            push Not at hcon
            have : (hk ++ dk).toFinset = Finset.univ := Finset.eq_univ_iff_forall.2 hcon
            rw [this, Finset.card_univ, Fintype.card_fin] at hcard
            omega
          apply Finset.sum_pos
          · intro x hx
            have hx' := (Finset.mem_filter.1 hx).2
            rw [if_neg hx']
            exact hdiag x (by simpa using hx')
          · exact ⟨p, by simpa using hp⟩
        · have : ((hk ++ dk).length : K) < n := by exact_mod_cast hlt
          linarith
      · have : w i = 1 := by simp only [hwd, aveVec, hlt, if_false]
        rw [this]; exact one_pos
    · rw [hw1 i hi]; exact one_pos
  have entry2 : ∀ i j, (A' * diagonal w) i j =
      if i ∈ hk ++ dk ∨ j ∈ hk ++ dk then (if i = j then w i else 0) else MS C hk A i j := by
    intro i j
    rw [Matrix.mul_diagonal, entry]
    split
    · by_cases h : i = j
      · subst h; simp
      · simp [h]
    · next h => push Not at h; rw [hw1 j h.2, mul_one]
  constructor
  · intro i j
    rw [entry2, entry2, MS_symm hk hsym i j]
    by_cases h : i = j
    · subst h; rfl
    · simp only [h, Ne.symm h, if_false, or_comm]
  · intro x hx
    set y : Fin n → K := fun i => if i ∈ hk ++ dk then 0 else x i with hy
    have key : ∑ i, x i * ∑ j, (A' * diagonal w) i j * x j =
        (∑ i, if i ∈ hk ++ dk then w i * x i ^ 2 else 0) + ∑ i, y i * ∑ j, MS C hk A i j * y j := by
      rw [← Finset.sum_add_distrib]
      apply Finset.sum_congr rfl
      intro i _
      by_cases hi : i ∈ hk ++ dk
      · simp only [entry2, hi, true_or, if_true, hy, zero_mul, add_zero, ite_mul, zero_mul,
          Finset.sum_ite_eq, Finset.mem_univ]
        ring
      · simp only [hi, if_false, zero_add, hy]
        congr 1
        apply Finset.sum_congr rfl
        intro j _
        rw [entry2]
        by_cases hj : j ∈ hk ++ dk
        · have : i ≠ j := fun e => hi (e ▸ hj)
          simp [hj, this]
        · simp only [hi, hj, or_self, if_false]
    rw [key]
    have hn1 : 0 ≤ ∑ i, (if i ∈ hk ++ dk then w i * x i ^ 2 else 0) := by
      apply Finset.sum_nonneg
      intro i _
      split
      · exact mul_nonneg (hw i).le (sq_nonneg _)
      · exact le_refl _
    obtain ⟨p, hp⟩ : ∃ p, x p ≠ 0 := by
      by_contra hcon; push Not at hcon; exact hx (funext hcon)
    by_cases hyz : y = 0
    · have hpk : p ∈ hk ++ dk := by
        by_contra hpk
        have := congrFun hyz p
        simp only [hy, hpk, if_false, Pi.zero_apply] at this
        exact hp this
      have : 0 < ∑ i, (if i ∈ hk ++ dk then w i * x i ^ 2 else 0) := by
        apply Finset.sum_pos'
        · intro i _
          split
          · exact mul_nonneg (hw i).le (sq_nonneg _)
          · exact le_refl _
        · exact ⟨p, Finset.mem_univ _, by rw [if_pos hpk]; exact mul_pos (hw p) (by positivity)⟩
      rw [hyz]; simpa using this
    · exact add_pos_of_nonneg_of_pos hn1 (hpos y (fun i hi => by simp only [hy]; rw [if_pos hi]) hyz)

theorem spd_core (H : CoreH C d hk dk) (hnd : (hk ++ dk).Nodup) (A : Matrix (Fin n) (Fin n) K)
    (hA : Spd A) :
    Spd ((elimA C (hk ++ dk) A).1 *
      diagonal (aveVec (elimA C (hk ++ dk) A).1 (hk ++ dk))) := by
  refine spd_core' H hnd A hA.1 (fun y h0 hy => ?_)
  obtain ⟨q, hq⟩ : ∃ q, y q ≠ 0 := by
    by_contra hcon; push Not at hcon; exact hy (funext hcon)
  exact QS_apply_pos A hA y q (fun h => hq (h0 q (List.mem_append_left _ h))) hq

/-- **C37** If `A` is symmetric positive definite and every dof is constrained at most once, the
matrix that is solved with (and factored by CHOLMOD) is symmetric positive definite. -/
theorem C37_spd {hs ds : List (Con K)} (W : WellFormed n hs ds)
    (hnd : ((hs ++ ds).map (·.dof)).Nodup) (A : Matrix (Fin n) (Fin n) K) (hA : Spd A)
    (b0 : Option (Matrix (Fin n) (Fin m) K)) (b : Matrix (Fin n) (Fin m) K)
    (bopt : Option (Matrix (Fin n) (Fin m) K)) (factor : Bool)
    (hbo : bopt = some b ∨ (bopt = none ∧ b0 = some b)) :
    ∃ s1, prepare (init (List.range n) (hs ++ ds) A b0) bopt factor = .ok s1 ∧
      Spd (theMatrix s1 factor) := by
  obtain ⟨s1, b1, C, d, hr, dr, h1, h2, h3, h4, F1, F2, H, hC, hd, hb⟩ :=
    prepare_init W A b0 b bopt factor hbo
  refine ⟨s1, h1, ?_⟩
  rw [h4]
  refine spd_core H ?_ A hA
  rw [← List.map_append]
  have h5 : (hr ++ dr).map (fun r => (r.k : ℕ)) = (hs ++ ds).map (·.dof) := by
    rw [List.map_append, List.map_append, rel_ks F1, rel_ks F2]
  have : (((hr ++ dr).map (·.k)).map (fun x : Fin n => (x : ℕ))).Nodup := by
    rw [List.map_map]
    exact h5 ▸ hnd
  exact List.Nodup.of_map _ this

/-- **C37** The same holds if `A` is symmetric and positive definite *on the directions the constraints admit*, for example for a
stiffness matrix, which is singular without Dirichlet conditions. -/
theorem C37_spd_directions {hs ds : List (Con K)} (W : WellFormed n hs ds)
    (hnd : ((hs ++ ds).map (·.dof)).Nodup) (A : Matrix (Fin n) (Fin n) K) (hsym : ∀ i j, A i j = A j i)
    (hpos : ∀ v : ℕ → K, Direction (hs ++ ds) v → (∃ i < n, v i ≠ 0) → 0 < ∑ i : Fin n, v i * ∑ j : Fin n, A i j * v j)
    (b0 : Option (Matrix (Fin n) (Fin m) K)) (b : Matrix (Fin n) (Fin m) K)
    (bopt : Option (Matrix (Fin n) (Fin m) K)) (factor : Bool)
    (hbo : bopt = some b ∨ (bopt = none ∧ b0 = some b)) :
    ∃ s1, prepare (init (List.range n) (hs ++ ds) A b0) bopt factor = .ok s1 ∧
      Spd (theMatrix s1 factor) := by
  obtain ⟨s1, b1, C, d, hr, dr, h1, h2, h3, h4, F1, F2, H, hC, hd, hb⟩ :=
    prepare_init W A b0 b bopt factor hbo
  refine ⟨s1, h1, ?_⟩
  rw [h4]
  refine spd_core' H ?_ A hsym (fun y h0 hy => ?_)
  · rw [← List.map_append]
    have h5 : (hr ++ dr).map (fun r => (r.k : ℕ)) = (hs ++ ds).map (·.dof) := by
      rw [List.map_append, List.map_append, rel_ks F1, rel_ks F2]
    have : (((hr ++ dr).map (·.k)).map (fun x : Fin n => (x : ℕ))).Nodup := by
      rw [List.map_map]
      exact h5 ▸ hnd
    exact List.Nodup.of_map _ this
  · rw [MS_form]
    have hq0 : ∀ a, a ∉ hr.map (·.k) → ∑ i, QS C (hr.map (·.k)) a i * y i = y a := by
      intro a ha
      simp [QS, ha]
    let v : ℕ → K := fun a => if h : a < n then ∑ i, QS C (hr.map (·.k)) ⟨a, h⟩ i * y i else 0
    have hv : ∀ a : Fin n, v a = ∑ i, QS C (hr.map (·.k)) a i * y i := fun a => by simp [v]
    have key := hpos v ?_ ?_
    · simpa only [hv] using key
    · intro c hc
      rcases List.mem_append.1 hc with hc | hc
      · obtain ⟨r, hr', R⟩ := rel_mem' F1 hc
        have hmem : r.k ∈ hr.map (·.k) := List.mem_map_of_mem hr'
        rw [← R.1, hv]
        have e1 : ∑ i, QS C (hr.map (·.k)) r.k i * y i = ∑ i, C r.k i * y i := by simp [QS, hmem]
        rw [e1, hC r hr', rel_sum R]
        congr 1
        refine List.map_congr_left (fun t ht => ?_)
        have hnk : t.1 ∉ hr.map (·.k) := by
          intro hk
          obtain ⟨r2, hr2, e2⟩ := List.mem_map.1 hk
          obtain ⟨c2, hc2, R2⟩ := rel_mem F1 hr2
          have ht' : ((t.1 : ℕ), t.2) ∈ c.supp := by
            rw [← R.2.2.1]
            exact List.mem_map.2 ⟨t, ht, rfl⟩
          exact W.chain c hc _ ht' c2 hc2 (by rw [← R2.1, e2])
        rw [hv, hq0 _ hnk]
      · obtain ⟨r, hr', R⟩ := rel_mem' F2 hc
        have hmem : r.k ∈ dr.map (·.k) := List.mem_map_of_mem hr'
        rw [← R.1, hv, hq0 _ (fun h => H.disj _ h hmem), h0 _ (List.mem_append_right _ hmem), W.dirichlet c hc]
        rfl
    · obtain ⟨q, hq⟩ : ∃ q, y q ≠ 0 := by
        by_contra hcon; push Not at hcon; exact hy (funext hcon)
      refine ⟨q, q.2, ?_⟩
      rw [hv, hq0 _ (fun h => hq (h0 q (List.mem_append_left _ h)))]
      exact hq

theorem spd_solvable (M : Matrix (Fin n) (Fin n) K) (hM : Spd M) (b : Matrix (Fin n) (Fin m) K) :
    ∃ u, M * u = b := by
  have hinj : Function.Injective M.mulVec := by
    intro x y hxy
    by_contra hne
    have h0 : M *ᵥ (x - y) = 0 := by rw [Matrix.mulVec_sub, hxy, sub_self]
    have := hM.2 (x - y) (sub_ne_zero.2 hne)
    have e : ∀ i, ∑ j, M i j * (x - y) j = 0 := fun i => congrFun h0 i
    simp only [e, mul_zero, Finset.sum_const_zero, lt_irrefl] at this
  have hu : IsUnit M := Matrix.mulVec_injective_iff_isUnit.1 hinj
  refine ⟨M⁻¹ * b, ?_⟩
  rw [← Matrix.mul_assoc, Matrix.mul_nonsing_inv _ ((Matrix.isUnit_iff_isUnit_det _).1 hu),
    Matrix.one_mul]

/-- **C37** ... hence a solve exists (the hypotheses of the theorems above can be met) for every
right-hand side. -/
theorem C37_solvable {hs ds : List (Con K)} (W : WellFormed n hs ds)
    (hnd : ((hs ++ ds).map (·.dof)).Nodup) (A : Matrix (Fin n) (Fin n) K) (hA : Spd A)
    (b0 : Option (Matrix (Fin n) (Fin m) K)) (b : Matrix (Fin n) (Fin m) K)
    (bopt : Option (Matrix (Fin n) (Fin m) K)) (factor : Bool)
    (hbo : bopt = some b ∨ (bopt = none ∧ b0 = some b)) :
    ∃ s', Solve (init (List.range n) (hs ++ ds) A b0) bopt factor s' := by
  obtain ⟨s1, h1, h2⟩ := C37_spd W hnd A hA b0 b bopt factor hbo
  obtain ⟨s2, b1, C, d, hr, dr, h1', h2', h3', _⟩ := prepare_init W A b0 b bopt factor hbo
  rw [h1] at h1'
  cases h1'
  obtain ⟨u, hu⟩ := spd_solvable (theMatrix s1 factor) h2 b1
  exact ⟨_, s1, u, b1, (C, d), h1, h2', h3', hu, rfl⟩

/-- **C37** ... and for a matrix that is positive definite on the admissible directions. -/
theorem C37_solvable_directions {hs ds : List (Con K)} (W : WellFormed n hs ds)
    (hnd : ((hs ++ ds).map (·.dof)).Nodup) (A : Matrix (Fin n) (Fin n) K) (hsym : ∀ i j, A i j = A j i)
    (hpos : ∀ v : ℕ → K, Direction (hs ++ ds) v → (∃ i < n, v i ≠ 0) → 0 < ∑ i : Fin n, v i * ∑ j : Fin n, A i j * v j)
    (b0 : Option (Matrix (Fin n) (Fin m) K)) (b : Matrix (Fin n) (Fin m) K)
    (bopt : Option (Matrix (Fin n) (Fin m) K)) (factor : Bool)
    (hbo : bopt = some b ∨ (bopt = none ∧ b0 = some b)) :
    ∃ s', Solve (init (List.range n) (hs ++ ds) A b0) bopt factor s' := by
  obtain ⟨s1, h1, h2⟩ := C37_spd_directions W hnd A hsym hpos b0 b bopt factor hbo
  obtain ⟨s2, b1, C, d, hr, dr, h1', h2', h3', _⟩ := prepare_init W A b0 b bopt factor hbo
  rw [h1] at h1'
  cases h1'
  obtain ⟨u, hu⟩ := spd_solvable (theMatrix s1 factor) h2 b1
  exact ⟨_, s1, u, b1, (C, d), h1, h2', h3', hu, rfl⟩

end spd

end Verif.Linsys
