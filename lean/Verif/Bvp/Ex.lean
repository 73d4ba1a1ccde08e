import Verif.Bvp.Refine
import Verif.Gal.Ex

/-!
# Examples for C72 and C73
-/

namespace Verif.Bvp
open Verif.Line Verif.OneD Verif.Fem Verif.Form Verif.Asm Verif.Geom Verif.Gauss
open Polynomial

noncomputable def kernelOf (p : Polynomial ℝ) : Kernel ℝ := ⟨[⟨1, fun x _ => p.eval x⟩], fun l => l.getD 0 0⟩

theorem kernel_poly (p : Polynomial ℝ) (j : Nat) : IsPoly (kernelOf p) j p := ⟨1, rfl, fun x => by simp [kernelOf, Kernel.eval]⟩

/-- The left end has a Dirichlet value, the right end a flux. -/
noncomputable def leftEnd (x : ℝ) : Bool := decide (x < 1)
noncomputable def rightEnd (x : ℝ) : Bool := decide (1 < x)

/-- The problem `−u'' = 2`, `u(0) = 0`, `u'(3) = 1`, whose solution is `7x − x²`. -/
noncomputable def exU : Polynomial ℝ := 7 * X - X ^ 2

theorem exU_eval (x : ℝ) : exU.eval x = 7 * x - x ^ 2 := by simp [exU]
theorem exU_der (x : ℝ) : exU.derivative.eval x = 7 - 2 * x := by
  simp [exU]
  left; norm_num

theorem exU_deg : exU.natDegree ≤ 2 := by
  unfold exU
  refine (natDegree_sub_le _ _).trans (max_le ?_ ?_)
  · refine natDegree_mul_le.trans ?_
    have : (7 : Polynomial ℝ).natDegree = 0 := natDegree_ofNat 7
    rw [this]
    have h1 : (X : Polynomial ℝ).natDegree ≤ 1 := natDegree_X_le
    omega
  · simp

theorem ex_sol (xs : List ℝ) (h0 : xs.head? = some 0) (h3 : xs.getLast? = some 3) :
    Classical xs (fun x => (C 1).eval x) (fun x => (C 2 : Polynomial ℝ).eval x) leftEnd rightEnd (fun _ => 0) (fun x => (kernelOf (C 1)).eval 1 x 0)
      (fun x => exU.eval x) (fun x => exU.derivative.eval x) := by
  have hk : ∀ x, (kernelOf (C 1)).eval 1 x 0 = 1 := fun x => by simp [kernelOf, Kernel.eval]
  refine ⟨fun x _ => exU.hasDerivAt x, fun x _ => ?_, fun x hx hd => ?_, fun x hx hd => ?_, fun x hx hd => ?_⟩
  · have h1 : (fun y : ℝ => (C 1).eval y * exU.derivative.eval y) = fun y => 7 - 2 * y := by
      funext y
      rw [exU_der]
      simp
    rw [h1]
    have h2 : HasDerivAt (fun y : ℝ => 7 - 2 * y) (-(2 * 1)) x := ((hasDerivAt_id x).const_mul 2).const_sub 7
    convert h2 using 1
    simp
  · rcases hx with h | h
    · rw [h0] at h
      cases h
      simp [exU_eval]
    · rw [h3] at h
      cases h
      norm_num [leftEnd] at hd
  · rw [h0] at hx
    cases hx
    norm_num [leftEnd] at hd
  · rw [h3] at hx
    cases hx
    simp only [hk, exU_der]
    norm_num [rightEnd]

/-- Three cells of different sizes on `[0, 3]`: points 0, 1, 3, the second cell split. -/
theorem ex_uses (close : ℝ → ℝ → Bool) (e : ET) : UsesV close [0, 1, 3] false e (run (roots [0, 1, 3]) [.split [1]]) DH.new DV.new := .new _

theorem ex_chain : ([0, 1, 3] : List ℝ).IsChain (· < ·) :=
  List.isChain_cons_cons.2 ⟨by norm_num, List.isChain_cons_cons.2 ⟨by norm_num, List.isChain_singleton _⟩⟩

theorem ex_data (xs : List ℝ) (e : ET) (h2 : deg e ≤ 2) : ∃ re, Data xs e 3 0 re (kernelOf (C 1)) (kernelOf (C 2)) (C 1) (C 2) := by
  obtain ⟨re, hre⟩ := (C32_orders 3).1.2 (by norm_num)
  refine ⟨re, hre, by norm_num, by rw [natDegree_C]; omega, by rw [natDegree_C]; omega, fun x _ => by simp, kernel_poly _ _, kernel_poly _ _⟩

/-- The hypotheses of the theorems, and the whole computation, for quadratic elements: the answer is the solution; for linear elements it is the solution
at the vertices. -/
example (close : ℝ → ℝ → Bool) (e : ET) (he : e = .Q1 ∨ e = .Q2) :
    ∃ re F D V L md d mk fuel y u, F = run (roots [0, 1, 3]) [.split [1]] ∧ distributeV close false (inSub none) e F (nCells F) DH.new DV.new = some (D, V) ∧
      leaves1 (inSub none) F (nCells F) = some L ∧ markV leftEnd true false (inSub none) F (nCells F) (fun _ => false) = some md ∧
      addDirichletA (some md) true false (inSub none) F (nCells F) e D V (fun _ => (0 : ℝ)) [] = some d ∧
      markV rightEnd true false (inSub none) F (nCells F) (fun _ => false) = some mk ∧
      Setting close [0, 1, 3] e none (nCells F) F D V L ∧ BndDict [0, 1, 3] none F D leftEnd (fun _ => 0) d ∧ BndMark [0, 1, 3] none F rightEnd mk ∧
      Data [0, 1, 3] e 3 0 re (kernelOf (C 1)) (kernelOf (C 2)) (C 1) (C 2) ∧
      Solved e (kernelOf (C 1)) (kernelOf (C 2)) (kernelOf (C 1)) mk re 0 F D L d true fuel sortedSet y u ∧
      (∀ c ∈ L, ∀ i x, coord F c i = some x → fn e F D u c x = 7 * x - x ^ 2) ∧
      (e = .Q2 → ∀ c ∈ L, ∀ x, fn e F D u c x = 7 * x - x ^ 2) := by
  have hto : torn e = false := by rcases he with rfl | rfl <;> rfl
  have hdeg : deg e ≤ 2 := by rcases he with rfl | rfl <;> decide
  obtain ⟨re, hd⟩ := ex_data [0, 1, 3] e hdeg
  obtain ⟨D, V, L, md, d, mk, h1, h2, h3, h4, h5, h6, h7, h8⟩ := C72_setup ex_chain (by simp) hto (ex_uses close e)
    (m := nCells (run (roots [0, 1, 3] : List (Cell ℝ)) [.split [1]])) le_rfl leftEnd rightEnd (fun _ => 0)
  have hz : IsEnd [0, 1, (3 : ℝ)] 0 := .inl rfl
  have hdz : leftEnd 0 = true := by norm_num [leftEnd]
  obtain ⟨fuel, y, u, hs⟩ := (C72_one_answer h6 hd.rule (by omega) (k := kernelOf (C 1)) (j := 0) (S := 1) rfl
    (fun x _ => by simp [kernelOf, Kernel.eval]) h7 hz hdz true (kernelOf (C 2)) (kernelOf (C 1)) mk sortedSet_spec.1 sortedSet_spec.2).1.1
    (.inr (.inr ⟨3, .inr rfl, by norm_num [leftEnd]⟩))
  have hsol := ex_sol [0, 1, 3] rfl rfl
  refine ⟨re, _, D, V, L, md, d, mk, fuel, y, u, rfl, h1, h2, h3, h4, h5, h6, h7, h8, hd, hs, fun c hc i x hx => ?_, fun h2 c hc x => ?_⟩
  · have := C72_vertices h6 hd (kn := kernelOf (C 1)) (S := 1) rfl h8 hz hdz (by simpa using hsol) h7 sortedSet_spec.1 sortedSet_spec.2 hs c hc i x hx
    rw [this]
    simp [exU]
  · have := C72_reproduces h6 hd (by omega) (kn := kernelOf (C 1)) (S := 1) rfl h8 (p := exU) (by rw [h2]; exact exU_deg) hz hdz hsol h7
      sortedSet_spec.1 sortedSet_spec.2 hs c hc x
    rw [this, exU_eval]

/-- The hypotheses of `C73_converges` and `C73_refine_converges`. -/
example : Problem 0 3 (C 1) (C 2) leftEnd rightEnd (fun _ => 0) (fun x => (kernelOf (C 1)).eval 1 x 0) (fun x => exU.eval x) (fun x => exU.derivative.eval x) :=
  ⟨by norm_num, fun x _ _ => by simp, .inl (by norm_num [leftEnd]), ex_sol [0, 3] rfl rfl⟩

/-- Two refinements of the example: the three leaves have become twelve. -/
example : ((refineN 2 (run (roots [0, 1, (3 : ℚ)]) [.split [1]])).bind (fun F => (leaves1 (inSub none) F (nCells F)).map List.length)) = some 12 := by
  decide +kernel

/-- **C72 does not hold without free dofs**: on a mesh of one cell, linear elements, Dirichlet values at both ends, `consolidate` raises an
`IndexError`, although the discrete problem has a solution (the Dirichlet values). -/
theorem C72_no_inner_violated (close : ℝ → ℝ → Bool) : ∃ re D V L md d mk, Setting close [0, 1] .Q1 none 1 (roots [0, 1]) D V L ∧
    Data [0, 1] .Q1 3 0 re (kernelOf (C 1)) (kernelOf (C 2)) (C 1) (C 2) ∧
    addDirichletA (some md) true false (inSub none) (roots [0, 1]) 1 .Q1 D V (fun x => x) [] = some d ∧ (∀ c i, L = [c] → md (vertOf c i) = true) ∧ L.length = 1 ∧
    ∀ keep fuel ord y u, SetOrder ord → Ascending ord →
      ¬ Solved .Q1 (kernelOf (C 1)) (kernelOf (C 2)) (kernelOf (C 1)) mk re 0 (roots [0, 1]) D L d keep fuel ord y u := by
  obtain ⟨re, hd⟩ := ex_data [0, 1] .Q1 (by decide)
  have hch : ([0, 1] : List ℝ).IsChain (· < ·) := List.isChain_cons_cons.2 ⟨by norm_num, List.isChain_singleton _⟩
  have hu : UsesV close [0, 1] false .Q1 (roots [0, 1]) DH.new DV.new := .new []
  obtain ⟨D, V, L, md, d, mk, h1, h2, h3, h4, h5, h6, h7, h8⟩ := C72_setup hch (by simp) rfl hu
    (m := 1) (by rfl) (fun _ => true) (fun _ => false) (fun x => x)
  have hL : L = [(0, [])] := Option.some.inj (h2.symm.trans rfl)
  subst hL
  refine ⟨re, D, V, _, md, d, mk, h6, hd, h4, fun c i hc => ?_, rfl, fun keep fuel ord y u ho hasc hr => ?_⟩
  · cases hc
    obtain ⟨m', k1, k2⟩ := C71_mark_partial hch (by simp) h6.ready.uses none 1 (by rfl) (fun _ => true) (fun _ => false) true (fun _ => rfl)
    rw [h3] at k1
    cases k1
    have hl : IsLeaf (inSub none) (roots [0, (1 : ℝ)]) (0, []) := (h6.mem _).1 List.mem_cons_self
    have hcx := h6.coord (List.mem_cons_self (a := ((0, []) : IN)) (l := [])) i
    rw [k2 (0, []) i _ hl hcx]
    right
    refine ⟨rfl, fun _ => ?_⟩
    fin_cases i
    · exact .inl rfl
    · exact .inr rfl
  · have hz : IsEnd [0, (1 : ℝ)] 0 := .inl rfl
    have hk := (C72_one_answer h6 hd.rule (by decide) (k := kernelOf (C 1)) (j := 0) (S := 1) rfl
      (fun x _ => by simp [kernelOf, Kernel.eval]) h7 hz rfl keep (kernelOf (C 2)) (kernelOf (C 1)) mk ho hasc).1.2 ⟨fuel, y, u, hr⟩
    rcases hk with h | h | ⟨x, _, h⟩
    · exact h rfl
    · exact h rfl
    · cases h

end Verif.Bvp
