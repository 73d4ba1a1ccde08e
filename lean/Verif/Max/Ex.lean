import Verif.Max.Props
import Verif.Bvp.Ex

/-!
# C98: examples, and cubic elements
-/

namespace Verif.Max
open Verif.Line Verif.OneD Verif.Fem Verif.Form Verif.Asm Verif.Geom Verif.Gauss Verif.Bvp
open Polynomial

/-- The hypotheses of the theorems, and two runs that they compare: `−u'' = 2`, `u(0) = 0`, `u'(3) = 1` and `−u'' = 5`, `u(0) = 1`, `u'(3) = 1` on three cells of
different sizes. -/
example (close : ℝ → ℝ → Bool) : ∃ re F D V L mk d d' fuel fuel' z u z' u', F = run (roots [0, 1, 3]) [.split [1]] ∧
    Setting close [0, 1, 3] .Q1 none (nCells F) F D V L ∧ Gauss.rule1 1 = .ok re ∧ L ≠ [] ∧
    BndDict [0, 1, 3] none F D leftEnd (fun _ => 0) d ∧ BndDict [0, 1, 3] none F D leftEnd (fun _ => 1) d' ∧
    BndMark [0, 1, 3] none F rightEnd mk ∧
    Solved .Q1 (kernelOf (C 1)) (kernelOf (C 2)) (kernelOf (C 1)) mk re 0 F D L d true fuel sortedSet z u ∧
    Solved .Q1 (kernelOf (C 1)) (kernelOf (C 5)) (kernelOf (C 1)) mk re 0 F D L d' true fuel' sortedSet z' u' ∧
    (∀ c ∈ L, ∀ x, On F c x → 0 ≤ fn .Q1 F D u c x) ∧ (∀ c ∈ L, ∀ x, On F c x → 1 ≤ fn .Q1 F D u' c x) ∧
    (∀ c ∈ L, ∀ x, On F c x → fn .Q1 F D u c x ≤ fn .Q1 F D u' c x) := by
  obtain ⟨re, hre⟩ := (C32_orders 1).1.2 (by norm_num)
  obtain ⟨D, V, L, md, d, mk, h1, h2, h3, h4, h5, h6, h7, h8⟩ := C72_setup ex_chain (by simp) (e := .Q1) rfl (ex_uses close .Q1)
    (m := nCells (run (roots [0, 1, 3] : List (Cell ℝ)) [.split [1]])) le_rfl leftEnd rightEnd (fun _ => 0)
  obtain ⟨D', V', L', md', d', mk', h1', h2', h3', h4', h5', h6', h7', h8'⟩ := C72_setup ex_chain (by simp) (e := .Q1) rfl (ex_uses close .Q1)
    (m := nCells (run (roots [0, 1, 3] : List (Cell ℝ)) [.split [1]])) le_rfl leftEnd rightEnd (fun _ => 1)
  rw [h1] at h1'
  cases h1'
  rw [h2] at h2'
  cases h2'
  have hz : IsEnd [0, 1, (3 : ℝ)] 0 := .inl rfl
  have hdz : leftEnd 0 = true := by norm_num [leftEnd]
  have hk : ∀ (r x : ℝ), (kernelOf (C r)).eval 1 x 0 = r := fun r x => by simp [kernelOf, Kernel.eval]
  have hkp : ∀ x, InDom [0, 1, (3 : ℝ)] x → 0 < (kernelOf (C 1)).eval 1 x 0 := fun x _ => by rw [hk]; norm_num
  obtain ⟨fuel, z, u, hs⟩ := (C72_one_answer h6 hre (by decide) (k := kernelOf (C 1)) (j := 0) (S := 1) rfl
    hkp h7 hz hdz true (kernelOf (C 2)) (kernelOf (C 1)) mk sortedSet_spec.1 sortedSet_spec.2).1.1
    (.inr (.inr ⟨3, .inr rfl, by norm_num [leftEnd]⟩))
  obtain ⟨fuel', z', u', hs'⟩ := (C72_one_answer h6 hre (by decide) (k := kernelOf (C 1)) (j := 0) (S := 1) rfl
    hkp h7' hz hdz true (kernelOf (C 5)) (kernelOf (C 1)) mk sortedSet_spec.1 sortedSet_spec.2).1.1
    (.inr (.inr ⟨3, .inr rfl, by norm_num [leftEnd]⟩))
  obtain ⟨c0, hc0, _⟩ := h6.end_leaf hz
  refine ⟨re, _, D, V, L, mk, d, d', fuel, fuel', z, u, z', u', rfl, h6, hre, List.ne_nil_of_mem hc0, h7, h7', h8, hs, hs', ?_, ?_, ?_⟩
  · exact C98_minimum h6 hre (S := 1) rfl hkp h8 hz hdz (Sf := 1) (Sn := 1) rfl rfl (fun x _ => by rw [hk]; norm_num) (fun _ _ _ => le_rfl)
      (fun x _ _ => by rw [hk]; norm_num) h7 sortedSet_spec.1 sortedSet_spec.2 hs
  · exact C98_minimum h6 hre (S := 1) rfl hkp h8 hz hdz (Sf := 1) (Sn := 1) rfl rfl (fun x _ => by rw [hk]; norm_num) (fun _ _ _ => le_rfl)
      (fun x _ _ => by rw [hk]; norm_num) h7' sortedSet_spec.1 sortedSet_spec.2 hs'
  · exact C98_comparison h6 hre (S := 1) rfl hkp h8 hz hdz (Sf := 1) (Sn := 1) (Sf' := 1) (Sn' := 1) rfl rfl rfl rfl
      (fun x _ => by rw [hk, hk]; norm_num) (fun _ _ _ => by norm_num) (fun x _ _ => le_rfl) h7 h7' sortedSet_spec.1 sortedSet_spec.2 hs hs'

/-! ### Cubic elements -/

/-- The load `x⁴(2x − 1)²`, nowhere negative. -/
noncomputable def bump : Polynomial ℝ := 4 * X ^ 6 - 4 * X ^ 5 + X ^ 4

theorem bump_eval (x : ℝ) : bump.eval x = x ^ 4 * (2 * x - 1) ^ 2 := by
  simp [bump]
  ring

theorem bump_deg : bump.natDegree ≤ 6 := by
  unfold bump
  compute_degree

/-- The test function `x(1 − x)(7.9 − 9.8x)`. -/
noncomputable def tst : Polynomial ℝ := C (49 / 5) * X ^ 3 - C (177 / 10) * X ^ 2 + C (79 / 10) * X

theorem tst_eval (x : ℝ) : tst.eval x = 49 / 5 * x ^ 3 - 177 / 10 * x ^ 2 + 79 / 10 * x := by
  simp [tst]

theorem tst_der (x : ℝ) : tst.derivative.eval x = 147 / 5 * x ^ 2 - 177 / 5 * x + 79 / 10 := by
  simp [tst]
  ring

theorem tst_deg : tst.natDegree ≤ 3 := by
  unfold tst
  compute_degree

theorem int_poly (P : Polynomial ℝ) : ∫ x in (0 : ℝ)..1, P.derivative.eval x = P.eval 1 - P.eval 0 :=
  intervalIntegral.integral_eq_sub_of_hasDerivAt (fun x _ => P.hasDerivAt x) (P.derivative.continuous.intervalIntegrable _ _)

/-- An antiderivative of the load times the test function. -/
noncomputable def prim : Polynomial ℝ :=
  C (98 / 25) * X ^ 10 - C (110 / 9) * X ^ 9 + C (561 / 40) * X ^ 8 - C (493 / 70) * X ^ 7 + C (79 / 60) * X ^ 6

theorem int_load : ∫ x in (0 : ℝ)..1, bump.eval x * tst.eval x < 0 := by
  have h : (fun x => bump.eval x * tst.eval x) = fun x : ℝ => prim.derivative.eval x := by
    funext x
    rw [bump_eval, tst_eval]
    simp [prim]
    ring
  rw [h, int_poly]
  simp [prim]
  norm_num

theorem loc_q3 (d : Itv ℝ) (w : Nat → ℝ) (h0 : w 0 = 0) (h1 : w 1 = 0) (hd : d.lo = 0) (hd' : d.hi = 1) (x : ℝ) :
    loc d .Q3 w x = w 2 * (27 / 2 * x * (x - 2 / 3) * (x - 1)) + w 3 * (-(27 / 2) * x * (x - 1 / 3) * (x - 1)) := by
  have : nd1 .Q3 = 4 := rfl
  simp [loc, this, Finset.sum_range_succ, tb, pTab, h0, h1, toRef, hd, hd']

/-- The form with the test function measures the value at `1/100`. -/
theorem int_form (a b : ℝ) (w : ℝ → ℝ) (w' : ℝ → ℝ) (hw : ∀ x, w x = a * (27 / 2 * x * (x - 2 / 3) * (x - 1)) + b * (-(27 / 2) * x * (x - 1 / 3) * (x - 1)))
    (hw' : ∀ x, HasDerivAt w (w' x) x) : ∫ x in (0 : ℝ)..1, tst.derivative.eval x * w' x = 10000 / 99 * w (1 / 100) := by
  have hP : ∀ x, w' x = 27 / 2 * (a * (3 * x ^ 2 - 10 / 3 * x + 2 / 3) - b * (3 * x ^ 2 - 8 / 3 * x + 1 / 3)) := by
    intro x
    set P : Polynomial ℝ := C (27 / 2 * a) * (X ^ 3 - C (5 / 3) * X ^ 2 + C (2 / 3) * X) - C (27 / 2 * b) * (X ^ 3 - C (4 / 3) * X ^ 2 + C (1 / 3) * X) with hPd
    have e : w = fun x => P.eval x := by
      funext x
      rw [hw]
      simp [hPd]
      ring
    have := hw' x
    rw [e] at this
    rw [this.unique (P.hasDerivAt x)]
    simp [hPd]
    ring
  set Q : Polynomial ℝ := C (27 / 2 * a) * (C (441 / 25) * X ^ 5 - C (1021 / 20) * X ^ 4 + C (1613 / 30) * X ^ 3 - C (749 / 30) * X ^ 2 + C (79 / 15) * X) -
    C (27 / 2 * b) * (C (441 / 25) * X ^ 5 - C (923 / 20) * X ^ 4 + C (1279 / 30) * X ^ 3 - C (493 / 30) * X ^ 2 + C (79 / 30) * X) with hQ
  have h : (fun x => tst.derivative.eval x * w' x) = fun x : ℝ => Q.derivative.eval x := by
    funext x
    rw [hP, tst_der]
    simp [hQ]
    ring
  rw [h, int_poly, hw]
  simp [hQ]
  ring

/-- **C98 does not hold for cubic elements**: `−u'' = x⁴(2x − 1)²` on `[0, 1]`, the value 0 at both ends, one cell, exact quadrature: the load is nowhere negative, and the
answer is negative at `1/100`. -/
theorem C98_cubic_violated (close : ℝ → ℝ → Bool) : ∃ re D V L d mk, Setting close [0, 1] .Q3 none 1 (roots [0, 1]) D V L ∧
    Data [0, 1] .Q3 5 0 re (kernelOf (C 1)) (kernelOf bump) (C 1) bump ∧ BndDict [0, 1] none (roots [0, 1]) D (fun _ => true) (fun _ => 0) d ∧
    BndMark [0, 1] none (roots [0, 1]) (fun _ => false) mk ∧ (∀ x, 0 ≤ bump.eval x) ∧ L = [(0, [])] ∧
    (∃ fuel z u, Solved .Q3 (kernelOf (C 1)) (kernelOf bump) (kernelOf (C 1)) mk re 0 (roots [0, 1]) D L d true fuel sortedSet z u) ∧
    ∀ keep fuel ord z u, SetOrder ord → Ascending ord →
      Solved .Q3 (kernelOf (C 1)) (kernelOf bump) (kernelOf (C 1)) mk re 0 (roots [0, 1]) D L d keep fuel ord z u →
      fn .Q3 (roots [0, 1]) D u (0, []) (1 / 100) < 0 := by
  obtain ⟨re, hre⟩ := (C32_orders 5).1.2 (by norm_num)
  have hd : Data [0, 1] .Q3 5 0 re (kernelOf (C 1)) (kernelOf bump) (C 1) bump :=
    ⟨hre, le_rfl, by rw [natDegree_C]; decide, by have := bump_deg; simp only [deg]; omega, fun x _ => by simp, kernel_poly _ _, kernel_poly _ _⟩
  have hch : ([0, 1] : List ℝ).IsChain (· < ·) := List.isChain_cons_cons.2 ⟨by norm_num, List.isChain_singleton _⟩
  have hu : UsesV close [0, 1] false .Q3 (roots [0, 1]) DH.new DV.new := .new []
  obtain ⟨D, V, L, md, d, mk, h1, h2, h3, h4, h5, h, h7, h8⟩ := C72_setup hch (by simp) rfl hu
    (m := 1) (by rfl) (fun _ => true) (fun _ => false) (fun _ => 0)
  have hL : L = [(0, [])] := Option.some.inj (h2.symm.trans rfl)
  have hc : ((0, []) : IN) ∈ L := by rw [hL]; exact List.mem_cons_self
  have hz : IsEnd [0, (1 : ℝ)] 0 := .inl rfl
  have hz1 : IsEnd [0, (1 : ℝ)] 1 := .inr rfl
  refine ⟨re, D, V, L, d, mk, h, hd, h7, h8, fun x => ?_, hL, ?_, fun keep fuel ord z u ho ha hr => ?_⟩
  · rw [bump_eval]
    have : 0 ≤ x ^ 4 := by positivity
    positivity
  · exact (C72_one_answer h hre (by decide) (k := kernelOf (C 1)) (j := 0) (S := 1) rfl (fun x _ => by simp [kernelOf, Kernel.eval]) h7 hz rfl true
      (kernelOf bump) (kernelOf (C 1)) mk sortedSet_spec.1 sortedSet_spec.2).1.1 (.inl (by decide))
  · have hU := discrete h h7 ho ha hr
    set U : Nat → ℝ := fun a => u.getD a 0 with hUd
    have hlo : (dataAt (roots [0, (1 : ℝ)]) (0, [])).lo = 0 := rfl
    have hhi : (dataAt (roots [0, (1 : ℝ)]) (0, [])).hi = 1 := rfl
    have c0 : coord (roots [0, (1 : ℝ)]) (0, []) 0 = some 0 := by rw [h.coord hc]; rfl
    have c1 : coord (roots [0, (1 : ℝ)]) (0, []) 1 = some 1 := by rw [h.coord hc]; rfl
    have u0 : U (dof D (0, []) 0) = 0 := by
      have := hU.value 0 hz rfl
      rw [h.atX _ hc c0] at this
      exact this
    have u1 : U (dof D (0, []) 1) = 0 := by
      have := hU.value 1 hz1 rfl
      rw [h.atX _ hc c1] at this
      exact this
    set v : Nat → ℝ := coeffs V (fun x => tst.eval x) with hv
    have hv0 : ∀ x, IsEnd [0, (1 : ℝ)] x → true = true → atX (roots [0, 1]) D L v x = 0 := by
      intro x hx _
      rcases hx with hx | hx
      · cases hx
        rw [hv, coeffs_atX h _ hc c0, tst_eval]
        norm_num
      · have : x = 1 := (Option.some.inj hx).symm
        rw [this, hv, coeffs_atX h _ hc c1, tst_eval]
        norm_num
    have hloc : ∀ x, loc (dataAt (roots [0, (1 : ℝ)]) (0, [])) .Q3 (fun a => v (dof D (0, []) a)) x = tst.eval x := by
      intro x
      rw [← loc_eval (h.pos hc) (e := .Q3) (p := tst) tst_deg x]
      unfold loc
      exact Finset.sum_congr rfl (fun a ha => by
        simp only [hv]
        rw [coeffs_at h _ hc (Finset.mem_range.1 ha)])
    have hdloc : ∀ x, dloc (dataAt (roots [0, (1 : ℝ)]) (0, [])) .Q3 (fun a => v (dof D (0, []) a)) x = tst.derivative.eval x := by
      intro x
      have e1 := loc_deriv (dataAt (roots [0, (1 : ℝ)]) (0, [])) .Q3 (fun a => v (dof D (0, []) a)) x
      rw [funext hloc] at e1
      exact e1.unique (tst.hasDerivAt x)
    have key := hU.eqn v hv0
    rw [total2_exact h hd, total1_leaves h, map_add, neumann h (S := 1) rfl h8 (a := 0) (b := 1) rfl rfl, hL] at key
    obtain ⟨Sf, hSf, hf⟩ := hd.load
    simp only [List.map_cons, List.map_nil, List.sum_cons, List.sum_nil, add_zero, Bool.false_eq_true, if_false] at key
    rw [lin_exact hre le_rfl hSf (h.pos hc) .Q3 hf hd.degf] at key
    simp only [hdloc, hloc, hlo, hhi, eval_C, one_mul] at key
    rw [int_form _ _ _ _ (loc_q3 _ (fun a => U (dof D (0, []) a)) u0 u1 hlo hhi) (loc_deriv _ _ _)] at key
    have hneg := int_load
    unfold fn
    rw [feFn_loc]
    have : loc (dataAt (roots [0, (1 : ℝ)]) (0, [])) .Q3 (fun a => U (dof D (0, []) a)) (1 / 100) < 0 := by linarith
    exact this

end Verif.Max
