import Verif.PySet.Grid
import Verif.PySet.Line
import Verif.Gal.Ex
import Verif.Bvp.Ex

/-! # C82: a grid on which `solve` fails, and examples -/

namespace Verif.PySet
open Verif.Mesh Verif.Dof Verif.Quad Verif.Fem Verif.Form Verif.Asm Verif.Phys Verif.Bnd Verif.Reg Verif.Dir Verif.Gauss Verif.Gal

/-! ## Sets of the numbers 2, 5, 8, 10 -/

/-- All tables with some of these numbers. -/
def tabs : List Table :=
  [none, some 8].flatMap fun a => [none, some 5].flatMap fun b =>
    [(none, none), (some 2, none), (some 10, none), (some 2, some 10), (some 10, some 2)].map fun c => [a, none, c.1, c.2, none, b, none, none]

theorem tabs_closed : ∀ t ∈ tabs, ∀ x ∈ [2, 5, 8, 10], add t x ∈ tabs := by decide +kernel

theorem tabs_mem (l : List ℕ) (hl : ∀ x ∈ l, x ∈ [2, 5, 8, 10]) : ofList l ∈ tabs := by
  have : ∀ (l : List ℕ) (t : Table), (∀ x ∈ l, x ∈ [2, 5, 8, 10]) → t ∈ tabs → l.foldl add t ∈ tabs := by
    intro l
    induction l with
    | nil => intro t _ ht; exact ht
    | cons a l ih =>
      intro t hl ht
      exact ih _ (fun x hx => hl x (List.mem_cons_of_mem _ hx)) (tabs_closed t ht a (hl a List.mem_cons_self))
  exact this l _ hl (by decide +kernel)

theorem tabs_last : ∀ t ∈ tabs, 10 ∈ t.filterMap id → 5 ∈ t.filterMap id → (t.filterMap id).getLast? = some 5 := by decide +kernel

/-- In whatever order the numbers 2, 5, 8, 10 come, and however often, `list(set(..))` ends with 5. -/
theorem ends_5 (l : List ℕ) (hl : ∀ x, x ∈ l ↔ x ∈ [2, 5, 8, 10]) : (pySet l).getLast? = some 5 := by
  refine tabs_last _ (tabs_mem l fun x hx => (hl x).1 hx) ?_ ?_
  · exact ((C82_set l).2 10).2 ((hl 10).2 (by decide))
  · exact ((C82_set l).2 5).2 ((hl 5).2 (by decide))

example : pySet [2, 5, 8, 10] = [8, 2, 10, 5] ∧ pySet [10, 2, 8, 5, 2] = [8, 10, 2, 5] := by decide +kernel

/-- `C82_ascending`: the numbers need not be an interval. -/
example : Dense ([9, 3, 1, 4, 7, 3, 0].toFinset) ∧ pySet [9, 3, 1, 4, 7, 3, 0] = [0, 1, 3, 4, 7, 9] := by
  constructor
  · unfold Dense; decide
  · decide +kernel

/-! ## The grid -/

/-- `Mesh2D(resolution=(3, 3))`, on the square `[0, 3]²`. -/
noncomputable abbrev G3 : Base ℝ := gridBase 0 3 0 3 3 3

theorem G3_rows : (distributeDofs false 9 (init G3) .Q1 36 DH.new).map (fun D =>
    (D.count, (leaves false (init G3)).map (fun c => (List.range 4).map (fun i => Verif.Dof.val D c i)))) =
    some (16, [[0, 1, 2, 3], [1, 4, 5, 2], [4, 6, 7, 5], [3, 2, 8, 9], [2, 5, 10, 8], [5, 7, 11, 10], [9, 8, 12, 13], [8, 10, 14, 12],
      [10, 11, 15, 14]].map (List.map some)) := by decide +kernel

theorem G3_bnd : (distributeDofs false 9 (init G3) .Q1 36 DH.new).bind (fun D => regionDofs none .vertex false true false 9 (init G3) 36 .Q1 D) =
    some [7, 11, 15, 14, 12, 13, 9, 3, 0, 1, 4, 6] := by decide +kernel

theorem G3_hang : ((distributeDofs false 9 (init G3) .Q1 36 DH.new).bind (fun D => setHanging (F := ℝ) false (init G3) .Q1 D [])).map
    (fun x => x.1.map (·.dof)) = some [] := by decide +kernel

theorem dict_keys {F : Type} (l : List (ℕ × F)) (d : List (ℕ × F)) (a : ℕ) :
    a ∈ (l.foldl (fun d y => dictSet d y.1 y.2) d).map (·.1) ↔ a ∈ d.map (·.1) ∨ a ∈ l.map (·.1) := by
  induction l generalizing d with
  | nil => simp
  | cons y l ih =>
    rw [List.foldl_cons, ih]
    have : a ∈ (dictSet d y.1 y.2).map (·.1) ↔ a ∈ d.map (·.1) ∨ a = y.1 := by
      unfold dictSet
      split_ifs with hy
      · have : (d.map (fun z => if z.1 = y.1 then (y.1, y.2) else z)).map (·.1) = d.map (·.1) := by
          rw [List.map_map]
          refine List.map_congr_left fun z _ => ?_
          simp only [Function.comp]
          split_ifs with hz
          · exact hz.symm
          · rfl
        rw [this]
        constructor
        · exact .inl
        · rintro (h | rfl)
          · exact h
          · exact hy
      · simp [eq_comm]
    rw [this, List.map_cons, List.mem_cons, or_assoc]

/-- The keys of the dictionary of Dirichlet values. -/
theorem dirichlet_keys {K F : Type} {mk bnd sf N} {s : St K} {n e D} {V : DV K} {g : Pt K → F} {d : List (ℕ × F)}
    (h : addDirichletA mk bnd sf N s n e D V g [] = some d) : ∃ L, regionDofs mk .vertex false bnd sf N s n e D = some L ∧
      ∀ a, a ∈ d.map (·.1) ↔ a ∈ L := by
  unfold addDirichletA at h
  obtain ⟨L, h1, h2⟩ := Option.bind_eq_some_iff.1 h
  obtain ⟨xs, h3, h4⟩ := Option.map_eq_some_iff.1 h2
  refine ⟨L, h1, fun a => ?_⟩
  have hl : xs.length = L.length := by
    have := congrArg List.length ((allSome_some _ _).1 h3)
    simpa using this.symm
  have e1 : (L.zip xs).foldl (fun d y => dictSet d y.1 (g y.2)) [] = ((L.zip xs).map fun y => (y.1, g y.2)).foldl (fun d y => dictSet d y.1 y.2) [] := by
    rw [List.foldl_map]
  rw [← h4, e1, dict_keys]
  have e2 : ((L.zip xs).map fun y => (y.1, g y.2)).map (·.1) = L := by
    rw [List.map_map]
    exact List.map_fst_zip (by omega)
  rw [e2]
  simp

/-- **C82 does not hold in general**: the Poisson problem with Dirichlet values on the whole boundary of a 3×3 grid, bilinear elements.  There is a
unique discrete solution, and `solve` would find it if `list(set(..))` were sorted; but the free dofs 2, 5, 8, 10 come in an order that ends with 5,
so the arrays of `consolidate` are too short, and `solve` raises an exception. -/
theorem C82_grid_violated (close : Pt ℝ → Pt ℝ → Bool) : ∃ rc re D V H C d,
    distributeV close false G3.n (init G3) .Q1 36 DH.new DV.new = some (D, V) ∧ Setting close G3 .Q1 false (init G3) D V (fun _ => true) ∧
    Data G3 .Q1 2 1 0 rc re (kernelOf exκ) (kernelOf (diffuse exκ exp1)) exκ exp1 ∧ setHanging false (init G3) .Q1 D [] = some (H, C) ∧
    addDirichletA none true false G3.n (init G3) 36 .Q1 D V (fun x => ev exp1 (x.x, x.y)) [] = some d ∧
    (∃ fuel y u, Solved .Q1 (kernelOf exκ) (kernelOf (diffuse exκ exp1)) rc re 0 (fun _ => true) false (init G3) D H d true fuel sortedSet y u ∧
      Equals (init G3) false .Q1 D u exp1) ∧
    ∀ keep fuel y u, ¬ Solved .Q1 (kernelOf exκ) (kernelOf (diffuse exκ exp1)) rc re 0 (fun _ => true) false (init G3) D H d keep fuel pySet y u := by
  obtain ⟨rc, hrc⟩ := (C32_orders (2 ^ 2)).2.2 ⟨2, by norm_num, by norm_num, rfl⟩
  obtain ⟨re, hre⟩ := (C32_orders 1).1.2 (by norm_num)
  have hd : Data G3 .Q1 2 1 0 rc re (kernelOf exκ) (kernelOf (diffuse exκ exp1)) exκ exp1 :=
    ⟨hrc, by norm_num, hre, by decide, exp1_deg, (Nat.add_le_add_right exκ_deg _).trans (by decide), fun z _ => exκ_pos z, kernel_poly _ _, kernel_poly _ _⟩
  obtain ⟨hB, hP, hn⟩ := C24_mesh (0 : ℝ) 3 0 3 3 3
  obtain ⟨hc, hA⟩ := Fn.C67_grid (0 : ℝ) 3 0 3 (by norm_num) (by norm_num) 3 3
  have h1 := C64_grid (0 : ℝ) 3 0 3 3 3 (by norm_num) (by norm_num)
  have hrect : RectOk (fun _ => true) G3 := by
    intro f hf _
    rcases hA f hf with ⟨_, q⟩ | ⟨q, _⟩
    · exact q
    · cases q
  have hlen : 4 * (init G3).cells.length ≤ 36 := by decide +kernel
  obtain ⟨D, V, H, C, d, g1, g2, g3, g4⟩ := C69_bilinear hB hP hc h1 hrect .init (Fn.init_balanced (B := G3)) hd hlen close
  have hV := readyV_first hB hP .init (.inl rfl) (Fn.init_balanced (B := G3)) hlen g1
  have h : Setting close G3 .Q1 false (init G3) D V (fun _ => true) := ⟨hB, hP, hc, hrect, rfl, hV, fun _ _ => .inl rfl, .inl rfl⟩
  have hdd := dict_Q1 hB hP hV h.roots (.inl rfl) hlen h1 _ g3
  have hD : distributeDofs false 9 (init G3) .Q1 36 DH.new = some D := by
    unfold distributeV at g1
    obtain ⟨D', q1, q2⟩ := Option.bind_eq_some_iff.1 g1
    obtain ⟨V', q3, q4⟩ := Option.map_eq_some_iff.1 q2
    cases q4
    exact q1
  have hrows := G3_rows
  have hbnd := G3_bnd
  have hhang := G3_hang
  rw [hD] at hrows hbnd hhang
  simp only [Option.map_some, Option.some.injEq, Prod.mk.injEq] at hrows
  have hH : H = [] := by
    simp only [Option.bind_some, g2, Option.map_some, Option.some.injEq] at hhang
    exact List.map_eq_nil_iff.1 hhang
  subst hH
  obtain ⟨L, l1, l2⟩ := dirichlet_keys g3
  have l3 : L = [7, 11, 15, 14, 12, 13, 9, 3, 0, 1, 4, 6] := by
    have : regionDofs none .vertex false true false 9 (init G3) 36 .Q1 D = some L := l1
    simp only [Option.bind_some] at hbnd
    rw [this] at hbnd
    exact Option.some.inj hbnd
  have hfree : ∀ f, FreeDof false (init G3) .Q1 D [] d f ↔ f ∈ [2, 5, 8, 10] := by
    intro f
    unfold FreeDof
    rw [← C62_leaf_dofs hB hP rfl hV.ready f, l2, l3, hrows.1]
    constructor
    · rintro ⟨q1, _, q2⟩
      interval_cases f <;> first | decide | exact absurd (by decide) q2
    · intro q
      fin_cases q <;> decide
  have hI : Inner G3 false (init G3) .Q1 D [] := by
    obtain ⟨⟨c, hc', i, hi, hv⟩, _, q⟩ := (hfree 2).2 (by decide)
    refine ⟨c, hc', i, hi, fun hb => q ?_, fun x hx => by cases hx⟩
    have := (hdd.2 2 _).2 ⟨c, hc', i, hi, hv, hb, rfl⟩
    obtain ⟨y, hy, _⟩ := Option.map_eq_some_iff.1 this
    have hm := List.mem_of_find?_eq_some hy
    have he := List.find?_some hy
    simp only [decide_eq_true_eq] at he
    exact List.mem_map.2 ⟨y, hm, he⟩
  refine ⟨rc, re, D, V, [], C, d, g1, h, hd, g2, g3, ?_, fun keep fuel y u => ?_⟩
  · obtain ⟨q1, q2⟩ := g4 true sortedSet sortedSet_spec.1 sortedSet_spec.2
    obtain ⟨N, hN⟩ := q2 hI
    obtain ⟨y, u, hs⟩ := hN N le_rfl
    exact ⟨N, y, u, hs, q1 N y u hs⟩
  · have hco := fun f => (coupled_iff (rc := rc) (re := re) (j := 0) h g2 d (kernelOf exκ) f).trans (hfree f)
    refine C82_fails (f := 10) (contribs_same _ _ _ _ _ _) (fun r => by rw [uses2_iff h, uses1_iff h]) ((hco 10).2 (by decide)) (fun l hl x hx => ?_) y u
    rw [ends_5 l fun a => (hl a).trans (hco a)] at hx
    cases hx
    decide

/-- The hypotheses of `C82_grid_solves`, and with them those of `C82_ratio`, `C82_mesh` and `C82_bilinear`: a grid of 8 × 8 cells. -/
example (close : Pt ℝ → Pt ℝ → Bool) : ∃ rc re D V H C d fuel y u,
    distributeV close false 64 (init (gridBase (0 : ℝ) 1 0 1 8 8)) .Q1 256 DH.new DV.new = some (D, V) ∧
    setHanging false (init (gridBase (0 : ℝ) 1 0 1 8 8)) .Q1 D [] = some (H, C) ∧
    addDirichletA none true false 64 (init (gridBase (0 : ℝ) 1 0 1 8 8)) 256 .Q1 D V (fun x => ev exp1 (x.x, x.y)) [] = some d ∧
    Solved .Q1 (kernelOf exκ) (kernelOf (diffuse exκ exp1)) rc re 0 (fun _ => true) false (init (gridBase (0 : ℝ) 1 0 1 8 8)) D H d true fuel pySet y u ∧
    Equals (init (gridBase (0 : ℝ) 1 0 1 8 8)) false .Q1 D u exp1 := by
  obtain ⟨rc, hrc⟩ := (C32_orders (2 ^ 2)).2.2 ⟨2, by norm_num, by norm_num, rfl⟩
  obtain ⟨re, hre⟩ := (C32_orders 1).1.2 (by norm_num)
  have hd : Data (gridBase (0 : ℝ) 1 0 1 8 8) .Q1 2 1 0 rc re (kernelOf exκ) (kernelOf (diffuse exκ exp1)) exκ exp1 :=
    ⟨hrc, by norm_num, hre, by decide, exp1_deg, (Nat.add_le_add_right exκ_deg _).trans (by decide), fun z _ => exκ_pos z, kernel_poly _ _, kernel_poly _ _⟩
  obtain ⟨D, V, H, C, d, h1, h2, h3, h4⟩ := C82_grid_solves (nx := 8) (ny := 8) (zero_lt_one' ℝ) (zero_lt_one' ℝ) (by norm_num) (by norm_num) (by norm_num) hd
    (m := 256) (by norm_num) close
  obtain ⟨N, hN⟩ := h4 true
  obtain ⟨⟨y, u, hs⟩, hE⟩ := hN N le_rfl
  exact ⟨rc, re, D, V, H, C, d, N, y, u, h1, h2, h3, hs, hE y u hs⟩

/-- The hypotheses of `C82_line_solves`: the mesh of `Verif.Bvp.Ex`, with one refined cell. -/
example (close : ℝ → ℝ → Bool) (e : ET) (he : e = .Q1 ∨ e = .Q2) : ∃ re F D V L d mk fuel y u, F = OneD.run (OneD.roots [0, 1, (3 : ℝ)]) [.split [1]] ∧
    Line.distributeV close false (OneD.inSub none) e F (Line.nCells F) Line.DH.new Line.DV.new = some (D, V) ∧
    Bvp.Solved e (Bvp.kernelOf (Polynomial.C 1)) (Bvp.kernelOf (Polynomial.C 2)) (Bvp.kernelOf (Polynomial.C 1)) mk re 0 F D L d true fuel pySet y u := by
  have hdeg : deg e ≤ 2 := by rcases he with rfl | rfl <;> decide
  have ht : torn e = false := by rcases he with rfl | rfl <;> rfl
  obtain ⟨re, hd⟩ := Bvp.ex_data [0, 1, 3] e hdeg
  obtain ⟨S, hS, hk⟩ := hd.diff
  obtain ⟨D, V, L, md, d, mk, h1, h2, h3, h4, h5, h6⟩ := C82_line_solves Bvp.ex_chain (by simp) ht (Bvp.ex_uses close e) le_rfl Bvp.leftEnd Bvp.rightEnd (fun _ => 0)
    hd.rule (by omega) hS (fun x hx => by rw [hk]; exact hd.pos _ hx) (z := 0) (.inl rfl) (by norm_num [Bvp.leftEnd]) true
    (Bvp.kernelOf (Polynomial.C 2)) (Bvp.kernelOf (Polynomial.C 1))
  obtain ⟨fuel, y, u, hs⟩ := h6.1 (.inr (.inr ⟨3, .inr rfl, by norm_num [Bvp.leftEnd]⟩))
  exact ⟨re, _, D, V, L, d, mk, fuel, y, u, rfl, h1, hs⟩

end Verif.PySet
