import Verif.Max2.Props
import Verif.Cea.Ex

/-! # C101: meshes without hanging nodes, an example, and a mesh of long rectangles -/

namespace Verif.Max2
open Verif.Mesh Verif.Dof Verif.Quad Verif.Fem Verif.Form Verif.Asm Verif.Phys Verif.Bnd Verif.Reg Verif.Dir Verif.Gauss Verif.Gal Verif.Cea MeasureTheory

/-- No cell on the other side of a side of a leaf is refined. -/
def Conforming (sf : Bool) (s : St ℝ) : Prop := ∀ c ∈ leaves sf s, ∀ i ∈ four, ∀ nb, getNb sf s (s.sides c i) = some nb → hasCh sf s nb = false

/-- **C101** (no hanging nodes).  If no leaf has a refined neighbour across a side, `set_hanging_nodes` finds no constraint. -/
theorem C101_no_hanging {sf : Bool} {s : St ℝ} {e : ET} {D : DH} (h : Conforming sf s) : setHanging (F := ℝ) sf s e D [] = some ([], []) := by
  unfold setHanging
  split_ifs
  · rfl
  · have : allCons (F := ℝ) sf s e D = some [] := by
      unfold allCons
      rw [List.flatMap_eq_nil_iff.2]
      · rfl
      · intro c hc
        rw [List.flatMap_eq_nil_iff]
        intro i hi
        unfold sideCons
        cases hg : getNb sf s (s.sides c i) with
        | none => rfl
        | some nb => simp [h c hc i hi nb hg]
    rw [this]
    rfl

/-- Both squares refined. -/
noncomputable def fourR : St ℝ := sp (sp (init twoR) (0, [])) (1, [])

theorem fourR_reach : MReach twoR fourR :=
  (sp_reach twoR_wf (sp_reach twoR_wf .init (0, []) (by decide +kernel) rfl).2 (1, []) (by decide +kernel) (by decide +kernel)).2

theorem conf_of {s : St ℝ} (h : ((leaves false s).all fun c => four.all fun i => match getNb false s (s.sides c i) with
    | none => true | some nb => !hasCh false s nb) = true) : Conforming false s := by
  intro c hc i hi nb hn
  have := List.all_eq_true.1 (List.all_eq_true.1 h c hc) i hi
  rw [hn] at this
  simpa using this

theorem fourR_conf : Conforming false fourR := conf_of (by decide +kernel)

theorem twoR_square : NearSquare twoR := by
  intro f hf
  rw [two_quad f hf]
  simp only [hDx, hDy]
  refine ⟨by ring, by ring, by ring, ?_, ?_⟩ <;> nlinarith

/-- The hypotheses of the theorems hold, for any kernel as load and any Dirichlet values. -/
example (close : Pt ℝ → Pt ℝ → Bool) (kf : Kernel (Pt ℝ)) (g : Pt ℝ → ℝ) : NearSquare twoR ∧
    ∃ rc re D V d fuel y u, Gauss.rule2 (2 ^ 2) = .ok rc ∧ Gauss.rule1 1 = .ok re ∧ Setting close twoR .Q1 false fourR D V (fun _ => true) ∧
      setHanging (F := ℝ) false fourR .Q1 D [] = some ([], []) ∧ BndDict twoR false fourR .Q1 D g d ∧ IsPoly (kernelOf (MvPolynomial.C 2)) 0 (MvPolynomial.C 2) ∧
      Solved .Q1 (kernelOf (MvPolynomial.C 2)) kf rc re 0 (fun _ => true) false fourR D [] d true fuel sortedSet y u := by
  obtain ⟨rc, hrc⟩ := (C32_orders (2 ^ 2)).2.2 ⟨2, by norm_num, by norm_num, rfl⟩
  obtain ⟨re, hre⟩ := (C32_orders 1).1.2 (by norm_num)
  obtain ⟨D, V, _, hD, hV, _, _⟩ := Fn.C67_setup twoR_wf twoR_plain fourR_reach (by decide +kernel) .Q1 close (n := 40) (by decide +kernel)
  have h : Setting close twoR .Q1 false fourR D V (fun _ => true) :=
    ⟨twoR_wf, twoR_plain, twoR_convex, twoR_rect, rfl, hV, fun _ _ => .inl rfl, .inl rfl⟩
  have hh := C101_no_hanging (e := .Q1) (D := D) fourR_conf
  obtain ⟨d, hdd⟩ := dict_exists h g
  obtain ⟨h1, _⟩ := C69_one_answer h hrc hre (by decide) (k := kernelOf (MvPolynomial.C 2)) (S := 1) (j := 0) rfl
    (fun x _ => by simp [kernelOf, Kernel.eval, ev]) hh hdd true kf sortedSet_spec.1 sortedSet_spec.2
  have hI : Inner twoR false fourR .Q1 D [] := (C69_inner h hh).2 (0, []) (by decide +kernel) (.inl rfl) (by decide +kernel)
  obtain ⟨fuel, y, u, hr⟩ := h1.1 hI
  exact ⟨twoR_square, rc, re, D, V, d, fuel, y, u, hrc, hre, h, hh, hdd, kernel_poly _ _, hr⟩

/-! ### Long rectangles -/

/-- A rectangle of sides 2 and 1. -/
noncomputable def longR : Base ℝ where
  n := 1
  b := fun k => [0, 1, 2, 3].getD k 0
  hd := fun k => [1, 2, 3, 0].getD k 0
  T := fun _ => none
  xy := fun k => [⟨0, 0⟩, ⟨2, 0⟩, ⟨2, 1⟩, ⟨0, 1⟩].getD k ⟨0, 0⟩

theorem longR_wf : longR.WF := by
  refine ⟨?_, ?_, ?_, ?_⟩
  · intro k j h; cases h
  · intro k j h; cases h
  · intro k j h; cases h
  · decide

theorem longR_plain : Plain longR := ⟨fun _ _ => rfl, by decide +kernel⟩

noncomputable def longS : St ℝ := sp (init longR) (0, [])

theorem longS_reach : MReach longR longS := (sp_reach longR_wf .init (0, []) (by decide +kernel) rfl).2

theorem long_quad : rootQ longR 0 = ⟨⟨0, 0⟩, ⟨2, 0⟩, ⟨2, 1⟩, ⟨0, 1⟩, ∅⟩ := rfl

theorem longR_convex : Fn.Convex longR := by
  intro f hf
  have : f = 0 := by have : f < 1 := hf; omega
  subst this
  rw [long_quad]
  unfold ConvexCCW tri
  refine ⟨?_, ?_, ?_, ?_⟩ <;> simp only <;> norm_num

theorem longR_rect : RectOk (fun _ => true) longR := by
  intro f hf _
  have : f = 0 := by have : f < 1 := hf; omega
  subst this
  rw [long_quad]
  exact ⟨rfl, rfl, rfl, rfl⟩

theorem longR_par : Par longR := by
  intro f hf
  have : f = 0 := by have : f < 1 := hf; omega
  subst this
  rw [long_quad]
  constructor <;> simp [hDx, hDy]

/-- The Dirichlet values: `4y(1 − y)`, nowhere negative on the rectangle. -/
noncomputable def longG (p : Pt ℝ) : ℝ := 4 * p.y * (1 - p.y)

theorem long_leaves : leaves false longS = [(0, [0]), (0, [1]), (0, [2]), (0, [3])] := by decide +kernel

/-- The Jacobian on the four leaves. -/
theorem long_jac (k : Fin 4) (hc : ((0, [k]) : CN) ∈ longS.cells) : hDx (cellQ longS (0, [k])) = 0 ∧ hDy (cellQ longS (0, [k])) = 0 ∧
    jxs (cellQ longS (0, [k])) ⟨0, 0⟩ = 1 ∧ jys (cellQ longS (0, [k])) ⟨0, 0⟩ = 0 ∧ jxt (cellQ longS (0, [k])) ⟨0, 0⟩ = 0 ∧ jyt (cellQ longS (0, [k])) ⟨0, 0⟩ = 1 / 2 := by
  obtain ⟨h1, h2⟩ := par_cell longR_wf longR_par longS_reach hc
  obtain ⟨e1, e2, e3, e4⟩ := jac_same (cellQ_eq longR_wf longS_reach (0, [k]) hc) ⟨0, 0⟩
  have hr := longR_par 0 (by decide)
  obtain ⟨a, b, c, d⟩ := child_jac hr.1 hr.2 k
  refine ⟨h1, h2, ?_, ?_, ?_, ?_⟩
  · rw [e1]; show jxs ((rootQ longR 0).child ∅ k) _ = _; rw [a, long_quad]; simp [jxs]
  · rw [e2]; show jys ((rootQ longR 0).child ∅ k) _ = _; rw [b, long_quad]; simp [jys]
  · rw [e3]; show jxt ((rootQ longR 0).child ∅ k) _ = _; rw [c, long_quad]; simp [jxt]
  · rw [e4]; show jyt ((rootQ longR 0).child ∅ k) _ = _; rw [d, long_quad]; simp [jyt]

theorem long_prod (k : Fin 4) (hc : ((0, [k]) : CN) ∈ longS.cells) (v x : Nat → ℝ) : prodE (MvPolynomial.C 1) (cellQ longS (0, [k])) .Q1 v x = 
    1 / 2 * (((v 1 - v 0) * (x 1 - x 0) + (v 2 - v 3) * (x 2 - x 3)) / 3 + ((v 1 - v 0) * (x 2 - x 3) + (v 2 - v 3) * (x 1 - x 0)) / 6) +
    2 * (((v 3 - v 0) * (x 3 - x 0) + (v 2 - v 1) * (x 2 - x 1)) / 3 + ((v 3 - v 0) * (x 2 - x 1) + (v 2 - v 1) * (x 3 - x 0)) / 6) := by
  obtain ⟨h1, h2, e1, e2, e3, e4⟩ := long_jac k hc
  have hd : det (cellQ longS (0, [k])) ⟨0, 0⟩ = 1 / 2 := by unfold det; rw [e1, e2, e3, e4]; norm_num
  rw [prod_rect (Fn.cell_convex longR_wf longR_convex longS_reach hc) h1 h2 (by rw [e1, e2, e3, e4]; norm_num), e1, e2, e3, e4, hd]
  ring

/-- The nodes of the four leaves other than the centre are on the boundary. -/
theorem long_bnd (k : Fin 4) (a : Nat) (ha : a < 4) (hne : a ≠ ((k + 2 : Fin 4) : Nat)) : BndPt longR (rootPt (0, [k]) (node .Q1 a)) := by
  have : ∃ (i : Fin 4) (r : ℚ), (r = 0 ∨ r = 1 / 2) ∧ rootPt (0, [k]) (node .Q1 a) = (0, E i r) := by
    fin_cases k <;> interval_cases a <;> first
      | exact absurd rfl hne
      | exact ⟨0, 0, .inl rfl, by decide +kernel⟩
      | exact ⟨1, 0, .inl rfl, by decide +kernel⟩
      | exact ⟨2, 0, .inl rfl, by decide +kernel⟩
      | exact ⟨3, 0, .inl rfl, by decide +kernel⟩
      | exact ⟨0, 1 / 2, .inr rfl, by decide +kernel⟩
      | exact ⟨1, 1 / 2, .inr rfl, by decide +kernel⟩
      | exact ⟨2, 1 / 2, .inr rfl, by decide +kernel⟩
      | exact ⟨3, 1 / 2, .inr rfl, by decide +kernel⟩
  obtain ⟨i, r, hr, e⟩ := this
  rw [e]
  exact ⟨0, i, r, by decide, rfl, by rcases hr with rfl | rfl <;> norm_num, by rcases hr with rfl | rfl <;> norm_num, .refl _⟩

theorem long_centre (k : Fin 4) : rootPt (0, [k]) (node .Q1 ((k + 2 : Fin 4) : Nat)) = ((0, (1 / 2, 1 / 2)) : Nat × (ℚ × ℚ)) := by
  fin_cases k <;> decide +kernel

/-- The value of `longG` at a node. -/
theorem long_val (k : Fin 4) (a : Nat) (ha : a < 4) (hc : ((0, [k]) : CN) ∈ longS.cells) :
    longG (place longS .Q1 (0, [k]) a) = if (k.1 < 2 ∧ a < 2) ∨ (2 ≤ k.1 ∧ 2 ≤ a) then 0 else 1 := by
  unfold place longG
  rw [phys_cell two_ne_zero longR_wf longS_reach (0, [k]) hc]
  rw [show rootQ longR ((0, [k]) : CN).1 = rootQ longR 0 from rfl, long_quad]
  have n0 : node .Q1 0 = (0, 0) := by decide +kernel
  have n1 : node .Q1 1 = (1, 0) := by decide +kernel
  have n2 : node .Q1 2 = (1, 1) := by decide +kernel
  have n3 : node .Q1 3 = (0, 1) := by decide +kernel
  fin_cases k <;> interval_cases a <;> simp [climb, emb, castPt, n0, n1, n2, n3, phys, toPhys] <;> norm_num

/-- **C101 does not hold on long rectangles.**  On a rectangle of sides 2 and 1, refined once, with no load and the Dirichlet values `4y(1 − y)`, which are nowhere
negative on the rectangle, `solve` returns the value `−1/5` at the centre. -/
theorem C101_long_violated (close : Pt ℝ → Pt ℝ → Bool) : ∃ rc re D V d fuel y u, Gauss.rule2 (2 ^ 2) = .ok rc ∧ Gauss.rule1 1 = .ok re ∧
    Setting close longR .Q1 false longS D V (fun _ => true) ∧ setHanging (F := ℝ) false longS .Q1 D [] = some ([], []) ∧
    BndDict longR false longS .Q1 D longG d ∧ (∀ c ∈ leaves false longS, ∀ a < nd2 .Q1, 0 ≤ longG (place longS .Q1 c a)) ∧
    Solved .Q1 (kernelOf (MvPolynomial.C 1)) (kernelOf 0) rc re 0 (fun _ => true) false longS D [] d true fuel sortedSet y u ∧
    feFn .Q1 D (fun a => u.getD a 0) (0, [0]) (1, 1) = -1 / 5 := by
  obtain ⟨rc, hrc⟩ := (C32_orders (2 ^ 2)).2.2 ⟨2, by norm_num, by norm_num, rfl⟩
  obtain ⟨re, hre⟩ := (C32_orders 1).1.2 (by norm_num)
  obtain ⟨D, V, _, hD, hV, _, _⟩ := Fn.C67_setup longR_wf longR_plain longS_reach (by decide +kernel) .Q1 close (n := 40) (by decide +kernel)
  have h : Setting close longR .Q1 false longS D V (fun _ => true) :=
    ⟨longR_wf, longR_plain, longR_convex, longR_rect, rfl, hV, fun _ _ => .inl rfl, .inl rfl⟩
  have hh := C101_no_hanging (e := .Q1) (D := D) (s := longS) (conf_of (by decide +kernel))
  obtain ⟨d, hdd⟩ := dict_exists h longG
  obtain ⟨h1, _⟩ := C69_one_answer h hrc hre (by decide) (k := kernelOf (MvPolynomial.C 1)) (S := 1) (j := 0) rfl
    (fun x _ => by simp [kernelOf, Kernel.eval, ev]) hh hdd true (kernelOf 0) sortedSet_spec.1 sortedSet_spec.2
  have hI : Inner longR false longS .Q1 D [] := (C69_inner h hh).2 (0, []) (by decide +kernel) (.inl rfl) (by decide +kernel)
  obtain ⟨fuel, y, u, hr⟩ := h1.1 hI
  have hmem : ∀ k : Fin 4, ((0, [k]) : CN) ∈ leaves false longS := by rw [long_leaves]; decide
  have hcell : ∀ k : Fin 4, ((0, [k]) : CN) ∈ longS.cells := fun k => leaf_mem h (hmem k)
  obtain ⟨A, E⟩ := galerkin h hh hdd sortedSet_spec.1 sortedSet_spec.2 hr
  have hrow : ∀ k : Fin 4, ∀ a < 4, Dof.val D (0, [k]) a = some (dofAt D (0, [k]) a) := fun k a ha =>
    (row_leaf h.wf h.plain h.ready.ready (hmem k)).2.2 a ha
  have hsh := (h.ready.ready.rdy h.wf h.plain h.cont).shared
  set m := dofAt D (0, [0]) 2 with hm
  -- the centre
  have hcen : ∀ k : Fin 4, dofAt D (0, [k]) ((k + 2 : Fin 4) : Nat) = m := by
    intro k
    refine (hsh (0, [k]) (0, [0]) _ 2 _ _ (k + 2 : Fin 4).2 (by decide) (hrow k _ (k + 2 : Fin 4).2) (hrow 0 2 (by omega))).2 ?_
    rw [long_centre, show rootPt ((0, [0]) : CN) (node .Q1 2) = ((0, (1 / 2, 1 / 2)) : Nat × (ℚ × ℚ)) from long_centre 0]
    exact .refl _
  have hoth : ∀ k : Fin 4, ∀ a < 4, a ≠ ((k + 2 : Fin 4) : Nat) → dofAt D (0, [k]) a ≠ m := by
    intro k a ha hne he
    have hs := (hsh (0, [k]) (0, [0]) a 2 _ _ ha (by decide) (hrow k a ha) (hrow 0 2 (by omega))).1 he
    obtain ⟨f, j, r, b1, b2, b3, b4, b5⟩ := long_bnd k a ha hne
    refine strict_bnd (B := longR) longR_wf (c := (0, [])) (z := ((1 / 2, 1 / 2) : ℚ × ℚ)) (by unfold Strict; norm_num) ?_
    refine ⟨f, j, r, b1, b2, b3, b4, .trans _ _ _ ?_ b5⟩
    rw [show rootPt ((0, [0]) : CN) (node .Q1 2) = ((0, (1 / 2, 1 / 2)) : Nat × (ℚ × ℚ)) from long_centre 0] at hs
    exact .symm _ _ hs
  let v : Nat → ℝ := fun a => if a = m then 1 else 0
  have hv : ∀ k : Fin 4, ∀ a < 4, v (dofAt D (0, [k]) a) = if a = ((k + 2 : Fin 4) : Nat) then 1 else 0 := by
    intro k a ha
    by_cases hne : a = ((k + 2 : Fin 4) : Nat)
    · rw [if_pos hne, hne]
      exact if_pos (hcen k)
    · rw [if_neg hne]
      exact if_neg (hoth k a ha hne)
  have hleaf : ∀ c ∈ leaves false longS, ∃ k : Fin 4, c = (0, [k]) := by
    rw [long_leaves]
    decide
  have hz : ZeroBnd longR false longS .Q1 D v := by
    intro c hc a ha hb
    obtain ⟨k, rfl⟩ := hleaf c hc
    rw [hv k a ha, if_neg]
    rintro rfl
    rw [long_centre] at hb
    exact strict_bnd (B := longR) longR_wf (c := (0, [])) (z := ((1 / 2, 1 / 2) : ℚ × ℚ)) (by unfold Strict; norm_num) hb
  have hS : Single longR false longS .Q1 D v :=
    (C62_continuous h.wf h.plain h.cont h.ready.ready (.inl rfl) hh v).1 (fun x hx => absurd hx (List.not_mem_nil))
  have hU : ∀ k : Fin 4, ∀ a < 4, u.getD (dofAt D (0, [k]) a) 0 =
      if a = ((k + 2 : Fin 4) : Nat) then u.getD m 0 else if (k.1 < 2 ∧ a < 2) ∨ (2 ≤ k.1 ∧ 2 ≤ a) then 0 else 1 := by
    intro k a ha
    by_cases hne : a = ((k + 2 : Fin 4) : Nat)
    · rw [if_pos hne, hne, hcen]
    · rw [if_neg hne, ← long_val k a ha (hcell k)]
      exact A.bnd (0, [k]) (hmem k) a ha (long_bnd k a ha hne)
  have eqn := E v hS hz
  rw [zero_load h hrc hre (kernel_poly 0 0), total2_exact h longR_par (prob hrc (by norm_num) hre (by norm_num) (kernel_poly _ _)), long_leaves] at eqn
  simp only [List.map_cons, List.map_nil, List.sum_cons, List.sum_nil] at eqn
  rw [long_prod 0 (hcell 0), long_prod 1 (hcell 1), long_prod 2 (hcell 2), long_prod 3 (hcell 3)] at eqn
  have H0 := hU 0
  have H1 := hU 1
  have H2 := hU 2
  have H3 := hU 3
  have G0 := hv 0
  have G1 := hv 1
  have G2 := hv 2
  have G3 := hv 3
  rw [G0 0 (by omega), G0 1 (by omega), G0 2 (by omega), G0 3 (by omega), G1 0 (by omega), G1 1 (by omega), G1 2 (by omega), G1 3 (by omega),
    G2 0 (by omega), G2 1 (by omega), G2 2 (by omega), G2 3 (by omega), G3 0 (by omega), G3 1 (by omega), G3 2 (by omega), G3 3 (by omega),
    H0 0 (by omega), H0 1 (by omega), H0 2 (by omega), H0 3 (by omega), H1 0 (by omega), H1 1 (by omega), H1 2 (by omega), H1 3 (by omega),
    H2 0 (by omega), H2 1 (by omega), H2 2 (by omega), H2 3 (by omega), H3 0 (by omega), H3 1 (by omega), H3 2 (by omega), H3 3 (by omega)] at eqn
  generalize hx : u.getD m 0 = x at eqn
  have f0 : ((0 + 2 : Fin 4) : Nat) = 2 := rfl
  have f1 : ((1 + 2 : Fin 4) : Nat) = 3 := rfl
  have f2 : ((2 + 2 : Fin 4) : Nat) = 0 := rfl
  have f3 : ((3 + 2 : Fin 4) : Nat) = 1 := rfl
  have v1 : ((1 : Fin 4) : Nat) = 1 := rfl
  have v2 : ((2 : Fin 4) : Nat) = 2 := rfl
  have v3 : ((3 : Fin 4) : Nat) = 3 := rfl
  simp only [f0, f1, f2, f3, v1, v2, v3] at eqn
  norm_num at eqn
  refine ⟨rc, re, D, V, d, fuel, y, u, hrc, hre, h, hh, hdd, ?_, hr, ?_⟩
  · intro c hc a ha
    obtain ⟨k, rfl⟩ := hleaf c hc
    rw [long_val k a ha (hcell k)]
    split_ifs <;> norm_num
  · rw [show feFn .Q1 D (fun a => u.getD a 0) ((0, [0]) : CN) (1, 1) = interp2 .Q1 (fun a => u.getD (dofAt D (0, [0]) a) 0) (1, 1) from rfl, fe_q1]
    have hx2 : u.getD (dofAt D (0, [0]) 2) 0 = x := hx
    simp only [hx2]
    linarith

end Verif.Max2
