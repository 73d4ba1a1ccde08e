import Verif.Gal.Props
import Verif.Dir.Ex

/-! # C69: examples -/

namespace Verif.Gal
open Verif.Mesh Verif.Dof Verif.Quad Verif.Fem Verif.Form Verif.Asm Verif.Phys Verif.Bnd Verif.Reg Verif.Dir Verif.Gauss

/-- Two squares side by side, with real coordinates. -/
noncomputable def twoR : Base ℝ where
  n := 2
  b := fun k => [0, 1, 4, 3, 1, 2, 5, 4].getD k 0
  hd := fun k => [1, 4, 3, 0, 2, 5, 4, 1].getD k 0
  T := fun k => if k = 1 then some 7 else if k = 7 then some 1 else none
  xy := fun k => [⟨0, 0⟩, ⟨1, 0⟩, ⟨2, 0⟩, ⟨0, 1⟩, ⟨1, 1⟩, ⟨2, 1⟩].getD k ⟨0, 0⟩

theorem twoR_wf : twoR.WF := ⟨twoB_wf.inv, twoB_wf.irr, twoB_wf.lt, twoB_wf.chain⟩

theorem twoR_plain : Plain twoR := ⟨twoB_plain.1, twoB_plain.2⟩

/-- The second square refined. -/
noncomputable def witR : St ℝ := sp (init twoR) (1, [])

theorem witR_bal : isBalanced false witR = true := by decide +kernel
theorem witR_len : witR.cells.length = 6 := by decide +kernel

theorem witR_reach : MReach twoR witR := (sp_reach twoR_wf .init (1, []) (by decide +kernel) rfl).2
theorem witR_kid : (1, []) ∈ witR.cells ∧ hasCh false witR (1, []) = true := by decide +kernel

theorem two_quad : ∀ f < twoR.n, rootQ twoR f = ⟨⟨f, 0⟩, ⟨f + 1, 0⟩, ⟨f + 1, 1⟩, ⟨f, 1⟩, ∅⟩ := by
  intro f hf
  have hf : f < 2 := hf
  interval_cases f <;> simp [rootQ, twoR] <;> norm_num

theorem twoR_convex : Fn.Convex twoR := by
  intro f hf
  rw [two_quad f hf]
  unfold ConvexCCW tri
  refine ⟨?_, ?_, ?_, ?_⟩ <;> simp only <;> nlinarith

theorem twoR_rect : RectOk (fun _ => true) twoR := by
  intro f hf _
  rw [two_quad f hf]
  exact ⟨rfl, rfl, rfl, rfl⟩

theorem twoR_one : OneBoundary twoR := by
  obtain ⟨g, h1, h2, h3⟩ := twoB_one
  exact ⟨g, h1, h2, h3⟩

/-- A kernel for a polynomial. -/
noncomputable def kernelOf (p : Poly) : Kernel (Pt ℝ) := ⟨[⟨1, fun x _ => ev p (x.x, x.y)⟩], fun l => l.getD 0 0⟩

theorem kernel_poly (p : Poly) (j : Nat) : IsPoly (kernelOf p) j p := ⟨1, rfl, fun x => by simp [kernelOf, Kernel.eval]⟩

/-- `κ = 1 + x²`, `p = 1 + x + 2y`: the load is `−2x`. -/
noncomputable def exκ : Poly := 1 + MvPolynomial.X 0 ^ 2
noncomputable def exp1 : Poly := 1 + MvPolynomial.X 0 + 2 * MvPolynomial.X 1
noncomputable def exp2 : Poly := MvPolynomial.X 0 ^ 2 + MvPolynomial.X 0 * MvPolynomial.X 1

theorem exκ_pos (z : ℝ × ℝ) : 0 < ev exκ z := by
  simp [exκ, ev]
  positivity

theorem exκ_deg : exκ.totalDegree ≤ 2 := by
  refine (MvPolynomial.totalDegree_add _ _).trans (max_le (by simp) ?_)
  exact (MvPolynomial.totalDegree_pow _ _).trans (by simp)

theorem exp1_deg : exp1.totalDegree ≤ 1 := by
  refine (MvPolynomial.totalDegree_add _ _).trans (max_le ((MvPolynomial.totalDegree_add _ _).trans (max_le (by simp) (by simp))) ?_)
  refine (MvPolynomial.totalDegree_mul _ _).trans ?_
  have : (2 : Poly).totalDegree = 0 := by
    rw [show (2 : Poly) = MvPolynomial.C 2 from (map_ofNat MvPolynomial.C 2).symm]
    exact MvPolynomial.totalDegree_C _
  simp [this]

theorem exp2_deg : exp2.totalDegree ≤ 2 := by
  refine (MvPolynomial.totalDegree_add _ _).trans (max_le ((MvPolynomial.totalDegree_pow _ _).trans (by simp)) ?_)
  exact (MvPolynomial.totalDegree_mul _ _).trans (by simp)

/-- The data of the examples. -/
theorem ex_data1 : ∃ rc re, Data twoR .Q1 2 1 0 rc re (kernelOf exκ) (kernelOf (diffuse exκ exp1)) exκ exp1 := by
  obtain ⟨rc, hrc⟩ := (C32_orders (2 ^ 2)).2.2 ⟨2, by norm_num, by norm_num, rfl⟩
  obtain ⟨re, hre⟩ := (C32_orders 1).1.2 (by norm_num)
  exact ⟨rc, re, hrc, by norm_num, hre, by decide, exp1_deg, (Nat.add_le_add_right exκ_deg _).trans (by decide), fun z _ => exκ_pos z, kernel_poly _ _, kernel_poly _ _⟩

theorem ex_data2 : ∃ rc re, Data twoR .Q2 3 1 0 rc re (kernelOf exκ) (kernelOf (diffuse exκ exp2)) exκ exp2 := by
  obtain ⟨rc, hrc⟩ := (C32_orders (3 ^ 2)).2.2 ⟨3, by norm_num, by norm_num, rfl⟩
  obtain ⟨re, hre⟩ := (C32_orders 1).1.2 (by norm_num)
  exact ⟨rc, re, hrc, by norm_num, hre, by decide, exp2_deg, (Nat.add_le_add_right exκ_deg _).trans (by decide), fun z _ => exκ_pos z, kernel_poly _ _, kernel_poly _ _⟩

open Classical in
/-- A dictionary with the values at the boundary nodes exists for every element. -/
theorem dict_exists {close : Pt ℝ → Pt ℝ → Bool} {B : Base ℝ} {e : ET} {sf : Bool} {s : St ℝ} {D : DH} {V : DV ℝ} {rect : Nat → Bool}
    (h : Setting close B e sf s D V rect) (g : Pt ℝ → ℝ) : ∃ d, BndDict B sf s e D g d := by
  let L : List Nat := (((leaves sf s).flatMap fun c => ((List.range (nd2 e)).filter fun i => BndPt B (rootPt c (node e i))).map fun i => dofAt D c i)).dedup
  have hL : ∀ a, a ∈ L ↔ ∃ c ∈ leaves sf s, ∃ i < nd2 e, BndPt B (rootPt c (node e i)) ∧ dofAt D c i = a := by
    intro a
    simp only [L, List.mem_dedup, List.mem_flatMap, List.mem_map, List.mem_filter, List.mem_range, decide_eq_true_eq, and_assoc]
  have hlk : ∀ (l : List Nat) (f : Nat → ℝ) a v, Dir.look (l.map fun a => (a, f a)) a = some v ↔ a ∈ l ∧ v = f a := by
    intro l f a v
    induction l with
    | nil => simp [Dir.look]
    | cons b l ih =>
      unfold Dir.look at ih ⊢
      by_cases hab : b = a
      · subst hab
        simp [eq_comm]
      · simp only [List.map_cons, List.find?_cons, decide_eq_false hab]
        rw [ih]
        simp [Ne.symm hab]
  refine ⟨L.map fun a => (a, ((getVert V a).map g).getD 0), ?_, fun a v => ?_⟩
  · rw [List.map_map]
    have : ((fun x : Nat × ℝ => x.1) ∘ fun a => (a, ((getVert V a).map g).getD 0)) = id := rfl
    rw [this, List.map_id]
    exact List.nodup_dedup _
  · rw [hlk, hL]
    constructor
    · rintro ⟨⟨c, hc, i, hi, hb, rfl⟩, rfl⟩
      have hv := (row_leaf h.wf h.plain h.ready.ready hc).2.2 i hi
      refine ⟨c, hc, i, hi, hv, hb, ?_⟩
      rw [vert_of h.wf h.plain h.ready hc hi hv]
      rfl
    · rintro ⟨c, hc, i, hi, hv, hb, rfl⟩
      have hv' := (row_leaf h.wf h.plain h.ready.ready hc).2.2 i hi
      rw [hv] at hv'
      refine ⟨⟨c, hc, i, hi, hb, (Option.some.inj hv').symm⟩, ?_⟩
      rw [vert_of h.wf h.plain h.ready hc hi hv]
      rfl

theorem Solved.eq {close : Pt ℝ → Pt ℝ → Bool} {B : Base ℝ} {e : ET} {sf : Bool} {s : St ℝ} {D : DH} {V : DV ℝ} {rect : Nat → Bool}
    {rc : List ((ℝ × ℝ) × ℝ)} {re : List (ℝ × ℝ)} {k kf : Kernel (Pt ℝ)} {n n1 j : Nat} {κ p : Poly} (h : Setting close B e sf s D V rect)
    (hd : Data B e n n1 j rc re k kf κ p) {H C : List (Linsys.Con ℝ)} (hh : setHanging sf s e D [] = some (H, C)) {d : List (Nat × ℝ)}
    (hD : BndDict B sf s e D (fun x => ev p (x.x, x.y)) d) (hI : Inner B sf s e D H) (keep : Bool) :
    ∃ fuel y u, Solved e k kf rc re j rect sf s D H d keep fuel sortedSet y u ∧ Equals s sf e D u p := by
  obtain ⟨S, hS, hk⟩ := hd.diff
  obtain ⟨h1, _⟩ := C69_one_answer h hd.rule2 hd.rule1 hd.order hS (fun x hx => by rw [hk]; exact hd.pos _ hx) hh hD keep kf sortedSet_spec.1 sortedSet_spec.2
  obtain ⟨fuel, y, u, hr⟩ := h1.1 hI
  exact ⟨fuel, y, u, hr, C69_reproduces h hd hh hD sortedSet_spec.1 sortedSet_spec.2 hr⟩

/-- The hypotheses of `C69_bilinear` on a mesh with a hanging node; there is an inner dof (the centre of the refined cell), so an answer exists. -/
example (close : Pt ℝ → Pt ℝ → Bool) : ∃ rc re D V H C d fuel y u, distributeV close false twoR.n witR .Q1 24 DH.new DV.new = some (D, V) ∧
    setHanging false witR .Q1 D [] = some (H, C) ∧ H ≠ [] ∧
    addDirichletA none true false twoR.n witR 24 .Q1 D V (fun x => ev exp1 (x.x, x.y)) [] = some d ∧
    Solved .Q1 (kernelOf exκ) (kernelOf (diffuse exκ exp1)) rc re 0 (fun _ => true) false witR D H d true fuel sortedSet y u ∧
    Equals witR false .Q1 D u exp1 := by
  obtain ⟨rc, re, hd⟩ := ex_data1
  obtain ⟨D, V, H, C, d, h1, h2, h3, h4⟩ := C69_bilinear twoR_wf twoR_plain twoR_convex twoR_one twoR_rect witR_reach witR_bal hd (m := 24)
    (by rw [witR_len]) close
  have hV := readyV_first twoR_wf twoR_plain witR_reach (.inl rfl) witR_bal (by rw [witR_len]) h1
  have h : Setting close twoR .Q1 false witR D V (fun _ => true) :=
    ⟨twoR_wf, twoR_plain, twoR_convex, twoR_rect, rfl, hV, fun _ _ => .inl rfl, .inl rfl⟩
  have hI : Inner twoR false witR .Q1 D H := (C69_inner h h2).2 (1, []) witR_kid.1 (.inl rfl) witR_kid.2
  obtain ⟨g1, g2⟩ := h4 true sortedSet sortedSet_spec.1 sortedSet_spec.2
  obtain ⟨N, hN⟩ := g2 hI
  obtain ⟨y, u, hr⟩ := hN N le_rfl
  have hl : ((1, [0]) : CN) ∈ leaves false witR := by decide +kernel
  have hl0 : ((0, []) : CN) ∈ leaves false witR := by decide +kernel
  have hH : H ≠ [] := by
    have hval := (row_leaf h.wf h.plain hV.ready hl).2.2 3 (by decide)
    have hsame : SamePt twoR (rootPt ((0, []) : CN) ((1, 1 / 2) : ℚ × ℚ)) (rootPt (1, [0]) (node .Q1 3)) :=
      .rel _ _ ⟨1, 3, 1 / 2, by norm_num, by norm_num, by decide, by decide, by decide, by decide +kernel, by decide +kernel⟩
    obtain ⟨x, hx, _⟩ := (C62_hanging h.wf h.plain h.cont hV.ready h2 (1, [0]) hl 3 _ (by decide) hval).2
      ⟨(0, []), hl0, (1, 1 / 2), (by unfold Dof.InSq; norm_num), hsame, by decide +kernel⟩
    intro h0
    rw [h0] at hx
    cases hx
  exact ⟨rc, re, D, V, H, C, d, N, y, u, h1, h2, hH, h3, hr, g1 N y u hr⟩

/-- The hypotheses of `C69_reproduces`, `C69_solvable` and `C69_one_answer` for biquadratic elements, on a mesh with a hanging node: a dictionary
with the values at the boundary nodes exists, `solve` has an answer, and it is the polynomial. -/
example (close : Pt ℝ → Pt ℝ → Bool) : ∃ rc re D V H C d fuel y u, Setting close twoR .Q2 false witR D V (fun _ => true) ∧
    Data twoR .Q2 3 1 0 rc re (kernelOf exκ) (kernelOf (diffuse exκ exp2)) exκ exp2 ∧ setHanging false witR .Q2 D [] = some (H, C) ∧
    BndDict twoR false witR .Q2 D (fun x => ev exp2 (x.x, x.y)) d ∧ Inner twoR false witR .Q2 D H ∧
    Solved .Q2 (kernelOf exκ) (kernelOf (diffuse exκ exp2)) rc re 0 (fun _ => true) false witR D H d true fuel sortedSet y u ∧
    Equals witR false .Q2 D u exp2 := by
  obtain ⟨rc, re, hd⟩ := ex_data2
  obtain ⟨D, V, _, hD, hV, _, _⟩ := Fn.C67_setup twoR_wf twoR_plain witR_reach witR_bal .Q2 close (n := 24) (by rw [witR_len])
  have h : Setting close twoR .Q2 false witR D V (fun _ => true) :=
    ⟨twoR_wf, twoR_plain, twoR_convex, twoR_rect, rfl, hV, fun _ _ => .inl rfl, .inl rfl⟩
  obtain ⟨⟨H, C⟩, hh⟩ := C62_succeeds (F := ℝ) twoR_wf hV.ready (.inl rfl) []
  have hI : Inner twoR false witR .Q2 D H := (C69_inner h hh).1 (0, []) (by decide +kernel) (.inl rfl)
  obtain ⟨d, hdd⟩ := dict_exists h (fun x => ev exp2 (x.x, x.y))
  obtain ⟨fuel, y, u, h1, h2⟩ := Solved.eq h hd hh hdd hI true
  exact ⟨rc, re, D, V, H, C, d, fuel, y, u, h, hd, hh, hdd, hI, h1, h2⟩

/-- A harmonic polynomial: `x² − y² + xy`. -/
noncomputable def exp3 : Poly := MvPolynomial.X 0 ^ 2 - MvPolynomial.X 1 ^ 2 + MvPolynomial.X 0 * MvPolynomial.X 1

theorem exp3_deg : exp3.totalDegree ≤ 2 := by
  refine (MvPolynomial.totalDegree_add _ _).trans (max_le ((MvPolynomial.totalDegree_sub _ _).trans (max_le ?_ ?_)) ?_)
  · exact (MvPolynomial.totalDegree_pow _ _).trans (by simp)
  · exact (MvPolynomial.totalDegree_pow _ _).trans (by simp)
  · exact (MvPolynomial.totalDegree_mul _ _).trans (by simp)

theorem exp3_harmonic : diffuse 1 exp3 = 0 := by
  have h0 : ∀ i : Fin 2, (MvPolynomial.pderiv i) (2 : Poly) = 0 := fun i => by
    rw [show (2 : Poly) = MvPolynomial.C 2 from (map_ofNat MvPolynomial.C 2).symm]
    exact MvPolynomial.pderiv_C
  have h1 : dx (1 * dx exp3) = 2 := by
    simp [dx, exp3, MvPolynomial.pderiv_X, Derivation.leibniz, h0]
  have h2 : dy (1 * dy exp3) = -2 := by
    simp [dy, exp3, MvPolynomial.pderiv_X, Derivation.leibniz, h0]
  unfold diffuse
  rw [h1, h2]
  simp

/-- The hypotheses of `C69_system_partial` and `C69_system_runs` for biquadratic elements on a mesh with hanging nodes, and the whole computation. -/
example (close : Pt ℝ → Pt ℝ → Bool) : ∃ (rc : _) (D : DH) (s' : Linsys.St ℝ D.count 1) (u : _), Gauss.rule2 9 = .ok rc ∧ s'.u = some u ∧
    ∀ c ∈ leaves false witR, ∀ z, feFn .Q2 D (Linsys.colOf u 0) c z = ev exp3 (F (cellQ witR c) z) := by
  obtain ⟨rc, hrc⟩ := (C32_orders (3 ^ 2)).2.2 ⟨3, by norm_num, by norm_num, rfl⟩
  obtain ⟨re, hre⟩ := (C32_orders 1).1.2 (by norm_num)
  have hd : Data twoR .Q2 3 1 0 rc re (kernelOf 1) (kernelOf (diffuse 1 exp3)) 1 exp3 :=
    ⟨hrc, by norm_num, hre, by decide, exp3_deg, by simp; decide, fun z _ => by simp [ev], kernel_poly _ _, kernel_poly _ _⟩
  obtain ⟨D, V, _, hD, hV, _, _⟩ := Fn.C67_setup twoR_wf twoR_plain witR_reach witR_bal .Q2 close (n := 24) (by rw [witR_len])
  have h : Setting close twoR .Q2 false witR D V (fun _ => true) :=
    ⟨twoR_wf, twoR_plain, twoR_convex, twoR_rect, rfl, hV, fun _ _ => .inl rfl, .inl rfl⟩
  obtain ⟨⟨H, C⟩, hh⟩ := C62_succeeds (F := ℝ) twoR_wf hV.ready (.inl rfl) []
  obtain ⟨S, hS, hk⟩ := hd.diff
  obtain ⟨C', N, af2, af1, A, ub, b, g1, g2, g3, g4, g5⟩ := C69_system_runs h (by decide) hrc hre hd.order hS (fun x hx => by rw [hk]; exact hd.pos _ hx)
    (kernelOf (diffuse 1 exp3)) twoR_one (m := 24) (by rw [witR_len]) (fun x => ev exp3 (x.x, x.y)) hh true sortedSet_spec.1 sortedSet_spec.2
  obtain ⟨s', hs'⟩ := g5 true
  obtain ⟨u, k1, k2⟩ := C69_system_partial h hd twoR_one (by rw [witR_len]) hh g1 (g2 N le_rfl).1 (g2 N le_rfl).2 sortedSet_spec.1 sortedSet_spec.2 g3 g4
    (.inr exp3_harmonic) true s' hs'
  exact ⟨rc, D, s', u, hrc, k1, k2⟩

/-- **C69 does not hold without inner dofs**: on the mesh of two squares, bilinear elements, `consolidate` raises an `IndexError`
(`udofs[-1]` of an empty list), although the discrete problem has a solution (the boundary values). -/
theorem C69_no_inner_violated (close : Pt ℝ → Pt ℝ → Bool) : ∃ rc re D V H C d, Setting close twoR .Q1 false (init twoR) D V (fun _ => true) ∧
    Data twoR .Q1 2 1 0 rc re (kernelOf exκ) (kernelOf (diffuse exκ exp1)) exκ exp1 ∧ setHanging false (init twoR) .Q1 D [] = some (H, C) ∧
    addDirichletA none true false twoR.n (init twoR) 24 .Q1 D V (fun x => ev exp1 (x.x, x.y)) [] = some d ∧
    ∀ keep fuel ord y u, SetOrder ord →
      ¬ Solved .Q1 (kernelOf exκ) (kernelOf (diffuse exκ exp1)) rc re 0 (fun _ => true) false (init twoR) D H d keep fuel ord y u := by
  obtain ⟨rc, re, hd⟩ := ex_data1
  have hlen : 4 * (init twoR).cells.length ≤ 24 := by decide +kernel
  obtain ⟨D, V, _, hD, hV, _, _⟩ := Fn.C67_setup twoR_wf twoR_plain .init (Fn.init_balanced (B := twoR)) .Q1 close (n := 24) hlen
  have h : Setting close twoR .Q1 false (init twoR) D V (fun _ => true) :=
    ⟨twoR_wf, twoR_plain, twoR_convex, twoR_rect, rfl, hV, fun _ _ => .inl rfl, .inl rfl⟩
  obtain ⟨⟨H, C⟩, hh⟩ := C62_succeeds (F := ℝ) twoR_wf hV.ready (.inl rfl) []
  obtain ⟨d, hda, _⟩ := C66_assembler_partial twoR_wf twoR_plain rfl hV h.roots (.inl rfl) hlen twoR_one none (fun x => ev exp1 (x.x, x.y)) [] (by simp)
  have hdd := dict_Q1 twoR_wf twoR_plain hV h.roots (.inl rfl) hlen twoR_one _ hda
  refine ⟨rc, re, D, V, H, C, d, h, hd, hh, hda, fun keep fuel ord y u ho hr => ?_⟩
  obtain ⟨c, hc, i, hi, hb, _⟩ := inner_of h hh hdd ho hr
  apply hb
  have hl : leaves false (init twoR) = [(0, []), (1, [])] := by decide +kernel
  rw [hl] at hc
  have hE : ∀ i < 4, ∃ (l : Fin 4) (r : ℚ), (l = 0 ∨ l = 2) ∧ 0 ≤ r ∧ r ≤ 1 ∧ node .Q1 i = E l r := by
    intro i hi
    interval_cases i
    · exact ⟨0, 0, .inl rfl, by norm_num, by norm_num, by decide +kernel⟩
    · exact ⟨0, 1, .inl rfl, by norm_num, by norm_num, by decide +kernel⟩
    · exact ⟨2, 0, .inr rfl, by norm_num, by norm_num, by decide +kernel⟩
    · exact ⟨2, 1, .inr rfl, by norm_num, by norm_num, by decide +kernel⟩
  obtain ⟨l, r, h1, h2, h3, h4⟩ := hE i hi
  have hc' : c = (0, []) ∨ c = (1, []) := by simpa using hc
  rcases hc' with rfl | rfl
  · refine ⟨0, l, r, by decide, ?_, h2, h3, ?_⟩
    · rcases h1 with rfl | rfl <;> decide
    · rw [h4]; exact .refl _
  · refine ⟨1, l, r, by decide, ?_, h2, h3, ?_⟩
    · rcases h1 with rfl | rfl <;> decide
    · rw [h4]; exact .refl _

end Verif.Gal
