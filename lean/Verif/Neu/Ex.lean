import Verif.Neu.Props
import Verif.Gal.Ex

/-! # C88: examples -/

namespace Verif.Neu
open Verif.Mesh Verif.Dof Verif.Quad Verif.Fem Verif.Form Verif.Asm Verif.Phys Verif.Gal Verif.Bnd Verif.Reg Verif.Dir Verif.Gauss

theorem F_side (q : QD ℝ) (i : Fin 4) (r : ℝ) : F q (E i r) = ((1 - r) * (q.v i).x + r * (q.v (i + 1)).x, (1 - r) * (q.v i).y + r * (q.v (i + 1)).y) := by
  fin_cases i <;> simp [F, toPhys, E, QD.v] <;> constructor <;> ring

theorem wit_leaves : leaves false witR = [(0, []), (1, [0]), (1, [1]), (1, [2]), (1, [3])] := by decide +kernel

/-- The vertices of the leaves. -/
theorem wit_verts : ∀ c ∈ leaves false witR, ∃ fl, cellQ witR c =
    (if c = (0, []) then ⟨⟨0, 0⟩, ⟨1, 0⟩, ⟨1, 1⟩, ⟨0, 1⟩, fl⟩
     else if c = (1, [0]) then ⟨⟨1, 0⟩, ⟨3 / 2, 0⟩, ⟨3 / 2, 1 / 2⟩, ⟨1, 1 / 2⟩, fl⟩
     else if c = (1, [1]) then ⟨⟨3 / 2, 0⟩, ⟨2, 0⟩, ⟨2, 1 / 2⟩, ⟨3 / 2, 1 / 2⟩, fl⟩
     else if c = (1, [2]) then ⟨⟨3 / 2, 1 / 2⟩, ⟨2, 1 / 2⟩, ⟨2, 1⟩, ⟨3 / 2, 1⟩, fl⟩
     else ⟨⟨1, 1 / 2⟩, ⟨3 / 2, 1 / 2⟩, ⟨3 / 2, 1⟩, ⟨1, 1⟩, fl⟩ : QD ℝ) := by
  intro c hc
  have hm : c ∈ witR.cells := by
    have hi := witR_reach.inv twoR_wf
    exact (hi.mem c).2 ((Dof.mem_leaves hi c).1 hc).1
  obtain ⟨h0, h1, h2, h3⟩ := cellQ_eq twoR_wf witR_reach c hm
  rw [wit_leaves] at hc
  refine ⟨(cellQ witR c).flags, ?_⟩
  have key : ∀ q q' : QD ℝ, q.v0 = q'.v0 → q.v1 = q'.v1 → q.v2 = q'.v2 → q.v3 = q'.v3 → q.flags = q'.flags → q = q' := by
    rintro ⟨⟩ ⟨⟩ rfl rfl rfl rfl rfl
    rfl
  fin_cases hc <;> refine key _ _ (h0.trans ?_) (h1.trans ?_) (h2.trans ?_) (h3.trans ?_) rfl <;>
    simp [quadAt, QD.child, ofVerts, QD.childVerts, List.rotateRight, QD.m, QD.center, mid, rootQ, twoR, QD.v] <;> norm_num

/-- A horizontal or vertical side. -/
theorem normal_h {q : QD ℝ} {i : Fin 4} (h : (q.v (i + 1)).y = (q.v i).y) (hx : (q.v i).x < (q.v (i + 1)).x) : normal q i = (0, -1) := by
  have : sideLen q i = (q.v (i + 1)).x - (q.v i).x := by
    unfold sideLen
    rw [h, sub_self]
    simp [Real.sqrt_sq (sub_nonneg.2 hx.le)]
  have h0 : (q.v (i + 1)).x - (q.v i).x ≠ 0 := (sub_pos.2 hx).ne'
  unfold normal
  rw [this, h, sub_self, zero_div, neg_div, div_self h0]

theorem normal_h' {q : QD ℝ} {i : Fin 4} (h : (q.v (i + 1)).y = (q.v i).y) (hx : (q.v (i + 1)).x < (q.v i).x) : normal q i = (0, 1) := by
  have : sideLen q i = -((q.v (i + 1)).x - (q.v i).x) := by
    unfold sideLen
    rw [h, sub_self, neg_sub, ← neg_sq, neg_sub]
    simp [Real.sqrt_sq (sub_nonneg.2 hx.le)]
  have h0 : -((q.v (i + 1)).x - (q.v i).x) ≠ 0 := by
    rw [neg_sub]
    exact (sub_pos.2 hx).ne'
  unfold normal
  rw [this, h, sub_self, zero_div, div_self h0]

theorem normal_v {q : QD ℝ} {i : Fin 4} (h : (q.v (i + 1)).x = (q.v i).x) (hx : (q.v i).y < (q.v (i + 1)).y) : normal q i = (1, 0) := by
  have : sideLen q i = (q.v (i + 1)).y - (q.v i).y := by
    unfold sideLen
    rw [h, sub_self]
    simp [Real.sqrt_sq (sub_nonneg.2 hx.le)]
  have h0 : (q.v (i + 1)).y - (q.v i).y ≠ 0 := (sub_pos.2 hx).ne'
  unfold normal
  rw [this, h, sub_self, neg_zero, zero_div, div_self h0]

/-- The marks: flag 0 (Dirichlet) on the left vertices, flags 1, 2, 3 on the half-edges at the bottom, the top, the right. -/
def exMk (t : Nat) : Ent → Bool
  | .vertex v => decide (t = 0 ∧ (v = .root 0 ∨ v = .root 3))
  | .half h => decide (
      (t = 1 ∧ h ∈ [side (0, []) 0, side (1, [0]) 0, side (1, [1]) 0]) ∨
      (t = 2 ∧ h ∈ [side (0, []) 2, side (1, [3]) 2, side (1, [2]) 2]) ∨
      (t = 3 ∧ h ∈ [side (1, [1]) 1, side (1, [2]) 1]))
  | .cell _ => false

theorem wit_sides : ∀ c ∈ leaves false witR, ∀ i, witR.sides c i = side c i := by decide +kernel

theorem two_connected : Connected twoR := by
  have h01 : (fun f g : Nat => ∃ i j : Fin 4, twoR.T (4 * f + i) = some (4 * g + j)) 0 1 := ⟨1, 3, rfl⟩
  have h10 : (fun f g : Nat => ∃ i j : Fin 4, twoR.T (4 * f + i) = some (4 * g + j)) 1 0 := ⟨3, 1, rfl⟩
  intro f hf g hg
  have hf : f < 2 := hf
  have hg : g < 2 := hg
  interval_cases f <;> interval_cases g
  · exact .refl
  · exact .single h01
  · exact .single h10
  · exact .refl

/-- The boundary sides and their flags. -/
theorem wit_bnd : ∀ c ∈ leaves false witR, ∀ i, vt twoR.T (side c i) = none →
    (c = (0, []) ∧ i = 3) ∨
    (edgeMarks [3, 1, 2, 3] exMk witR c i = {1} ∧ i = 0 ∧ (c = (0, []) ∨ c = (1, [0]) ∨ c = (1, [1]))) ∨
    (edgeMarks [3, 1, 2, 3] exMk witR c i = {2} ∧ i = 2 ∧ (c = (0, []) ∨ c = (1, [3]) ∨ c = (1, [2]))) ∨
    (edgeMarks [3, 1, 2, 3] exMk witR c i = {3} ∧ i = 1 ∧ (c = (1, [1]) ∨ c = (1, [2]))) := by decide +kernel

theorem wit_in : ∀ c ∈ leaves false witR, ∀ i, vt twoR.T (side c i) ≠ none → ∀ t ∈ [3, 1, 2, 3], exMk t (.half (witR.sides c i)) = false := by decide +kernel

theorem wit_left : exMk 0 (.vertex (ends witR (witR.sides (0, []) 3)).1) = true ∧ exMk 0 (.vertex (ends witR (witR.sides (0, []) (3 + 1))).1) = true := by
  decide +kernel

/-- The boundary forms: `∫ u v` on the right; `−2κ` at the bottom, `2κ` at the top, `κ + p` on the right. -/
noncomputable def exRob : List (Kernel (Pt ℝ) × Nat) := [(kernelOf 1, 3)]
noncomputable def exNeu : List (Kernel (Pt ℝ) × Nat) := [(kernelOf (-2 * exκ), 1), (kernelOf (2 * exκ), 2), (kernelOf (exκ + exp1), 3)]

theorem kval_of (q : Poly) (j : Nat) (x : ℝ × ℝ) : kval (kernelOf q) j x = ev q x := by
  have h : sampleSize (kernelOf q) = .ok 1 := rfl
  unfold kval
  rw [h]
  simp [kernelOf, Kernel.eval]

theorem exp1_grad (z : ℝ × ℝ) : ev (dx exp1) z = 1 ∧ ev (dy exp1) z = 2 := by
  have h0 : ∀ i : Fin 2, (MvPolynomial.pderiv i) (2 : Poly) = 0 := fun i => by
    rw [show (2 : Poly) = MvPolynomial.C 2 from (map_ofNat MvPolynomial.C 2).symm]
    exact MvPolynomial.pderiv_C
  constructor <;> simp [dx, dy, exp1, ev, MvPolynomial.pderiv_X, Derivation.leibniz, h0]

theorem ev_two (z : ℝ × ℝ) : ev (2 : Poly) z = 2 := by simp [ev]

theorem wit_natural : ∀ c ∈ leaves false witR, ∀ i, OnBoundary twoR c i → (exMk 0 (.vertex (ends witR (witR.sides c i)).1) = true ∧
      exMk 0 (.vertex (ends witR (witR.sides c (i + 1))).1) = true) ∨ Natural witR (edgeMarks [3, 1, 2, 3] exMk witR) exRob exNeu 0 exκ exp1 c i := by
  intro c hc i hb
  obtain ⟨fl, hq⟩ := wit_verts c hc
  rcases wit_bnd c hc i ((vt_none_iff twoR c i).2 hb) with ⟨rfl, rfl⟩ | ⟨h1, rfl, h2⟩ | ⟨h1, rfl, h2⟩ | ⟨h1, rfl, h2⟩
  · exact .inl wit_left
  · right
    have hn : normal (cellQ witR c) 0 = (0, -1) := by
      rcases h2 with rfl | rfl | rfl <;> refine normal_h ?_ ?_ <;> rw [hq] <;> simp [QD.v] <;> norm_num
    intro r _ _
    rw [h1, hn, (exp1_grad _).1, (exp1_grad _).2]
    simp [sideSum, exRob, exNeu, kval_of, ev]
    ring
  · right
    have hn : normal (cellQ witR c) 2 = (0, 1) := by
      rcases h2 with rfl | rfl | rfl <;> refine normal_h' ?_ ?_ <;> rw [hq] <;> simp [QD.v] <;> norm_num
    intro r _ _
    rw [h1, hn, (exp1_grad _).1, (exp1_grad _).2]
    simp [sideSum, exRob, exNeu, kval_of, ev]
    ring
  · right
    have hn : normal (cellQ witR c) 1 = (1, 0) := by
      rcases h2 with rfl | rfl <;> refine normal_v ?_ ?_ <;> rw [hq] <;> simp [QD.v]; norm_num
    intro r _ _
    rw [h1, hn, (exp1_grad _).1, (exp1_grad _).2]
    simp [sideSum, exRob, exNeu, kval_of, ev]

theorem deg_scaled (a : ℝ) : (MvPolynomial.C a * exκ).totalDegree ≤ 2 :=
  (MvPolynomial.totalDegree_mul _ _).trans (by rw [MvPolynomial.totalDegree_C, zero_add]; exact exκ_deg)

/-- The hypotheses of `C88_bilinear` (and with it of the other theorems) on a mesh with a hanging node, Dirichlet values on the left, Neumann
conditions at the bottom and the top, a Robin condition on the right; an answer exists, and it is `1 + x + 2y`. -/
example (close : Pt ℝ → Pt ℝ → Bool) : ∃ rc re D V H C d fuel y u, distributeV close false twoR.n witR .Q1 24 DH.new DV.new = some (D, V) ∧
    setHanging false witR .Q1 D [] = some (H, C) ∧
    addDirichletA (some (exMk 0)) true false twoR.n witR 24 .Q1 D V (fun x => ev exp1 (x.x, x.y)) [] = some d ∧
    SolvedM .Q1 (kernelOf exκ) (kernelOf (diffuse exκ exp1)) exRob exNeu rc re 0 (edgeMarks [3, 1, 2, 3] exMk witR) (fun _ => true) false witR D H d true
      fuel sortedSet y u ∧ Equals witR false .Q1 D u exp1 := by
  obtain ⟨rc, hrc⟩ := (C32_orders (2 ^ 2)).2.2 ⟨2, by norm_num, by norm_num, rfl⟩
  obtain ⟨re, hre⟩ := (C32_orders 2).1.2 (by norm_num)
  have hd : Data twoR .Q1 2 2 0 rc re (kernelOf exκ) (kernelOf (diffuse exκ exp1)) exκ exp1 :=
    ⟨hrc, by norm_num, hre, by decide, exp1_deg, (Nat.add_le_add_right exκ_deg _).trans (by decide), fun z _ => exκ_pos z, kernel_poly _ _, kernel_poly _ _⟩
  have h2 : (2 : Poly) = MvPolynomial.C 2 := (map_ofNat MvPolynomial.C 2).symm
  have hm2 : (-2 : Poly) = MvPolynomial.C (-2) := by rw [map_neg, h2]
  obtain ⟨D, V, H, C, d, h1, h2, h3, h4⟩ := C88_bilinear (rob := exRob) (neu := exNeu) twoR_wf twoR_plain twoR_convex twoR_one twoR_rect witR_reach witR_bal two_connected
    exMk 0 (fl := [3, 1, 2, 3]) rfl hd (by norm_num) (by
      intro y hy
      simp only [exRob, List.mem_singleton] at hy
      subst hy
      exact ⟨1, kernel_poly _ _, by simp, fun z _ => by simp [ev]⟩) (by
      intro y hy
      simp only [exNeu, List.mem_cons, List.not_mem_nil, or_false] at hy
      rcases hy with rfl | rfl | rfl
      · refine ⟨_, kernel_poly _ _, ?_⟩
        rw [hm2]
        exact Nat.add_le_add_right (deg_scaled _) 1
      · refine ⟨_, kernel_poly _ _, ?_⟩
        rw [h2]
        exact Nat.add_le_add_right (deg_scaled _) 1
      · refine ⟨_, kernel_poly _ _, ?_⟩
        have : (exκ + exp1).totalDegree ≤ 2 := (MvPolynomial.totalDegree_add _ _).trans (max_le exκ_deg (exp1_deg.trans (by norm_num)))
        exact Nat.add_le_add_right this 1)
    (fun c hc i hb => wit_in c hc i (fun h0 => hb ((vt_none_iff twoR c i).1 h0))) wit_natural
    ⟨(0, []), by rw [wit_leaves]; simp, 3, (vt_none_iff twoR _ _).1 (by decide +kernel), wit_left.1⟩ (m := 24) (by rw [witR_len]) close
  have hV := readyV_first twoR_wf twoR_plain witR_reach (.inl rfl) witR_bal (by rw [witR_len]) h1
  have h : Setting close twoR .Q1 false witR D V (fun _ => true) :=
    ⟨twoR_wf, twoR_plain, twoR_convex, twoR_rect, rfl, hV, fun _ _ => .inl rfl, .inl rfl⟩
  obtain ⟨d', k1, k2, k3⟩ := C66_assembler_partial twoR_wf twoR_plain rfl hV h.roots (.inl rfl) (n := 24) (by rw [witR_len]) twoR_one (some (exMk 0))
    (fun x => ev exp1 (x.x, x.y)) [] (by simp)
  rw [h3] at k1
  cases k1
  have hH : Holds twoR false witR .Q1 D (fun x => ev exp1 (x.x, x.y)) d := by
    refine ⟨k2, fun a v hl => ?_⟩
    rcases (k3 a v).1 hl with ⟨c, i, hm', hval, rfl⟩ | ⟨_, h0⟩
    · exact ⟨c, hm'.1, i, hm'.2.1, hval, hm'.bnd twoR_wf witR_reach, rfl⟩
    · simp [Dir.look] at h0
  have hI : FreeNode false witR .Q1 D H d := (C88_free h h2 hH).2 (1, []) witR_kid.1 (.inl rfl) witR_kid.2
  obtain ⟨g1, g2⟩ := h4 true sortedSet sortedSet_spec.1 sortedSet_spec.2
  obtain ⟨N, hN⟩ := g2 hI
  obtain ⟨y, u, hr⟩ := hN N le_rfl
  exact ⟨rc, re, D, V, H, C, d, N, y, u, h1, h2, h3, hr, g1 N y u hr⟩

/-- Flag 1 on all boundary half-edges. -/
noncomputable def allMk (t : Nat) : Ent → Bool
  | .half h => decide (t = 1 ∧ vt twoR.T h = none)
  | _ => false

/-- **C88 fails without Dirichlet values**: a Robin problem on the whole boundary (`−Δu = 0`, `∂u/∂n + u = 1`, solved by `u = 1`) satisfies all other
hypotheses, and the dof values of `u` solve the assembled equations, but `solve` raises an `IndexError` (`assembled_bnd` of an empty list). -/
theorem C88_no_dirichlet_violated (close : Pt ℝ → Pt ℝ → Bool) : ∃ rc re D V H C, Setting close twoR .Q1 false witR D V (fun _ => true) ∧
    Connected twoR ∧ setHanging false witR .Q1 D [] = some (H, C) ∧
    Mixed twoR false witR .Q1 D (edgeMarks [1, 1] allMk witR) [] 2 2 0 rc re (kernelOf 1) (kernelOf (diffuse 1 1)) [(kernelOf 1, 1)] [(kernelOf 1, 1)] 1 1 ∧
    (∀ v, Single twoR false witR .Q1 D v →
      total2 (contribs .Q1 (mixedBil (kernelOf 1) [(kernelOf 1, 1)]) rc re 0 (meshCellsM (edgeMarks [1, 1] allMk witR) (fun _ => true) false witR D)) v (coeffs V 1) =
      total1 (loads .Q1 (mixedLin (kernelOf (diffuse 1 1)) [(kernelOf 1, 1)]) rc re 0 (meshCellsM (edgeMarks [1, 1] allMk witR) (fun _ => true) false witR D)) v) ∧
    ∀ keep fuel ord y u, ¬ SolvedM .Q1 (kernelOf 1) (kernelOf (diffuse 1 1)) [(kernelOf 1, 1)] [(kernelOf 1, 1)] rc re 0 (edgeMarks [1, 1] allMk witR) (fun _ => true)
      false witR D H [] keep fuel ord y u := by
  obtain ⟨rc, hrc⟩ := (C32_orders (2 ^ 2)).2.2 ⟨2, by norm_num, by norm_num, rfl⟩
  obtain ⟨re, hre⟩ := (C32_orders 2).1.2 (by norm_num)
  have hd : Data twoR .Q1 2 2 0 rc re (kernelOf 1) (kernelOf (diffuse 1 1)) 1 1 :=
    ⟨hrc, by norm_num, hre, by decide, by simp, by simp; decide, fun z _ => by simp [ev], kernel_poly _ _, kernel_poly _ _⟩
  obtain ⟨D, V, _, hD, hV, _, _⟩ := Fn.C67_setup twoR_wf twoR_plain witR_reach witR_bal .Q1 close (n := 24) (by rw [witR_len])
  have h : Setting close twoR .Q1 false witR D V (fun _ => true) :=
    ⟨twoR_wf, twoR_plain, twoR_convex, twoR_rect, rfl, hV, fun _ _ => .inl rfl, .inl rfl⟩
  obtain ⟨⟨H, C⟩, hh⟩ := C62_succeeds (F := ℝ) twoR_wf hV.ready (.inl rfl) []
  have hM : Mixed twoR false witR .Q1 D (edgeMarks [1, 1] allMk witR) [] 2 2 0 rc re (kernelOf 1) (kernelOf (diffuse 1 1)) [(kernelOf 1, 1)] [(kernelOf 1, 1)] 1 1 := by
    refine ⟨hd, by norm_num, ?_, ?_, ?_, ?_⟩
    · simp only [List.mem_singleton]
      rintro y rfl
      exact ⟨1, kernel_poly _ _, by simp [deg], fun z _ => by simp [ev]⟩
    · simp only [List.mem_singleton]
      rintro y rfl
      exact ⟨1, kernel_poly _ _, by simp [deg]⟩
    · intro c hc i hb y _ hm
      have := ((mem_marks _ _ _ _ _ _).1 hm).2
      rw [wit_sides c hc i] at this
      simp only [allMk, decide_eq_true_eq] at this
      exact hb ((vt_none_iff twoR c i).1 this.2)
    · intro c hc i hb
      right
      intro r _ _
      have h1 : (1 : Nat) ∈ edgeMarks [1, 1] allMk witR c i := by
        rw [mem_marks, wit_sides c hc i]
        simp [allMk, (vt_none_iff twoR c i).2 hb]
      simp [sideSum, h1, kval_of, ev, dx, dy]
  refine ⟨rc, re, D, V, H, C, h, two_connected, hh, hM, fun v hv => consistent h hM hv (fun a ha => by simp [Dir.look] at ha), fun keep fuel ord y u hr => ?_⟩
  obtain ⟨af2, af1, A, ub, b, x0, h2, h1, hA, hb, hx, _, hs, hu⟩ := hr.run
  rw [C54_no_dirichlet_violated (fun _ => rfl) h2 hA] at hu
  cases hu

end Verif.Neu
