import Verif.Nrm.Core
import Verif.Gal.Ex

/-!
# C90: mapped rules, unit normals, and Gauss' theorem
-/

namespace Verif.Nrm
open Verif.Mesh Verif.Dof Verif.Quad Verif.Fem Verif.Phys Verif.Gal Verif.Bnd Verif.Reg Verif.Gauss Verif.Neu Verif.Form

/-- **C90 (which pairs are accepted).**  A rule is mapped exactly if its dimension is the dimension of the region: 1 for intervals and half-edges, 2 for
quadrilaterals; the dimension is what is complained about, except for regions of another kind. -/
theorem C90_accepts (rule : Rule) (region : Region) :
    ((∃ m, mappedRule rule region = .ok m) ↔ match region with
      | .interval _ => ∃ r, rule = .one r
      | .halfEdge _ => ∃ r, rule = .one r
      | .quadCell _ => ∃ r, rule = .two r
      | .other => False) ∧
    (mappedRule rule region = .error .unsupported ↔ region = .other) := by
  cases region <;> cases rule <;> simp [mappedRule]

/-- **C90 (the points).**  The mapped rule has one point for every node, in their order; on an edge the points are the images of the nodes, on a cell as
well; the weights are positive and add up to the length of the edge, the area of the cell. -/
theorem C90_points {n1 : Nat} {re : List (ℝ × ℝ)} (hre : rule1 n1 = .ok re) (h5 : n1 ≤ 5) {e : Seg ℝ} (he : e.1 ≠ e.2) :
    ∃ l, mappedRule (.one re) (.halfEdge e) = .ok (.plane l) ∧ l.map (·.1) = re.map (fun p => segMap e p.1) ∧ (∀ p ∈ l, OnSeg e p.1 ∧ 0 < p.2) ∧
      (l.map (·.2)).sum = √((e.2.x - e.1.x) ^ 2 + (e.2.y - e.1.y) ^ 2) := by
  have hpos : 0 < √((e.2.x - e.1.x) ^ 2 + (e.2.y - e.1.y) ^ 2) := by
    refine lt_of_le_of_ne (Real.sqrt_nonneg _) (Ne.symm ?_)
    have := len_ne he
    rwa [show (e.2.y - e.1.y) ^ 2 + (e.1.x - e.2.x) ^ 2 = (e.2.x - e.1.x) ^ 2 + (e.2.y - e.1.y) ^ 2 by ring] at this
  refine ⟨_, rfl, ?_, ?_, ?_⟩
  · simp only [mapE, List.map_map]
    refine List.map_congr_left (fun p _ => ?_)
    simp only [Function.comp, segMap, Pt.mk.injEq]
    constructor <;> ring
  · intro p hp
    obtain ⟨x, hx, rfl⟩ := List.mem_map.1 hp
    obtain ⟨h1, h2, h3⟩ := (C32_weights1 n1 _ hre).2 x hx
    exact ⟨⟨x.1, h2.le, h3.le, rfl, rfl⟩, mul_pos h1 hpos⟩
  · have hr := rule_eq hre
    have hex := rule01_exact_le5 n1 hr.2 h5 1 (by simp)
    rw [← hr.1] at hex
    simp only [Gauss.apply, Polynomial.eval_one, mul_one, intervalIntegral.integral_const, sub_zero, smul_eq_mul] at hex
    simp only [mapE, List.map_map, Function.comp_def]
    rw [List.sum_map_mul_right, hex, one_mul]

/-- **C90 (the normal).**  `unit_normal` returns the vector of length one that is orthogonal to the half-edge and points to its right. -/
theorem C90_normal {e : Seg ℝ} (he : e.1 ≠ e.2) : ∃ n, unitNormal e = some n ∧
    n.1 ^ 2 + n.2 ^ 2 = 1 ∧ n.1 * (e.2.x - e.1.x) + n.2 * (e.2.y - e.1.y) = 0 ∧ (e.2.x - e.1.x) * n.2 - (e.2.y - e.1.y) * n.1 < 0 ∧
    ∀ m : ℝ × ℝ, m.1 ^ 2 + m.2 ^ 2 = 1 → m.1 * (e.2.x - e.1.x) + m.2 * (e.2.y - e.1.y) = 0 →
      (e.2.x - e.1.x) * m.2 - (e.2.y - e.1.y) * m.1 < 0 → m = n := by
  have hl := len_ne he
  have hs : √((e.2.y - e.1.y) ^ 2 + (e.1.x - e.2.x) ^ 2) ^ 2 = (e.2.y - e.1.y) ^ 2 + (e.1.x - e.2.x) ^ 2 := Real.sq_sqrt (by positivity)
  have hp : 0 < √((e.2.y - e.1.y) ^ 2 + (e.1.x - e.2.x) ^ 2) := lt_of_le_of_ne (Real.sqrt_nonneg _) (Ne.symm hl)
  refine ⟨_, normal_some he, ?_⟩
  generalize √((e.2.y - e.1.y) ^ 2 + (e.1.x - e.2.x) ^ 2) = l at *
  generalize hu : e.2.x - e.1.x = u at *
  generalize hv : e.2.y - e.1.y = v at *
  rw [show e.1.x - e.2.x = -u by linarith] at *
  refine ⟨?_, ?_, ?_, ?_⟩
  · simp only
    field_simp
    linarith
  · simp only
    field_simp
    ring
  · simp only
    have : u * (-u / l) - v * (v / l) = -l := by field_simp; linarith
    rw [this]
    linarith
  · rintro ⟨a, b⟩ h1 h2 h3
    simp only at h1 h2 h3
    have k : u * b - v * a = -l := by
      have : (u * b - v * a) ^ 2 = l ^ 2 := by
        rw [hs]
        have : (u * b - v * a) ^ 2 + (a * u + b * v) ^ 2 = (a ^ 2 + b ^ 2) * (u ^ 2 + v ^ 2) := by ring
        rw [h2, h1] at this
        nlinarith
      rcases sq_eq_sq_iff_eq_or_eq_neg.1 this with h | h
      · linarith
      · exact h
    refine Prod.ext ?_ ?_
    · simp only
      rw [eq_div_iff hl]
      have : l * (a * l) = l * v := by
        have e1 : a * l ^ 2 = v * l := by rw [hs, show l = v * a - u * b by linarith]; linear_combination u * h2
        nlinarith
      exact mul_left_cancel₀ hl this
    · simp only
      rw [eq_div_iff hl]
      have : l * (b * l) = l * (-u) := by
        have e1 : b * l ^ 2 = -u * l := by rw [hs, show l = v * a - u * b by linarith]; linear_combination v * h2
        nlinarith
      exact mul_left_cancel₀ hl this

/-- **C90 (orientation).**  The reversed half-edge has the opposite normal; the parts of a half-edge have its normal. -/
theorem C90_orientation {e : Seg ℝ} (he : e.1 ≠ e.2) : ∃ n, unitNormal e = some n ∧ unitNormal (e.2, e.1) = some (-n.1, -n.2) ∧
    ∀ path, unitNormal (descEdge e path) = some n := by
  refine ⟨_, normal_some he, ?_, ?_⟩
  · rw [normal_some (e := (e.2, e.1)) (Ne.symm he)]
    simp only
    rw [show (e.1.y - e.2.y) ^ 2 + (e.2.x - e.1.x) ^ 2 = (e.2.y - e.1.y) ^ 2 + (e.1.x - e.2.x) ^ 2 by ring, ← neg_div, ← neg_div, neg_sub, neg_sub]
  · intro path
    induction path generalizing e with
    | nil => exact normal_some he
    | cons b r ih =>
      have hx : (subEdge e b).2.x - (subEdge e b).1.x = (e.2.x - e.1.x) / 2 := by
        cases b <;> simp only [subEdge, mid] <;> ring
      have hy : (subEdge e b).2.y - (subEdge e b).1.y = (e.2.y - e.1.y) / 2 := by
        cases b <;> simp only [subEdge, mid] <;> ring
      have hne : (subEdge e b).1 ≠ (subEdge e b).2 := by
        intro h
        rw [h, sub_self] at hx hy
        apply he
        obtain ⟨⟨a, b⟩, ⟨c, d⟩⟩ := e
        simp only [Pt.mk.injEq] at *
        constructor <;> linarith
      rw [descEdge, ih hne, hy, show (subEdge e b).1.x - (subEdge e b).2.x = (e.1.x - e.2.x) / 2 by linarith]
      have : √(((e.2.y - e.1.y) / 2) ^ 2 + ((e.1.x - e.2.x) / 2) ^ 2) = √((e.2.y - e.1.y) ^ 2 + (e.1.x - e.2.x) ^ 2) / 2 := by
        rw [show ((e.2.y - e.1.y) / 2) ^ 2 + ((e.1.x - e.2.x) / 2) ^ 2 = ((e.2.y - e.1.y) ^ 2 + (e.1.x - e.2.x) ^ 2) / 2 ^ 2 by ring,
          Real.sqrt_div (by positivity), Real.sqrt_sq (by norm_num)]
      rw [this, div_div_div_cancel_right₀ (by norm_num), div_div_div_cancel_right₀ (by norm_num)]

/-- **C90 (outward).**  The normals of the sides of a convex cell, counter-clockwise, point out of the cell: the cell lies on the other side of the line
through the side, and a step along the normal from any point of the side leaves the cell. -/
theorem C90_outward {q : QD ℝ} (hq : ConvexCCW q) (i : Fin 4) : ∃ n, unitNormal (q.v i, q.v ((i : Nat) + 1)) = some n ∧
    (∀ z ∈ region q, (z.1 - (q.v i).x) * n.1 + (z.2 - (q.v i).y) * n.2 ≤ 0) ∧
    ∀ x, OnSeg (q.v i, q.v ((i : Nat) + 1)) x → (x.x, x.y) ∈ region q ∧ ∀ t > 0, (x.x + t * n.1, x.y + t * n.2) ∉ region q := by
  have hne := side_ne hq i
  obtain ⟨n, h1, h2, h3, h4, -⟩ := C90_normal (e := (q.v i, q.v ((i : Nat) + 1))) hne
  have h1' := h1
  rw [normal_some (e := (q.v i, q.v ((i : Nat) + 1))) hne] at h1'
  have hp : 0 < √(((q.v ((i : Nat) + 1)).y - (q.v i).y) ^ 2 + ((q.v i).x - (q.v ((i : Nat) + 1)).x) ^ 2) :=
    lt_of_le_of_ne (Real.sqrt_nonneg _) (Ne.symm (len_ne (e := (q.v i, q.v ((i : Nat) + 1))) hne))
  have hn := Option.some.inj h1'
  have key : ∀ z ∈ region q, (z.1 - (q.v i).x) * n.1 + (z.2 - (q.v i).y) * n.2 ≤ 0 := by
    intro z hz
    have hmem : (q.v i, q.v ((i : Nat) + 1)) ∈ q.edges := by fin_cases i <;> simp [QD.edges, QD.v]
    have hz' : contains 0 q ⟨z.1, z.2⟩ = true := hz
    unfold contains at hz'
    have := List.all_eq_true.1 hz' _ hmem
    simp only [neg_zero, Bool.not_eq_true', decide_eq_false_iff_not, not_lt, left] at this
    rw [← hn]
    simp only
    rw [← mul_div_assoc, ← mul_div_assoc, ← add_div]
    refine div_nonpos_of_nonpos_of_nonneg ?_ hp.le
    nlinarith
  refine ⟨n, h1, key, fun x hx => ⟨?_, fun t ht hm => ?_⟩⟩
  · obtain ⟨r, r0, r1, hx, hy⟩ := hx
    have hF : F q (E i r) = (x.x, x.y) := by
      rw [hx, hy]
      fin_cases i <;> simp [F, E, toPhys, QD.v] <;> constructor <;> ring
    rw [← hF, ← image_F q hq]
    refine ⟨_, ?_, rfl⟩
    fin_cases i <;> simp [E] <;> (first | exact ⟨r0, r1⟩ | exact ⟨r1, r0⟩)
  · have h := key _ hm
    obtain ⟨r, r0, r1, hx, hy⟩ := hx
    simp only [hx, hy] at h h3
    nlinarith

/-- The half-edge of a cell runs from one vertex of the cell to the next. -/
theorem seg_side {B : Base ℝ} (hB : B.WF) {s : St ℝ} (hs : MReach B s) {c : CN} (hc : c ∈ s.cells) (i : Fin 4) :
    segOf s (s.sides c i) = ((cellQ s c).v i, (cellQ s c).v ((i : Nat) + 1)) := by
  obtain ⟨r, r', h1, h2, h3, -⟩ := C52_loop hB hs c hc i
  have a : ∀ j : Fin 4, (cellQ s c).v j = baseXY s (s.sides c j) := by intro j; fin_cases j <;> rfl
  rw [← v_next, a, a]
  simp only [segOf, ends, baseXY, h1, h2, h3]

/-- **C90 (neighbours).**  On every mesh without periodicity, the half-edge of a cell and the half-edge of its neighbour have opposite normals. -/
theorem C90_neighbour {B : Base ℝ} (hB : B.WF) (hC : Fn.Convex B) {s : St ℝ} (hs : MReach B s) {c d : CN} (hc : c ∈ s.cells) (i : Fin 4)
    (h : getNb false s (s.sides c i) = some d) : ∃ r j, s.he (s.sides c i) = some r ∧ r.twin = some (s.sides d j) ∧
      (r.per = false → ∃ n, unitNormal (segOf s (s.sides c i)) = some n ∧ unitNormal (segOf s (s.sides d j)) = some (-n.1, -n.2)) := by
  obtain ⟨-, -, j, r, q, -, h1, h2, h3, -, h4⟩ := C52_neighbor hB hs c d hc i h
  refine ⟨r, j, h1, h2, fun hp => ?_⟩
  obtain ⟨e1, e2⟩ := h4 hp
  have hsw : segOf s (s.sides d j) = ((segOf s (s.sides c i)).2, (segOf s (s.sides c i)).1) := by
    simp only [segOf, ends, h1, h3, e1, e2]
  obtain ⟨n, n1, n2, -⟩ := C90_orientation (e := segOf s (s.sides c i)) (by
    rw [seg_side hB hs hc]
    exact side_ne (Fn.cell_convex hB hC hs hc) i)
  exact ⟨n, n1, by rw [hsw]; exact n2⟩

/-- **C90 (Gauss' theorem on a cell).**  For every field of polynomials of total degree at most `2n − 1`, the flux through the sides of a convex cell,
computed with the mapped edge rules and the unit normals, is the integral of its divergence, computed with the mapped cell rule. -/
theorem C90_gauss_cell {n n1 : Nat} {rc : List ((ℝ × ℝ) × ℝ)} {re : List (ℝ × ℝ)} (hrc : rule2 (n ^ 2) = .ok rc) (hre : rule1 n1 = .ok re)
    (h5 : n ≤ 5) (h51 : n1 ≤ 5) {q : QD ℝ} (hq : ConvexCCW q) {P Q : Poly} (hP : P.totalDegree ≤ min (2 * n - 1) (2 * n1 - 1))
    (hQ : Q.totalDegree ≤ min (2 * n - 1) (2 * n1 - 1)) :
    ∑ i : Fin 4, edgeFlux (.one re) (q.v i, q.v ((i : Nat) + 1)) P Q = cellDiv (.two rc) q P Q := by
  rw [cell_exact hrc h5 q (hP.trans (min_le_left _ _)) (hQ.trans (min_le_left _ _))]
  exact Finset.sum_congr rfl (fun i _ => edge_exact hre h51 hq i (hP.trans (min_le_right _ _)) (hQ.trans (min_le_right _ _)))

open Classical in
/-- **C90 (Gauss' theorem on a mesh).**  On every mesh that refinement can produce, hanging nodes or not, the flux out of the half-edges on the boundary is
the sum of the integrals of the divergence over the leaves: nothing is lost or counted twice inside. -/
theorem C90_gauss_mesh {B : Base ℝ} (hB : B.WF) (hPl : Plain B) (hC : Fn.Convex B) {s : St ℝ} (hs : MReach B s) {sf : Bool} (hr : RootsIn B sf s)
    (hf : sf = false ∨ (RootedFlag B s ∧ FullFlag s)) {n n1 : Nat} {rc : List ((ℝ × ℝ) × ℝ)} {re : List (ℝ × ℝ)} (hrc : rule2 (n ^ 2) = .ok rc)
    (hre : rule1 n1 = .ok re) (h5 : n ≤ 5) (h51 : n1 ≤ 5) {P Q : Poly} (hP : P.totalDegree ≤ min (2 * n - 1) (2 * n1 - 1))
    (hQ : Q.totalDegree ≤ min (2 * n - 1) (2 * n1 - 1)) :
    ((leaves sf s).map (fun c => ∑ i : Fin 4, if OnBoundary B c i then edgeFlux (.one re) (segOf s (s.sides c i)) P Q else 0)).sum =
      ((leaves sf s).map (fun c => cellDiv (.two rc) (cellQ s c) P Q)).sum := by
  have hi := hs.inv hB
  have hone : ∀ (D : DH) (c : CN), feFn ET.Q1 D (fun _ => (1 : ℝ)) c = fun _ => 1 := by
    intro D c
    funext z
    simp only [feFn, cellFn, interp2, one_mul]
    exact (C28_partition_of_unity2 .Q1 z).1
  have hS : Single B sf s .Q1 DH.new (fun _ => (1 : ℝ)) := by
    intro c _ c' _ z z' _ _ _
    rw [hone, hone]
  have key := flux_boundary (P := ev P) (Q := ev Q) hB hPl hs hr hf hS (ev_cont P) (ev_cont Q)
  simp only [hone] at key
  have hmem : ∀ c ∈ leaves sf s, c ∈ s.cells := fun c hc => (hi.mem c).2 ((Dof.mem_leaves hi c).1 hc).1
  have hfl : ∀ c ∈ leaves sf s, ∀ i, sideFlux (quadOf B c) (ev P) (ev Q) (fun _ => 1) i = sideFlux (cellQ s c) (ev P) (ev Q) (fun _ => 1) i :=
    fun c hc i => (flux_same (cellQ_eq hB hs c (hmem c hc)) _ _ _ i).symm
  have e1 : (leaves sf s).map (fun c => ∑ i : Fin 4, if OnBoundary B c i then edgeFlux (.one re) (segOf s (s.sides c i)) P Q else 0) =
      (leaves sf s).map (fun c => ∑ i : Fin 4, if OnBoundary B c i then sideFlux (quadOf B c) (ev P) (ev Q) (fun _ => 1) i else 0) := by
    refine List.map_congr_left (fun c hc => Finset.sum_congr rfl (fun i _ => ?_))
    rw [seg_side hB hs (hmem c hc), edge_exact hre h51 (Fn.cell_convex hB hC hs (hmem c hc)) i (hP.trans (min_le_right _ _)) (hQ.trans (min_le_right _ _)),
      hfl c hc i]
  have e2 : (leaves sf s).map (fun c => cellDiv (.two rc) (cellQ s c) P Q) =
      (leaves sf s).map (fun c => ∑ i : Fin 4, sideFlux (quadOf B c) (ev P) (ev Q) (fun _ => 1) i) := by
    refine List.map_congr_left (fun c hc => ?_)
    rw [cell_exact hrc h5 _ (hP.trans (min_le_left _ _)) (hQ.trans (min_le_left _ _))]
    exact Finset.sum_congr rfl (fun i _ => (hfl c hc i).symm)
  rw [e1, e2, key]

open Classical in
/-- **C90 (the boundary closes up).**  The normals of the half-edges on the boundary, weighted with the lengths, add up to zero. -/
theorem C90_closed {B : Base ℝ} (hB : B.WF) (hPl : Plain B) (hC : Fn.Convex B) {s : St ℝ} (hs : MReach B s) {sf : Bool} (hr : RootsIn B sf s)
    (hf : sf = false ∨ (RootedFlag B s ∧ FullFlag s)) {n1 : Nat} {re : List (ℝ × ℝ)} (hre : rule1 n1 = .ok re) (h51 : n1 ≤ 5) (a b : ℝ) :
    ((leaves sf s).map (fun c => ∑ i : Fin 4, if OnBoundary B c i then
      edgeFlux (.one re) (segOf s (s.sides c i)) (MvPolynomial.C a) (MvPolynomial.C b) else 0)).sum = 0 := by
  obtain ⟨rc, hrc⟩ : ∃ rc, rule2 (1 ^ 2) = .ok rc := by
    obtain ⟨r, h, -⟩ := C33_quadrilateral 1 (by norm_num) (by norm_num) (rect 0 1 0 1 ∅) (rect_convex 0 1 0 1 (by norm_num) (by norm_num) ∅)
    exact ⟨r, h⟩
  rw [C90_gauss_mesh hB hPl hC hs hr hf hrc hre (by norm_num) h51 (by simp) (by simp)]
  have : ∀ c, cellDiv (.two rc) (cellQ s c) (MvPolynomial.C a) (MvPolynomial.C b) = 0 := by
    intro c
    simp [cellDiv, quad, mappedRule, dx, dy, ev]
  simp [this]

/-- The mesh of two squares, the second one refined (one hanging node), with the default rules, meets the assumptions; so does the field
`(x³y, x²y² + 1)`. -/
example : twoR.WF ∧ Plain twoR ∧ Fn.Convex twoR ∧ MReach twoR witR ∧ RootsIn twoR false witR ∧ (∃ rc, rule2 (4 ^ 2) = .ok rc) ∧
    (∃ re, rule1 4 = .ok re) ∧ (MvPolynomial.X 0 ^ 3 * MvPolynomial.X 1 : Poly).totalDegree ≤ min (2 * 4 - 1) (2 * 4 - 1) ∧
    (MvPolynomial.X 0 ^ 2 * MvPolynomial.X 1 ^ 2 + 1 : Poly).totalDegree ≤ min (2 * 4 - 1) (2 * 4 - 1) := by
  refine ⟨twoR_wf, twoR_plain, twoR_convex, witR_reach, fun f _ => .inl rfl, ?_, ?_, ?_, ?_⟩
  · obtain ⟨r, h, -⟩ := C33_quadrilateral 4 (by norm_num) (by norm_num) (rect 0 1 0 1 ∅) (rect_convex 0 1 0 1 (by norm_num) (by norm_num) ∅)
    exact ⟨r, h⟩
  · exact ((C32_orders 4).1).2 ⟨by norm_num, by norm_num⟩
  · refine (MvPolynomial.totalDegree_mul _ _).trans ?_
    rw [MvPolynomial.totalDegree_X_pow, MvPolynomial.totalDegree_X]
    norm_num
  · refine (MvPolynomial.totalDegree_add _ _).trans (max_le ((MvPolynomial.totalDegree_mul _ _).trans ?_) ?_)
    · rw [MvPolynomial.totalDegree_X_pow, MvPolynomial.totalDegree_X_pow]
      norm_num
    · simp

/-- The unit normal of an edge. -/
example : unitNormal (⟨0, 0⟩, ⟨4, 3⟩) = some (3 / 5, -4 / 5) := by
  rw [normal_some (by simp)]
  have : √((3 - 0 : ℝ) ^ 2 + (0 - 4) ^ 2) = 5 := by
    rw [show (3 - 0 : ℝ) ^ 2 + (0 - 4) ^ 2 = 5 ^ 2 by norm_num]
    exact Real.sqrt_sq (by norm_num)
  simp only [this]
  norm_num

end Verif.Nrm
