import Verif.Quad.Maps
import Mathlib.Data.Finset.Max

/-! # Membership and binning for quadrilaterals: C22, C18 (2D) -/

namespace Verif.Quad
open Verif.Geom

variable {K : Type} [Field K] [LinearOrder K] [IsStrictOrderedRing K]

omit [IsStrictOrderedRing K] in
theorem contains_iff (tol : K) (q : QD K) (p : Pt K) : contains tol q p = true ↔
    -tol ≤ left (q.v0, q.v1) p ∧ -tol ≤ left (q.v1, q.v2) p ∧ -tol ≤ left (q.v2, q.v3) p ∧
    -tol ≤ left (q.v3, q.v0) p := by
  simp [contains, QD.edges, not_lt]

omit [LinearOrder K] [IsStrictOrderedRing K] in
theorem left_tri [LinearOrder K] (a b p : Pt K) : left (a, b) p = tri a b p := by
  simp only [left, tri]; ring

/-! ## C22 -/

/-- With tolerance 0, a point is in a strictly convex counter-clockwise cell iff it lies in
the four closed left half-planes iff it is a convex combination of the vertices. -/
theorem C22_hull (q : QD K) (h : ConvexCCW q) (p : Pt K) :
    contains 0 q p = true ↔ InHull q p := by
  obtain ⟨h1, h2, h3, h4⟩ := h
  rw [contains_iff]
  simp only [left_tri, neg_zero]
  constructor
  · rintro ⟨a1, a2, a3, a4⟩
    rcases le_total (tri q.v0 q.v2 p) 0 with hg | hg
    · have hT : tri q.v0 q.v1 q.v2 ≠ 0 := h1.ne'
      refine ⟨tri q.v1 q.v2 p / tri q.v0 q.v1 q.v2, -tri q.v0 q.v2 p / tri q.v0 q.v1 q.v2,
        tri q.v0 q.v1 p / tri q.v0 q.v1 q.v2, 0, div_nonneg a2 h1.le,
        div_nonneg (by linarith) h1.le, div_nonneg a1 h1.le, le_refl _, ?_, ?_, ?_⟩
      · field_simp; simp only [tri]; ring
      · field_simp; simp only [tri]; ring
      · field_simp; simp only [tri]; ring
    · have hT : tri q.v2 q.v3 q.v0 ≠ 0 := h3.ne'
      refine ⟨tri q.v2 q.v3 p / tri q.v2 q.v3 q.v0, 0, tri q.v3 q.v0 p / tri q.v2 q.v3 q.v0,
        tri q.v0 q.v2 p / tri q.v2 q.v3 q.v0, div_nonneg a3 h3.le, le_refl _,
        div_nonneg a4 h3.le, div_nonneg hg h3.le, ?_, ?_, ?_⟩
      · field_simp; simp only [tri]; ring
      · field_simp; simp only [tri]; ring
      · field_simp; simp only [tri]; ring
  · rintro ⟨a, b, c, d, ha, hb, hc, hd, hs, hx, hy⟩
    have e : a = 1 - b - c - d := by linarith
    subst e
    refine ⟨?_, ?_, ?_, ?_⟩
    · have : tri q.v0 q.v1 p = c * tri q.v0 q.v1 q.v2 + d * tri q.v3 q.v0 q.v1 := by
        simp only [tri, hx, hy]; ring
      rw [this]; exact add_nonneg (mul_nonneg hc h1.le) (mul_nonneg hd h4.le)
    · have : tri q.v1 q.v2 p = (1 - b - c - d) * tri q.v0 q.v1 q.v2 + d * tri q.v1 q.v2 q.v3 := by
        simp only [tri, hx, hy]; ring
      rw [this]; exact add_nonneg (mul_nonneg ha h1.le) (mul_nonneg hd h2.le)
    · have : tri q.v2 q.v3 p = (1 - b - c - d) * tri q.v2 q.v3 q.v0 + b * tri q.v1 q.v2 q.v3 := by
        simp only [tri, hx, hy]; ring
      rw [this]; exact add_nonneg (mul_nonneg ha h3.le) (mul_nonneg hb h2.le)
    · have : tri q.v3 q.v0 p = b * tri q.v3 q.v0 q.v1 + c * tri q.v2 q.v3 q.v0 := by
        simp only [tri, hx, hy]; ring
      rw [this]; exact add_nonneg (mul_nonneg hb h4.le) (mul_nonneg hc h3.le)

/-- Larger tolerance accepts more points. -/
theorem C22_mono (q : QD K) (p : Pt K) (t1 t2 : K) (h : t1 ≤ t2) (hc : contains t1 q p = true) :
    contains t2 q p = true := by
  rw [contains_iff] at hc ⊢
  obtain ⟨a, b, c, d⟩ := hc
  exact ⟨by linarith, by linarith, by linarith, by linarith⟩

/-- Every point of the reference square is mapped into the cell, for every tolerance ≥ 0. -/
theorem C22_map_inside (q : QD K) (h : ConvexCCW q) (tol : K) (ht : 0 ≤ tol) (r : Pt K)
    (h0 : 0 ≤ r.x) (h1 : r.x ≤ 1) (h2 : 0 ≤ r.y) (h3 : r.y ≤ 1) :
    contains tol q (toPhys q r) = true := by
  refine C22_mono q _ 0 tol ht ((C22_hull q h _).2 ?_)
  have a1 : 0 ≤ 1 - r.x := by linarith
  have a2 : 0 ≤ 1 - r.y := by linarith
  refine ⟨(1 - r.x) * (1 - r.y), r.x * (1 - r.y), r.x * r.y, (1 - r.x) * r.y,
    mul_nonneg a1 a2, mul_nonneg h0 a2, mul_nonneg h0 h2, mul_nonneg a1 h2, by ring, ?_, ?_⟩
  · simp only [toPhys]; ring
  · simp only [toPhys]; ring

example : contains 0 skewQ ⟨1, 1⟩ = true ∧ contains 0 skewQ ⟨3, 1⟩ = false := by
  constructor <;> norm_num [contains, skewQ, QD.edges, left]

/-! ## C18 in two dimensions -/

/-- Every point of a cell (within tolerance) lies in one of the four children (within
tolerance); convexity is not needed. -/
theorem child_cover (tol : K) (ht : 0 ≤ tol) (q : QD K) (p : Pt K) (h : contains tol q p = true)
    (c0 c1 c2 c3 : QD K) (e0 : SameVerts c0 (q.child ∅ 0)) (e1 : SameVerts c1 (q.child ∅ 1))
    (e2 : SameVerts c2 (q.child ∅ 2)) (e3 : SameVerts c3 (q.child ∅ 3)) :
    contains tol c0 p = true ∨ contains tol c1 p = true ∨ contains tol c2 p = true ∨
      contains tol c3 p = true := by
  rw [contains_iff] at h
  obtain ⟨a, b, c, d⟩ := h
  simp only [child_0, child_1, child_2, child_3, SameVerts] at e0 e1 e2 e3
  obtain ⟨x0, x1, x2, x3⟩ := e0
  obtain ⟨y0, y1, y2, y3⟩ := e1
  obtain ⟨z0, z1, z2, z3⟩ := e2
  obtain ⟨w0, w1, w2, w3⟩ := e3
  simp only [contains_iff, x0, x1, x2, x3, y0, y1, y2, y3, z0, z1, z2, z3, w0, w1, w2, w3]
  simp only [left_tri] at *
  -- outer halves
  have o1 : tri q.v0 (mid q.v0 q.v1) p = (1 / 2) * tri q.v0 q.v1 p := by
    simp only [tri, mid]; ring
  have o2 : tri (mid q.v0 q.v1) q.v1 p = (1 / 2) * tri q.v0 q.v1 p := by
    simp only [tri, mid]; ring
  have o3 : tri q.v1 (mid q.v1 q.v2) p = (1 / 2) * tri q.v1 q.v2 p := by
    simp only [tri, mid]; ring
  have o4 : tri (mid q.v1 q.v2) q.v2 p = (1 / 2) * tri q.v1 q.v2 p := by
    simp only [tri, mid]; ring
  have o5 : tri q.v2 (mid q.v2 q.v3) p = (1 / 2) * tri q.v2 q.v3 p := by
    simp only [tri, mid]; ring
  have o6 : tri (mid q.v2 q.v3) q.v3 p = (1 / 2) * tri q.v2 q.v3 p := by
    simp only [tri, mid]; ring
  have o7 : tri q.v3 (mid q.v3 q.v0) p = (1 / 2) * tri q.v3 q.v0 p := by
    simp only [tri, mid]; ring
  have o8 : tri (mid q.v3 q.v0) q.v0 p = (1 / 2) * tri q.v3 q.v0 p := by
    simp only [tri, mid]; ring
  -- the two middle lines
  have i1 : tri (mid q.v0 q.v1) q.center p = (1 / 2) * tri (mid q.v0 q.v1) (mid q.v2 q.v3) p := by
    simp only [tri, mid, QD.center]; ring
  have i2 : tri q.center (mid q.v0 q.v1) p = -(1 / 2) * tri (mid q.v0 q.v1) (mid q.v2 q.v3) p := by
    simp only [tri, mid, QD.center]; ring
  have i3 : tri (mid q.v2 q.v3) q.center p = -(1 / 2) * tri (mid q.v0 q.v1) (mid q.v2 q.v3) p := by
    simp only [tri, mid, QD.center]; ring
  have i4 : tri q.center (mid q.v2 q.v3) p = (1 / 2) * tri (mid q.v0 q.v1) (mid q.v2 q.v3) p := by
    simp only [tri, mid, QD.center]; ring
  have j1 : tri q.center (mid q.v3 q.v0) p = (1 / 2) * tri (mid q.v1 q.v2) (mid q.v3 q.v0) p := by
    simp only [tri, mid, QD.center]; ring
  have j2 : tri (mid q.v1 q.v2) q.center p = (1 / 2) * tri (mid q.v1 q.v2) (mid q.v3 q.v0) p := by
    simp only [tri, mid, QD.center]; ring
  have j3 : tri q.center (mid q.v1 q.v2) p = -(1 / 2) * tri (mid q.v1 q.v2) (mid q.v3 q.v0) p := by
    simp only [tri, mid, QD.center]; ring
  have j4 : tri (mid q.v3 q.v0) q.center p = -(1 / 2) * tri (mid q.v1 q.v2) (mid q.v3 q.v0) p := by
    simp only [tri, mid, QD.center]; ring
  rw [o1, o2, o3, o4, o5, o6, o7, o8, i1, i2, i3, i4, j1, j2, j3, j4]
  generalize tri (mid q.v0 q.v1) (mid q.v2 q.v3) p = A
  generalize tri (mid q.v1 q.v2) (mid q.v3 q.v0) p = B
  rcases le_total 0 A with hA | hA <;> rcases le_total 0 B with hB | hB
  · left; refine ⟨?_, ?_, ?_, ?_⟩ <;> linarith
  · right; right; right; refine ⟨?_, ?_, ?_, ?_⟩ <;> linarith
  · right; left; refine ⟨?_, ?_, ?_, ?_⟩ <;> linarith
  · right; right; left; refine ⟨?_, ?_, ?_, ?_⟩ <;> linarith

/-- The submesh is rooted and sibling-closed below `t`. -/
inductive Closed (mk : QD K → Bool) : Cell K → Prop
  | node (d : QD K) (ks : List (Cell K))
      (up : hasKids mk (.node d ks) = true → mk d = true)
      (sib : hasKids mk (.node d ks) = true → ∀ k ∈ ks, mk k.data = true)
      (below : ∀ k ∈ ks, Closed mk k) : Closed mk (.node d ks)

/-- A submesh: all roots, closed below. -/
def Submesh (mk : QD K → Bool) (F : List (Cell K)) : Prop :=
  ∀ t ∈ F, mk t.data = true ∧ Closed mk t

omit [Field K] [LinearOrder K] [IsStrictOrderedRing K] in
theorem submesh_none (F : List (Cell K)) : Submesh (inSub none) F := by
  have : ∀ t : Cell K, Closed (inSub none) t := by
    intro t
    induction t using GTree.ind with
    | h d ks ih => exact .node _ _ (fun _ => rfl) (fun _ _ _ => rfl) ih
  exact fun t _ => ⟨rfl, this t⟩

theorem cov_of_conf (tol : K) (ht : 0 ≤ tol) (mk : QD K → Bool) (t : Cell K) (hc : Conf t)
    (hcl : Closed mk t) : Cov (contains tol) mk t := by
  induction t using GTree.ind with
  | h d ks ih =>
    cases hc with
    | node _ _ pos kids below =>
    cases hcl with
    | node _ _ up sib below' =>
    refine .node _ _ ?_ (fun k hk => ih k hk (below k hk) (below' k hk))
    intro hk x hx
    have hne : ks ≠ [] := by rintro rfl; simp [hasKids] at hk
    obtain ⟨c0, c1, c2, c3, rfl, e0, e1, e2, e3⟩ := kids.resolve_left hne
    have hs := sib hk
    rcases child_cover tol ht d x hx _ _ _ _ e0 e1 e2 e3 with h | h | h | h
    · exact ⟨c0, by simp, hs c0 (by simp), h⟩
    · exact ⟨c1, by simp, hs c1 (by simp), h⟩
    · exact ⟨c2, by simp, hs c2 (by simp), h⟩
    · exact ⟨c3, by simp, hs c3 (by simp), h⟩

/-- `Mesh2D.bin_points`: for every history on convex roots, every submesh, every tolerance
≥ 0 and every list of indexed points, each of which lies in some root cell, the call
succeeds with a correct binning; if some point lies in no root cell it raises an
assertion error. -/
theorem C18_mesh2d (qs : List (QD K)) (hq : ∀ q ∈ qs, ConvexCCW q) (ops : List Op)
    (F : List (Cell K)) (hrun : run (rootCells qs) ops = .ok F) (tol : K) (ht : 0 ≤ tol)
    (sf : Option Nat) (hsub : Submesh (inSub sf) F) {ι : Type} (pts : List (ι × Pt K)) :
    ((∀ x ∈ pts, ∃ q ∈ qs, contains tol q x.2 = true) →
      ∃ bins, meshBin (contains tol) (inSub sf) F pts = .ok bins ∧
        GoodBins (contains tol) (inSub sf) F pts bins) ∧
    (∀ x ∈ pts, (∀ q ∈ qs, contains tol q x.2 = false) →
      meshBin (contains tol) (inSub sf) F pts = .error .assertion) := by
  obtain ⟨h1, h2, h3⟩ := run_conf ops _ F (roots_conf qs hq) hrun
  have hcov : ∀ t ∈ F, Cov (contains tol) (inSub sf) t :=
    fun t htF => cov_of_conf tol ht _ t (h1 t htF) (hsub t htF).2
  have hsame : ∀ {a b : QD K} (x : Pt K), SameVerts a b → contains tol a x = contains tol b x := by
    intro a b x ⟨s0, s1, s2, s3⟩
    simp only [contains, QD.edges, s0, s1, s2, s3]
  constructor
  · intro hin
    refine meshBin_good _ _ F hcov pts ?_
    intro x hx
    obtain ⟨q, hqm, hqc⟩ := hin x hx
    obtain ⟨i, hi⟩ := List.mem_iff_getElem?.1 hqm
    obtain ⟨t', g1, g2⟩ := h3 i (.node q []) (by simp [rootCells, hi])
    have hmem := List.mem_of_getElem? g1
    exact ⟨t', hmem, (hsub t' hmem).1, by rw [hsame _ g2]; exact hqc⟩
  · intro x hx hout
    refine meshBin_outside _ _ F hcov pts x hx ?_
    intro t htF _
    obtain ⟨i, hi⟩ := List.mem_iff_getElem?.1 htF
    have hlt : i < qs.length := by
      have := (List.getElem?_eq_some_iff.1 hi).1
      rw [h2] at this; simpa [rootCells] using this
    obtain ⟨t', g1, g2⟩ := h3 i (.node qs[i] []) (by simp [rootCells, hlt])
    rw [hi] at g1; cases g1
    rw [hsame _ g2]
    exact hout _ (List.getElem_mem hlt)

/-- `QuadCell.bin_points` on a cell of the submesh, any tolerance ≥ 0. -/
theorem C18_quadcell (qs : List (QD K)) (hq : ∀ q ∈ qs, ConvexCCW q) (ops : List Op)
    (F : List (Cell K)) (hrun : run (rootCells qs) ops = .ok F) (tol : K) (ht : 0 ≤ tol)
    (sf : Option Nat) (hsub : Submesh (inSub sf) F) (p : Path) (t : Cell K)
    (hp : getL F p = some t) (hm : inSub sf t.data = true)
    {ι : Type} (pts : List (ι × Pt K)) (hin : ∀ x ∈ pts, contains tol t.data x.2 = true) :
    ∃ bins, cellBin (contains tol) (inSub sf) F p.reverse pts = .ok bins ∧
      GoodBins (contains tol) (inSub sf) F pts bins := by
  obtain ⟨h1, h2, h3⟩ := run_conf ops _ F (roots_conf qs hq) hrun
  have main : ∀ (p : Path) (F : List (Cell K)), (∀ t ∈ F, Conf t ∧ Closed (inSub sf) t) →
      ∀ t, getL F p = some t → Conf t ∧ Closed (inSub sf) t := by
    intro p
    induction p with
    | nil => intro F _ t h; simp [getL] at h
    | cons i p ih =>
      intro F hF t h
      cases hk : F[i]? with
      | none => cases p <;> simp [getL, hk] at h
      | some k =>
        have hmem := List.mem_of_getElem? hk
        rw [getL_cons F i p k hk] at h
        cases p with
        | nil => simp [getT] at h; subst h; exact hF k hmem
        | cons j p =>
          simp only [getT, List.cons_ne_nil, if_false] at h
          refine ih k.kids ?_ t h
          obtain ⟨g1, g2⟩ := hF k hmem
          cases g1 with
          | node d ks _ _ b =>
            cases g2 with | node _ _ _ _ b' => exact fun t ht => ⟨b t ht, b' t ht⟩
  obtain ⟨hc, hcl⟩ := main p F (fun t htF => ⟨h1 t htF, (hsub t htF).2⟩) t hp
  obtain ⟨b, hb, g1, g2, g3⟩ := bin_good (ι := ι) (contains tol) (inSub sf) t
    (cov_of_conf tol ht _ t hc hcl) p pts hin hm
  have hne : p ≠ [] := by rintro rfl; simp [getL] at hp
  refine ⟨b, ?_, g1, ?_, ?_, g3⟩
  · obtain ⟨i, r, hr⟩ : ∃ i r, p.reverse = i :: r := by
      cases h : p.reverse with
      | nil => simp at h; exact absurd h hne
      | cons i r => exact ⟨i, r, rfl⟩
    have hp' : (i :: r).reverse = p := by rw [← hr]; simp
    rw [hr, cellBin, hp', hp]
    simp only [hm, if_true, hb]
  · intro e he
    obtain ⟨q, s, e1, e2, e3⟩ := g2 e he
    exact ⟨s, by rw [e1, getL_getT F _ q t hp]; exact e2, e3.1, e3.2.1⟩
  · intro e he i' hi'
    obtain ⟨q, s, e1, e2, e3⟩ := g2 e he
    obtain ⟨x, hx, hcx⟩ := e3.2.2 i' hi'
    exact ⟨x, s, hx, by rw [e1, getL_getT F _ q t hp]; exact e2, hcx⟩

theorem unit_split : run (rootCells [unitSq]) [.split [0] none, .mark [0] 7] = .ok
    [.node { unitSq with flags := {7} }
      [.node (unitSq.child ∅ 0) [], .node (unitSq.child ∅ 1) [], .node (unitSq.child ∅ 2) [],
       .node (unitSq.child ∅ 3) []]] := by
  obtain ⟨fl, hfl, e⟩ := C19_split_total unitSq unitSq_convex none
  simp only at hfl
  subst hfl
  simp only [run, step, rootCells, List.map, getL, List.getElem?_cons_zero, e, modifyL,
    List.modify_zero_cons, mark]
  rfl

/-- The absolute tolerance is not consistent across levels: a point that a child (outside
the submesh) contains within tolerance need not be contained in the parent, and then
`bin_points` on the child raises an assertion error although all points are in the cell. -/
theorem C18_tolerance_violated :
    ∃ (F : List (Cell ℚ)) (ops : List Op) (t : Cell ℚ) (x : Pt ℚ),
      run (rootCells [unitSq]) ops = .ok F ∧ Submesh (inSub (some 7)) F ∧
      getL F [0, 0] = some t ∧ contains (1 / 10 ^ 10) t.data x = true ∧
      cellBin (contains (1 / 10 ^ 10)) (inSub (some 7)) F [0, 0] [((), x)]
        = .error .assertion := by
  refine ⟨_, [.split [0] none, .mark [0] 7], .node (unitSq.child ∅ 0) [],
    ⟨1 / 4, -(3 / 2) / 10 ^ 10⟩, unit_split, ?_, ?_, ?_, ?_⟩
  · intro t ht
    simp only [List.mem_singleton] at ht
    subst ht
    refine ⟨by simp [inSub], .node _ _ (by simp [inSub]) ?_ ?_⟩
    · simp [inSub, hasKids, child_0, child_1, child_2, child_3]
    · intro k hk
      simp only [List.mem_cons, List.not_mem_nil, or_false] at hk
      rcases hk with rfl | rfl | rfl | rfl <;>
        exact .node _ _ (by simp [hasKids]) (by simp) (by simp)
  · simp [getL]
  · norm_num [contains, child_0, unitSq, QD.edges, left, mid, QD.center]
  · norm_num [cellBin, getL, inSub, bin, contains, child_0, unitSq, QD.edges, left, mid, QD.center]

/-- A concrete binning: the hypotheses of `C18_mesh2d` are met. -/
example : ∃ bins, meshBin (contains (1 / 10 ^ 10)) (inSub none)
    [.node { unitSq with flags := {7} }
      [.node (unitSq.child ∅ 0) [], .node (unitSq.child ∅ 1) [], .node (unitSq.child ∅ 2) [],
       .node (unitSq.child ∅ 3) []]]
    [(0, (⟨1 / 4, 1 / 4⟩ : Pt ℚ)), (1, ⟨3 / 4, 3 / 4⟩)] = .ok bins := by
  have hq : ∀ q ∈ [unitSq], ConvexCCW q := by simp [unitSq_convex]
  have := (C18_mesh2d [unitSq] hq _ _ unit_split (1 / 10 ^ 10) (by norm_num) none
    (submesh_none _) [(0, (⟨1 / 4, 1 / 4⟩ : Pt ℚ)), (1, ⟨3 / 4, 3 / 4⟩)]).1 ?_
  · obtain ⟨b, hb, -⟩ := this
    exact ⟨b, hb⟩
  · intro x hx
    refine ⟨unitSq, by simp, ?_⟩
    simp only [List.mem_cons, List.not_mem_nil, or_false] at hx
    rcases hx with rfl | rfl <;> norm_num [contains, unitSq, QD.edges, left]

end Verif.Quad
