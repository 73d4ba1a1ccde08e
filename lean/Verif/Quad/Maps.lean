import Verif.Quad.Geometry

/-! # Reference maps of quadrilaterals: C20, C21 -/

namespace Verif.Quad
open Verif.Geom

variable {K : Type} [Field K]

/-! ## C20 -/

/-- Corner of the unit square at which child `i` sits. -/
def corner (i : Nat) : K × K :=
  match i with
  | 0 => (0, 0)
  | 1 => (1, 0)
  | 2 => (1, 1)
  | _ => (0, 1)

theorem posLoop_eq (h : K) (i : Nat) (hi : i < 4) (acc : K × K) :
    posLoop h i acc = (acc.1 + h * (corner i).1, acc.2 + h * (corner i).2) := by
  have hc : i = 0 ∨ i = 1 ∨ i = 2 ∨ i = 3 := by omega
  rcases hc with rfl | rfl | rfl | rfl <;> simp [posLoop, sign, corner, List.foldl]

/-- The geometric descendant of `q` along a relative address. -/
def descendant (q : QD K) : List Nat → QD K
  | [] => q
  | i :: r => descendant (q.child ∅ i) r

variable [LinearOrder K] [IsStrictOrderedRing K]

omit [LinearOrder K] [IsStrictOrderedRing K] in
theorem toPhys_child (q : QD K) (fl : Finset Nat) (i : Nat) (hi : i < 4) (s : Pt K)
    (h2 : (2 : K) ≠ 0) :
    toPhys (q.child fl i) s =
      toPhys q ⟨(1 / 2) * (corner i).1 + (1 / 2) * s.x, (1 / 2) * (corner i).2 + (1 / 2) * s.y⟩ := by
  have h4 : (4 : K) ≠ 0 := by
    have : (4 : K) = 2 * 2 := by norm_num
    rw [this]; exact mul_ne_zero h2 h2
  have hc : i = 0 ∨ i = 1 ∨ i = 2 ∨ i = 3 := by omega
  rcases hc with rfl | rfl | rfl | rfl <;>
    simp only [child_0, child_1, child_2, child_3, toPhys, mid, QD.center, corner, Pt.mk.injEq] <;>
    constructor <;> field_simp <;> ring

/-- The loop computes the position and the width of the descendant. -/
theorem relLoop_spec (r : List Nat) (hr : ∀ i ∈ r, i < 4) (hne : r ≠ []) : ∀ (q : QD K) (h : K)
    (acc : K × K), ∃ a w, relLoop h acc r = (a, some w) ∧ w = 2 * h / 2 ^ r.length ∧
      ∀ s : Pt K, h ≠ 0 → ∃ u : Pt K, toPhys (descendant q r) s = toPhys q u ∧
        a.1 + w * s.x = acc.1 + 2 * h * u.x ∧ a.2 + w * s.y = acc.2 + 2 * h * u.y := by
  induction r with
  | nil => exact absurd rfl hne
  | cons i r ih =>
    intro q h acc
    have hi : i < 4 := hr i (by simp)
    by_cases hrn : r = []
    · subst hrn
      refine ⟨posLoop h i acc, h, by simp [relLoop], by simp, ?_⟩
      intro s _
      refine ⟨_, toPhys_child q ∅ i hi s (by norm_num), ?_⟩
      rw [posLoop_eq h i hi]
      constructor <;> simp only <;> ring
    · obtain ⟨a, w, h1, h2, h3⟩ := ih (fun j hj => hr j (by simp [hj])) hrn (q.child ∅ i) (h / 2)
        (posLoop h i acc)
      refine ⟨a, w, by simp [relLoop, h1], ?_, ?_⟩
      · rw [h2, List.length_cons, pow_succ]; field_simp
      · intro s hh
        obtain ⟨u, e1, e2, e3⟩ := h3 s (div_ne_zero hh (by norm_num))
        refine ⟨_, (e1.trans (toPhys_child q ∅ i hi u (by norm_num))), ?_⟩
        rw [e2, e3, posLoop_eq h i hi]
        constructor <;> simp only <;> ring

omit [IsStrictOrderedRing K] in
theorem toPhys_same {a b : QD K} (h : SameVerts a b) (r : Pt K) : toPhys a r = toPhys b r := by
  obtain ⟨h0, h1, h2, h3⟩ := h
  simp only [toPhys, h0, h1, h2, h3]

omit [LinearOrder K] [IsStrictOrderedRing K] in
theorem child_same {a b : QD K} (h : SameVerts a b) (f g : Finset Nat) (i : Nat) (hi : i < 4) :
    SameVerts (a.child f i) (b.child g i) := by
  obtain ⟨h0, h1, h2, h3⟩ := h
  have hc : i = 0 ∨ i = 1 ∨ i = 2 ∨ i = 3 := by omega
  rcases hc with rfl | rfl | rfl | rfl <;>
    simp [child_0, child_1, child_2, child_3, SameVerts, QD.center, h0, h1, h2, h3]

omit [LinearOrder K] [IsStrictOrderedRing K] in
theorem descendant_same (r : List Nat) (hr : ∀ i ∈ r, i < 4) {a b : QD K} (h : SameVerts a b) :
    SameVerts (descendant a r) (descendant b r) := by
  induction r generalizing a b with
  | nil => exact h
  | cons i r ih =>
    exact ih (fun j hj => hr j (by simp [hj])) (child_same h ∅ ∅ i (hr i (by simp)))

omit [IsStrictOrderedRing K] in
/-- In a conforming tree, the cell at a path is the geometric descendant, and the child
positions are below 4. -/
theorem conf_descendant (r : Path) : ∀ (t s : Cell K), Conf t → getT t r = some s →
    (∀ i ∈ r, i < 4) ∧ SameVerts s.data (descendant t.data r) := by
  induction r with
  | nil => intro t s _ h; simp [getT] at h; subst h; exact ⟨by simp, rfl, rfl, rfl, rfl⟩
  | cons i r ih =>
    intro t s hc h
    cases hc with
    | node q ks cvx kids below =>
    simp only [getT, List.cons_ne_nil, if_false, GTree.kids_node] at h
    cases hk : ks[i]? with
    | none => cases r <;> simp [getL, hk] at h
    | some k =>
      rw [getL_cons ks i r k hk] at h
      have hmem := List.mem_of_getElem? hk
      obtain ⟨h1, h2⟩ := ih k s (below k hmem) h
      have hne : ks ≠ [] := by rintro rfl; simp at hk
      obtain ⟨c0, c1, c2, c3, rfl, e0, e1, e2, e3⟩ := kids.resolve_left hne
      have hi : i < 4 := by
        have := (List.getElem?_eq_some_iff.1 hk).1; simpa using this
      have hsame : SameVerts k.data (q.child ∅ i) := by
        have hcc : i = 0 ∨ i = 1 ∨ i = 2 ∨ i = 3 := by omega
        rcases hcc with rfl | rfl | rfl | rfl <;> simp at hk <;> subst hk <;> assumption
      have hd := descendant_same r h1 hsame
      refine ⟨?_, h2.1.trans hd.1, h2.2.1.trans hd.2.1, h2.2.2.1.trans hd.2.2.1,
        h2.2.2.2.trans hd.2.2.2⟩
      intro j hj
      rcases List.mem_cons.1 hj with rfl | hj
      · exact hi
      · exact h1 j hj

/-- For every history on convex roots, every cell and every proper descendant:
`subcell_position` returns position and width `2^-(relative depth)`, and the reference map
of the descendant is that of the cell after `(s,t) ↦ pos + width (s,t)`. -/
theorem C20_subcell (qs : List (QD K)) (hq : ∀ q ∈ qs, ConvexCCW q) (ops : List Op)
    (F : List (Cell K)) (hrun : run (rootCells qs) ops = .ok F) (p r : Path) (hr : r ≠ [])
    (t s : Cell K) (ht : getL F p = some t) (hs : getL F (p ++ r) = some s) :
    ∃ pos : K × K, ∃ w : K, subcellPosition p (p ++ r) = .ok (pos, w) ∧
      w = 1 / 2 ^ r.length ∧
      ∀ x : Pt K, toPhys s.data x = toPhys t.data ⟨pos.1 + w * x.x, pos.2 + w * x.y⟩ := by
  have hconf := (run_conf ops _ F (roots_conf qs hq) hrun).1
  have hct : Conf t := by
    have : ∀ (p : Path) (F : List (Cell K)), (∀ t ∈ F, Conf t) → ∀ t, getL F p = some t →
        Conf t := by
      intro p
      induction p with
      | nil => intro F _ t h; simp [getL] at h
      | cons i p ih =>
        intro F hF t h
        cases hk : F[i]? with
        | none => cases p <;> simp [getL, hk] at h
        | some k =>
          have hmem := List.mem_of_getElem? hk
          rw [getL_cons F i p k hk] at h
          cases p with
          | nil => simp [getT] at h; subst h; exact hF k hmem
          | cons j p =>
            simp only [getT, List.cons_ne_nil, if_false] at h
            refine ih k.kids ?_ t h
            have := hF k hmem
            cases this with | node d ks _ _ b => exact b
    exact this p F hconf t ht
  rw [getL_getT F p r t ht] at hs
  obtain ⟨h4, hsame⟩ := conf_descendant r t s hct hs
  obtain ⟨a, w, e1, e2, e3⟩ := relLoop_spec r h4 hr t.data (1 / 2) (0, 0)
  refine ⟨a, w, ?_, by rw [e2]; field_simp, ?_⟩
  · simp [subcellPosition]
    have : (2 : K)⁻¹ = 1 / 2 := by norm_num
    rw [this, e1]
  · intro x
    obtain ⟨u, f1, f2, f3⟩ := e3 x (by norm_num)
    rw [toPhys_same hsame, f1]
    congr 1
    ext
    · simp only; linarith
    · simp only; linarith

/-- `subcell_position` of a cell that is not inside raises an assertion error. -/
theorem C20_outside (own sub : List Nat) (h : ¬ own <+: sub) :
    (subcellPosition own sub : Except Err ((K × K) × K)) = .error .assertion := by
  simp [subcellPosition, h]

/-- `cell.subcell_position(cell)` is not position 0, width 1: it raises an unbound-variable
error, for every cell. -/
theorem C20_self_violated (own : List Nat) :
    (subcellPosition own own : Except Err ((K × K) × K)) = .error .name := by
  simp [subcellPosition, relLoop]

example : (subcellPosition [0] [0, 2, 1] : Except Err ((ℚ × ℚ) × ℚ)) = .ok ((3 / 4, 1 / 2), 1 / 4) := by
  norm_num [subcellPosition, relLoop, posLoop, sign, List.foldl]

/-! ## C21 -/

omit [LinearOrder K] [IsStrictOrderedRing K] in
/-- Reference vertices and edges are mapped to cell vertices and edges. -/
theorem C21_vertices_edges (q : QD K) (s : K) :
    toPhys q ⟨0, 0⟩ = q.v0 ∧ toPhys q ⟨1, 0⟩ = q.v1 ∧ toPhys q ⟨1, 1⟩ = q.v2 ∧
    toPhys q ⟨0, 1⟩ = q.v3 ∧
    toPhys q ⟨s, 0⟩ = ⟨(1 - s) * q.v0.x + s * q.v1.x, (1 - s) * q.v0.y + s * q.v1.y⟩ ∧
    toPhys q ⟨1, s⟩ = ⟨(1 - s) * q.v1.x + s * q.v2.x, (1 - s) * q.v1.y + s * q.v2.y⟩ ∧
    toPhys q ⟨1 - s, 1⟩ = ⟨(1 - s) * q.v2.x + s * q.v3.x, (1 - s) * q.v2.y + s * q.v3.y⟩ ∧
    toPhys q ⟨0, 1 - s⟩ = ⟨(1 - s) * q.v3.x + s * q.v0.x, (1 - s) * q.v3.y + s * q.v0.y⟩ := by
  refine ⟨?_, ?_, ?_, ?_, ?_, ?_, ?_, ?_⟩ <;> ext <;> simp only [toPhys] <;> ring

omit [LinearOrder K] [IsStrictOrderedRing K] in
/-- Full Taylor expansion of the bilinear map: the columns of `jac_r2p` are its partial
derivatives and `(Dx, Dy)` its mixed second derivative (the other second derivatives
vanish). -/
theorem C21_jacobian (q : QD K) (r : Pt K) (h k : K) :
    toPhys q ⟨r.x + h, r.y + k⟩ =
      ⟨(toPhys q r).x + (jacR2P q r).1.1 * h + (jacR2P q r).1.2 * k + hDx q * h * k,
       (toPhys q r).y + (jacR2P q r).2.1 * h + (jacR2P q r).2.2 * k + hDy q * h * k⟩ := by
  ext <;> simp only [toPhys, jacR2P, jxs, jxt, jys, jyt, hDx, hDy] <;> ring

omit [LinearOrder K] [IsStrictOrderedRing K] in
/-- `jac_p2r` is the two-sided matrix inverse of `jac_r2p`. -/
theorem C21_jacobian_inverse (q : QD K) (r : Pt K) (hd : det q r ≠ 0) :
    let A := jacR2P q r
    let B := jacP2R q r
    (B.1.1 * A.1.1 + B.1.2 * A.2.1 = 1 ∧ B.1.1 * A.1.2 + B.1.2 * A.2.2 = 0 ∧
     B.2.1 * A.1.1 + B.2.2 * A.2.1 = 0 ∧ B.2.1 * A.1.2 + B.2.2 * A.2.2 = 1) ∧
    (A.1.1 * B.1.1 + A.1.2 * B.2.1 = 1 ∧ A.1.1 * B.1.2 + A.1.2 * B.2.2 = 0 ∧
     A.2.1 * B.1.1 + A.2.2 * B.2.1 = 0 ∧ A.2.1 * B.1.2 + A.2.2 * B.2.2 = 1) := by
  simp only [jacR2P, jacP2R]
  have e : jxs q r * jyt q r - jxt q r * jys q r = det q r := rfl
  refine ⟨⟨?_, ?_, ?_, ?_⟩, ?_, ?_, ?_, ?_⟩ <;> field_simp <;> first | (rw [← e]; ring; done) | (ring; done)

/-- The Jacobian determinant is positive on the whole closed reference square of a strictly
convex counter-clockwise cell. -/
theorem C21_det_pos (q : QD K) (h : ConvexCCW q) (r : Pt K) (h0 : 0 ≤ r.x) (h1 : r.x ≤ 1)
    (h2 : 0 ≤ r.y) (h3 : r.y ≤ 1) : 0 < det q r := by
  obtain ⟨t1, t2, t3, t4⟩ := h
  have e : det q r = (1 - r.x) * (1 - r.y) * tri q.v3 q.v0 q.v1
      + r.x * (1 - r.y) * tri q.v0 q.v1 q.v2
      + r.x * r.y * tri q.v1 q.v2 q.v3 + (1 - r.x) * r.y * tri q.v2 q.v3 q.v0 := by
    simp only [det, jxs, jyt, jxt, jys, tri]; ring
  rw [e]
  have a1 : 0 ≤ 1 - r.x := by linarith
  have a2 : 0 ≤ 1 - r.y := by linarith
  rcases h0.lt_or_eq with hx | hx
  · rcases h2.lt_or_eq with hy | hy
    · have := mul_pos (mul_pos hx hy) t2
      have b1 := mul_nonneg (mul_nonneg a1 a2) t4.le
      have b2 := mul_nonneg (mul_nonneg h0 a2) t1.le
      have b3 := mul_nonneg (mul_nonneg a1 h2) t3.le
      linarith
    · rw [← hy]
      have := mul_pos hx t1
      have b1 := mul_nonneg a1 t4.le
      simp only [sub_zero, mul_one, mul_zero, zero_mul, add_zero]
      linarith
  · rw [← hx]
    rcases h2.lt_or_eq with hy | hy
    · have := mul_pos hy t3
      have b1 := mul_nonneg a2 t4.le
      simp only [sub_zero, one_mul, zero_mul, add_zero]
      linarith
    · rw [← hy]; simpa using t4

omit [LinearOrder K] [IsStrictOrderedRing K] in
/-- `hess_p2r` is the Hessian of the inverse map: differentiating `x(s(x,y),t(x,y)) = x`
and `y(s,t) = y` twice gives six equations for the six second derivatives; they are
satisfied, and (the Jacobian being invertible) they determine them. -/
theorem C21_hessian (q : QD K) (r : Pt K) (hd : det q r ≠ 0) :
    let J := jacR2P q r
    let B := jacP2R q r
    let H := hessP2R q r
    -- second derivatives of the identity x ↦ x
    (J.1.1 * H.1.1 + J.1.2 * H.2.1 + 2 * hDx q * B.1.1 * B.2.1 = 0 ∧
     J.1.1 * H.1.2.1 + J.1.2 * H.2.2.1 + hDx q * (B.1.1 * B.2.2 + B.1.2 * B.2.1) = 0 ∧
     J.1.1 * H.1.2.2 + J.1.2 * H.2.2.2 + 2 * hDx q * B.1.2 * B.2.2 = 0) ∧
    -- second derivatives of the identity y ↦ y
    (J.2.1 * H.1.1 + J.2.2 * H.2.1 + 2 * hDy q * B.1.1 * B.2.1 = 0 ∧
     J.2.1 * H.1.2.1 + J.2.2 * H.2.2.1 + hDy q * (B.1.1 * B.2.2 + B.1.2 * B.2.1) = 0 ∧
     J.2.1 * H.1.2.2 + J.2.2 * H.2.2.2 + 2 * hDy q * B.1.2 * B.2.2 = 0) := by
  have e : det q r = jxs q r * jyt q r - jxt q r * jys q r := rfl
  simp only [jacR2P, jacP2R, hessP2R]
  generalize jxs q r = a at *
  generalize jxt q r = b at *
  generalize jys q r = c at *
  generalize jyt q r = d at *
  generalize det q r = D at *
  refine ⟨⟨?_, ?_, ?_⟩, ?_, ?_, ?_⟩ <;> field_simp <;> rw [e] <;> ring

/-- On axis-parallel rectangles with horizontal first edge, `mapsto='reference'` is the
two-sided inverse. -/
theorem C21_rectangle (x0 x1 y0 y1 : K) (fl : Finset Nat) (hx : x0 ≠ x1) (hy : y0 ≠ y1)
    (p : Pt K) :
    let q : QD K := ⟨⟨x0, y0⟩, ⟨x1, y0⟩, ⟨x1, y1⟩, ⟨x0, y1⟩, fl⟩
    (∃ r, rectToRef q p = .ok r ∧ toPhys q r = p) ∧ rectToRef q (toPhys q p) = .ok p := by
  intro q
  have h1 : x1 - x0 ≠ 0 := sub_ne_zero.2 (Ne.symm hx)
  have h2 : y1 - y0 ≠ 0 := sub_ne_zero.2 (Ne.symm hy)
  have hc : ¬ (q.v1.x - q.v0.x = 0 ∨ q.v3.y - q.v0.y = 0) := by
    simp only [q]; tauto
  constructor
  · refine ⟨_, by rw [rectToRef, if_neg hc], ?_⟩
    ext <;> simp only [toPhys, q] <;> field_simp <;> ring
  · rw [rectToRef, if_neg hc]
    congr 1
    ext <;> simp only [toPhys, q] <;> field_simp <;> ring

/-- The cells whose edges the tolerance resolves: every edge is exactly axis-parallel or at
least `tol` away from it, and consecutive edges are exactly orthogonal or have an inner
product of at least `tol`. -/
def RectResolved (tol : K) (q : QD K) : Prop :=
  ∀ i, i < 4 →
    let u : Pt K := ⟨(q.v (i + 1)).x - (q.v i).x, (q.v (i + 1)).y - (q.v i).y⟩
    let w : Pt K := ⟨(q.v (i + 2)).x - (q.v (i + 1)).x, (q.v (i + 2)).y - (q.v (i + 1)).y⟩
    (u.x = 0 ∨ u.y = 0 ∨ (tol ≤ |u.x| ∧ tol ≤ |u.y|)) ∧
    (u.x * w.x + u.y * w.y = 0 ∨ tol ≤ |u.x * w.x + u.y * w.y|)

/-- `is_rectangle` (of a cell without parent) answers True exactly if every edge is parallel
to an axis and consecutive edges are orthogonal. -/
theorem C21_is_rectangle (tol : K) (ht : 0 < tol) (q : QD K) (hr : RectResolved tol q) :
    isRect tol q = true ↔ ∀ i, i < 4 →
      ((q.v (i + 1)).x = (q.v i).x ∨ (q.v (i + 1)).y = (q.v i).y) ∧
      ((q.v (i + 1)).x - (q.v i).x) * ((q.v (i + 2)).x - (q.v (i + 1)).x) +
      ((q.v (i + 1)).y - (q.v i).y) * ((q.v (i + 2)).y - (q.v (i + 1)).y) = 0 := by
  have one : ∀ u w : Pt K, (u.x = 0 ∨ u.y = 0 ∨ (tol ≤ |u.x| ∧ tol ≤ |u.y|)) ∧
      (u.x * w.x + u.y * w.y = 0 ∨ tol ≤ |u.x * w.x + u.y * w.y|) →
      ((min |u.x| |u.y| < tol ∧ |u.x * w.x + u.y * w.y| < tol) ↔
        ((u.x = 0 ∨ u.y = 0) ∧ u.x * w.x + u.y * w.y = 0)) := by
    rintro u w ⟨h1, h2⟩
    constructor
    · rintro ⟨h3, h4⟩
      refine ⟨?_, h2.resolve_right (not_le.2 h4)⟩
      rcases h1 with h | h | ⟨h, h'⟩
      · exact Or.inl h
      · exact Or.inr h
      · exact absurd h3 (not_lt.2 (le_min h h'))
    · rintro ⟨h3, h4⟩
      refine ⟨?_, by rw [h4, abs_zero]; exact ht⟩
      rcases h3 with h | h
      · exact lt_of_le_of_lt (min_le_left _ _) (by rw [h, abs_zero]; exact ht)
      · exact lt_of_le_of_lt (min_le_right _ _) (by rw [h, abs_zero]; exact ht)
  have all4 : ∀ P : Nat → Prop, (∀ i, i < 4 → P i) ↔ (P 0 ∧ P 1 ∧ P 2 ∧ P 3) := by
    intro P
    constructor
    · intro h; exact ⟨h 0 (by omega), h 1 (by omega), h 2 (by omega), h 3 (by omega)⟩
    · rintro ⟨h0, h1, h2, h3⟩ i hi
      have : i = 0 ∨ i = 1 ∨ i = 2 ∨ i = 3 := by omega
      rcases this with rfl | rfl | rfl | rfl <;> assumption
  have key : ∀ i, i < 4 → _ := fun i hi => one _ _ (hr i hi)
  have key4 := (all4 _).1 key
  obtain ⟨k0, k1, k2, k3⟩ := key4
  rw [all4]
  simp only [QD.v] at k0 k1 k2 k3 ⊢
  norm_num at k0 k1 k2 k3 ⊢
  simp only [isRect, QD.edges, List.map, List.rotate, List.length, List.zip, List.all_cons]
  norm_num
  simp only [sub_eq_zero] at k0 k1 k2 k3
  rw [k0, k1, k2, k3]

/-- The unit square is resolved and a rectangle, a flat cell is not. -/
example : RectResolved (1 / 10 ^ 12) unitSq ∧ isRect (1 / 10 ^ 12) unitSq = true ∧
    isRect (1 / 10 ^ 12) (⟨⟨0, 0⟩, ⟨1, 0⟩, ⟨2, 0⟩, ⟨1, 0⟩, ∅⟩ : QD ℚ) = false := by
  refine ⟨?_, ?_, ?_⟩
  · intro i hi
    have : i = 0 ∨ i = 1 ∨ i = 2 ∨ i = 3 := by omega
    rcases this with rfl | rfl | rfl | rfl <;> norm_num [QD.v, unitSq]
  · norm_num [isRect, QD.edges, List.rotate, unitSq]
  · norm_num [isRect, QD.edges, List.rotate]

/-- A rectangle whose first half-edge is vertical passes the `is_rectangle` test, is
convex and counter-clockwise, but the inverse map divides by zero at every point. -/
theorem C21_vertical_rectangle_violated :
    ∃ q : QD ℚ, ConvexCCW q ∧ isRect (1 / 10 ^ 12) q = true ∧
      ∀ p, rectToRef q p = .error .zeroDivision := by
  refine ⟨⟨⟨1, 0⟩, ⟨1, 1⟩, ⟨0, 1⟩, ⟨0, 0⟩, ∅⟩, ?_, ?_, ?_⟩
  · norm_num [ConvexCCW, tri]
  · norm_num [isRect, QD.edges, List.rotate]
  · intro p; simp [rectToRef]

/-! ### The Newton iteration for general quadrilaterals -/

/-- The exact reference point is a fixed point of the iteration. -/
theorem C21_newton_fixed (q : QD K) (r : Pt K) (h0 : 0 ≤ r.x) (h1 : r.x ≤ 1) (h2 : 0 ≤ r.y)
    (h3 : r.y ≤ 1) : newtonStep q (toPhys q r) r = r := by
  ext <;> simp [newtonStep, h0, h1, h2, h3]

/-- For parallelograms (the affine case) the inverse map is exact for every point of the
cell: `reference_map(reference_map(r, 'physical'), 'reference') = r`. -/
theorem C21_newton_parallelogram (q : QD K) (hx : hDx q = 0) (hy : hDy q = 0)
    (hc : ConvexCCW q) (r : Pt K) (h0 : 0 ≤ r.x) (h1 : r.x ≤ 1) (h2 : 0 ≤ r.y) (h3 : r.y ≤ 1) :
    newtonToRef q (toPhys q r) = r := by
  have hd : det q ⟨1 / 2, 1 / 2⟩ ≠ 0 :=
    (C21_det_pos q hc ⟨1 / 2, 1 / 2⟩ (by norm_num) (by norm_num) (by norm_num) (by norm_num)).ne'
  have step1 : newtonStep q (toPhys q r) ⟨1 / 2, 1 / 2⟩ = r := by
    -- the map is affine
    have ex := congrArg Pt.x (C21_jacobian q ⟨1 / 2, 1 / 2⟩ (r.x - 1 / 2) (r.y - 1 / 2))
    have ey := congrArg Pt.y (C21_jacobian q ⟨1 / 2, 1 / 2⟩ (r.x - 1 / 2) (r.y - 1 / 2))
    simp only [hx, hy, zero_mul, add_zero, jacR2P, add_sub_cancel] at ex ey
    have e : det q ⟨1 / 2, 1 / 2⟩ = jxs q ⟨1 / 2, 1 / 2⟩ * jyt q ⟨1 / 2, 1 / 2⟩
        - jxt q ⟨1 / 2, 1 / 2⟩ * jys q ⟨1 / 2, 1 / 2⟩ := rfl
    have er : (⟨r.x, r.y⟩ : Pt K) = r := rfl
    rw [er] at ex ey
    have s1 : (1 / 2 : K) - (jyt q ⟨1 / 2, 1 / 2⟩ *
        ((toPhys q ⟨1 / 2, 1 / 2⟩).x - (toPhys q r).x) - jxt q ⟨1 / 2, 1 / 2⟩ *
        ((toPhys q ⟨1 / 2, 1 / 2⟩).y - (toPhys q r).y)) / det q ⟨1 / 2, 1 / 2⟩ = r.x := by
      rw [ex, ey]
      generalize jxs q ⟨1 / 2, 1 / 2⟩ = a at *
      generalize jxt q ⟨1 / 2, 1 / 2⟩ = b at *
      generalize jys q ⟨1 / 2, 1 / 2⟩ = c at *
      generalize jyt q ⟨1 / 2, 1 / 2⟩ = d at *
      generalize det q ⟨1 / 2, 1 / 2⟩ = D at *
      field_simp
      rw [e]
      ring
    have s2 : (1 / 2 : K) - (-jys q ⟨1 / 2, 1 / 2⟩ *
        ((toPhys q ⟨1 / 2, 1 / 2⟩).x - (toPhys q r).x) + jxs q ⟨1 / 2, 1 / 2⟩ *
        ((toPhys q ⟨1 / 2, 1 / 2⟩).y - (toPhys q r).y)) / det q ⟨1 / 2, 1 / 2⟩ = r.y := by
      rw [ex, ey]
      generalize jxs q ⟨1 / 2, 1 / 2⟩ = a at *
      generalize jxt q ⟨1 / 2, 1 / 2⟩ = b at *
      generalize jys q ⟨1 / 2, 1 / 2⟩ = c at *
      generalize jyt q ⟨1 / 2, 1 / 2⟩ = d at *
      generalize det q ⟨1 / 2, 1 / 2⟩ = D at *
      field_simp
      rw [e]
      ring
    ext
    · simp only [newtonStep, s1]; rw [max_eq_left h0, min_eq_left h1]
    · simp only [newtonStep, s2]; rw [max_eq_left h2, min_eq_left h3]
  have hf := C21_newton_fixed q r h0 h1 h2 h3
  simp only [newtonToRef, Function.iterate_succ, Function.iterate_zero, Function.comp, id]
  rw [step1, hf, hf, hf, hf]

example : let q : QD ℚ := ⟨⟨0, 0⟩, ⟨2, 1⟩, ⟨3, 3⟩, ⟨1, 2⟩, ∅⟩
    ConvexCCW q ∧ hDx q = 0 ∧ hDy q = 0 ∧ isRect (1 / 10 ^ 12) q = false := by
  refine ⟨?_, ?_, ?_, ?_⟩ <;> norm_num [ConvexCCW, tri, hDx, hDy, isRect, QD.edges, List.rotate]

end Verif.Quad
