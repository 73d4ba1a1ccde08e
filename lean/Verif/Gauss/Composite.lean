import Verif.Gauss.Mapped

/-! # C33: scaled rules and composite rules over refined meshes -/

namespace Verif.Gauss

open MeasureTheory Polynomial Verif.Geom

/-! ### `scale_rule` agrees with sub-cell positions -/

/-- One dimension: scaling the reference rule to the position of a sub-cell and mapping it with the cell is the same
as mapping it with the sub-cell, after every refinement history. -/
theorem C33_scale_interval (a : ℝ) (xs : List ℝ) (hs : (a :: xs).IsChain (· < ·)) (ops : List OneD.Op)
    (p q : Path) (t s : OneD.Cell ℝ) (ht : getL (OneD.mesh a xs ops) p = some t) (hq : getT t q = some s)
    (r : List (ℝ × ℝ)) :
    ∃ pos width, OneD.subcellPosition t.data s.data = .ok (pos, width) ∧
      map1 t.data (scale1 pos width r) = map1 s.data r := by
  obtain ⟨pos, width, h1, -, -, -, h2⟩ := OneD.C17_subcell a xs hs ops p q t s ht hq
  refine ⟨pos, width, h1, ?_⟩
  have hj : OneD.jacR2P s.data = width * OneD.jacR2P t.data := by
    have e0 := h2 0
    have e1 := h2 1
    simp only [OneD.toPhys, OneD.jacR2P] at e0 e1 ⊢
    linarith
  unfold map1 scale1
  rw [List.map_map]
  apply List.map_congr_left
  intro x _
  simp only [Function.comp_def]
  rw [← h2, hj]
  ext <;> simp only
  ring

/-- Two dimensions. -/
theorem C33_scale_quad (qs : List (Quad.QD ℝ)) (hq : ∀ q ∈ qs, Quad.ConvexCCW q) (ops : List Quad.Op)
    (F : List (Quad.Cell ℝ)) (hrun : Quad.run (Quad.rootCells qs) ops = .ok F) (p r : Path) (hr : r ≠ [])
    (t s : Quad.Cell ℝ) (ht : getL F p = some t) (hs : getL F (p ++ r) = some s) (g : List ((ℝ × ℝ) × ℝ)) :
    ∃ pos : ℝ × ℝ, ∃ w : ℝ, Quad.subcellPosition p (p ++ r) = .ok (pos, w) ∧
      map2 t.data (scale2 pos w g) = map2 s.data g := by
  obtain ⟨pos, w, h1, -, h2⟩ := Quad.C20_subcell qs hq ops F hrun p r hr t s ht hs
  refine ⟨pos, w, h1, ?_⟩
  have hdet : ∀ x : Quad.Pt ℝ, detJ s.data x = w ^ 2 * detJ t.data ⟨pos.1 + w * x.x, pos.2 + w * x.y⟩ := by
    intro x
    have a1 := h2 ⟨1, x.y⟩
    have a0 := h2 ⟨0, x.y⟩
    have b1 := h2 ⟨x.x, 1⟩
    have b0 := h2 ⟨x.x, 0⟩
    simp only [Quad.toPhys, Quad.Pt.mk.injEq] at a1 a0 b1 b0
    have xs : Quad.jxs s.data x = w * Quad.jxs t.data ⟨pos.1 + w * x.x, pos.2 + w * x.y⟩ := by
      simp only [Quad.jxs]; linarith [a1.1, a0.1]
    have ys : Quad.jys s.data x = w * Quad.jys t.data ⟨pos.1 + w * x.x, pos.2 + w * x.y⟩ := by
      simp only [Quad.jys]; linarith [a1.2, a0.2]
    have xt : Quad.jxt s.data x = w * Quad.jxt t.data ⟨pos.1 + w * x.x, pos.2 + w * x.y⟩ := by
      simp only [Quad.jxt]; linarith [b1.1, b0.1]
    have yt : Quad.jyt s.data x = w * Quad.jyt t.data ⟨pos.1 + w * x.x, pos.2 + w * x.y⟩ := by
      simp only [Quad.jyt]; linarith [b1.2, b0.2]
    simp only [detJ_eq, Quad.det, xs, ys, xt, yt]
    ring
  unfold map2 scale2
  rw [List.map_map]
  apply List.map_congr_left
  intro x _
  simp only [Function.comp_def]
  rw [← h2 ⟨x.1.1, x.1.2⟩, hdet ⟨x.1.1, x.1.2⟩]
  ext1
  · rfl
  · simp only; ring

/-! ### Composite rules -/

/-- The contribution of the cell at a path. -/
noncomputable def contrib1 (F : List (OneD.Cell ℝ)) (r : List (ℝ × ℝ)) (f : ℝ → ℝ) (p : Path) : ℝ :=
  match getL F p with
  | some t => ((map1 t.data r).map (fun q => q.2 * f q.1)).sum
  | none => 0

theorem tiles_sum (n N : Nat) (h : Exact (rule01 n) N) (P : ℝ[X]) (hP : P.natDegree ≤ N) (bs : List (ℝ × ℝ)) :
    ∀ a b, OneD.Tiles a b bs →
    (bs.map (fun u => apply (map1 ⟨u.1, u.2, 2, ∅⟩ (rule01 n)) (fun x => P.eval x))).sum = ∫ x in a..b, P.eval x := by
  induction bs with
  | nil =>
    intro a b ht
    simp only [OneD.Tiles] at ht
    subst ht
    simp
  | cons u bs ih =>
    intro a b ht
    obtain ⟨l, hh⟩ := u
    simp only [OneD.Tiles] at ht
    obtain ⟨rfl, _, h3⟩ := ht
    rw [List.map_cons, List.sum_cons, ih _ _ h3, map1_exact n N h _ P hP]
    exact intervalIntegral.integral_add_adjacent_intervals (P.continuous.intervalIntegrable _ _) (P.continuous.intervalIntegrable _ _)

/-- Summing the mapped `n`-point rule over the leaves of a (sub)mesh of `[a,b]`, in any order, gives the integral over
`[a,b]` of polynomials of degree at most `2n-1`, whatever the refinement history. -/
theorem C33_composite_interval (n : Nat) (h1 : 1 ≤ n) (h5 : n ≤ 5) (a : ℝ) (xs : List ℝ)
    (hs : (a :: xs).IsChain (· < ·)) (ops : List OneD.Op) (sf : Option Nat)
    (hsub : OneD.Submesh (OneD.inSub sf) (OneD.mesh a xs ops)) (order : List Path) (hnd : order.Nodup)
    (hord : ∀ p, p ∈ order ↔ OneD.SubLeaf (OneD.inSub sf) (OneD.mesh a xs ops) p) (P : ℝ[X]) (hP : P.natDegree ≤ 2 * n - 1) :
    ∃ r, rule1 n = .ok r ∧ (order.map (contrib1 (OneD.mesh a xs ops) r (fun x => P.eval x))).sum =
      ∫ x in a..((a :: xs).getLast (by simp)), P.eval x := by
  refine ⟨rule01 n, by unfold rule1; rw [if_pos]; interval_cases n <;> decide, ?_⟩
  have hex := rule01_exact_le5 n h1 h5
  obtain ⟨bs, e1, e2, e3, e4⟩ := OneD.C15_leaves_tile a xs hs ops sf hsub
  have hperm : order.Perm (leavesL (OneD.inSub sf) (OneD.mesh a xs ops) [] 0) :=
    (List.perm_ext_iff_of_nodup hnd e4).2 (fun p => (hord p).trans (e3 p).symm)
  rw [(hperm.map _).sum_eq, ← tiles_sum n _ hex P hP bs _ _ e2]
  generalize leavesL (OneD.inSub sf) (OneD.mesh a xs ops) [] 0 = l at e1
  clear e2 hperm e3 e4
  induction l generalizing bs with
  | nil =>
    cases bs with
    | nil => rfl
    | cons b bs => simp at e1
  | cons p l ih =>
    cases bs with
    | nil => simp at e1
    | cons b bs =>
      simp only [List.map_cons, List.cons.injEq] at e1
      rw [List.map_cons, List.map_cons, List.sum_cons, List.sum_cons, ih bs e1.2]
      congr 1
      have hp := e1.1
      unfold OneD.endsAt at hp
      cases hg : getL (OneD.mesh a xs ops) p with
      | none => simp [hg] at hp
      | some t =>
        simp only [hg, Option.map_some, Option.some.injEq] at hp
        subst hp
        simp only [contrib1, hg, apply, map1, OneD.toPhys, OneD.jacR2P, OneD.ends]

/-- The contribution of the cell at a path. -/
noncomputable def contrib2 (F : List (Quad.Cell ℝ)) (r : List ((ℝ × ℝ) × ℝ)) (f : ℝ → ℝ → ℝ) (p : Path) : ℝ :=
  match getL F p with
  | some t => ((map2 t.data r).map (fun q => q.2 * f q.1.x q.1.y)).sum
  | none => 0

/-- A quantity of cells that is the sum of those of the children adds up over the leaves. -/
theorem leaf_sum (Φ : Quad.QD ℝ → ℝ) (hsame : ∀ a b, Quad.SameVerts a b → Φ a = Φ b)
    (hadd : ∀ d, Quad.ConvexCCW d → Φ (d.child ∅ 0) + Φ (d.child ∅ 1) + Φ (d.child ∅ 2) + Φ (d.child ∅ 3) = Φ d)
    (mk : Quad.QD ℝ → Bool) (t : Quad.Cell ℝ) (h : Quad.Conf t) (F : List (Quad.Cell ℝ)) (p : Path)
    (hp : getL F p = some t) (φ : Path → ℝ) (hφ : ∀ p t, getL F p = some t → φ p = Φ t.data) :
    ((leavesT mk t p).map φ).sum = Φ t.data := by
  induction t using GTree.ind generalizing p with
  | h d ks ih =>
    cases h with
    | node _ _ cvx kids below =>
    rw [leavesT]
    split
    · next hk =>
      have hne : ks ≠ [] := by rintro rfl; simp [hasKids] at hk
      obtain ⟨c0, c1, c2, c3, rfl, e0, e1, e2, e3⟩ := kids.resolve_left hne
      have hg : ∀ i k, [c0, c1, c2, c3][i]? = some k → getL F (p ++ [i]) = some k := by
        intro i k hik
        rw [getL_append F p [i] _ hp (by simp)]
        simpa [getL] using hik
      simp only [leavesL, List.append_nil, List.map_append, List.sum_append]
      rw [ih c0 (by simp) (below c0 (by simp)) _ (hg 0 c0 rfl),
        ih c1 (by simp) (below c1 (by simp)) _ (hg 1 c1 rfl),
        ih c2 (by simp) (below c2 (by simp)) _ (hg 2 c2 rfl),
        ih c3 (by simp) (below c3 (by simp)) _ (hg 3 c3 rfl)]
      rw [hsame _ _ e0, hsame _ _ e1, hsame _ _ e2, hsame _ _ e3, GTree.data_node, ← hadd d cvx]
      ring
    · simp [hφ p _ hp]

theorem child_det (q : Quad.QD ℝ) (i : Nat) (hi : i < 4) (x : Quad.Pt ℝ) :
    Quad.det (q.child ∅ i) x = 1 / 4 * Quad.det q ⟨1 / 2 * (Quad.corner i).1 + 1 / 2 * x.x, 1 / 2 * (Quad.corner i).2 + 1 / 2 * x.y⟩ := by
  have hc : i = 0 ∨ i = 1 ∨ i = 2 ∨ i = 3 := by omega
  rcases hc with rfl | rfl | rfl | rfl <;>
    simp only [Quad.child_0, Quad.child_1, Quad.child_2, Quad.child_3, Quad.det, Quad.jxs, Quad.jxt, Quad.jys, Quad.jyt,
      Quad.mid, Quad.QD.center, Quad.corner] <;> ring

theorem map2_children (n m : Nat) (h : Exact (rule01 n) (m + 1)) (c : Nat → Nat → ℝ) (q : Quad.QD ℝ) :
    apply (map2 (q.child ∅ 0) (tensor (rule01 n))) (fun p => totpoly m c p.x p.y) +
    apply (map2 (q.child ∅ 1) (tensor (rule01 n))) (fun p => totpoly m c p.x p.y) +
    apply (map2 (q.child ∅ 2) (tensor (rule01 n))) (fun p => totpoly m c p.x p.y) +
    apply (map2 (q.child ∅ 3) (tensor (rule01 n))) (fun p => totpoly m c p.x p.y) =
    apply (map2 q (tensor (rule01 n))) (fun p => totpoly m c p.x p.y) := by
  have key : ∀ q, apply (map2 q (tensor (rule01 n))) (fun p => totpoly m c p.x p.y) =
      ∫ p in sq, Quad.det q ⟨p.1, p.2⟩ * totpoly m c (Quad.F q p).1 (Quad.F q p).2 := fun q => by
    rw [apply_map2 q (tensor (rule01 n)) (totpoly m c), tensor_exact_W _ (m + 1) h (pull_mem q m c)]
  simp only [key]
  rw [quarters (pull_mem q m c)]
  have ch : ∀ i, i < 4 → ∫ p in sq, Quad.det (q.child ∅ i) ⟨p.1, p.2⟩ * totpoly m c (Quad.F (q.child ∅ i) p).1 (Quad.F (q.child ∅ i) p).2 =
      1 / 4 * ∫ p in sq, (fun r : ℝ × ℝ => Quad.det q ⟨r.1, r.2⟩ * totpoly m c (Quad.F q r).1 (Quad.F q r).2)
        (1 / 2 * (Quad.corner i).1 + 1 / 2 * p.1, 1 / 2 * (Quad.corner i).2 + 1 / 2 * p.2) := by
    intro i hi
    rw [← integral_const_mul]
    congr 1
    funext p
    simp only [Quad.F, child_det q i hi, Quad.toPhys_child q ∅ i hi _ (two_ne_zero)]
    ring
  rw [ch 0 (by norm_num), ch 1 (by norm_num), ch 2 (by norm_num), ch 3 (by norm_num)]
  simp only [Quad.corner, mul_zero, mul_one, zero_add]
  ring

/-- Summing the mapped rule over the leaves of a refined mesh of convex quadrilaterals, with or without submesh flag,
gives the sum over the initial cells of the integrals of polynomials of total degree at most `2n-2`. -/
theorem C33_composite_quad (n : Nat) (h1 : 1 ≤ n) (h5 : n ≤ 5) (qs : List (Quad.QD ℝ))
    (hq : ∀ q ∈ qs, Quad.ConvexCCW q) (ops : List Quad.Op) (F : List (Quad.Cell ℝ))
    (hrun : Quad.run (Quad.rootCells qs) ops = .ok F) (sf : Option Nat) (c : Nat → Nat → ℝ) :
    ∃ r, rule2 (n ^ 2) = .ok r ∧
      ((leavesL (Quad.inSub sf) F [] 0).map (contrib2 F r (totpoly (2 * n - 2) c))).sum =
      (qs.map (fun q => ∫ p in Quad.region q, totpoly (2 * n - 2) c p.1 p.2)).sum := by
  refine ⟨tensor (rule01 n), ?_, ?_⟩
  · unfold rule2
    rw [show isqrt (n ^ 2) = n from Nat.sqrt_eq' n, if_pos]
    interval_cases n <;> decide
  have hex : Exact (rule01 n) (2 * n - 2 + 1) := by
    have := rule01_exact_le5 n h1 h5
    rwa [show 2 * n - 1 = 2 * n - 2 + 1 by omega] at this
  generalize 2 * n - 2 = m at *
  obtain ⟨c1, c2, c3⟩ := Quad.run_conf ops _ F (Quad.roots_conf qs hq) hrun
  let Φ : Quad.QD ℝ → ℝ := fun q => apply (map2 q (tensor (rule01 n))) (fun p => totpoly m c p.x p.y)
  have hsame : ∀ a b, Quad.SameVerts a b → Φ a = Φ b := by
    rintro ⟨a0, a1, a2, a3, fa⟩ ⟨b0, b1, b2, b3, fb⟩ ⟨h0, h1, h2, h3⟩
    simp only at h0 h1 h2 h3
    subst h0 h1 h2 h3
    rfl
  have hΦ : ∀ q ∈ qs, Φ q = ∫ p in Quad.region q, totpoly m c p.1 p.2 := fun q hq' =>
    map2_exact q (hq q hq') (rule01 n) m hex c
  have e : (F.map (fun t => Φ t.data)) = qs.map Φ := by
    apply List.ext_getElem?
    intro i
    simp only [List.getElem?_map]
    cases hi : qs[i]? with
    | none =>
      have : F[i]? = none := by
        rw [List.getElem?_eq_none_iff] at hi ⊢
        rw [c2]; simpa [Quad.rootCells] using hi
      simp [this]
    | some q =>
      obtain ⟨t', g1, g2⟩ := c3 i (.node q []) (by simp [Quad.rootCells, hi])
      simp [g1, hsame _ _ g2]
  rw [← List.map_congr_left hΦ, ← e]
  have : ∀ (G : List (Quad.Cell ℝ)) (i : Nat), (∀ t ∈ G, Quad.Conf t) →
      (∀ j t, G[j]? = some t → getL F [i + j] = some t) →
      ((leavesL (Quad.inSub sf) G [] i).map (contrib2 F (tensor (rule01 n)) (totpoly m c))).sum = (G.map (fun t => Φ t.data)).sum := by
    intro G
    induction G with
    | nil => intro i _ _; simp [leavesL]
    | cons k G ih =>
      intro i hG hget
      rw [leavesL, List.map_append, List.sum_append, ih (i + 1) (fun t ht => hG t (by simp [ht]))
        (fun j t hj => by
          have := hget (j + 1) t (by simpa using hj)
          rw [show i + 1 + j = i + (j + 1) by omega]; exact this)]
      rw [leaf_sum Φ hsame (fun d _ => map2_children n m hex c d) (Quad.inSub sf) k (hG k (by simp)) F _
        (by simpa using hget 0 k rfl) _ (fun p t ht => by simp only [contrib2, ht]; rfl)]
      simp
  exact this F 0 c1 (fun j t hj => by simpa [getL] using hj)

/-! ### Non-vacuity -/

example : Quad.ConvexCCW (⟨⟨0, 0⟩, ⟨2, 0⟩, ⟨3, 2⟩, ⟨0, 1⟩, ∅⟩ : Quad.QD ℝ) := by
  norm_num [Quad.ConvexCCW, Quad.tri]

example : totpoly 2 (fun a b => if a = 1 ∧ b = 1 then 1 else 0) 3 5 = 15 := by
  norm_num [totpoly, Finset.sum_range_succ]

end Verif.Gauss
