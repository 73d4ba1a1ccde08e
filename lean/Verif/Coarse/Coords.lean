import Verif.Coarse.Props
import Verif.Phys.Coords

/-!
# The vertices of the cells of a mesh that was refined and coarsened
-/

namespace Verif.Mesh
open Verif.Geom Verif.Quad Verif.Phys

section
set_option linter.unusedSectionVars false
variable {K : Type} [Field K]

/-- Where the ends of a half-edge should be. -/
def p0 (B : Base K) (h : HN) : Pt K := corner (quadAt B (owner h).1.1 (owner h).1.2) (owner h).2
def p1 (B : Base K) (h : HN) : Pt K := corner (quadAt B (owner h).1.1 (owner h).1.2) ((owner h).2 + 1)

/-- Where a vertex should be. -/
def vpos (B : Base K) : VN → Pt K
  | .root k => B.xy k
  | .mid h => mid (p0 B h) (p1 B h)
  | .center c => (quadAt B c.1 c.2).center

/-- All vertices of half-edges are where they should be. -/
def PInv (B : Base K) (s : St K) : Prop := ∀ h r, s.he h = some r →
  s.vx r.base = vpos B r.base ∧ s.vx r.head = vpos B r.head ∧ vpos B r.base = p0 B h ∧ vpos B r.head = p1 B h

theorem p_kid (B : Base K) (h : HN) : p0 B (.kid h false) = p0 B h ∧ p1 B (.kid h false) = mid (p0 B h) (p1 B h) ∧
    p0 B (.kid h true) = mid (p0 B h) (p1 B h) ∧ p1 B (.kid h true) = p1 B h := by
  unfold p0 p1
  obtain ⟨c0, c1, c2, c3⟩ := corner_child (quadAt B (owner h).1.1 (owner h).1.2) ∅ (owner h).2
  obtain ⟨d0, d1, d2, d3⟩ := corner_child (quadAt B (owner h).1.1 (owner h).1.2) ∅ ((owner h).2 + 1)
  have g : ∀ i : Fin 4, i + 1 + 3 = i := by decide
  rw [g] at d3
  exact ⟨c0, c1, d3, d0⟩

theorem p_inner (B : Base K) (c : CN) (i : Fin 4) : p0 B (.inner c i false) = mid (p0 B (side c i)) (p1 B (side c i)) ∧
    p1 B (.inner c i false) = (quadAt B c.1 c.2).center ∧ p0 B (.inner c i true) = (quadAt B c.1 c.2).center ∧
    p1 B (.inner c i true) = mid (p0 B (side c i)) (p1 B (side c i)) := by
  unfold p0 p1
  rw [owner_side]
  obtain ⟨c0, c1, c2, c3⟩ := corner_child (quadAt B c.1 c.2) ∅ i
  obtain ⟨d0, d1, d2, d3⟩ := corner_child (quadAt B c.1 c.2) ∅ (i + 1)
  have g : ∀ i : Fin 4, i + 1 + 1 = i + 2 ∧ i + 1 + 2 = i + 3 ∧ i + 1 + 3 = i ∧ i + 2 + 1 = i + 3 ∧ i + 3 + 1 = i := by decide
  obtain ⟨g1, g2, g3, g4, g5⟩ := g i
  refine ⟨?_, ?_, ?_, ?_⟩
  · exact c1
  · change corner _ (i + 1 + 1) = _
    rw [g1]; exact c2
  · change corner ((quadAt B c.1 c.2).child ∅ (i + 1 : Fin 4)) (i + 3) = _
    rw [← g2]; exact d2
  · change corner ((quadAt B c.1 c.2).child ∅ (i + 1 : Fin 4)) (i + 3 + 1) = _
    rw [g5]
    rw [g3] at d3
    exact d3

theorem init_pinv {B : Base K} (hB : B.WF) : PInv B (init B) := by
  intro h r hr
  cases h with
  | root k =>
    rw [init_he] at hr
    split_ifs at hr with hk
    cases hr
    have hf : k / 4 < B.n := by omega
    have key : ∀ i : Fin 4, corner (rootQ B (k / 4)) i = B.xy (B.b (4 * (k / 4) + i)) := by
      intro i; fin_cases i <;> rfl
    have e0 : 4 * (k / 4) + k % 4 = k := by omega
    have hb : B.xy (B.b k) = p0 B (.root k) := by
      change _ = corner (rootQ B (k / 4)) _
      rw [key]
      change _ = B.xy (B.b (4 * (k / 4) + k % 4))
      rw [e0]
    refine ⟨rfl, rfl, hb, ?_⟩
    change B.xy (B.hd k) = corner (rootQ B (k / 4)) _
    rw [key, ← hB.chain _ hf]
    change _ = B.xy (B.hd (4 * (k / 4) + k % 4))
    rw [e0]
  | kid h b => cases hr
  | inner c i d => cases hr

theorem heSplit_pinv {B : Base K} {s s' : St K} (hi : HInv B.T s) (hp : PInv B s) {h : HN} (hs : heSplit s h = .ok s') : PInv B s' := by
  obtain ⟨k1, k2, k3, k4⟩ := p_kid B h
  unfold heSplit at hs
  rcases hr : s.he h with _ | r
  · rw [hr] at hs; cases hs
  rw [hr] at hs
  simp only at hs
  obtain ⟨a1, a2, a3, a4⟩ := hp h r hr
  have hmid : midpt (s.vx r.base) (s.vx r.head) = vpos B (.mid h) := by
    rw [mid_midpt, a1, a2, a3, a4]; rfl
  have hup : ∀ v, s.vx v = vpos B v → Function.update s.vx (.mid h) (midpt (s.vx r.base) (s.vx r.head)) v = vpos B v := by
    intro v hv
    by_cases e : v = .mid h
    · rw [e, Function.update_self, hmid]
    · rw [Function.update_of_ne e, hv]
  have hup' : Function.update s.vx (.mid h) (midpt (s.vx r.base) (s.vx r.head)) (.mid h) = vpos B (.mid h) := by
    rw [Function.update_self, hmid]
  have hm : vpos B (.mid h) = mid (p0 B h) (p1 B h) := rfl
  rcases htk : twinKids s r with _ | ⟨t, t0, t1⟩
  · rw [htk] at hs
    simp only at hs
    cases hs
    intro x q hq
    simp only at hq ⊢
    split_ifs at hq with h1 h2 h3
    · cases hq; subst h1
      exact ⟨hup _ a1, hup _ a2, a3, a4⟩
    · cases hq; subst h2
      exact ⟨hup _ a1, hup', by rw [k1, a3], by rw [k2, hm]⟩
    · cases hq; subst h3
      exact ⟨hup', hup _ a2, by rw [k3, hm], by rw [k4, a4]⟩
    · obtain ⟨b1, b2, b3, b4⟩ := hp x q hq
      exact ⟨hup _ b1, hup _ b2, b3, b4⟩
  · have ht : r.twin = some t ∧ (∃ q, s.he t = some q) ∧ s.he (.kid t false) = some t0 ∧ s.he (.kid t true) = some t1 := by
      unfold twinKids at htk
      split at htk
      · cases htk
      · rename_i ht
        split at htk
        · rename_i h1 h2 h3
          split_ifs at htk
          simp only [Option.some.injEq, Prod.mk.injEq] at htk
          obtain ⟨rfl, rfl, rfl⟩ := htk
          exact ⟨ht, ⟨_, h1⟩, h2, h3⟩
        · cases htk
    obtain ⟨ht1, ⟨q, hq⟩, ht2, ht3⟩ := ht
    have hsw := hi.swap h r t q hr ht1 hq
    have T0 := hp _ _ ht2
    have T1 := hp _ _ ht3
    obtain ⟨l1, l2, l3, l4⟩ := p_kid B t
    obtain ⟨b1, b2, b3, b4⟩ := hp t q hq
    have fin : ∀ vx vm, (∀ v, s.vx v = vpos B v → vx v = vpos B v) → vx vm = vpos B vm → vpos B vm = mid (p0 B h) (p1 B h) → s' = { s with
          vx := vx
          he := fun x =>
            if x = h then some { r with kids := true }
            else if x = .kid h false then some ⟨r.base, vm, some (.kid t true), none, false, r.per⟩
            else if x = .kid h true then some ⟨vm, r.head, some (.kid t false), none, false, r.per⟩
            else if x = .kid t false then some { t0 with twin := some (.kid h true) }
            else if x = .kid t true then some { t1 with twin := some (.kid h false) }
            else s.he x } → PInv B s' := by
      intro vx vm hvx hvm hvm' e
      rw [e]
      intro x q' hq'
      simp only at hq' ⊢
      split_ifs at hq' with h1 h2 h3 h4 h5
      · cases hq'; subst h1
        exact ⟨hvx _ a1, hvx _ a2, a3, a4⟩
      · cases hq'; subst h2
        exact ⟨hvx _ a1, hvm, by rw [k1, a3], by rw [k2, hvm']⟩
      · cases hq'; subst h3
        exact ⟨hvm, hvx _ a2, by rw [k3, hvm'], by rw [k4, a4]⟩
      · cases hq'; subst h4
        exact ⟨hvx _ T0.1, hvx _ T0.2.1, T0.2.2.1, T0.2.2.2⟩
      · cases hq'; subst h5
        exact ⟨hvx _ T1.1, hvx _ T1.2.1, T1.2.2.1, T1.2.2.2⟩
      · obtain ⟨c1, c2, c3, c4⟩ := hp x q' hq'
        exact ⟨hvx _ c1, hvx _ c2, c3, c4⟩
    rw [htk] at hs
    simp only at hs
    split_ifs at hs with hper hass hass
    · cases hs
      exact fin _ _ hup hup' hm rfl
    · cases hs
      refine fin _ _ (fun _ h => h) T0.2.1 ?_ rfl
      obtain ⟨_, e⟩ := hsw
      obtain ⟨e1, e2⟩ := e (by simpa using hper)
      rw [T0.2.2.2, l2, ← b3, ← b4, ← e1, ← e2, a3, a4, mid_comm]

theorem addInner_pinv {B : Base K} {s : St K} (hp : PInv B s) {c : CN} {i : Fin 4} {a : HERec}
    (ha : s.he (.kid (side c i) false) = some a) (hc : s.vx (.center c) = vpos B (.center c)) : PInv B (addInner s c i a.head) := by
  obtain ⟨i1, i2, i3, i4⟩ := p_inner B c i
  obtain ⟨_, a2, _, a4⟩ := hp _ _ ha
  have e := (p_kid B (side c i)).2.1
  have hcen : vpos B (.center c) = (quadAt B c.1 c.2).center := rfl
  intro x q hq
  simp only [addInner] at hq ⊢
  split_ifs at hq with h1 h2
  · cases hq; subst h1
    exact ⟨a2, hc, by rw [i1, a4, e], by rw [i2, hcen]⟩
  · cases hq; subst h2
    exact ⟨hc, a2, by rw [i3, hcen], by rw [i4, a4, e]⟩
  · exact hp x q hq

theorem cellSplit_pinv {B : Base K} (hB : B.WF) {s s' : St K} (hi : ZInv B s) (hp : PInv B s) {c : CN} (hc : Live B.n s.kids c)
    (hin : ∀ i d, s.he (.inner c i d) = none) {sf : Bool} (hs : cellSplit sf s c = .ok s') : PInv B s' := by
  unfold cellSplit at hs
  split_ifs at hs with hk
  have hcp : centerPt s c = vpos B (.center c) := by
    have key : ∀ i, baseXY s (s.sides c i) = corner (quadAt B c.1 c.2) i := by
      intro i
      unfold baseXY
      rw [hi.sides c hc]
      obtain ⟨r, hr⟩ := Option.isSome_iff_exists.1 (hi.ex c hc i)
      rw [hr]
      obtain ⟨a1, _, a3, _⟩ := hp _ r hr
      simp only
      rw [a1, a3]
      unfold p0
      rw [owner_side]
    rw [centerPt_eq]
    unfold cellQ
    simp only [key]
    rfl
  generalize hs0 : ({ s with vx := Function.update s.vx (.center c) (centerPt s c) } : St K) = s0 at hs
  have hp0 : PInv B s0 := by
    intro h r hr
    rw [← hs0] at hr ⊢
    simp only at hr ⊢
    obtain ⟨a1, a2, a3, a4⟩ := hp h r hr
    have hup : ∀ v, s.vx v = vpos B v → Function.update s.vx (.center c) (centerPt s c) v = vpos B v := by
      intro v hv
      by_cases e : v = .center c
      · rw [e, Function.update_self, hcp]
      · rw [Function.update_of_ne e, hv]
    exact ⟨hup _ a1, hup _ a2, a3, a4⟩
  have hc0 : s0.vx (.center c) = vpos B (.center c) := by rw [← hs0]; simp [hcp]
  have e0 : Eff1 B.T s s0 c [] := by
    have hf : s0.he = s.he ∧ s0.cells = s.cells ∧ s0.sides = s.sides ∧ s0.kids = s.kids ∧ s0.mkd = s.mkd := by
      rw [← hs0]; simp
    refine ⟨?_, ⟨hf.2.1, hf.2.2.1, hf.2.2.2.1, hf.2.2.2.2⟩, ?_, ?_, ?_⟩
    · have : SameUpToCell s.he s0.he := by
        intro x
        rw [hf.1]
        refine ⟨fun q => q.cell, ?_⟩
        cases s.he x <;> rfl
      exact this.hinv hi.hinv
    · intro x; rw [hf.1]; simp
    · intro x q' hq' q hq
      rw [hf.1, hq] at hq'
      cases hq'
      simp
    · intro i hi; cases hi
  have hloop : ∀ (l : List (Fin 4)) (D : List (Fin 4)) (a b : St K), Eff1 B.T s a c D → PInv B a → a.vx (.center c) = vpos B (.center c) →
      (∀ i ∈ l, i ∉ D) → l.Nodup → forEach (splitSide c) l a = .ok b → PInv B b := by
    intro l
    induction l with
    | nil => intro D a b _ hpa _ _ _ h; cases h; exact hpa
    | cons i l ih =>
      intro D a b he hpa hca hl hn h
      unfold forEach at h
      obtain ⟨a', h1, h2⟩ := reSide_eff hB hi hc hin he (hl i (by simp))
      rw [h1] at h
      have hsd : a.sides c i = side c i := by rw [he.same.2.1, hi.sides c hc]
      have hpa' : PInv B a' ∧ a'.vx (.center c) = vpos B (.center c) := by
        unfold splitSide at h1
        rw [hsd] at h1
        rcases hr : a.he (side c i) with _ | r
        · rw [hr] at h1; cases h1
        rw [hr] at h1
        simp only at h1
        rcases h3 : (if r.kids then .ok a else heSplit a (side c i)) with _ | a1
        · rw [h3] at h1; cases h1
        rw [h3] at h1
        simp only at h1
        have hp1 : PInv B a1 ∧ a1.vx (.center c) = vpos B (.center c) := by
          split_ifs at h3
          · cases h3; exact ⟨hpa, hca⟩
          · refine ⟨heSplit_pinv he.hinv hpa h3, ?_⟩
            rw [heSplit_vx h3 _ (by simp), hca]
        rcases h4 : a1.he (.kid (side c i) false) with _ | q
        · rw [h4] at h1; cases h1
        rw [h4] at h1
        simp only [Except.ok.injEq] at h1
        subst h1
        exact ⟨addInner_pinv hp1.1 h4 hp1.2, hp1.2⟩
      refine ih (i :: D) a' b h2 hpa'.1 hpa'.2 ?_ (List.nodup_cons.1 hn).2 h
      intro j hj hj'
      rcases List.mem_cons.1 hj' with rfl | hj'
      · exact (List.nodup_cons.1 hn).1 hj
      · exact hl j (by simp [hj]) hj'
  rcases h1 : forEach (splitSide c) four s0 with _ | s1
  · rw [h1] at hs; cases hs
  rw [h1] at hs
  simp only at hs
  have hp1 := hloop four [] s0 s1 e0 hp0 hc0 (by simp) (by decide) h1
  rcases h2 : forEach (fun s2 k => newCell s2 (child c k) (childSides s2 c k)) four s1 with _ | s2
  · rw [h2] at hs; cases hs
  rw [h2] at hs
  simp only [Except.ok.injEq] at hs
  have hsame : SameVs s1 s2 := by
    refine Dof.forEach_inv (I := fun x => SameVs s1 x) ?_ _ _ _ ⟨rfl, fun _ => rfl⟩ h2
    intro a b k ha hab
    exact ha.trans (newCell_same hab)
  have hS : SameVs s1 s' := by
    rw [← hs]; exact hsame
  intro x q hq
  obtain ⟨q0, g0, e1, e2⟩ := hS.bwd hq
  rw [e1, e2, hS.1]
  exact hp1 x q0 g0

theorem ZReach.pinv {B : Base K} (hB : B.WF) {s : St K} (hs : ZReach B s) : PInv B s := by
  induction hs with
  | init => exact init_pinv hB
  | mark s m _ ih => exact ih
  | del s c _ _ _ ih => exact ih
  | split s s' c sf hs hc hk h ih =>
    have hi := hs.inv hB
    unfold reSplit at h
    rw [if_neg (by simp [hk])] at h
    refine cellSplit_pinv hB (hi.clear hk) ?_ ((clear_live hk c).2 ((hi.mem c).1 hc)) (fun i d => by simp [clear, inIn]) h
    intro x r hr
    by_cases hx : inIn c x = true
    · simp [clear, hx] at hr
    · simp only [clear, hx] at hr
      exact ih x r hr

/-- **C83** (vertices).  The vertices of every cell of a mesh that was refined and coarsened are where they are in a mesh that was only refined: child `k` of
child `k'` of ... an initial cell. -/
theorem C83_vertices {B : Base K} (hB : B.WF) {s : St K} (hs : ZReach B s) (c : CN) (hc : c ∈ s.cells) :
    SameVerts (cellQ s c) (quadAt B c.1 c.2) := by
  have hi := hs.inv hB
  have hp := hs.pinv hB
  have hx := (hi.mem c).1 hc
  have key : ∀ i, baseXY s (s.sides c i) = corner (quadAt B c.1 c.2) i := by
    intro i
    obtain ⟨r, hr⟩ := Option.isSome_iff_exists.1 (hi.ex c hx i)
    unfold baseXY
    rw [hi.sides c hx, hr]
    obtain ⟨a1, _, a3, _⟩ := hp _ r hr
    simp only
    rw [a1, a3]
    unfold p0
    rw [owner_side]
  exact ⟨key 0, key 1, key 2, key 3⟩

end
end Verif.Mesh
