import Verif.Per.Names

/-!
# The periodic pairs of the vertices
-/

namespace Verif.Per
open Verif.Fem Verif.Mesh Verif.Dof

/-! ### `set_periodic_pair` -/

theorem addPair_mono {l : List (CN × VN)} {x y : CN × VN} (h : y ∈ l) : y ∈ addPair l x := by
  unfold addPair
  split_ifs
  · exact h
  · simp [h]

theorem addPair_mem {l : List (CN × VN)} {x y : CN × VN} (h : y ∈ addPair l x) : y ∈ l ∨ y = x := by
  unfold addPair at h
  split_ifs at h
  · exact .inl h
  · simpa using h

theorem contains_refl (c : CN) : contains c c = true := by
  simp [contains]

theorem addPair_cov (l : List (CN × VN)) (x : CN × VN) : ∃ c, (c, x.2) ∈ addPair l x ∧ contains c x.1 = true := by
  unfold addPair
  split_ifs with h
  · obtain ⟨y, h1, h2⟩ := List.any_eq_true.1 h
    simp only [Bool.and_eq_true, decide_eq_true_eq] at h2
    exact ⟨y.1, by rw [← h2.1]; exact h1, h2.2⟩
  · exact ⟨x.1, by simp, contains_refl _⟩

theorem foldl_addPair_mono (l : List (CN × VN)) : ∀ (a : List (CN × VN)) (y : CN × VN), y ∈ a → y ∈ l.foldl addPair a := by
  induction l with
  | nil => intro a y h; exact h
  | cons x l ih => intro a y h; exact ih _ y (addPair_mono h)

theorem foldl_addPair_mem (l : List (CN × VN)) : ∀ (a : List (CN × VN)) (y : CN × VN), y ∈ l.foldl addPair a → y ∈ a ∨ y ∈ l := by
  induction l with
  | nil => intro a y h; exact .inl h
  | cons x l ih =>
    intro a y h
    rcases ih _ y h with h | h
    · rcases addPair_mem h with h | h
      · exact .inl h
      · exact .inr (by simp [h])
    · exact .inr (by simp [h])

theorem foldl_addPair_cov (l : List (CN × VN)) : ∀ (a : List (CN × VN)) (x : CN × VN), x ∈ l →
    ∃ c, (c, x.2) ∈ l.foldl addPair a ∧ contains c x.1 = true := by
  induction l with
  | nil => intro a x h; cases h
  | cons z l ih =>
    intro a x h
    rcases List.mem_cons.1 h with rfl | h
    · obtain ⟨c, h1, h2⟩ := addPair_cov a x
      exact ⟨c, foldl_addPair_mono l _ _ h1, h2⟩
    · exact ih _ x h

theorem SetPair.other {pr pr' : Pairs} {v w : VN} {x : CN × VN} (h : SetPair pr v x pr') (hw : w ≠ v) : pr' w = pr w := by
  obtain ⟨l, _, rfl⟩ := h
  rw [Function.update_of_ne hw]

theorem SetPair.mono {pr pr' : Pairs} {v w : VN} {x y : CN × VN} (h : SetPair pr v x pr') (hy : y ∈ pr w) : y ∈ pr' w := by
  by_cases hw : w = v
  · obtain ⟨l, _, rfl⟩ := h
    subst hw
    rw [Function.update_self]
    exact foldl_addPair_mono l _ _ hy
  · rw [h.other hw]; exact hy

theorem SetPair.mem {pr pr' : Pairs} {v : VN} {x y : CN × VN} (h : SetPair pr v x pr') (hy : y ∈ pr' v) :
    y ∈ pr v ∨ y ∈ pr x.2 ∨ y = x := by
  obtain ⟨l, h1, rfl⟩ := h
  rw [Function.update_self] at hy
  rcases foldl_addPair_mem l _ _ hy with h | h
  · exact .inl h
  · exact .inr ((h1 y).1 h)

theorem SetPair.cov {pr pr' : Pairs} {v : VN} {x : CN × VN} (h : SetPair pr v x pr') :
    ∃ c, (c, x.2) ∈ pr' v ∧ contains c x.1 = true := by
  obtain ⟨l, h1, rfl⟩ := h
  rw [Function.update_self]
  exact foldl_addPair_cov l _ x ((h1 x).2 (.inr rfl))

theorem SetPair.total (pr : Pairs) (v : VN) (x : CN × VN) : ∃ pr', SetPair pr v x pr' :=
  ⟨_, pr x.2 ++ [x], by simp, rfl⟩

/-! ### `pair_periodic_vertices` -/

theorem PairVtx.total (pr : Pairs) (c : CN) (v : VN) (d : CN) (w : VN) : ∃ pr', PairVtx pr c v d w pr' := by
  obtain ⟨p1, h1⟩ := SetPair.total pr v (c, v)
  obtain ⟨p2, h2⟩ := SetPair.total p1 w (d, w)
  obtain ⟨p3, h3⟩ := SetPair.total p2 v (d, w)
  obtain ⟨p4, h4⟩ := SetPair.total p3 w (c, v)
  exact ⟨p4, p1, p2, p3, h1, h2, h3, h4⟩

theorem PairVtx.mono {pr pr' : Pairs} {c d : CN} {v w u : VN} {y : CN × VN} (h : PairVtx pr c v d w pr') (hy : y ∈ pr u) :
    y ∈ pr' u := by
  obtain ⟨p1, p2, p3, h1, h2, h3, h4⟩ := h
  exact h4.mono (h3.mono (h2.mono (h1.mono hy)))

theorem PairVtx.other {pr pr' : Pairs} {c d : CN} {v w u : VN} (h : PairVtx pr c v d w pr') (h1 : u ≠ v) (h2 : u ≠ w) :
    pr' u = pr u := by
  obtain ⟨p1, p2, p3, g1, g2, g3, g4⟩ := h
  rw [g4.other h2, g3.other h1, g2.other h2, g1.other h1]

theorem PairVtx.cov {pr pr' : Pairs} {c d : CN} {v w u : VN} {x : CN × VN} (h : PairVtx pr c v d w pr') (hu : u = v ∨ u = w)
    (hx : x = (c, v) ∨ x = (d, w)) : ∃ c', (c', x.2) ∈ pr' u ∧ contains c' x.1 = true := by
  obtain ⟨p1, p2, p3, h1, h2, h3, h4⟩ := h
  rcases hu with rfl | rfl <;> rcases hx with rfl | rfl
  · obtain ⟨c', g1, g2⟩ := h1.cov
    exact ⟨c', h4.mono (h3.mono (h2.mono g1)), g2⟩
  · obtain ⟨c', g1, g2⟩ := h3.cov
    exact ⟨c', h4.mono g1, g2⟩
  · exact h4.cov
  · obtain ⟨c', g1, g2⟩ := h2.cov
    exact ⟨c', h4.mono (h3.mono g1), g2⟩

section
set_option linter.unusedSectionVars false
variable {K : Type} [Field K] {B : Base K} {s : St K} {pr pr' : Pairs}

theorem PReach.reach (h : PReach B s pr) : MReach B s := by
  induction h with
  | init pr _ => exact .init
  | split s s' pr pr' c sf _ h1 h2 h3 _ ih => exact .split s s' c sf ih h1 h2 h3
  | mark s pr m _ ih => exact .mark s m ih
  | perm s pr pr' _ _ ih => exact ih

/-- The pair is a cell and its vertex at the point of `v`. -/
def Good (B : Base K) (s : St K) (v : VN) (x : CN × VN) : Prop :=
  CEx B.n s.kids x.1 ∧ ∃ j, x.2 = vert s x.1 j ∧ ∀ p, At B v p → SamePt B p (rootPt x.1 (E j 0))

/-- All pairs are good. -/
def Sound (B : Base K) (s : St K) (pr : Pairs) : Prop := ∀ v x, x ∈ pr v → Good B s v x

theorem SetPair.sound (hB : B.WF) (hs : MReach B s) {v : VN} {x : CN × VN} (hS : Sound B s pr) (hx : Good B s v x)
    (h : SetPair pr v x pr') : Sound B s pr' := by
  intro u y hy
  by_cases hu : u = v
  · subst hu
    rcases h.mem hy with h1 | h1 | rfl
    · exact hS _ _ h1
    · obtain ⟨g1, j, g2, g3⟩ := hx
      obtain ⟨k1, j', k2, k3⟩ := hS _ _ h1
      refine ⟨k1, j', k2, fun p hp => SamePt.trans' (g3 p hp) (k3 _ ?_)⟩
      rw [g2]
      exact vert_at hB hs g1 j
    · exact hx
  · rw [h.other hu] at hy; exact hS _ _ hy

theorem PairVtx.sound (hB : B.WF) (hN : Nice B) (hs : MReach B s) {c d : CN} {i j : Fin 4} (hc : CEx B.n s.kids c)
    (hd : CEx B.n s.kids d) (hp : SamePt B (rootPt c (E i (0 : ℚ))) (rootPt d (E j 0))) (hS : Sound B s pr)
    (h : PairVtx pr c (vert s c i) d (vert s d j) pr') : Sound B s pr' := by
  obtain ⟨p1, p2, p3, h1, h2, h3, h4⟩ := h
  have s1 := h1.sound hB hs hS ⟨hc, i, rfl, fun p hp => At.uniq hN hp (vert_at hB hs hc i)⟩
  have s2 := h2.sound hB hs s1 ⟨hd, j, rfl, fun p hp => At.uniq hN hp (vert_at hB hs hd j)⟩
  have s3 := h3.sound hB hs s2 ⟨hd, j, rfl, fun p h => SamePt.trans' (At.uniq hN h (vert_at hB hs hc i)) hp⟩
  exact h4.sound hB hs s3 ⟨hc, i, rfl, fun p h => SamePt.trans' (At.uniq hN h (vert_at hB hs hd j)) (SamePt.symm' hp)⟩

/-- The cases of `pair_periodic_vertices`. -/
theorem PairEdge.inv (hi : CInv B s) (hn : NInv B.T B.per s) {h : HN} (he : PairEdge s h pr pr') :
    pr' = pr ∧ ¬ (perH B.per h = true ∧ ∃ t, vt B.T h = some t ∧ (s.he t).isSome) ∨
    ∃ t r q pr1, perH B.per h = true ∧ vt B.T h = some t ∧ s.he h = some r ∧ s.he t = some q ∧
      PairVtx pr (owner h).1 r.base (owner t).1 q.head pr1 ∧ PairVtx pr1 (owner h).1 r.head (owner t).1 q.base pr' := by
  unfold PairEdge at he
  rcases hr : s.he h with _ | r
  · rw [hr] at he; exact he.elim
  rw [hr] at he
  simp only at he
  have hp := hn.per h r hr
  by_cases hper : r.per = true
  · rw [if_pos hper] at he
    rcases htw : r.twin with _ | t
    · rw [htw] at he
      simp only at he
      refine .inl ⟨he, ?_⟩
      rintro ⟨_, t, h1, h2⟩
      have := (hi.hinv.tw h r hr t).2 ⟨h1, h2⟩
      rw [htw] at this; cases this
    · rw [htw] at he
      simp only at he
      rcases hq : s.he t with _ | q
      · rw [hq] at he; exact he.elim
      rw [hq] at he
      simp only [hi.cell h r hr, hi.cell t q hq] at he
      obtain ⟨p1, h1, h2⟩ := he
      exact .inr ⟨t, r, q, p1, hp ▸ hper, ((hi.hinv.tw h r hr t).1 htw).1, rfl, hq, h1, h2⟩
  · rw [if_neg hper] at he
    refine .inl ⟨he, ?_⟩
    rintro ⟨h1, _⟩
    rw [← hp] at h1
    exact hper h1

theorem PairEdge.total (hi : CInv B s) {h : HN} (hh : (s.he h).isSome) : ∃ pr', PairEdge s h pr pr' := by
  obtain ⟨r, hr⟩ := Option.isSome_iff_exists.1 hh
  unfold PairEdge
  rw [hr]
  simp only
  by_cases hper : r.per = true
  · simp only [hper, if_true]
    rcases htw : r.twin with _ | t
    · exact ⟨pr, rfl⟩
    · obtain ⟨q, hq⟩ := Option.isSome_iff_exists.1 ((hi.hinv.tw h r hr t).1 htw).2
      simp only [hq, hi.cell h r hr, hi.cell t q hq]
      obtain ⟨p1, h1⟩ := PairVtx.total pr (owner h).1 r.base (owner t).1 q.head
      obtain ⟨p2, h2⟩ := PairVtx.total p1 (owner h).1 r.head (owner t).1 q.base
      exact ⟨p2, p1, h1, h2⟩
  · simp only [hper, if_false]
    exact ⟨pr, by simp⟩

theorem PairAll.total (hi : CInv B s) : ∀ (l : List HN), (∀ h ∈ l, (s.he h).isSome) → ∀ pr, ∃ pr', PairAll s l pr pr' := by
  intro l
  induction l with
  | nil => intro _ pr; exact ⟨pr, rfl⟩
  | cons h l ih =>
    intro hl pr
    obtain ⟨p1, h1⟩ := PairEdge.total (pr := pr) hi (hl h (by simp))
    obtain ⟨p2, h2⟩ := ih (fun x hx => hl x (by simp [hx])) p1
    exact ⟨p2, p1, h1, h2⟩

theorem PairEdge.mono (hi : CInv B s) (hn : NInv B.T B.per s) {h : HN} (he : PairEdge s h pr pr') {v : VN} {y : CN × VN}
    (hy : y ∈ pr v) : y ∈ pr' v := by
  rcases he.inv hi hn with ⟨rfl, _⟩ | ⟨t, r, q, p1, _, _, _, _, h1, h2⟩
  · exact hy
  · exact h2.mono (h1.mono hy)

theorem PairAll.mono (hi : CInv B s) (hn : NInv B.T B.per s) : ∀ (l : List HN) (pr pr' : Pairs), PairAll s l pr pr' →
    ∀ v y, y ∈ pr v → y ∈ pr' v := by
  intro l
  induction l with
  | nil => rintro pr pr' h v y hy; rw [show pr' = pr from h]; exact hy
  | cons h l ih =>
    rintro pr pr' ⟨p1, h1, h2⟩ v y hy
    exact ih p1 pr' h2 v y (h1.mono hi hn hy)

/-- The step for one of the half-edges. -/
theorem PairAll.edge (hi : CInv B s) (hn : NInv B.T B.per s) : ∀ (l : List HN) (pr pr' : Pairs), PairAll s l pr pr' →
    ∀ h ∈ l, ∃ p1 p2, PairEdge s h p1 p2 ∧ ∀ v y, y ∈ p2 v → y ∈ pr' v := by
  intro l
  induction l with
  | nil => intro pr pr' _ h hh; cases hh
  | cons h l ih =>
    rintro pr pr' ⟨p1, h1, h2⟩ x hx
    rcases List.mem_cons.1 hx with rfl | hx
    · exact ⟨pr, p1, h1, fun v y hy => PairAll.mono hi hn l p1 pr' h2 v y hy⟩
    · exact ih p1 pr' h2 x hx

/-- The ends of the half-edges as vertices of cells. -/
theorem ends_vert (hi : CInv B s) {h : HN} {r : HERec} (hr : s.he h = some r) :
    CEx B.n s.kids (owner h).1 ∧ r.base = vert s (owner h).1 (owner h).2 ∧ r.head = vert s (owner h).1 ((owner h).2 + 1) := by
  have hc : CEx B.n s.kids (owner h).1 := (hi.ex h).1 (by rw [hr]; rfl)
  obtain ⟨r', h1, h2, h3⟩ := vert_eq hi hc (owner h).2
  rw [side_owner, hr] at h1
  cases h1
  exact ⟨hc, h2.symm, h3.symm⟩

theorem PairEdge.sound (hB : B.WF) (hN : Nice B) (hs : MReach B s) {h : HN} (he : PairEdge s h pr pr') (hS : Sound B s pr) :
    Sound B s pr' := by
  have hi := hs.inv hB
  rcases he.inv hi (reach_ninv hB hs) with ⟨rfl, _⟩ | ⟨t, r, q, p1, _, hv, hr, hq, h1, h2⟩
  · exact hS
  · obtain ⟨c1, e1, e2⟩ := ends_vert hi hr
    obtain ⟨c2, f1, f2⟩ := ends_vert hi hq
    rw [e1, f2] at h1
    rw [e2, f1] at h2
    have g0 := hePt_twin hv (CEx_root hi c1) (CEx_root hi c2) (r := 0) (by norm_num) (by norm_num)
    have g1 := hePt_twin hv (CEx_root hi c1) (CEx_root hi c2) (r := 1) (by norm_num) (by norm_num)
    unfold hePt at g0 g1
    rw [sub_zero, E_next] at g0
    rw [sub_self, E_next] at g1
    exact h2.sound hB hN hs c1 c2 g1 (h1.sound hB hN hs c1 c2 g0 hS)

theorem PairAll.sound (hB : B.WF) (hN : Nice B) (hs : MReach B s) : ∀ (l : List HN) (pr pr' : Pairs), PairAll s l pr pr' →
    Sound B s pr → Sound B s pr' := by
  intro l
  induction l with
  | nil => rintro pr pr' h hS; rw [show pr' = pr from h]; exact hS
  | cons h l ih =>
    rintro pr pr' ⟨p1, h1, h2⟩ hS
    exact ih p1 pr' h2 (h1.sound hB hN hs hS)

end

end Verif.Per
