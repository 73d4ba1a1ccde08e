import Verif.Coarse.Inv

/-!
# C83: a mesh that was coarsened has the cells of a mesh that was only refined
-/

namespace Verif.Mesh
open Verif.Geom Verif.Quad

section
set_option linter.unusedSectionVars false
variable {K : Type} [Field K]

theorem live_split {n : Nat} {kids kids' : CN → Bool} {c : CN} (hc : Live n kids c) (hk : kids c = false)
    (h : ∀ d, kids' d = true ↔ d = c ∨ kids d = true ∧ ∀ k, d ≠ child c k) (d : CN) :
    Live n kids' d ↔ Live n kids d ∨ ∃ k, d = child c k := by
  obtain ⟨r, p⟩ := d
  induction p with
  | nil => simp [Live, LiveL, child]
  | cons k p ih =>
    have e : ((r, k :: p) : CN) = child (r, p) k := rfl
    rw [e, Live_child, Live_child, ih, h]
    constructor
    · rintro ⟨rfl | ⟨h1, h2⟩, h3⟩
      · exact .inr ⟨k, rfl⟩
      · rcases h3 with h3 | ⟨k', h3⟩
        · exact .inl ⟨h1, h3⟩
        · exact absurd h3 (h2 k')
    · rintro (⟨h1, h2⟩ | ⟨k', h1⟩)
      · refine ⟨.inr ⟨h1, fun k' e' => ?_⟩, .inl h2⟩
        rw [e', Live_child, hk] at h2
        cases h2.1
      · have := (child_inj h1).1
        exact ⟨.inl this, .inl (this ▸ hc)⟩

/-- **C83** (splitting).  In every mesh that was refined and coarsened, a cell without children can be split: no assertion fails, the mesh has in
addition its four children, which have no children and carry the flag exactly if one was given, and for all other cells nothing changes. -/
theorem C83_split_ok {B : Base K} (hB : B.WF) {s : St K} (hs : ZReach B s) (c : CN) (hc : c ∈ s.cells) (hk : s.kids c = false) (sf : Bool) :
    ∃ s', reSplit sf s c = .ok s' ∧ ZReach B s' ∧ (∀ d, d ∈ s'.cells ↔ d ∈ s.cells ∨ ∃ k, d = child c k) ∧
      (∀ d ∈ s'.cells, (s'.kids d = true ↔ d = c ∨ d ∈ s.cells ∧ s.kids d = true) ∧
        (s'.mkd d = true ↔ (∃ k, d = child c k) ∧ sf = true ∨ d ∈ s.cells ∧ s.mkd d = true)) := by
  have hi := hs.inv hB
  obtain ⟨s', h1, h2, h3, h4⟩ := reSplit_spec hB hi hc hk sf
  have hL := live_split ((hi.mem c).1 hc) hk h3
  have hno : ∀ k, child c k ∉ s.cells := by
    intro k h
    rw [hi.mem, Live_child, hk] at h
    cases h.1
  refine ⟨s', h1, .split s s' c sf hs hc hk h1, fun d => by rw [h2.mem, hi.mem, hL], fun d hd => ?_⟩
  rw [h2.mem, hL] at hd
  rw [h3, h4, hi.mem]
  rcases hd with hd | ⟨k, rfl⟩
  · have hne : ∀ k, d ≠ child c k := by
      rintro k rfl
      exact hno k ((hi.mem _).2 hd)
    simp [hd, hne]
  · have hno' : ¬ Live B.n s.kids (child c k) := fun h => hno k ((hi.mem _).2 h)
    simp only [hno', false_and, or_false]
    constructor
    · constructor
      · rintro (h | h)
        · exact h
        · exact absurd rfl (h.2 k)
      · exact .inl
    · constructor
      · rintro (h | h)
        · exact h
        · exact absurd rfl (h.1 k)
      · exact .inl

/-- **C83** (deleting).  `delete_children` of a cell removes exactly its descendants from the mesh; the cell itself has no children afterwards. -/
theorem C83_delete {B : Base K} {s : St K} (hs : ZReach B s) (c : CN) (hc : c ∈ s.cells) (hk : s.kids c = true) :
    ZReach B (delKids s c) ∧ (∀ d, d ∈ (delKids s c).cells ↔ d ∈ s.cells ∧ ¬ (d.1 = c.1 ∧ ∃ k p, d.2 = p ++ k :: c.2)) ∧
      (delKids s c).kids c = false ∧ ∀ d, d ≠ c → (delKids s c).kids d = s.kids d := by
  refine ⟨.del s c hs hc hk, fun d => ?_, by simp [delKids], fun d hd => by simp [delKids, hd]⟩
  have key : under c d = true ↔ d.1 = c.1 ∧ ∃ k p, d.2 = p ++ k :: c.2 := by
    rw [under_iff]
    constructor
    · rintro ⟨h1, ⟨p, h2⟩, h3⟩
      refine ⟨h1.symm, ?_⟩
      rcases List.eq_nil_or_concat p with rfl | ⟨q, k, rfl⟩
      · exact absurd (Prod.ext h1 (by simpa using h2)) h3
      · exact ⟨k, q, by rw [← h2]; simp⟩
    · rintro ⟨h1, k, p, h2⟩
      refine ⟨h1.symm, ⟨p ++ [k], by rw [h2]; simp⟩, ?_⟩
      rintro rfl
      have := congrArg List.length h2
      simp at this
      omega
  rw [← key]
  simp [delKids]

/-! ### The mesh that is reached by splitting only -/

/-- Undo all splits below `c`. -/
theorem prune {B : Base K} (hB : B.WF) {s : St K} (hs : MReach B s) (c : CN) : ∃ s', MReach B s' ∧
    ∀ d, s'.kids d = true ↔ s.kids d = true ∧ d ≠ c ∧ under c d = false := by
  induction hs with
  | init => exact ⟨_, .init, fun d => by simp [init]⟩
  | mark s m _ ih => exact ih
  | split s s' d sf hs hd hk h ih =>
    obtain ⟨s1, h1, h2⟩ := ih
    have hi := hs.inv hB
    have hi1 := h1.inv hB
    obtain ⟨s2, g1, _, g3, _⟩ := cellSplit_spec hB hi ((hi.mem d).1 hd) hk sf
    rw [h] at g1
    cases g1
    by_cases hdc : d = c ∨ under c d = true
    · refine ⟨s1, h1, fun e => ?_⟩
      rw [h2, g3]
      by_cases he : e = d
      · subst he
        simp only [Function.update_self, true_and, hk, Bool.false_eq_true, false_and, false_iff, not_and, Bool.not_eq_false]
        intro hne
        exact hdc.resolve_left hne
      · rw [Function.update_of_ne he]
    · push Not at hdc
      have hx : CEx B.n s1.kids d := by
        have hx := (hi.mem d).1 hd
        obtain ⟨r, _ | ⟨k, p⟩⟩ := d
        · exact hx
        · have e : ((r, k :: p) : CN) = child (r, p) k := rfl
          rw [e] at hx hdc ⊢
          rw [CEx_child] at hx ⊢
          have hu := under_child c (r, p) k
          rw [h2]
          refine ⟨hx, ?_, ?_⟩
          · intro e; exact hdc.2 (hu.2 (.inl e))
          · rw [Bool.eq_false_iff]
            intro e; exact hdc.2 (hu.2 (.inr e))
      have hk1 : s1.kids d = false := by
        rw [Bool.eq_false_iff]
        intro e
        rw [h2, hk] at e
        cases e.1
      obtain ⟨s3, f1, _, f3, _⟩ := cellSplit_spec hB hi1 hx hk1 sf
      refine ⟨s3, .split s1 s3 d sf h1 ((hi1.mem d).2 hx) hk1 f1, fun e => ?_⟩
      rw [f3, g3]
      by_cases he : e = d
      · subst he
        simp only [Function.update_self, true_and, true_iff]
        exact ⟨hdc.1, by simpa using hdc.2⟩
      · rw [Function.update_of_ne he, Function.update_of_ne he, h2]

/-- The states `s` and `s0` have the same cells with the same children and the same marks. -/
structure SameMesh (s s0 : St K) : Prop where
  cells : ∀ c, c ∈ s.cells ↔ c ∈ s0.cells
  kids : ∀ c ∈ s.cells, s.kids c = s0.kids c
  mkd : ∀ c ∈ s.cells, s.mkd c = s0.mkd c
  sides : ∀ c ∈ s.cells, s.sides c = s0.sides c

theorem direct_kids {B : Base K} (hB : B.WF) {s : St K} (hs : ZReach B s) : ∃ s0, MReach B s0 ∧
    ∀ d, s0.kids d = true ↔ Live B.n s.kids d ∧ s.kids d = true := by
  induction hs with
  | init => exact ⟨_, .init, fun d => by simp [init]⟩
  | mark s m _ ih => exact ih
  | del s c hs hc hk ih =>
    obtain ⟨s0, h1, h2⟩ := ih
    obtain ⟨s1, h3, h4⟩ := prune hB h1 c
    refine ⟨s1, h3, fun d => ?_⟩
    rw [h4, h2]
    have e : Live B.n (delKids s c).kids d ↔ Live B.n s.kids d ∧ under c d = false := live_del d
    rw [e]
    by_cases hd : d = c
    · subst hd; simp [delKids]
    · simp only [delKids, Function.update_of_ne hd]
      tauto
  | split s s' c sf hs hc hk h ih =>
    obtain ⟨s0, h1, h2⟩ := ih
    have hi := hs.inv hB
    have hi0 := h1.inv hB
    obtain ⟨s2, g1, g2, g3, _⟩ := reSplit_spec hB hi hc hk sf
    rw [h] at g1
    cases g1
    have hc' := (hi.mem c).1 hc
    have hL := live_split hc' hk g3
    have hx : CEx B.n s0.kids c := by
      obtain ⟨r, _ | ⟨k, p⟩⟩ := c
      · exact hc'
      · exact (h2 _).2 ⟨hc'.2, hc'.1⟩
    have hk0 : s0.kids c = false := by
      rw [Bool.eq_false_iff]
      intro e
      rw [h2, hk] at e
      cases e.2
    obtain ⟨s3, f1, _, f3, _⟩ := cellSplit_spec hB hi0 hx hk0 sf
    refine ⟨s3, .split s0 s3 c sf h1 ((hi0.mem c).2 hx) hk0 f1, fun d => ?_⟩
    rw [f3, hL, g3]
    by_cases hd : d = c
    · subst hd; simp [hc']
    · rw [Function.update_of_ne hd, h2]
      simp only [hd, false_or]
      constructor
      · rintro ⟨e1, e2⟩
        refine ⟨.inl e1, e2, ?_⟩
        rintro k rfl
        rw [Live_child, hk] at e1
        cases e1.1
      · rintro ⟨e1 | ⟨k, e1⟩, e2, e3⟩
        · exact ⟨e1, e2⟩
        · exact absurd e1 (e3 k)

theorem live_cex {n : Nat} {kids kids0 : CN → Bool} (h : ∀ d, kids0 d = true ↔ Live n kids d ∧ kids d = true) (c : CN) :
    Live n kids c ↔ CEx n kids0 c := by
  obtain ⟨r, _ | ⟨k, p⟩⟩ := c
  · exact Iff.rfl
  · have e : ((r, k :: p) : CN) = child (r, p) k := rfl
    rw [e, Live_child, CEx_child, h, and_comm]

/-- **C83** (no memory of the cells).  Whatever was split and deleted before: some sequence of splits alone gives a mesh with the same cells, the same
children, the same half-edges of the cells and the same marks. -/
theorem C83_direct {B : Base K} (hB : B.WF) {s : St K} (hs : ZReach B s) : ∃ s0, MReach B s0 ∧ SameMesh s s0 := by
  obtain ⟨s0, h1, h2⟩ := direct_kids hB hs
  have hi := hs.inv hB
  have hi0 := h1.inv hB
  refine ⟨{ s0 with mkd := s.mkd }, .mark _ _ h1, ⟨fun c => ?_, fun c hc => ?_, fun c _ => rfl, fun c hc => ?_⟩⟩
  · rw [hi.mem, live_cex h2]
    exact (hi0.mem c).symm
  · rw [hi.mem] at hc
    have := h2 c
    simp only [hc, true_and] at this
    change s.kids c = s0.kids c
    rw [Bool.eq_iff_iff, this]
  · rw [hi.mem] at hc
    rw [hi.sides c hc]
    exact (hi0.sides c ((live_cex h2 c).1 hc)).symm

/-! ### Neighbours -/

theorem zNb_iff {B : Base K} {s : St K} (hi : ZInv B s) {h : HN} (hh : (s.he h).isSome) (d : CN) (hd : d ∈ s.cells) (sf : Bool) :
    getNb sf s h = some d ↔ ∃ t, vt B.T h = some t ∧ (owner t).1 = d ∧ (sf = false ∨ s.mkd d = true) := by
  obtain ⟨r, hr⟩ := Option.isSome_iff_exists.1 hh
  have hx : ∀ t, (owner t).1 = d → (s.he t).isSome := by
    intro t e
    rw [← side_owner t, e]
    exact hi.ex d ((hi.mem d).1 hd) _
  unfold getNb
  rw [hr]
  simp only
  rcases ht : r.twin with _ | t
  · simp only [reduceCtorEq, false_iff, not_exists, not_and]
    intro t hv ho
    have := (hi.hinv.tw h r hr t).2 ⟨hv, hx t ho⟩
    rw [ht] at this; cases this
  · obtain ⟨hv, hx'⟩ := (hi.hinv.tw h r hr t).1 ht
    obtain ⟨q, hq⟩ := Option.isSome_iff_exists.1 hx'
    simp only [hq, hi.cell t q hq, hv]
    constructor
    · intro h
      split_ifs at h with hm
      cases h
      refine ⟨t, rfl, rfl, ?_⟩
      simpa using hm
    · rintro ⟨t', e, rfl, hm⟩
      cases e
      rw [if_pos (by simpa using hm)]

/-- **C83** (neighbours).  For cells of the mesh, `get_neighbors(half_edge)` finds the same neighbours as in the mesh that was only refined, with and without
a flag.  Missing: it also returns deleted cells (`C83_neighbor_violated`). -/
theorem C83_neighbors_partial {B : Base K} (hB : B.WF) {s s0 : St K} (hs : ZReach B s) (h0 : MReach B s0) (hm : SameMesh s s0) (sf : Bool)
    (c : CN) (hc : c ∈ s.cells) (i : Fin 4) (d : CN) (hd : d ∈ s.cells) :
    getNb sf s (s.sides c i) = some d ↔ getNb sf s0 (s0.sides c i) = some d := by
  have hi := hs.inv hB
  have hi0 := h0.inv hB
  have hc0 := (hi0.mem c).1 ((hm.cells c).1 hc)
  have hd0 := (hi0.mem d).1 ((hm.cells d).1 hd)
  have hc' := (hi.mem c).1 hc
  rw [hi.sides c hc', hi0.sides c hc0, zNb_iff hi (hi.ex c hc' i) d hd sf, getNb_iff hi0 sf (by rw [hi0.ex, owner_side]; exact hc0) d,
    hm.mkd d hd]
  simp [hd0]

/-- If `get_neighbors` returns no deleted cell, it returns what it returns in the mesh that was only refined. -/
theorem C83_neighbors_clean_partial {B : Base K} (hB : B.WF) {s s0 : St K} (hs : ZReach B s) (h0 : MReach B s0) (hm : SameMesh s s0) (sf : Bool)
    (c : CN) (hc : c ∈ s.cells) (i : Fin 4) (hn : ∀ d, getNb sf s (s.sides c i) = some d → d ∈ s.cells) :
    getNb sf s (s.sides c i) = getNb sf s0 (s0.sides c i) := by
  have key := C83_neighbors_partial hB hs h0 hm sf c hc i
  have hi0 := h0.inv hB
  rcases h : getNb sf s (s.sides c i) with _ | d
  · rcases h' : getNb sf s0 (s0.sides c i) with _ | d
    · rfl
    · have hd : d ∈ s.cells := by
        have hc0 := (hi0.mem c).1 ((hm.cells c).1 hc)
        rw [hi0.sides c hc0, getNb_iff hi0 sf (by rw [hi0.ex, owner_side]; exact hc0) d] at h'
        obtain ⟨_, _, _, h', _⟩ := h'
        exact (hm.cells d).2 ((hi0.mem d).2 h')
      rw [(key d hd).2 h'] at h
      cases h
  · exact ((key d (hn d h)).1 h).symm

/-! ### The 2:1 rule -/

/-- **C83** (2:1 rule).  If `is_balanced()` is true on a mesh that was coarsened, then the mesh satisfies the 2:1 rule (C27).  Missing: the converse is
false (`C83_balanced_violated`). -/
theorem C83_balanced_partial {B : Base K} (hB : B.WF) {s s0 : St K} (hs : ZReach B s) (h0 : MReach B s0) (hm : SameMesh s s0)
    (hb : isBalanced false s = true) : Balanced21 s0 ∧ isBalanced false s0 = true := by
  have hi := hs.inv hB
  have hi0 := h0.inv hB
  have hB0 : isBalanced false s0 = true := by
    rw [isBalanced_iff hi0 (.inl rfl)]
    rintro c hc hk ⟨i, t, b, hv, h1, h2⟩
    have hc' : c ∈ s.cells := (hm.cells c).2 ((hi0.mem c).2 hc)
    have hl : c ∈ leaves false s := by
      simp [leaves, hasCh, hc', hm.kids c hc', hk]
    have hd : (owner t).1 ∈ s.cells := (hm.cells _).2 ((hi0.mem _).2 (hi0.pref _ h1))
    have hdk : (owner (.kid t b)).1 ∈ s.cells := (hm.cells _).2 ((hi0.mem _).2 (hi0.pref _ h2))
    have hlc := (hi.mem c).1 hc'
    have hnb : getNb false s (s.sides c i) = some (owner t).1 := by
      rw [hi.sides c hlc]
      exact (zNb_iff hi (hi.ex c hlc i) _ hd false).2 ⟨t, hv, rfl, .inl rfl⟩
    have hbad : sideBad false s c i = true := by
      unfold sideBad
      rw [hnb]
      simp only [Bool.and_eq_true]
      refine ⟨by simp [hasCh, hm.kids _ hd, h1], ?_⟩
      obtain ⟨r, hr⟩ := Option.isSome_iff_exists.1 (hi.ex c hlc i)
      have hxt : (s.he t).isSome := by
        rw [← side_owner t]; exact hi.ex _ ((hi.mem _).1 hd) _
      have htw := (hi.hinv.tw _ r hr t).2 ⟨hv, hxt⟩
      have hxk : (s.he (.kid t b)).isSome := by
        rw [← side_owner (.kid t b)]; exact hi.ex _ ((hi.mem _).1 hdk) _
      obtain ⟨q, hq⟩ := Option.isSome_iff_exists.1 hxk
      unfold twinKidSplit
      rw [hi.sides c hlc, hr]
      simp only [htw, List.any_eq_true]
      refine ⟨b, by cases b <;> simp, ?_⟩
      rw [hq]
      simp only [hi.cell _ q hq]
      simp [hasCh, hm.kids _ hdk, h2]
    have := List.all_eq_true.1 (List.all_eq_true.1 hb c hl) i (mem_four i)
    rw [hbad] at this
    cases this
  exact ⟨(C27_is_balanced hB h0 false (.inl rfl)).1 hB0, hB0⟩

end
end Verif.Mesh
