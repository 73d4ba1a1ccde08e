import Verif.Bnd.Boundary

/-! # C64: the boundary segments are the boundary -/

namespace Verif.Bnd
open Verif.Mesh Verif.Dof

section
set_option linter.unusedSectionVars false
variable {K : Type} [Field K] {B : Base K} {s : St K} {sf : Bool}

/-! ### One segment -/

theorem segment_ok (hB : B.WF) (hs : MReach B s) (hr : RootsIn B sf s) (hf : sf = false ∨ (RootedFlag B s ∧ FullFlag s)) {n : Nat}
    (hn : 4 * s.cells.length ≤ n) {g : List Nat} (hg : ∀ k ∈ g, k < 4 * B.n ∧ B.T k = none) (hd : g.Nodup)
    (hp : Path (fun k => ends s (.root k)) g) :
    ∃ R, segment sf s n none g = some R ∧ R.Nodup ∧ Path (ends s) R ∧ tips (ends s) R = tips (ends s) (g.map .root) ∧
      ∀ c i, side c i ∈ R ↔ c ∈ leaves sf s ∧ OnBoundary B c i ∧ rootOf (side c i) ∈ g := by
  have hi := hs.inv hB
  have hnd : (g.map HN.root).Nodup := List.Nodup.map (fun a b h => by injection h) hd
  obtain ⟨R, h1, h2, h3, h4, h5⟩ := expand_ok (sf := sf) hi (g := g) (fun k hk => (hg k hk).1) n [] (g.map .root) (g.map .root)
    (by simpa using hnd) (by
      intro x hx
      obtain ⟨k, hk, rfl⟩ := List.mem_map.1 (by simpa using hx)
      exact .root k hk) (fun k hk => by simpa using hk) hnd (by simp) (by
      intro h b hb
      simp at hb) (by simp) (by
      clear hg hd hnd
      induction g with
      | nil => trivial
      | cons a g ih =>
        cases g with
        | nil => trivial
        | cons b g => exact ⟨hp.1, ih hp.2⟩) (by simpa using hn)
  refine ⟨R, by unfold segment; rw [h1]; rfl, h2, h3, h4, fun c i => ?_⟩
  rw [h5, desc_iff hi hr hf hg, owner_side, Dof.mem_leaves hi, vt_none_iff]
  tauto

theorem rootOf_mem (hi : CInv B s) : ∀ x : HN, (s.he x).isSome → vt B.T x = none → rootOf x < 4 * B.n ∧ B.T (rootOf x) = none := by
  intro x
  induction x with
  | root k =>
    intro h1 h2
    rw [hi.ex] at h1
    have : k / 4 < B.n := h1
    exact ⟨by show k < _; omega, by show B.T k = none; simpa [vt] using h2⟩
  | inner c i d => intro _ h; simp [vt] at h
  | kid h b ih =>
    intro h1 h2
    refine ih ?_ ((vt_none_kid h b).1 h2)
    rw [hi.ex] at h1 ⊢
    cases b <;> exact hi.pref _ h1

/-! ### C64 -/

/-- **C64** (every mesh): on every mesh that refinement can produce, `get_boundary_segments` ends without an error.  Every
segment is a path; no half-edge occurs twice; every half-edge in a segment is a side of a leaf that lies on the boundary of the
domain. -/
theorem C64_sound (hB : B.WF) (hs : MReach B s) (hr : RootsIn B sf s) (hf : sf = false ∨ (RootedFlag B s ∧ FullFlag s)) {n : Nat}
    (hn : 4 * s.cells.length ≤ n) :
    ∃ L, boundarySegments sf B.n s n none = some L ∧ (∀ g ∈ L, g ≠ [] ∧ Path (ends s) g) ∧ L.flatten.Nodup ∧
      ∀ h ∈ L.flatten, ∃ c ∈ leaves sf s, ∃ i, h = s.sides c i ∧ OnBoundary B c i := by
  have hi := hs.inv hB
  have hb : (bndRoots B.n s).Nodup := List.Nodup.filter _ List.nodup_range
  obtain ⟨G, hG, hgood⟩ := groups_good (C := fun k => ends s (.root k)) hb
  have hmem : ∀ g ∈ G, ∀ k ∈ g, k < 4 * B.n ∧ B.T k = none := by
    intro g hg k hk
    have : k ∈ bndRoots B.n s := hgood.sub.subset (List.mem_flatten.2 ⟨g, hg, hk⟩)
    rw [bndRoots_eq hB hs, List.mem_filter, List.mem_range] at this
    simpa using this
  obtain ⟨l, hl, hsub⟩ := hgood.sub
  have hGn : G.flatten.Nodup := hl.nodup_iff.1 (hsub.nodup hb)
  have key : ∀ G : List (List Nat), (∀ g ∈ G, g ≠ []) → (∀ g ∈ G, ∀ k ∈ g, k < 4 * B.n ∧ B.T k = none) → G.flatten.Nodup →
      (∀ g ∈ G, Path (fun k => ends s (.root k)) g) → ∃ L, allSome (G.map (segment sf s n none)) = some L ∧
        (∀ g ∈ L, g ≠ [] ∧ Path (ends s) g) ∧ L.flatten.Nodup ∧
        ∀ h ∈ L.flatten, rootOf h ∈ G.flatten ∧ ∃ c ∈ leaves sf s, ∃ i, h = s.sides c i ∧ OnBoundary B c i := by
    intro G
    induction G with
    | nil => exact fun _ _ _ _ => ⟨[], rfl, by simp, by simp, by simp⟩
    | cons g G ih =>
      intro h1 h2 h3 h4
      rw [List.flatten_cons, List.nodup_append'] at h3
      obtain ⟨L, e1, e2, e3, e4⟩ := ih (fun x hx => h1 x (List.mem_cons_of_mem _ hx)) (fun x hx => h2 x (List.mem_cons_of_mem _ hx)) h3.2.1
        (fun x hx => h4 x (List.mem_cons_of_mem _ hx))
      obtain ⟨R, r1, r2, r3, r4, r5⟩ := segment_ok hB hs hr hf hn (h2 g (by simp)) h3.1 (h4 g (by simp))
      have hR : ∀ h ∈ R, rootOf h ∈ g ∧ ∃ c ∈ leaves sf s, ∃ i, h = s.sides c i ∧ OnBoundary B c i := by
        intro h hh
        rw [← side_owner h] at hh
        obtain ⟨a1, a2, a3⟩ := (r5 _ _).1 hh
        rw [side_owner] at a3
        refine ⟨a3, _, a1, _, ?_, a2⟩
        rw [hi.sides _ ((Dof.mem_leaves hi _).1 a1).1, side_owner]
      refine ⟨R :: L, by rw [List.map_cons, r1]; show (allSome _).map _ = _; rw [e1]; rfl, ?_, ?_, ?_⟩
      · intro x hx
        rcases List.mem_cons.1 hx with rfl | hx
        · refine ⟨?_, r3⟩
          rintro rfl
          have hg := h1 g (by simp)
          cases g with
          | nil => exact hg rfl
          | cons a g => simp [tips] at r4
        · exact e2 x hx
      · rw [List.flatten_cons, List.nodup_append']
        exact ⟨r2, e3, fun x hx hx' => h3.2.2 (hR x hx).1 (e4 x hx').1⟩
      · intro h hh
        rw [List.flatten_cons, List.mem_append] at hh
        rw [List.flatten_cons, List.mem_append]
        rcases hh with hh | hh
        · exact ⟨.inl (hR h hh).1, (hR h hh).2⟩
        · exact ⟨.inr (e4 h hh).1, (e4 h hh).2⟩
  obtain ⟨L, e1, e2, e3, e4⟩ := key G hgood.ne hmem hGn hgood.path
  exact ⟨L, by unfold boundarySegments; rw [hG]; exact e1, e2, e3, fun h hh => (e4 h hh).2⟩

/-- **C64** (one boundary curve): if the boundary of the initial mesh is one simple closed curve, there is exactly one segment: a
closed path through every boundary side of every leaf, each exactly once. -/
theorem C64_segments (hB : B.WF) (h1 : OneBoundary B) (hs : MReach B s) (hr : RootsIn B sf s)
    (hf : sf = false ∨ (RootedFlag B s ∧ FullFlag s)) {n : Nat} (hn : 4 * s.cells.length ≤ n) :
    ∃ g, boundarySegments sf B.n s n none = some [g] ∧ g.Nodup ∧ Loop (ends s) g ∧
      ∀ h, h ∈ g ↔ ∃ c ∈ leaves sf s, ∃ i, h = s.sides c i ∧ OnBoundary B c i := by
  have hi := hs.inv hB
  obtain ⟨g, hg, hp, hl⟩ := groups_loop (h1.simple hB hs)
  have hmem : ∀ k, k ∈ g ↔ k < 4 * B.n ∧ B.T k = none := by
    intro k
    rw [hp.mem_iff, bndRoots_eq hB hs, List.mem_filter, List.mem_range]
    simp
  obtain ⟨R, r1, r2, r3, r4, r5⟩ := segment_ok hB hs hr hf hn (fun k hk => (hmem k).1 hk)
    (hp.nodup_iff.2 (List.Nodup.filter _ List.nodup_range)) hl.1
  refine ⟨R, by unfold boundarySegments; rw [hg]; show allSome [segment sf s n none g] = _; rw [r1]; rfl, r2, ⟨r3, ?_⟩, fun h => ?_⟩
  · obtain ⟨a, b, ha, hb, e⟩ := hl.2
    unfold tips at r4
    rw [List.head?_map, List.getLast?_map, ha, hb] at r4
    injection r4 with q1 q2
    simp only [Option.map_some] at q1 q2
    obtain ⟨x, hx, ex⟩ := Option.map_eq_some_iff.1 q1
    obtain ⟨y, hy, ey⟩ := Option.map_eq_some_iff.1 q2
    exact ⟨x, y, hx, hy, by rw [ex, ey]; exact e⟩
  · constructor
    · intro hh
      rw [← side_owner h] at hh
      obtain ⟨a1, a2, a3⟩ := (r5 _ _).1 hh
      refine ⟨_, a1, _, ?_, a2⟩
      rw [hi.sides _ ((Dof.mem_leaves hi _).1 a1).1, side_owner]
    · rintro ⟨c, hc, i, rfl, ho⟩
      have hex := ((Dof.mem_leaves hi _).1 hc).1
      rw [hi.sides _ hex, r5]
      refine ⟨hc, ho, (hmem _).2 (rootOf_mem hi _ ?_ ((vt_none_iff B c i).2 ho))⟩
      rw [hi.ex, owner_side]
      exact hex

/-- **C64** (boundary vertices): `get_boundary_vertices` returns the vertices of the boundary sides of the leaves. -/
theorem C64_vertices (hB : B.WF) (h1 : OneBoundary B) (hs : MReach B s) (hr : RootsIn B sf s)
    (hf : sf = false ∨ (RootedFlag B s ∧ FullFlag s)) {n : Nat} (hn : 4 * s.cells.length ≤ n) :
    ∃ l, boundaryVertices sf B.n s n none = some l ∧
      ∀ v, v ∈ l ↔ ∃ c ∈ leaves sf s, ∃ i, OnBoundary B c i ∧ (v = (ends s (s.sides c i)).1 ∨ v = (ends s (s.sides c i)).2) := by
  obtain ⟨g, e1, e2, e3, e4⟩ := C64_segments hB h1 hs hr hf hn
  refine ⟨_, by unfold boundaryVertices; rw [e1]; rfl, fun v => ?_⟩
  have hnext : ∀ h ∈ g, ∃ h' ∈ g, (ends s h').1 = (ends s h).2 := by
    obtain ⟨p, a, b, ha, hb, e⟩ := e3
    have : ∀ g : List HN, Path (ends s) g → ∀ h ∈ g, g.getLast? = some h ∨ ∃ h' ∈ g, (ends s h').1 = (ends s h).2 := by
      intro g
      induction g with
      | nil => simp
      | cons x g ih =>
        intro hp h hh
        cases g with
        | nil =>
          left
          simp at hh ⊢
          exact hh.symm
        | cons y g =>
          rcases List.mem_cons.1 hh with rfl | hh
          · exact .inr ⟨y, by simp, hp.1.symm⟩
          · rcases ih hp.2 h hh with q | ⟨h', q1, q2⟩
            · left
              rw [List.getLast?_cons_cons]
              exact q
            · exact .inr ⟨h', List.mem_cons_of_mem _ q1, q2⟩
    intro h hh
    rcases this g p h hh with q | q
    · refine ⟨a, List.mem_of_mem_head? ha, ?_⟩
      rw [hb] at q
      injection q with q
      rw [← q]
      exact e.symm
    · exact q
  have hfl : [g].flatten = g := by simp
  simp only [hfl]
  rw [List.mem_map]
  constructor
  · rintro ⟨h, hh, rfl⟩
    obtain ⟨c, hc, i, rfl, ho⟩ := (e4 h).1 hh
    exact ⟨c, hc, i, ho, .inl rfl⟩
  · rintro ⟨c, hc, i, ho, rfl | rfl⟩
    · exact ⟨_, (e4 _).2 ⟨c, hc, i, rfl, ho⟩, rfl⟩
    · obtain ⟨h', q1, q2⟩ := hnext _ ((e4 _).2 ⟨c, hc, i, rfl, ho⟩)
      exact ⟨h', q1, q2⟩

end
end Verif.Bnd
