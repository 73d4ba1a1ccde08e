import Verif.Crash.Refine

/-!
# C92: `refine` again after an interruption
-/

namespace Verif.Trees

lemma refine_of_rootIf {F G : Forest} {sub : Option Flag} (h : G.rootIf sub = F.rootIf sub) (ref new : Option Flag)
    (cu : Bool) : G.refine sub ref new cu = F.refine sub ref new cu := by
  unfold Forest.refine
  simp only [h]

lemma snoc_inj {a a' : Path} {i i' : Nat} (h : a ++ [i] = a' ++ [i']) : a = a' ∧ i = i' := by
  have h1 := congrArg List.dropLast h
  have h2 := congrArg List.getLast? h
  simp at h1 h2
  exact ⟨h1, h2⟩

/-- **C92** (`refine` into a new label).  `refine(sub, ref, new, clean_up)` with a subforest flag and a new
label, all flags different (`ref` may be absent): wherever the call is left by an exception, the same call again
succeeds and gives the same nodes and the same marks as an undisturbed call. -/
theorem C92_refine_new {F G R : Forest} (hF : F.Regular) {f l : Flag} {ref : Option Flag} {cu : Bool}
    (hfl : f ≠ l) (hrf : ref ≠ some f) (hrl : ref ≠ some l) (hG : RefineCrash F (some f) ref (some l) cu G)
    (hR : F.refine (some f) ref (some l) cu = .ok R) :
    ∃ R', G.refine (some f) ref (some l) cu = .ok R' ∧ SameMarks R R' := by
  rcases refineCrash_mid hF hG with ⟨h, -⟩ | ⟨F2a, hok, hmid⟩
  · exact ⟨R, by rw [refine_of_rootIf h, hR], fun _ => Iff.rfl, fun _ _ => Iff.rfl⟩
  obtain ⟨F2, hF2, hN, hM⟩ := C05_refine_exact F hF (some f) ref (some l) cu
  have hC : F2a.rootIf (some l) = F2.rootIf (some l) := by
    have : F.refine (some f) ref (some l) cu = .ok (F2a.rootIf (some l)) := by
      unfold Forest.refine; simp only [hok]
    exact Except.ok.inj (this.symm.trans hF2)
  rw [hC] at hmid
  obtain ⟨F2', hF2', hN', hM'⟩ := C05_refine_exact G hmid.reg (some f) ref (some l) cu
  have hsame := rootIf_same F (some f)
  have hroot := rootIf_rooted F (some f) f rfl
  simp only [← hsame.hasNode, ← hsame.slot] at hN
  clear hsame hok hG
  generalize F.rootIf (some f) = F1 at *
  have hf : ∀ b, G.Marked b f ↔ F1.Marked b f := by
    intro b
    refine ⟨fun h => ?_, fun h => hmid.m1 b f h fun hc => hrf hc.2.1⟩
    rcases hmid.m2 b f h with h | ⟨-, h⟩ | ⟨h, -⟩ | ⟨h, -⟩
    · exact h
    all_goals exact absurd (Option.some.inj h).symm hfl
  have hGroot : G.Rooted f := by
    refine ⟨fun i hi => ?_, fun a i ha hm => ?_⟩
    · rcases hmid.n2 _ hi with h | ⟨a, j, e, hs, -⟩
      · exact (hf _).2 (hroot.1 i h)
      · have e2 : a = [] := (snoc_inj (a := []) e).1.symm
        subst e2
        exact absurd rfl (Forest.hasNode_ne_nil hs.1.1.hasNode)
    · have h1 := hroot.2 a i ha ((hf _).1 hm)
      refine ⟨(hf _).2 h1.1, fun j hj => (hf _).2 (h1.2 j ?_)⟩
      rcases hmid.n2 _ hj with h | ⟨a', j', e, -, hn, -⟩
      · exact h
      · obtain ⟨rfl, rfl⟩ := snoc_inj e
        exact absurd ((hf _).1 hm).hasNode (hn i)
  have hG1 : G.rootIf (some f) = G := C03_root_subtrees_of_rooted G f hGroot
  rw [hG1] at hN' hM'
  have hlf : ∀ a, G.IsLeaf (some f) a ↔ F1.IsLeaf (some f) a := by
    intro a; simp only [Forest.IsLeaf, Forest.InSub, hf]
  have hnew : ∀ r, ref = some r → r ≠ l ∧ (some l : Option Flag) ≠ some r := by
    rintro r rfl
    exact ⟨fun e => hrl (by rw [e]), fun e => hrl e.symm⟩
  have hsel : ∀ a, G.Selected (some f) ref (some l) a → F1.Selected (some f) ref (some l) a := by
    rintro a ⟨h1, h2⟩
    refine ⟨(hlf a).1 h1, h2.imp_right ?_⟩
    rintro ⟨r, hr, h3 | h3⟩
    · refine ⟨r, hr, .inl ?_⟩
      rcases hmid.m2 a r h3 with h | ⟨-, h⟩ | ⟨h, -⟩ | ⟨h, -⟩
      · exact h
      all_goals exact absurd h (hnew r hr).2
    · exact absurd h3 (hnew r hr).2
  -- a leaf that is not selected any more is finished
  have hdone : ∀ a, F1.Selected (some f) ref (some l) a → ¬ G.Selected (some f) ref (some l) a →
      ((∀ j, ¬ F1.HasNode (a ++ [j])) → ∀ i, F1.Slot a i → G.HasNode (a ++ [i])) ∧
        ∀ i, G.HasNode (a ++ [i]) → G.Marked (a ++ [i]) l := by
    intro a hs hn
    rcases hs.2 with h | ⟨r, hr, h | h⟩
    · exact absurd ⟨(hlf a).2 hs.1, .inl h⟩ hn
    · have h3 := hmid.m3 a r hr hs h fun h4 => hn ⟨(hlf a).2 hs.1, .inr ⟨r, hr, .inl h4⟩⟩
      exact ⟨h3.1, fun i hi => h3.2 i l rfl hi⟩
    · exact absurd h (hnew r hr).2
  have hnodes : ∀ b, F2'.HasNode b ↔ F2.HasNode b := by
    intro b
    rw [hN', hN]
    constructor
    · rintro (h | ⟨a, i, rfl, hs, hnc, hi⟩)
      · exact hmid.n2 b h
      · exact .inr ⟨a, i, rfl, hsel a hs, fun j hj => hnc j (hmid.n1 _ hj), (hmid.slot a i (hsel a hs).1).1 hi⟩
    · rintro (h | ⟨a, i, rfl, hs, hnc, hi⟩)
      · exact .inl (hmid.n1 b h)
      · by_cases hc : ∃ j, G.HasNode (a ++ [j])
        · obtain ⟨j, hj⟩ := hc
          exact .inl (hmid.n3 a hs.1 hnc i j hj hi)
        · by_cases hs' : G.Selected (some f) ref (some l) a
          · exact .inr ⟨a, i, rfl, hs', fun j hj => hc ⟨j, hj⟩, (hmid.slot a i hs.1).2 hi⟩
          · exact .inl ((hdone a hs hs').1 hnc i hi)
  have hm1 : ∀ b g, F2.Marked b g → F2'.Marked b g := by
    intro b g hb
    obtain ⟨h1, h2⟩ := (hM b g).1 hb
    refine (hM' b g).2 ⟨?_, fun h => h2 ⟨h.1, h.2.1, hsel b h.2.2⟩⟩
    rcases h1 with h | ⟨h, hg⟩ | ⟨h, hg, a, i, rfl, hs⟩
    · exact .inl (hmid.m1 b g h h2)
    · exact .inr (.inl ⟨(hlf b).2 h, hg⟩)
    · by_cases hs' : G.Selected (some f) ref (some l) a
      · exact .inr (.inr ⟨(hnodes _).2 h, hg, a, i, rfl, hs'⟩)
      · left
        have hg' : l = g := Option.some.inj hg
        subst hg'
        have hd := hdone a hs hs'
        refine hd.2 i ?_
        rcases (hN _).1 h with h | ⟨a', i', e, -, hnc, hi⟩
        · exact hmid.n1 _ h
        · obtain ⟨rfl, rfl⟩ := snoc_inj e
          exact hd.1 hnc _ hi
  have hcm : ∀ b g, F2.Marked b g → (F2.rootSubtrees l).Marked b g :=
    fun b g h => ((C03_root_subtrees_exact F2 l).2 b g).2 (.inl h)
  have hm2 : ∀ b g, F2'.Marked b g → F2.Marked b g ∨ (g = l ∧ (F2.rootSubtrees l).Marked b g) := by
    intro b g hb
    have hbn : F2.HasNode b := (hnodes b).1 hb.hasNode
    obtain ⟨h1, h2⟩ := (hM' b g).1 hb
    by_cases hc : cu = true ∧ ref = some g ∧ F1.Selected (some f) ref (some l) b
    · exfalso
      obtain ⟨hc1, hc2, hc3⟩ := hc
      have hns : ¬ G.Selected (some f) ref (some l) b := fun h => h2 ⟨hc1, hc2, h⟩
      rcases h1 with h | ⟨-, h⟩ | ⟨-, h, -⟩
      · exact hns ⟨(hlf b).2 hc3.1, .inr ⟨g, hc2, .inl h⟩⟩
      · exact (hnew g hc2).2 h
      · exact (hnew g hc2).2 h
    · rcases h1 with h | ⟨h, hg⟩ | ⟨-, hg, a, i, rfl, hs⟩
      · rcases hmid.m2 b g h with h | ⟨h, hg⟩ | ⟨hg, a, i, rfl, hs⟩ | ⟨hg, h⟩
        · exact .inl ((hM b g).2 ⟨.inl h, hc⟩)
        · exact .inl ((hM b g).2 ⟨.inr (.inl ⟨h, hg⟩), hc⟩)
        · exact .inl ((hM _ g).2 ⟨.inr (.inr ⟨hbn, hg, a, i, rfl, hs⟩), hc⟩)
        · exact .inr ⟨(Option.some.inj hg).symm, h⟩
      · exact .inl ((hM b g).2 ⟨.inr (.inl ⟨(hlf b).1 h, hg⟩), hc⟩)
      · exact .inl ((hM _ g).2 ⟨.inr (.inr ⟨hbn, hg, a, i, rfl, hsel a hs⟩), hc⟩)
  refine ⟨_, hF2', ?_⟩
  rw [hF2] at hR
  cases hR
  refine sameMarks_root hnodes (fun b g hg => ⟨fun h => ?_, hm1 b g⟩) (fun b hb => ?_) fun b hb => ?_
  · exact (hm2 b g h).resolve_right fun h => hg h.1
  · exact ((C03_root_subtrees_exact F2' l).2 b l).2 (.inl (hm1 b l hb))
  · rcases hm2 b l hb with h | h
    · exact hcm b l h
    · exact h.2

/-- The same nodes and the same marks, except that `R'` may have kept the flag `r` on nodes that carried it in `F`
and lost it in `R` - which happens only if the flag is to be cleaned up at all. -/
structure SameButStale (cu : Bool) (r : Flag) (F R R' : Forest) : Prop where
  nodes : ∀ b, R'.HasNode b ↔ R.HasNode b
  marks : ∀ b g, g ≠ r → (R'.Marked b g ↔ R.Marked b g)
  keep : ∀ b, R.Marked b r → R'.Marked b r
  stale : ∀ b, R'.Marked b r → F.Marked b r
  exact_ : cu = false → ∀ b, R'.Marked b r ↔ R.Marked b r

lemma root_other {F : Forest} {f g : Flag} (h : g ≠ f) (b : Path) : (F.rootSubtrees f).Marked b g ↔ F.Marked b g := by
  rw [(C03_root_subtrees_exact F f).2]; simp [h]

/-- From the forests before the new label is closed to the results. -/
lemma sameButStale_close {F F2 F2' : Forest} {cu : Bool} {r : Flag} {new : Option Flag} (hnr : new ≠ some r)
    (hn : ∀ b, F2'.HasNode b ↔ F2.HasNode b) (hm1 : ∀ b g, F2.Marked b g → F2'.Marked b g)
    (hm2 : ∀ b g, g ≠ r → F2'.Marked b g → F2.Marked b g ∨ (new = some g ∧ (F2.rootIf new).Marked b g))
    (hst : ∀ b, F2'.Marked b r → F.Marked b r) (hcu : cu = false → ∀ b, F.Marked b r → F2.Marked b r) :
    SameButStale cu r F (F2.rootIf new) (F2'.rootIf new) := by
  cases new with
  | none =>
    refine ⟨hn, fun b g hg => ⟨fun h => (hm2 b g hg h).resolve_right (by simp), hm1 b g⟩, fun b => hm1 b r, hst,
      fun h b => ⟨fun h' => hcu h b (hst b h'), hm1 b r⟩⟩
  | some l =>
    have hrl : r ≠ l := fun e => hnr (by rw [e])
    have e1 := C03_root_subtrees_exact F2 l
    have e2 := C03_root_subtrees_exact F2' l
    refine ⟨fun b => by rw [Forest.rootIf, Forest.rootIf, e1.1.hasNode, e2.1.hasNode, hn], fun b g hg => ?_, fun b h => ?_, fun b h => ?_,
      fun h b => ?_⟩
    · by_cases e : g = l
      · subst e
        refine root_marks hn (fun b hb => (e2.2 _ _).2 (.inl (hm1 b g hb))) (fun b hb => ?_) b
        rcases hm2 b g hg hb with h | h
        · exact (e1.2 _ _).2 (.inl h)
        · exact h.2
      · rw [Forest.rootIf, Forest.rootIf, root_other e, root_other e]
        exact ⟨fun h => (hm2 b g hg h).resolve_right fun h => e (Option.some.inj h.1).symm, hm1 b g⟩
    · rw [Forest.rootIf, root_other hrl] at h ⊢; exact hm1 b r h
    · rw [Forest.rootIf, root_other hrl] at h; exact hst b h
    · rw [Forest.rootIf, Forest.rootIf, root_other hrl, root_other hrl]
      exact ⟨fun h' => hcu h b (hst b h'), hm1 b r⟩

/-- **C92** (`refine` of the whole mesh by a refinement flag).  `refine(None, r, new, clean_up)` with `new ≠ r`:
wherever the call is left by an exception, the same call again succeeds and gives the same nodes, and the same
marks with every flag other than `r`, as an undisturbed call.  Nothing is refined twice.  The flag `r` itself is
left where an undisturbed call leaves it, and possibly on nodes that carried it before the call; without
`clean_up` it is exactly the same. -/
theorem C92_refine_flag {F G R : Forest} (hF : F.Regular) {r : Flag} {new : Option Flag} {cu : Bool}
    (hnr : new ≠ some r) (hG : RefineCrash F none (some r) new cu G)
    (hR : F.refine none (some r) new cu = .ok R) :
    ∃ R', G.refine none (some r) new cu = .ok R' ∧ SameButStale cu r F R R' := by
  obtain ⟨F2, hF2, hN, hM⟩ := C05_refine_exact F hF none (some r) new cu
  have hc0 : childLabel none new = new := by cases new <;> rfl
  rw [hF2] at hR
  cases hR
  simp only [Forest.rootIf, hc0] at hM hN
  have hFm : ∀ b, F2.Marked b r → F.Marked b r := by
    intro b hb
    rcases ((hM b r).1 hb).1 with h | ⟨-, h⟩ | ⟨-, h, -⟩
    · exact h
    all_goals exact absurd h hnr
  have hF2r : cu = false → ∀ b, F.Marked b r → F2.Marked b r := fun hcu b h =>
    (hM b r).2 ⟨.inl h, fun h => by rw [hcu] at h; exact Bool.noConfusion h.1⟩
  rcases refineCrash_mid hF hG with ⟨h, -⟩ | ⟨F2a, hok, hmid⟩
  · have h : G = F := h
    subst h
    exact ⟨_, hF2, sameButStale_close hnr (fun _ => Iff.rfl) (fun _ _ => id) (fun _ _ _ h => .inl h) hFm hF2r⟩
  have hC : F2a.rootIf new = F2.rootIf new := by
    have : F.refine none (some r) new cu = .ok (F2a.rootIf new) := by
      unfold Forest.refine; simp only [hok]
    exact Except.ok.inj (this.symm.trans hF2)
  rw [hC] at hmid
  obtain ⟨F2', hF2', hN', hM'⟩ := C05_refine_exact G hmid.reg none (some r) new cu
  simp only [Forest.rootIf, hc0] at hM' hN'
  have hmid : Mid F (F2.rootIf new) none (some r) new cu G := hmid
  have hm2' := hmid.m2
  rw [hc0] at hm2'
  have hr : ∀ b, G.Marked b r → F.Marked b r := by
    intro b hb
    rcases hm2' b r hb with h | ⟨-, h⟩ | ⟨h, -⟩ | ⟨h, -⟩
    · exact h
    all_goals exact absurd h hnr
  have hlf : ∀ {H : Forest} {a : Path}, H.IsLeaf none a ↔ H.HasNode a ∧ ∀ i, ¬ H.HasNode (a ++ [i]) :=
    fun {_ _} => Iff.rfl
  have hselm : ∀ {H : Forest} {a : Path}, H.Selected none (some r) new a ↔ H.IsLeaf none a ∧ H.Marked a r := by
    intro H a
    unfold Forest.Selected
    simp [hnr]
  have hsel : ∀ a, G.Selected none (some r) new a → F.Selected none (some r) new a := by
    intro a ha
    rw [hselm, hlf] at ha ⊢
    exact ⟨⟨(hr a ha.2).hasNode, fun i hi => ha.1.2 i (hmid.n1 _ hi)⟩, hr a ha.2⟩
  have hdone : ∀ a i, F.Selected none (some r) new a → (∀ j, ¬ G.HasNode (a ++ [j])) → F.Slot a i →
      G.Selected none (some r) new a := by
    intro a i ha hnc hi
    have ha' := hselm.1 ha
    refine hselm.2 ⟨⟨hmid.n1 _ ha'.1.1, hnc⟩, ?_⟩
    by_contra hn
    exact hnc i ((hmid.m3 a r rfl ha ha'.2 hn).1 ha'.1.2 i hi)
  have hnodes : ∀ b, F2'.HasNode b ↔ F2.HasNode b := by
    intro b
    rw [hN', hN]
    constructor
    · rintro (h | ⟨a, i, rfl, hs, hnc, hi⟩)
      · exact hmid.n2 b h
      · exact .inr ⟨a, i, rfl, hsel a hs, fun j hj => hnc j (hmid.n1 _ hj), (hmid.slot a i (hsel a hs).1).1 hi⟩
    · rintro (h | ⟨a, i, rfl, hs, hnc, hi⟩)
      · exact .inl (hmid.n1 b h)
      · by_cases hc : ∃ j, G.HasNode (a ++ [j])
        · obtain ⟨j, hj⟩ := hc
          exact .inl (hmid.n3 a hs.1 hnc i j hj hi)
        · have hc' : ∀ j, ¬ G.HasNode (a ++ [j]) := fun j hj => hc ⟨j, hj⟩
          exact .inr ⟨a, i, rfl, hdone a i hs hc' hi, hc', (hmid.slot a i hs.1).2 hi⟩
  have hnewleaf : ∀ a i, F.Selected none (some r) new a → G.HasNode (a ++ [i]) → G.IsLeaf none (a ++ [i]) := by
    intro a i hs hb
    refine ⟨hb, fun j hj => ?_⟩
    rcases hmid.n2 _ hj with h | ⟨a', i', e, hs', -⟩
    · exact hs.1.2 i (h.prefix (List.prefix_append _ _) (by simp))
    · obtain ⟨e, -⟩ := snoc_inj e
      rw [← e] at hs'
      exact hs.1.2 i hs'.1.1
  refine ⟨_, hF2', sameButStale_close hnr hnodes (fun b g hb => ?_) (fun b g hg hb => ?_)
    (fun b hb => ?_) hF2r⟩
  · obtain ⟨h1, h2⟩ := (hM b g).1 hb
    refine (hM' b g).2 ⟨?_, fun h => h2 ⟨h.1, h.2.1, hsel b h.2.2⟩⟩
    rcases h1 with h | ⟨h, hg⟩ | ⟨h, hg, a, i, rfl, hs⟩
    · exact .inl (hmid.m1 b g h h2)
    · by_cases hc : ∃ j, G.HasNode (b ++ [j])
      · obtain ⟨j, hj⟩ := hc
        exact .inl (hmid.m4 g hg (fun e => hnr (by rw [hg]; exact e.symm)) b j hj (h.2 j))
      · exact .inr (.inl ⟨⟨hmid.n1 _ h.1, fun j hj => hc ⟨j, hj⟩⟩, hg⟩)
    · by_cases hb' : G.HasNode (a ++ [i])
      · exact .inr (.inl ⟨hnewleaf a i hs hb', hg⟩)
      · have hi : F.Slot a i := by
          rcases (hN _).1 h with h | ⟨a', i', e, -, -, hi⟩
          · exact absurd h (hs.1.2 i)
          · obtain ⟨rfl, rfl⟩ := snoc_inj e; exact hi
        have hc' : ∀ j, ¬ G.HasNode (a ++ [j]) := fun j hj => hb' (hmid.n3 a hs.1 hs.1.2 i j hj hi)
        exact .inr (.inr ⟨(hnodes _).2 h, hg, a, i, rfl, hdone a i hs hc' hi⟩)
  · have hbn : F2.HasNode b := (hnodes b).1 hb.hasNode
    have hc : ¬ (cu = true ∧ (some r : Option Flag) = some g ∧ F.Selected none (some r) new b) :=
      fun h => hg (Option.some.inj h.2.1).symm
    rcases ((hM' b g).1 hb).1 with h | ⟨h, hg⟩ | ⟨-, hg, a, i, rfl, hs⟩
    · rcases hm2' b g h with h | ⟨h, hg⟩ | ⟨hg, a, i, rfl, hs⟩ | h
      · exact .inl ((hM b g).2 ⟨.inl h, hc⟩)
      · exact .inl ((hM b g).2 ⟨.inr (.inl ⟨h, hg⟩), hc⟩)
      · exact .inl ((hM _ g).2 ⟨.inr (.inr ⟨hbn, hg, a, i, rfl, hs⟩), hc⟩)
      · exact .inr h
    · rcases hmid.n2 b h.1 with h' | ⟨a, i, rfl, hs, -⟩
      · exact .inl ((hM b g).2 ⟨.inr (.inl ⟨⟨h', fun j hj => h.2 j (hmid.n1 _ hj)⟩, hg⟩), hc⟩)
      · exact .inl ((hM _ g).2 ⟨.inr (.inr ⟨hbn, hg, a, i, rfl, hs⟩), hc⟩)
    · exact .inl ((hM _ g).2 ⟨.inr (.inr ⟨hbn, hg, a, i, rfl, hsel a hs⟩), hc⟩)
  · rcases ((hM' b r).1 hb).1 with h | ⟨-, h⟩ | ⟨-, h, -⟩
    · exact hr b h
    all_goals exact absurd h hnr

/-- **C92** (`refine` of a subforest in place).  `refine(f, r, None, clean_up)` with `f ≠ r`, when every node with
the refinement flag belongs to the rooted subforest: wherever the call is left by an exception, the same call
again gives the same nodes, and the same marks with every flag other than `r`. -/
theorem C92_refine_inplace {F G R : Forest} (hF : F.Regular) {f r : Flag} {cu : Bool} (hfr : f ≠ r)
    (hin : ∀ b, F.Marked b r → (F.rootSubtrees f).Marked b f)
    (hG : RefineCrash F (some f) (some r) none cu G) (hR : F.refine (some f) (some r) none cu = .ok R) :
    ∃ R', G.refine (some f) (some r) none cu = .ok R' ∧ SameButStale cu r F R R' := by
  obtain ⟨F2, hF2, hN, hM⟩ := C05_refine_exact F hF (some f) (some r) none cu
  rw [hF2] at hR
  cases hR
  have hc0 : childLabel (some f) none = some f := rfl
  have hsame := rootIf_same F (some f)
  have hroot := rootIf_rooted F (some f) f rfl
  have hrF : ∀ b, (F.rootIf (some f)).Marked b r ↔ F.Marked b r := fun b => root_other (Ne.symm hfr) b
  have hin : ∀ b, (F.rootIf (some f)).Marked b r → (F.rootIf (some f)).Marked b f := fun b h => hin b ((hrF b).1 h)
  simp only [← hsame.hasNode, ← hsame.slot, hc0] at hN hM
  have hFm : ∀ b, F2.Marked b r → F.Marked b r := by
    intro b hb
    rcases ((hM b r).1 hb).1 with h | ⟨-, h⟩ | ⟨-, h, -⟩
    · exact (hrF b).1 h
    · cases h
    · exact absurd (Option.some.inj h) hfr
  have hF2r : cu = false → ∀ b, F.Marked b r → F2.Marked b r := fun hcu b h =>
    (hM b r).2 ⟨.inl ((hrF b).2 h), fun h => by rw [hcu] at h; exact Bool.noConfusion h.1⟩
  rcases refineCrash_mid hF hG with ⟨h, -⟩ | ⟨F2a, hok, hmid⟩
  · exact ⟨_, (refine_of_rootIf h _ _ _).trans hF2,
      sameButStale_close (new := none) (by simp) (fun _ => Iff.rfl) (fun _ _ => id) (fun _ _ _ h => .inl h) hFm hF2r⟩
  obtain ⟨F2', hF2', hN', hM'⟩ := C05_refine_exact G hmid.reg (some f) (some r) none cu
  refine ⟨_, hF2', ?_⟩
  clear hok hG hF2 hsame
  have hm2' := hmid.m2
  simp only [hc0] at hM' hm2'
  change ∀ b g, _ at hM'
  have hsame' := (C03_root_subtrees_exact G f).1
  have hG1 := (C03_root_subtrees_exact G f).2
  have hroot' := C03_root_subtrees_rooted G f
  have hleast := C03_root_subtrees_least G f
  simp only [Forest.rootIf] at hN' hM'
  change ∀ b, (F.rootIf (some f)).Marked b r ↔ F.Marked b r at hrF
  generalize hF1e : F.rootIf (some f) = F1 at *
  have hr : ∀ b, G.Marked b r → F1.Marked b r := by
    intro b hb
    rcases hm2' b r hb with h | ⟨-, h⟩ | ⟨h, -⟩ | ⟨h, -⟩
    · exact h
    · cases h
    · exact absurd (Option.some.inj h) hfr
    · cases h
  have hfG : ∀ b, F1.Marked b f → G.Marked b f := fun b h =>
    hmid.m1 b f h fun hc => hfr (Option.some.inj hc.2.1).symm
  have hGf : ∀ b, G.Marked b f → F1.Marked b f ∨ ∃ a i, b = a ++ [i] ∧ F1.Selected (some f) (some r) none a := by
    intro b hb
    rcases hm2' b f hb with h | ⟨-, h⟩ | ⟨-, h⟩ | ⟨h, -⟩
    · exact .inl h
    · cases h
    · exact .inr h
    · cases h
  have hmono : ∀ b g, G.Marked b g → (G.rootSubtrees f).Marked b g := fun b g h => (hG1 b g).2 (.inl h)
  -- the subforest after it is rooted again
  have hT : ∀ b, (G.rootSubtrees f).Marked b f → F1.Marked b f ∨
      ∃ a i, b = a ++ [i] ∧ F1.Selected (some f) (some r) none a ∧ ∃ j, G.Marked (a ++ [j]) f := by
    refine hleast _ (fun b hb => ?_) (fun i hi => ?_) fun a i ha hS => ?_
    · rcases hGf b hb with h | ⟨a, i, rfl, hs⟩
      · exact .inl h
      · exact .inr ⟨a, i, rfl, hs, i, hb⟩
    · rcases hmid.n2 _ hi with h | ⟨a, j, e, hs, -⟩
      · exact .inl (hroot.1 i h)
      · have e2 : a = [] := (snoc_inj (a := []) e).1.symm
        subst e2
        exact absurd rfl (Forest.hasNode_ne_nil hs.1.1.hasNode)
    · rcases hS with h | ⟨a', i', e, hs, j, hj⟩
      · have h1 := hroot.2 a i ha h
        refine ⟨.inl h1.1, fun j hj => .inl (h1.2 j ?_)⟩
        rcases hmid.n2 _ hj with h' | ⟨a', j', e, -, hn, -⟩
        · exact h'
        · obtain ⟨rfl, rfl⟩ := snoc_inj e
          exact absurd h.hasNode (hn i)
      · obtain ⟨rfl, rfl⟩ := snoc_inj e
        exact ⟨.inl hs.1.1, fun j' _ => .inr ⟨a, j', rfl, hs, j, hj⟩⟩
  have hselm : ∀ {H : Forest} {a : Path}, H.Selected (some f) (some r) none a ↔
      (H.Marked a f ∧ ∀ i, ¬ H.Marked (a ++ [i]) f) ∧ H.Marked a r := by
    intro H a
    unfold Forest.Selected Forest.IsLeaf Forest.InSub
    simp
  have hG1r : ∀ b, (G.rootSubtrees f).Marked b r ↔ G.Marked b r := fun b => root_other (Ne.symm hfr) b
  have hsel : ∀ a, (G.rootSubtrees f).Selected (some f) (some r) none a →
      F1.Selected (some f) (some r) none a ∧ ∀ j, ¬ G.Marked (a ++ [j]) f := by
    intro a ha
    obtain ⟨⟨-, h2⟩, h3⟩ := hselm.1 ha
    have h4 := hr a ((hG1r a).1 h3)
    exact ⟨hselm.2 ⟨⟨hin a h4, fun i hi => h2 i (hmono _ _ (hfG _ hi))⟩, h4⟩, fun j hj => h2 j (hmono _ _ hj)⟩
  have hdone : ∀ a i, F1.Selected (some f) (some r) none a → (∀ j, ¬ G.Marked (a ++ [j]) f) →
      (G.HasNode (a ++ [i]) ∨ (F1.Slot a i ∧ ∀ j, ¬ F1.HasNode (a ++ [j]))) →
      (G.rootSubtrees f).Selected (some f) (some r) none a := by
    intro a i ha hnc hi
    have ha' := hselm.1 ha
    refine hselm.2 ⟨⟨hmono _ _ (hfG _ ha'.1.1), fun j hj => ?_⟩, (hG1r a).2 ?_⟩
    · rcases hT _ hj with h | ⟨a', j', e, -, k, hk⟩
      · exact ha'.1.2 j h
      · obtain ⟨rfl, rfl⟩ := snoc_inj e
        exact hnc k hk
    · by_contra hn
      have h3 := hmid.m3 a r rfl ha ha'.2 hn
      rcases hi with hi | ⟨hi, hc⟩
      · exact hnc i (h3.2 i f rfl hi)
      · exact hnc i (h3.2 i f rfl (h3.1 hc i hi))
  have hnodes : ∀ b, F2'.HasNode b ↔ F2.HasNode b := by
    intro b
    rw [hN', hN]
    constructor
    · rintro (h | ⟨a, i, rfl, hs, hnc, hi⟩)
      · exact hmid.n2 b h
      · have hs' := (hsel a hs).1
        exact .inr ⟨a, i, rfl, hs', fun j hj => hnc j (hmid.n1 _ hj), (hmid.slot a i hs'.1).1 hi⟩
    · rintro (h | ⟨a, i, rfl, hs, hnc, hi⟩)
      · exact .inl (hmid.n1 b h)
      · by_cases hc : ∃ j, G.HasNode (a ++ [j])
        · obtain ⟨j, hj⟩ := hc
          exact .inl (hmid.n3 a hs.1 hnc i j hj hi)
        · have hc' : ∀ j, ¬ G.HasNode (a ++ [j]) := fun j hj => hc ⟨j, hj⟩
          exact .inr ⟨a, i, rfl, hdone a i hs (fun j hj => hc' j hj.hasNode) (.inr ⟨hi, hnc⟩), hc', (hmid.slot a i hs.1).2 hi⟩
  refine sameButStale_close (new := none) (by simp) hnodes (fun b g hb => ?_) (fun b g hg hb => ?_) (fun b hb => ?_) hF2r
  · obtain ⟨h1, h2⟩ := (hM b g).1 hb
    refine (hM' b g).2 ⟨?_, fun h => h2 ⟨h.1, h.2.1, (hsel b h.2.2).1⟩⟩
    rcases h1 with h | ⟨-, h⟩ | ⟨h, hg, a, i, rfl, hs⟩
    · exact .inl (hmono _ _ (hmid.m1 b g h h2))
    · cases h
    · have hgf : f = g := Option.some.inj hg
      subst hgf
      by_cases hc : ∃ j, G.Marked (a ++ [j]) f
      · obtain ⟨j, hj⟩ := hc
        left
        have ha0 : a ≠ [] := Forest.hasNode_ne_nil hs.1.1.hasNode
        refine (hroot'.2 a j ha0 (hmono _ _ hj)).2 i ((hsame'.hasNode _).2 ?_)
        rcases (hN _).1 h with h | ⟨a', i', e, -, hnc, hi⟩
        · exact hmid.n1 _ h
        · obtain ⟨rfl, rfl⟩ := snoc_inj e
          exact hmid.n3 a hs.1 hnc i j hj.hasNode hi
      · have hc' : ∀ j, ¬ G.Marked (a ++ [j]) f := fun j hj => hc ⟨j, hj⟩
        refine .inr (.inr ⟨(hnodes _).2 h, hg, a, i, rfl, hdone a i hs hc' ?_⟩)
        rcases (hN _).1 h with h | ⟨a', i', e, -, hnc, hi⟩
        · exact .inl (hmid.n1 _ h)
        · obtain ⟨rfl, rfl⟩ := snoc_inj e
          exact .inr ⟨hi, hnc⟩
  · left
    have hbn : F2.HasNode b := (hnodes b).1 hb.hasNode
    have hc : ¬ (cu = true ∧ (some r : Option Flag) = some g ∧ F1.Selected (some f) (some r) none b) :=
      fun h => hg (Option.some.inj h.2.1).symm
    rcases ((hM' b g).1 hb).1 with h | ⟨-, h⟩ | ⟨-, hg, a, i, rfl, hs⟩
    · by_cases e : g = f
      · subst e
        rcases hT b h with h | ⟨a, i, rfl, hs, -⟩
        · exact (hM b g).2 ⟨.inl h, hc⟩
        · exact (hM _ g).2 ⟨.inr (.inr ⟨hbn, rfl, a, i, rfl, hs⟩), hc⟩
      · rcases hm2' b g ((root_other e b).1 h) with h | ⟨-, h⟩ | ⟨h, -⟩ | ⟨h, -⟩
        · exact (hM b g).2 ⟨.inl h, hc⟩
        · cases h
        · exact absurd (Option.some.inj h).symm e
        · cases h
    · cases h
    · exact (hM _ g).2 ⟨.inr (.inr ⟨hbn, hg, a, i, rfl, (hsel a hs).1⟩), hc⟩
  · rcases ((hM' b r).1 hb).1 with h | ⟨-, h⟩ | ⟨-, h, -⟩
    · exact (hrF b).1 (hr b ((hG1r b).1 h))
    · cases h
    · exact absurd (Option.some.inj h) hfr

end Verif.Trees
