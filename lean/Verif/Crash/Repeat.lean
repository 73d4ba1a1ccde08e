import Verif.Crash.Again

/-!
# C92: any number of interruptions of `refine`, and what goes wrong without flags
-/

namespace Verif.Trees

/-- Any number of interrupted calls in a row, with the same arguments. -/
def RefineCrashes (sub ref new : Option Flag) (cu : Bool) : Forest → Forest → Prop :=
  Relation.ReflTransGen fun F G => RefineCrash F sub ref new cu G

lemma refineCrash_regular {F G : Forest} (hF : F.Regular) {sub ref new : Option Flag} {cu : Bool}
    (h : RefineCrash F sub ref new cu G) : G.Regular := by
  rcases refineCrash_mid hF h with ⟨-, h, -⟩ | ⟨F2, -, h⟩
  · exact h.regular hF
  · exact h.reg

lemma refine_ok {F : Forest} (hF : F.Regular) (sub ref new : Option Flag) (cu : Bool) :
    ∃ R, F.refine sub ref new cu = .ok R := by
  obtain ⟨F2, h, -⟩ := C05_refine_exact F hF sub ref new cu
  exact ⟨_, h⟩

/-- **C92** (`refine` into a new label, any number of interruptions). -/
theorem C92_refine_new_again {F G R : Forest} (hF : F.Regular) {f l : Flag} {ref : Option Flag} {cu : Bool}
    (hfl : f ≠ l) (hrf : ref ≠ some f) (hrl : ref ≠ some l) (hG : RefineCrashes (some f) ref (some l) cu F G)
    (hR : F.refine (some f) ref (some l) cu = .ok R) :
    ∃ R', G.refine (some f) ref (some l) cu = .ok R' ∧ SameMarks R R' := by
  suffices h : G.Regular ∧ ∃ R', G.refine (some f) ref (some l) cu = .ok R' ∧ SameMarks R R' from h.2
  induction hG with
  | refl => exact ⟨hF, R, hR, fun _ => Iff.rfl, fun _ _ => Iff.rfl⟩
  | tail _ h2 ih =>
    obtain ⟨i1, R1, i2, i3⟩ := ih
    obtain ⟨R2, h3, h4⟩ := C92_refine_new i1 hfl hrf hrl h2 i2
    exact ⟨refineCrash_regular i1 h2, R2, h3, i3.trans h4⟩

lemma SameButStale.trans {cu : Bool} {r : Flag} {F G R R1 R2 : Forest} (h : SameButStale cu r F R R1)
    (h' : SameButStale cu r G R1 R2) (hG : ∀ b, G.Marked b r → F.Marked b r) : SameButStale cu r F R R2 :=
  ⟨fun b => (h'.nodes b).trans (h.nodes b), fun b g hg => (h'.marks b g hg).trans (h.marks b g hg),
    fun b hb => h'.keep b (h.keep b hb), fun b hb => hG b (h'.stale b hb),
    fun hc b => (h'.exact_ hc b).trans (h.exact_ hc b)⟩

lemma SameButStale.refl' {cu : Bool} {r : Flag} {F R : Forest} (h : ∀ b, R.Marked b r → F.Marked b r) :
    SameButStale cu r F R R :=
  ⟨fun _ => Iff.rfl, fun _ _ _ => Iff.rfl, fun _ => id, h, fun _ _ => Iff.rfl⟩

/-- **C92** (`refine` of the whole mesh by a refinement flag, any number of interruptions). -/
theorem C92_refine_flag_again {F G R : Forest} (hF : F.Regular) {r : Flag} {new : Option Flag} {cu : Bool}
    (hnr : new ≠ some r) (hG : RefineCrashes none (some r) new cu F G)
    (hR : F.refine none (some r) new cu = .ok R) :
    ∃ R', G.refine none (some r) new cu = .ok R' ∧ SameButStale cu r F R R' := by
  suffices h : G.Regular ∧ (∀ b, G.Marked b r → F.Marked b r) ∧
      ∃ R', G.refine none (some r) new cu = .ok R' ∧ SameButStale cu r F R R' from h.2.2
  induction hG with
  | refl =>
    obtain ⟨R', h1, h2⟩ := C92_refine_flag (cu := cu) hF hnr (.loop (by
      cases ((F.rootIf none).getLeaves none none .breadthFirst).map (·.1) with
      | nil => exact .stop
      | cons a l => exact .here .start)) hR
    exact ⟨hF, fun _ => id, R', h1, h2⟩
  | @tail G G' _ h2 ih =>
    obtain ⟨i1, i2, R1, i3, i4⟩ := ih
    obtain ⟨R2, h3, h4⟩ := C92_refine_flag i1 hnr h2 i3
    refine ⟨refineCrash_regular i1 h2, fun b hb => i2 b ?_, R2, h3, i4.trans h4 i2⟩
    rcases refineCrash_mid i1 h2 with ⟨h, -⟩ | ⟨F2, -, hm⟩
    · have h : G' = G := h
      rw [← h]; exact hb
    · have hc : childLabel none new = new := by cases new <;> rfl
      have := hm.m2 b r hb
      rw [hc] at this
      rcases this with h | ⟨-, h⟩ | ⟨h, -⟩ | ⟨h, -⟩
      · exact h
      all_goals exact absurd h hnr

/-- **C92** (`refine` of a subforest in place, any number of interruptions). -/
theorem C92_refine_inplace_again {F G R : Forest} (hF : F.Regular) {f r : Flag} {cu : Bool} (hfr : f ≠ r)
    (hin : ∀ b, F.Marked b r → (F.rootSubtrees f).Marked b f)
    (hG : RefineCrashes (some f) (some r) none cu F G) (hR : F.refine (some f) (some r) none cu = .ok R) :
    ∃ R', G.refine (some f) (some r) none cu = .ok R' ∧ SameButStale cu r F R R' := by
  suffices h : G.Regular ∧ (∀ b, G.Marked b r → F.Marked b r) ∧ (∀ b, G.Marked b r → (G.rootSubtrees f).Marked b f) ∧
      ∃ R', G.refine (some f) (some r) none cu = .ok R' ∧ SameButStale cu r F R R' from h.2.2.2
  have hs : ∀ {F : Forest} b, (F.rootSubtrees f).Marked b r ↔ F.Marked b r := fun b => root_other (Ne.symm hfr) b
  induction hG with
  | refl =>
    obtain ⟨R', h1, h2⟩ := C92_refine_inplace (cu := cu) hF hfr hin (.loop (by
      cases ((F.rootIf (some f)).getLeaves none (some f) .breadthFirst).map (·.1) with
      | nil => exact .stop
      | cons a l => exact .here .start)) (by
        rw [refine_of_rootIf rfl]; exact hR)
    refine ⟨hF, fun _ => id, hin, R, hR, ?_⟩
    refine .refl' fun b hb => ?_
    exact h2.stale b (h2.keep b hb)
  | @tail G G' _ h2 ih =>
    obtain ⟨i1, i2, i2', R1, i3, i4⟩ := ih
    obtain ⟨R2, h3, h4⟩ := C92_refine_inplace i1 hfr i2' h2 i3
    have key : ∀ b, G'.Marked b r → G.Marked b r ∧ (G'.rootSubtrees f).Marked b f := by
      intro b hb
      rcases refineCrash_mid i1 h2 with ⟨h, -, hm⟩ | ⟨F2, -, hm⟩
      · have h : G'.rootSubtrees f = G.rootSubtrees f := h
        have hb' := (hm b r (by simpa using hfr)).1 hb
        exact ⟨hb', by rw [h]; exact i2' b hb'⟩
      · have h5 : (G.rootSubtrees f).Marked b r := by
          rcases hm.m2 b r hb with h | ⟨-, h⟩ | ⟨h, -⟩ | ⟨h, -⟩
          · exact h
          · cases h
          · exact absurd (Option.some.inj h) hfr
          · cases h
        have h6 := i2' b ((hs b).1 h5)
        refine ⟨(hs b).1 h5, ((C03_root_subtrees_exact G' f).2 b f).2 (.inl ?_)⟩
        exact hm.m1 b f h6 fun hc => hfr (Option.some.inj hc.2.1).symm
    exact ⟨refineCrash_regular i1 h2, fun b hb => i2 b (key b hb).1, fun b hb => (key b hb).2, R2, h3, i4.trans h4 i2⟩

/-! ### what goes wrong -/

/-- Two root cells without children. -/
def exTwo : Forest := ⟨[.node ⟨.root, true, [0], 0, ∅⟩ [none, none], .node ⟨.root, true, [1], 0, ∅⟩ [none, none]]⟩

/-- Two root cells, the first one is split. -/
def exTwo1 : Forest := ⟨[Tree.splitRegular (.node ⟨.root, true, [0], 0, ∅⟩ [none, none]),
  .node ⟨.root, true, [1], 0, ∅⟩ [none, none]]⟩

instance (F : Forest) (a : Path) : Decidable (F.HasNode a) := inferInstanceAs (Decidable ((F.get? a).isSome = true))

lemma marked_iff' (F : Forest) (a : Path) (f : Flag) : F.Marked a f ↔ F.isMarked a (some f) = true := by
  rw [Forest.isMarked_iff]

/-- The result of `refine` on a concrete forest (the forest itself if the call fails). -/
def refined (F : Forest) (sub ref new : Option Flag) (cu : Bool) : Forest :=
  match F.refine sub ref new cu with
  | .ok R => R
  | .error _ => F

/-- An interruption in the first pass, after the split (no labels given). -/
lemma crash_split {F F' : Forest} {sub ref : Option Flag} {cu : Bool} {a : Path} {as : List Path}
    (hl : ((F.rootIf sub).getLeaves none sub .breadthFirst).map (·.1) = a :: as)
    (hs : (ref.isSome && !(F.rootIf sub).isMarked a ref) = false) (h : (F.rootIf sub).splitIfLeaf a = .ok F')
    (G : Forest) (hG : ∀ l, childLabel sub none = some l → MarksCrash l (F'.childPaths a) F' G)
    (hG' : childLabel sub none = none → G = F') : RefineCrash F sub ref none cu G := by
  refine .loop ?_
  rw [hl]
  exact .here (.children hs h hG hG')

lemma exTwo_crash : RefineCrash exTwo none none none true exTwo1 :=
  crash_split (a := [0]) (as := [[1]]) (F' := exTwo1) (by decide +kernel) rfl rfl _ (by simp [childLabel]) (fun _ => rfl)

lemma splitIfLeaf_of_children {F : Forest} {a : Path} (h : ((F.get? a).map (·.hasChildren none)) = some true) :
    F.splitIfLeaf a = .ok F := by
  unfold Forest.splitIfLeaf
  cases hg : F.get? a with
  | none => simp [hg] at h
  | some t =>
    simp only [hg, Option.map_some, Option.some.injEq] at h
    simp [h]

lemma splitIfLeaf_modify' {F : Forest} {a : Path} (ha : a ≠ []) (h : ((F.get? a).map (·.info.regular)) = some true) :
    F.splitIfLeaf a = .ok (F.modify Tree.splitIf a) := by
  cases hg : F.get? a with
  | none => simp [hg] at h
  | some t =>
    simp only [hg, Option.map_some, Option.some.injEq] at h
    exact splitIfLeaf_modify ha hg h

/-- **C92** is violated without a refinement flag: two root cells, `refine()` is left after the first cell was
split; `refine()` again splits the children of this cell, but the other cell only once.  An undisturbed call
gives four leaf cells of level one. -/
theorem C92_refine_unflagged_violated : exTwo.Regular ∧ RefineCrash exTwo none none none true exTwo1 ∧
    ∃ R R', exTwo.refine none none none true = .ok R ∧ exTwo1.refine none none none true = .ok R' ∧
      ¬ R.HasNode [0, 0, 0] ∧ R'.HasNode [0, 0, 0] ∧ ¬ R.HasNode [1, 0, 0] ∧ ¬ R'.HasNode [1, 0, 0] := by
  have hreg : exTwo.Regular := by
    intro a t ht
    rcases a with _ | ⟨_ | _ | i, _ | ⟨_ | _ | j, q⟩⟩ <;> simp [exTwo, Forest.get?, Tree.get?] at ht <;> subst ht <;> rfl
  refine ⟨hreg, ?_, refined exTwo none none none true, refined exTwo1 none none none true, ?_, ?_, ?_, ?_, ?_, ?_⟩
  · exact exTwo_crash
  · obtain ⟨R, h⟩ := refine_ok hreg none none none true
    simp only [refined, h]
  · obtain ⟨R, h⟩ := refine_ok (refineCrash_regular hreg exTwo_crash) none none none true
    simp only [refined, h]
  all_goals decide +kernel

/-- One root cell with the refinement flag 7. -/
def exOne : Forest := ⟨[.node ⟨.root, true, [0], 0, {7}⟩ [none, none]]⟩

/-- The cell is split, the flag not yet removed. -/
def exOne1 : Forest := ⟨[Tree.splitRegular (.node ⟨.root, true, [0], 0, {7}⟩ [none, none])]⟩

lemma exOne_regular : exOne.Regular := by
  intro a t ht
  rcases a with _ | ⟨_ | i, _ | ⟨_ | _ | j, q⟩⟩ <;> simp [exOne, Forest.get?, Tree.get?] at ht <;> subst ht <;> rfl

lemma exOne_crash : RefineCrash exOne none (some 7) none true exOne1 :=
  crash_split (a := [0]) (as := []) (F' := exOne1) (by decide +kernel) (by decide +kernel) rfl _ (by simp [childLabel]) (fun _ => rfl)

/-- **C92** is violated for the refinement flag itself: `refine(None, 7)` is left after the marked cell was split,
before its flag is removed.  An undisturbed call removes the flag; after the interruption no repetition of
the call ever removes it, because the cell is no leaf any more. -/
theorem C92_refine_stale_violated : exOne.Regular ∧ RefineCrash exOne none (some 7) none true exOne1 ∧
    ∃ R R', exOne.refine none (some 7) none true = .ok R ∧ exOne1.refine none (some 7) none true = .ok R' ∧
      ¬ R.Marked [0] 7 ∧ R'.Marked [0] 7 := by
  refine ⟨exOne_regular, exOne_crash, refined exOne none (some 7) none true, refined exOne1 none (some 7) none true, ?_, ?_, ?_, ?_⟩
  · obtain ⟨R, h⟩ := refine_ok exOne_regular none (some 7) none true
    simp only [refined, h]
  · obtain ⟨R, h⟩ := refine_ok (refineCrash_regular exOne_regular exOne_crash) none (some 7) none true
    simp only [refined, h]
  · rw [marked_iff']; decide +kernel
  · rw [marked_iff']; decide +kernel

/-- A root cell in the subforest 5 and with the refinement flag 7; its children are not in the subforest, the
first one carries the refinement flag. -/
def exOut : Forest := ⟨[.node ⟨.root, true, [0], 0, {5, 7}⟩ [some (exLeaf [0, 0] {7}), some (exLeaf [0, 1] ∅)]]⟩

/-- The children have been labelled. -/
def exOut1 : Forest :=
  ((exOut.rootIf (some 5)).childPaths [0]).foldl (fun F c => F.mark c (some 5)) (exOut.rootIf (some 5))

lemma exOut_regular : exOut.Regular := by
  intro a t ht
  rcases a with _ | ⟨_ | i, _ | ⟨_ | _ | j, _ | ⟨_ | _ | k, q⟩⟩⟩ <;>
    simp [exOut, exLeaf, Forest.get?, Tree.get?] at ht <;> subst ht <;> rfl

lemma foldCrash_end {f : Flag} (l : List Path) (F : Forest) :
    MarksCrash f l F (l.foldl (fun F c => F.mark c (some f)) F) := by
  unfold MarksCrash
  induction l generalizing F with
  | nil => exact .stop
  | cons a l ih => exact .next (ih _)

lemma exOut_crash : RefineCrash exOut (some 5) (some 7) none true exOut1 :=
  crash_split (a := [0]) (as := []) (F' := exOut.rootIf (some 5)) (by decide +kernel) (by decide +kernel)
    (splitIfLeaf_of_children (by decide +kernel)) _ (fun l h => by cases h; exact foldCrash_end _ _) (fun h => by cases h)

/-- **C92** is violated in place when a node outside the subforest carries the refinement flag: it is not refined by
an undisturbed call, but if the call is left after its children were labelled, the call again refines it. -/
theorem C92_refine_outside_violated : exOut.Regular ∧ RefineCrash exOut (some 5) (some 7) none true exOut1 ∧
    ∃ R R', exOut.refine (some 5) (some 7) none true = .ok R ∧ exOut1.refine (some 5) (some 7) none true = .ok R' ∧
      ¬ R.HasNode [0, 0, 0] ∧ R'.HasNode [0, 0, 0] := by
  refine ⟨exOut_regular, exOut_crash, refined exOut (some 5) (some 7) none true, refined exOut1 (some 5) (some 7) none true, ?_, ?_, ?_, ?_⟩
  · obtain ⟨R, h⟩ := refine_ok exOut_regular (some 5) (some 7) none true
    simp only [refined, h]
  · obtain ⟨R, h⟩ := refine_ok (refineCrash_regular exOut_regular exOut_crash) (some 5) (some 7) none true
    simp only [refined, h]
  · decide +kernel
  · decide +kernel

/-- Non-vacuity of `C92_refine_flag`: the interrupted forest differs from the forest and from the result. -/
example : exOne.Regular ∧ RefineCrash exOne none (some 7) none true exOne1 ∧ ¬ exOne.HasNode [0, 0] ∧ exOne1.HasNode [0, 0] :=
  ⟨exOne_regular, exOne_crash, by decide +kernel, by decide +kernel⟩

/-- Non-vacuity of `C92_refine_new`: subforest 5, refinement flag 7, new label 9; the call is left after the
first leaf got the new label. -/
example : exForest.Regular ∧ ∃ G, RefineCrash exForest (some 5) (some 7) (some 9) true G ∧ G.Marked [1] 9 ∧
    ¬ G.Marked [0] 9 ∧ ¬ exForest.Marked [1] 9 := by
  refine ⟨exForest_regular, (exForest.rootIf (some 5)).markIf [1] (some 9), .loop ?_, ?_, ?_, exForest_fresh9 _⟩
  · have h : ((exForest.rootIf (some 5)).getLeaves none (some 5) .breadthFirst).map (·.1) = [1] :: [[0, 0], [0, 1]] := by decide +kernel
    rw [h]
    exact .here .labelled
  · rw [marked_iff']; decide +kernel
  · rw [marked_iff']; decide +kernel

/-- Non-vacuity of `C92_refine_inplace`: every node with the refinement flag is in the subforest. -/
example : exOne.Regular ∧ (∀ b, exOne.Marked b 7 → (exOne.rootSubtrees 5).Marked b 5) ∧
    ∃ G, RefineCrash exOne (some 5) (some 7) none true G ∧ G.HasNode [0, 0] ∧ ¬ G.Marked [0, 0] 5 := by
  refine ⟨exOne_regular, fun b hb => ?_, (exOne.rootIf (some 5)).modify Tree.splitIf [0], crash_split (a := [0]) (as := [])
    (F' := (exOne.rootIf (some 5)).modify Tree.splitIf [0]) (by decide +kernel) (by decide +kernel)
    (splitIfLeaf_modify' (by simp) (by decide +kernel)) _ (fun l h => ?_) (fun h => by cases h), ?_, ?_⟩
  · obtain ⟨t, ht, -⟩ := hb
    rcases b with _ | ⟨_ | i, _ | ⟨_ | _ | j, q⟩⟩ <;> simp [exOne, Forest.get?, Tree.get?] at ht
    rw [marked_iff']; decide +kernel
  · unfold MarksCrash
    cases (((exOne.rootIf (some 5)).modify Tree.splitIf [0]).childPaths [0]) with
    | nil => exact .stop
    | cons a l => exact .here rfl
  · decide +kernel
  · rw [marked_iff']; decide +kernel

end Verif.Trees
