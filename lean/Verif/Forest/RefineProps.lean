import Verif.Forest.Refine
import Verif.Forest.Props

/-! # C05: `refine` -/

namespace Verif.Trees

/-- Tree-level marking, relative to a node. -/
def Tree.MarkedAt (t : Tree) (q : Path) (g : Flag) : Prop :=
  ∃ s, t.get? q = some s ∧ g ∈ s.info.flags

/-- The leaf is selected for refinement. -/
def Tree.Chosen (ref new : Option Flag) (t : Tree) : Prop :=
  ref = none ∨ (∃ r, ref = some r ∧ (r ∈ t.info.flags ∨ new = some r))

theorem chosen_iff (ref new : Option Flag) (t : Tree) :
    (ref.isSome && !(t.labelled new).isMarked ref) = true ↔ ¬ t.Chosen ref new := by
  cases ref with
  | none => simp [Tree.Chosen]
  | some r =>
    cases new with
    | none =>
      simp [Tree.Chosen, Tree.labelled, Tree.isMarked]
      exact decide_eq_false_iff_not
    | some l =>
      simp [Tree.Chosen, Tree.labelled, Tree.isMarked, Tree.mapFlags, addFlag]
      constructor
      · rintro ⟨h1, h2⟩; exact ⟨h2, fun h => h1 h.symm⟩
      · rintro ⟨h1, h2⟩; exact ⟨fun h => h2 h.symm, h1⟩

theorem Tree.get?_cons_of_kids {t t' : Tree} (h : t.kids = t'.kids) (i : Nat) (q : Path) :
    t.get? (i :: q) = t'.get? (i :: q) := by
  simp [Tree.get?, h]

theorem labelled_kids (t : Tree) (new : Option Flag) : (t.labelled new).kids = t.kids := by
  cases new <;> rfl

theorem mapFlags_kids (t : Tree) (g) : (t.mapFlags g).kids = t.kids := rfl

/-- The tree after the optional split. -/
def Tree.splitIf (t : Tree) : Tree := if t.hasChildren none then t else t.splitRegular

def Tree.labelKidsIf (t : Tree) (l : Option Flag) : Tree :=
  match l with
  | some l => t.labelKids l
  | none => t

theorem refineLocal_eq (sub ref new : Option Flag) (cu : Bool) (t : Tree) :
    (¬ t.Chosen ref new → t.refineLocal sub ref new cu = t.labelled new) ∧
    (t.Chosen ref new → t.refineLocal sub ref new cu =
      (((t.labelled new).splitIf).labelKidsIf (childLabel sub new)).cleaned ref cu) := by
  constructor
  · intro h
    unfold Tree.refineLocal
    simp only
    rw [if_pos ((chosen_iff ref new t).2 h)]
  · intro h
    unfold Tree.refineLocal
    simp only
    rw [if_neg (fun h' => (chosen_iff ref new t).1 h' h)]
    unfold Tree.splitIf Tree.labelKidsIf Tree.cleaned
    rfl

theorem hasChildren_of_kids {t t' : Tree} (h : t.kids = t'.kids) (f) :
    t.hasChildren f = t'.hasChildren f := by
  cases f <;> simp [Tree.hasChildren, h]

theorem splitIf_isSome (t : Tree) (q : Path) :
    (t.splitIf.get? q).isSome ↔ (t.get? q).isSome ∨
      (t.hasChildren none = false ∧ ∃ i, i < t.kids.length ∧ q = [i]) := by
  unfold Tree.splitIf
  split
  · rename_i h; simp [h]
  · rename_i h
    have h' : t.hasChildren none = false := by simpa using h
    rcases q with _ | ⟨i, q⟩
    · simp
    · have hn : (t.get? (i :: q)) = none := by
        rw [Tree.get?]
        have : ∀ c, t.kids[i]? ≠ some (some c) := by
          intro c hc
          simp only [Tree.hasChildren, List.any_eq_false] at h'
          have := h' (some c) (List.mem_of_getElem? hc)
          simp at this
        split
        · rename_i c hc; exact absurd hc (this c)
        · rfl
      rw [hn]
      simp only [Option.isSome_none, Bool.false_eq_true, false_or, h', true_and, List.cons.injEq]
      rw [Tree.get?]
      simp only [Tree.splitRegular, Tree.kids_node, List.getElem?_map]
      by_cases hi : i < t.kids.length
      · rw [List.getElem?_range hi]
        simp only [Option.map_some]
        cases q with
        | nil => simp [hi]
        | cons j q =>
          simp [newChild, Tree.get?]
          split <;> simp_all [List.getElem?_replicate]
      · rw [List.getElem?_eq_none (by simpa using hi)]
        simp
        intro j; omega

theorem splitIf_marked (t : Tree) (q : Path) (g : Flag) :
    t.splitIf.MarkedAt q g ↔ t.MarkedAt q g := by
  unfold Tree.splitIf
  split
  · rfl
  · rename_i h
    have h' : t.hasChildren none = false := by simpa using h
    rcases q with _ | ⟨i, q⟩
    · simp [Tree.MarkedAt, Tree.splitRegular]
    · have hn : (t.get? (i :: q)) = none := by
        rw [Tree.get?]
        have : ∀ c, t.kids[i]? ≠ some (some c) := by
          intro c hc
          simp only [Tree.hasChildren, List.any_eq_false] at h'
          have := h' (some c) (List.mem_of_getElem? hc)
          simp at this
        split
        · rename_i c hc; exact absurd hc (this c)
        · rfl
      constructor
      · rintro ⟨s, hs, hg⟩
        exfalso
        rw [Tree.get?] at hs
        simp only [Tree.splitRegular, Tree.kids_node, List.getElem?_map] at hs
        by_cases hi : i < t.kids.length
        · rw [List.getElem?_range hi] at hs
          simp only [Option.map_some] at hs
          cases q with
          | nil => simp [newChild] at hs; subst hs; simp at hg
          | cons j q =>
            simp [newChild, Tree.get?] at hs
            split at hs <;> simp_all [List.getElem?_replicate]
        · rw [List.getElem?_eq_none (by simpa using hi)] at hs
          simp at hs
      · rintro ⟨s, hs, -⟩; rw [hn] at hs; cases hs

theorem labelled_isSome (t : Tree) (l : Option Flag) (q : Path) :
    ((t.labelled l).get? q).isSome ↔ (t.get? q).isSome := by
  cases q with
  | nil => simp
  | cons i q => rw [Tree.get?_cons_of_kids (labelled_kids t l)]

theorem labelled_marked (t : Tree) (l : Option Flag) (q : Path) (g : Flag) :
    (t.labelled l).MarkedAt q g ↔ t.MarkedAt q g ∨ (q = [] ∧ l = some g) := by
  cases q with
  | nil =>
    cases l with
    | none => simp [Tree.MarkedAt, Tree.labelled]
    | some l => simp [Tree.MarkedAt, Tree.labelled, Tree.mapFlags, addFlag, eq_comm, or_comm]
  | cons i q => simp [Tree.MarkedAt, Tree.get?_cons_of_kids (labelled_kids t l)]

theorem cleaned_kids (t : Tree) (r : Option Flag) (cu) : (t.cleaned r cu).kids = t.kids := by
  unfold Tree.cleaned; split <;> rfl

theorem cleaned_isSome (t : Tree) (r : Option Flag) (cu) (q : Path) :
    ((t.cleaned r cu).get? q).isSome ↔ (t.get? q).isSome := by
  cases q with
  | nil => simp
  | cons i q => rw [Tree.get?_cons_of_kids (cleaned_kids t r cu)]

theorem cleaned_marked (t : Tree) (r : Option Flag) (cu : Bool) (q : Path) (g : Flag) :
    (t.cleaned r cu).MarkedAt q g ↔ t.MarkedAt q g ∧ ¬ (q = [] ∧ cu = true ∧ r = some g) := by
  cases q with
  | nil =>
    cases r <;> cases cu <;>
      simp [Tree.MarkedAt, Tree.cleaned, Tree.mapFlags, removeFlag, eq_comm, and_comm]
  | cons i q => simp [Tree.MarkedAt, Tree.get?_cons_of_kids (cleaned_kids t r cu)]

theorem labelKidsIf_view (t : Tree) (l : Option Flag) (q : Path) :
    (t.labelKidsIf l).view? q =
      if q.length = 1 then (t.view? q).map (View.mapFlags (match l with
        | some l => insert l | none => id)) else t.view? q := by
  cases l with
  | none => simp [Tree.labelKidsIf]; intro _; cases t.view? q <;> rfl
  | some l => simp [Tree.labelKidsIf, view?_labelKids]

theorem labelKidsIf_isSome (t : Tree) (l : Option Flag) (q : Path) :
    ((t.labelKidsIf l).get? q).isSome ↔ (t.get? q).isSome := by
  have := labelKidsIf_view t l q
  unfold Tree.view? at this
  split at this
  · cases h1 : (t.labelKidsIf l).get? q <;> cases h2 : t.get? q <;> simp_all
  · cases h1 : (t.labelKidsIf l).get? q <;> cases h2 : t.get? q <;> simp_all

theorem markedAt_view (t : Tree) (q : Path) (g : Flag) :
    t.MarkedAt q g ↔ ∃ v, t.view? q = some v ∧ g ∈ v.1.flags := by
  unfold Tree.MarkedAt Tree.view?
  constructor
  · rintro ⟨s, h, hg⟩; exact ⟨s.view, by simp [h], hg⟩
  · rintro ⟨v, h, hg⟩
    cases hs : t.get? q with
    | none => simp [hs] at h
    | some s => simp [hs] at h; subst h; exact ⟨s, rfl, hg⟩

theorem labelKidsIf_marked (t : Tree) (l : Option Flag) (q : Path) (g : Flag) :
    (t.labelKidsIf l).MarkedAt q g ↔ t.MarkedAt q g ∨
      (q.length = 1 ∧ l = some g ∧ (t.get? q).isSome) := by
  rw [markedAt_view, markedAt_view, labelKidsIf_view]
  have hs : (t.get? q).isSome = (t.view? q).isSome := by simp [Tree.view?]
  rw [hs]
  by_cases hq : q.length = 1
  · rw [if_pos hq]
    cases t.view? q with
    | none => simp
    | some v =>
      cases l with
      | none => simp [hq, View.mapFlags]
      | some l => simp [hq, View.mapFlags, eq_comm, or_comm]
  · simp [hq]

theorem refineLocal_isSome (sub ref new : Option Flag) (cu : Bool) (t : Tree) (q : Path) :
    ((t.refineLocal sub ref new cu).get? q).isSome ↔ (t.get? q).isSome ∨
      (t.Chosen ref new ∧ t.hasChildren none = false ∧ ∃ i, i < t.kids.length ∧ q = [i]) := by
  by_cases h : t.Chosen ref new
  · rw [(refineLocal_eq sub ref new cu t).2 h, cleaned_isSome, labelKidsIf_isSome, splitIf_isSome,
      labelled_isSome, labelled_kids, hasChildren_of_kids (labelled_kids t new)]
    simp [h]
  · rw [(refineLocal_eq sub ref new cu t).1 h, labelled_isSome]
    simp [h]

theorem refineLocal_marked (sub ref new : Option Flag) (cu : Bool) (t : Tree) (q : Path)
    (g : Flag) :
    (t.refineLocal sub ref new cu).MarkedAt q g ↔
      (t.MarkedAt q g ∨ (q = [] ∧ new = some g) ∨
        (q.length = 1 ∧ t.Chosen ref new ∧ childLabel sub new = some g ∧
          ((t.refineLocal sub ref new cu).get? q).isSome)) ∧
      ¬ (q = [] ∧ t.Chosen ref new ∧ cu = true ∧ ref = some g) := by
  by_cases h : t.Chosen ref new
  · rw [refineLocal_isSome, (refineLocal_eq sub ref new cu t).2 h, cleaned_marked, labelKidsIf_marked,
      splitIf_isSome, splitIf_marked, labelled_marked, labelled_isSome, labelled_kids,
      hasChildren_of_kids (labelled_kids t new)]
    simp only [h, true_and, or_assoc]
  · rw [(refineLocal_eq sub ref new cu t).1 h, labelled_marked]
    simp [h]

theorem SameUpToFlags.regular {F F' : Forest} (h : SameUpToFlags F F') (hr : F.Regular) :
    F'.Regular := by
  intro a t ht
  have := h a
  unfold Forest.view? at this
  rw [ht] at this
  cases hg : F.get? a with
  | none => simp [hg] at this
  | some t' =>
    simp only [hg, Option.map_some, Option.some.injEq, Prod.mk.injEq, Tree.view] at this
    have h2 := congrArg Info.regular this.1
    simp only at h2
    rw [h2]; exact hr a t' hg

theorem rootIf_same (F : Forest) (sub : Option Flag) : SameUpToFlags F (F.rootIf sub) := by
  cases sub with
  | none => exact fun _ => rfl
  | some f => exact (C03_root_subtrees_exact F f).1

theorem rootIf_rooted (F : Forest) (sub : Option Flag) :
    ∀ f, sub = some f → (F.rootIf sub).Rooted f := by
  rintro f rfl; exact C03_root_subtrees_rooted F f

theorem Forest.markedAt_append (F : Forest) (a q : Path) (t : Tree) (g : Flag)
    (h : F.get? a = some t) : F.Marked (a ++ q) g ↔ t.MarkedAt q g := by
  have ha : a ≠ [] := by rintro rfl; simp at h
  unfold Forest.Marked Tree.MarkedAt
  rw [Forest.get?_append _ _ _ ha, h]; rfl

theorem Forest.hasNode_append (F : Forest) (a q : Path) (t : Tree)
    (h : F.get? a = some t) : F.HasNode (a ++ q) ↔ (t.get? q).isSome := by
  have ha : a ≠ [] := by rintro rfl; simp at h
  unfold Forest.HasNode
  rw [Forest.get?_append _ _ _ ha, h]; rfl

theorem ac_aux (A Q N L C K S U R : Prop) :
    ((A ∨ (Q ∧ N) ∨ (L ∧ C ∧ K ∧ S)) ∧ ¬ (Q ∧ C ∧ U ∧ R)) ↔
      ((A ∨ (Q ∧ N) ∨ (S ∧ K ∧ L ∧ C)) ∧ ¬ (U ∧ R ∧ Q ∧ C)) := by
  tauto

/-- The leaves that `refine` selects: leaves of the (rooted) subforest that carry the
refinement flag, all leaves if there is none.  (The new label is applied to every leaf before
the refinement flag is tested, so if the two coincide every leaf is selected as well.) -/
def Forest.Selected (F : Forest) (sub ref new : Option Flag) (a : Path) : Prop :=
  F.IsLeaf sub a ∧ (ref = none ∨ ∃ r, ref = some r ∧ (F.Marked a r ∨ new = some r))

/-- `i` is a child position of the node at `a`. -/
def Forest.Slot (F : Forest) (a : Path) (i : Nat) : Prop :=
  ∃ t, F.get? a = some t ∧ i < t.kids.length

/-- C05: the exact effect of `refine` on which nodes exist and how they are marked, for every
forest of regular trees: the call succeeds, and with `F1` the forest after rooting the
subforest, `F2` the forest before rooting the new label,
* the nodes of `F2` are the old ones and the children of selected leaves without children;
* the flags are the old ones, the new label on all leaves, the child label on all children of
  selected leaves, minus (if `clean_up`) the refinement flag on selected leaves. -/
theorem C05_refine_exact (F : Forest) (hF : F.Regular) (sub ref new : Option Flag) (cu : Bool) :
    ∃ F2 : Forest, F.refine sub ref new cu = .ok (F2.rootIf new) ∧
      (∀ b, F2.HasNode b ↔ F.HasNode b ∨
        ∃ a i, b = a ++ [i] ∧ (F.rootIf sub).Selected sub ref new a ∧
          (∀ j, ¬ F.HasNode (a ++ [j])) ∧ F.Slot a i) ∧
      (∀ b g, F2.Marked b g ↔
        ((F.rootIf sub).Marked b g ∨ ((F.rootIf sub).IsLeaf sub b ∧ new = some g) ∨
          (F2.HasNode b ∧ childLabel sub new = some g ∧
            ∃ a i, b = a ++ [i] ∧ (F.rootIf sub).Selected sub ref new a)) ∧
        ¬ (cu = true ∧ ref = some g ∧ (F.rootIf sub).Selected sub ref new b)) := by
  have hsame := rootIf_same F sub
  have hroot := rootIf_rooted F sub
  have hreg := hsame.regular hF
  have hslot : ∀ a i, F.Slot a i ↔ (F.rootIf sub).Slot a i := by
    intro a i
    have := hsame a
    unfold Forest.view? at this
    unfold Forest.Slot
    cases h1 : F.get? a with
    | none => cases h2 : (F.rootIf sub).get? a with
      | none => simp
      | some t2 => simp [h1, h2] at this
    | some t1 => cases h2 : (F.rootIf sub).get? a with
      | none => simp [h1, h2] at this
      | some t2 =>
        simp only [h1, h2, Option.map_some, Option.some.injEq, Prod.mk.injEq, Tree.view] at this
        have h3 := congrArg List.length this.2
        simp at h3
        simp [h3]
  have hnode := hsame.hasNode
  unfold Forest.refine
  simp only
  revert hroot hreg hslot hnode
  generalize F.rootIf sub = F1
  intro hroot hreg hslot hnode
  have hcl := rooted_ancestorClosed F1 sub hroot
  obtain ⟨hmem, hnd⟩ := C02_get_leaves F1 none sub .breadthFirst
  revert hmem hnd
  generalize (F1.getLeaves none sub .breadthFirst).map (·.1) = l
  intro hmem hnd
  simp only [reduceCtorEq, false_implies, implies_true, and_true] at hmem
  have hanti : Antichain l := by
    refine hnd.imp_of_mem ?_
    intro a b ha hb hab
    exact ⟨fun h => hab (C02_leaves_antichain F1 sub hcl a b ((hmem a).1 ha) ((hmem b).1 hb) h),
      fun h => hab (C02_leaves_antichain F1 sub hcl b a ((hmem b).1 hb) ((hmem a).1 ha) h).symm⟩
  have hget : ∀ a ∈ l, a ≠ [] ∧ ∃ t, F1.get? a = some t ∧ t.info.regular = true := by
    intro a ha
    obtain ⟨t, ht, -⟩ := (F1.inSub_iff_get _ _).1 ((hmem a).1 ha).1
    exact ⟨by rintro rfl; simp at ht, t, ht, hreg a t ht⟩
  obtain ⟨F2, hok, hin, hout⟩ := refineLoop_ok sub ref new cu l F1 hanti hget
  rw [hok]
  refine ⟨F2, rfl, ?_⟩
  have hsel : ∀ a t, F1.get? a = some t →
      (F1.Selected sub ref new a ↔ F1.IsLeaf sub a ∧ t.Chosen ref new) := by
    intro a t ht
    unfold Forest.Selected Tree.Chosen Forest.Marked
    simp [ht]
  have hnodes : ∀ b, F2.HasNode b ↔ F1.HasNode b ∨
        ∃ a i, b = a ++ [i] ∧ F1.Selected sub ref new a ∧
          (∀ j, ¬ F1.HasNode (a ++ [j])) ∧ F1.Slot a i := by
    intro b
    by_cases hb : ∃ a ∈ l, a <+: b
    · obtain ⟨a, ha, q, rfl⟩ := hb
      obtain ⟨ha0, t, ht, hrt⟩ := hget a ha
      have h2 := hin a ha
      rw [ht] at h2
      rw [Forest.hasNode_append _ _ _ _ h2, refineLocal_isSome, Forest.hasNode_append _ _ _ _ ht]
      have hlf := (hmem a).1 ha
      constructor
      · rintro (h | ⟨h1, h3, i, hi, rfl⟩)
        · exact Or.inl h
        · refine Or.inr ⟨a, i, rfl, (hsel a t ht).2 ⟨hlf, h1⟩, ?_, t, ht, hi⟩
          exact (hasChildren_false_iff F1 a t ht none).1 h3
      · rintro (h | ⟨a', i, he, hs, hn, t', ht', hi⟩)
        · exact Or.inl h
        · have haa : a' = a := by
            rcases List.eq_nil_or_concat q with rfl | ⟨q', j, rfl⟩
            · exfalso
              have : a' <+: a := ⟨[i], by simpa using he.symm⟩
              have := C02_leaves_antichain F1 sub hcl a' a hs.1 hlf this
              subst this; simp at he
            · have : a ++ q' = a' := by
                have h' := congrArg List.dropLast he
                simpa [← List.append_assoc] using h'
              exact (C02_leaves_antichain F1 sub hcl a a' hlf hs.1 ⟨q', this⟩).symm
          subst haa
          rw [ht] at ht'; cases ht'
          have hq : q = [i] := by simpa using he
          exact Or.inr ⟨((hsel a' t ht).1 hs).2, (hasChildren_false_iff F1 a' t ht none).2 hn,
            i, hi, hq⟩
    · have hb' : ∀ a ∈ l, ¬ a <+: b := fun a ha h => hb ⟨a, ha, h⟩
      rw [Forest.hasNode_iff_view, hout b hb', ← Forest.hasNode_iff_view]
      constructor
      · exact Or.inl
      · rintro (h | ⟨a, i, rfl, hs, -⟩)
        · exact h
        · exact absurd (List.prefix_append a [i]) (hb' a ((hmem a).2 hs.1))
  refine ⟨fun b => ?_, fun b g => ?_⟩
  · rw [hnodes b]
    simp only [hnode, hslot]
  · by_cases hb : ∃ a ∈ l, a <+: b
    · obtain ⟨a, ha, q, rfl⟩ := hb
      obtain ⟨ha0, t, ht, hrt⟩ := hget a ha
      have h2 := hin a ha
      rw [ht] at h2
      have hlf := (hmem a).1 ha
      rw [Forest.markedAt_append _ _ _ _ _ h2, refineLocal_marked,
        Forest.hasNode_append _ _ _ _ h2, Forest.markedAt_append _ _ _ _ _ ht]
      have e1 : F1.IsLeaf sub (a ++ q) ↔ q = [] := by
        constructor
        · intro h
          have := C02_leaves_antichain F1 sub hcl a _ hlf h (List.prefix_append _ _)
          simpa using this
        · rintro rfl; simpa using hlf
      have e2 : (∃ a' i, a ++ q = a' ++ [i] ∧ F1.Selected sub ref new a') ↔
          q.length = 1 ∧ t.Chosen ref new := by
        constructor
        · rintro ⟨a', i, he, hs⟩
          have haa : a' = a ∧ q = [i] := by
            rcases List.eq_nil_or_concat q with rfl | ⟨q', j, rfl⟩
            · exfalso
              have : a' <+: a := ⟨[i], by simpa using he.symm⟩
              have := C02_leaves_antichain F1 sub hcl a' a hs.1 hlf this
              subst this; simp at he
            · have : a ++ q' = a' := by
                have h' := congrArg List.dropLast he
                simpa [← List.append_assoc] using h'
              have h3 := (C02_leaves_antichain F1 sub hcl a a' hlf hs.1 ⟨q', this⟩).symm
              subst h3
              exact ⟨rfl, by simpa using he⟩
          obtain ⟨rfl, rfl⟩ := haa
          exact ⟨rfl, ((hsel a' t ht).1 hs).2⟩
        · rintro ⟨h1, h3⟩
          obtain ⟨i, rfl⟩ := List.length_eq_one_iff.1 h1
          exact ⟨a, i, rfl, (hsel a t ht).2 ⟨hlf, h3⟩⟩
      have e3 : F1.Selected sub ref new (a ++ q) ↔ q = [] ∧ t.Chosen ref new := by
        constructor
        · intro h
          have hq := e1.1 h.1
          subst hq
          rw [List.append_nil] at h
          exact ⟨rfl, ((hsel a t ht).1 h).2⟩
        · rintro ⟨rfl, h⟩
          rw [List.append_nil]
          exact (hsel a t ht).2 ⟨hlf, h⟩
      rw [e1, e2, e3]
      exact ac_aux _ _ _ _ _ _ _ _ _
    · have hb' : ∀ a ∈ l, ¬ a <+: b := fun a ha h => hb ⟨a, ha, h⟩
      have e1 : ¬ F1.IsLeaf sub b := fun h => hb' b ((hmem b).2 h) (List.prefix_refl _)
      have e2 : ¬ (∃ a i, b = a ++ [i] ∧ F1.Selected sub ref new a) := by
        rintro ⟨a, i, rfl, hs⟩
        exact hb' a ((hmem a).2 hs.1) (List.prefix_append _ _)
      have e3 : ¬ F1.Selected sub ref new b := fun h => e1 h.1
      rw [Forest.marked_iff_view, hout b hb', ← Forest.marked_iff_view]
      simp only [e1, e2, e3, false_and, and_false, or_false, not_false_eq_true, and_true]

/-- `x` is a child position of a selected leaf. -/
def Forest.ChildOfSelected (F : Forest) (sub ref new : Option Flag) (x : Path) : Prop :=
  ∃ a i, x = a ++ [i] ∧ F.Selected sub ref new a

/-- C05: with a new label that is fresh (no node carries it, it is not the subforest flag, and
it is not removed as refinement flag), the new subforest is rooted and consists exactly of the
old subforest and the children of the selected leaves. -/
theorem C05_new_subforest (F : Forest) (hF : F.Regular) (sub ref : Option Flag) (l : Flag)
    (cu : Bool) (hl : ∀ a, ¬ F.Marked a l) (hsl : sub ≠ some l) (hrl : cu = true → ref ≠ some l) :
    ∃ F', F.refine sub ref (some l) cu = .ok F' ∧ F'.Rooted l ∧
      ∀ x, F'.Marked x l ↔ F'.HasNode x ∧
        ((F.rootIf sub).InSub sub x ∨ (F.rootIf sub).ChildOfSelected sub ref (some l) x) := by
  obtain ⟨F2, hok, hn, hm⟩ := C05_refine_exact F hF sub ref (some l) cu
  refine ⟨_, hok, C03_root_subtrees_rooted F2 l, fun x => ?_⟩
  have hroot := rootIf_rooted F sub
  have hsame := rootIf_same F sub
  have hcl := rooted_ancestorClosed _ sub hroot
  have hl1 : ∀ a, ¬ (F.rootIf sub).Marked a l := by
    intro a ha
    cases sub with
    | none => exact hl a ha
    | some s =>
      rcases ((C03_root_subtrees_exact F s).2 a l).1 ha with h | ⟨h, -⟩
      · exact hl a h
      · exact hsl (by rw [h])
  obtain ⟨hsame2, -⟩ := C03_root_subtrees_exact F2 l
  have hr2 := C03_root_subtrees_rooted F2 l
  show (F2.rootSubtrees l).Marked x l ↔ (F2.rootSubtrees l).HasNode x ∧ _
  have hnode1 : ∀ a, (F.rootIf sub).HasNode a ↔ F.HasNode a := hsame.hasNode
  have hsub : ∀ a, (F.rootIf sub).InSub sub a → (F.rootIf sub).HasNode a := by
    intro a h
    cases sub with
    | none => exact h
    | some s => exact Forest.Marked.hasNode h
  constructor
  · intro h
    refine ⟨h.hasNode, ?_⟩
    refine C03_root_subtrees_least F2 l (fun x => (F.rootIf sub).InSub sub x ∨
      (F.rootIf sub).ChildOfSelected sub ref (some l) x) ?_ ?_ ?_ x h
    · intro a ha
      rcases ((hm a l).1 ha).1 with h | ⟨h, -⟩ | ⟨-, -, a', i, rfl, h⟩
      · exact absurd h (hl1 a)
      · exact Or.inl h.1
      · exact Or.inr ⟨a', i, rfl, h⟩
    · intro i hi
      rcases (hn [i]).1 hi with h | ⟨a, j, he, hs, -⟩
      · left
        cases sub with
        | none => exact h
        | some s => exact (hroot s rfl).1 i ((hnode1 _).2 h)
      · exact Or.inr ⟨a, j, he, hs⟩
    · intro a i ha h
      rcases h with h | ⟨a', i', he, hs⟩
      · refine ⟨Or.inl (hcl a i ha h), fun j hj => ?_⟩
        rcases (hn _).1 hj with h' | ⟨a', j', he, hs, hno, -⟩
        · left
          cases sub with
          | none => exact h'
          | some s => exact ((hroot s rfl).2 a i ha h).2 j ((hnode1 _).2 h')
        · exact Or.inr ⟨a', j', he, hs⟩
      · have haa : a = a' := by
          have := congrArg List.dropLast he
          simpa using this
        subst haa
        exact ⟨Or.inl hs.1.1, fun j _ => Or.inr ⟨a, j, rfl, hs⟩⟩
  · rintro ⟨hx, h | ⟨a, i, rfl, hs⟩⟩
    · obtain ⟨b, hxb, hb⟩ := C02_leaves_cover _ sub x h
      have hx0 : x ≠ [] := Forest.hasNode_ne_nil hx
      have hnotref : ¬ (cu = true ∧ ref = some l ∧ (F.rootIf sub).Selected sub ref (some l) b) :=
        fun h => hrl h.1 h.2.1
      have hmb : F2.Marked b l := (hm b l).2 ⟨Or.inr (Or.inl ⟨hb, rfl⟩), hnotref⟩
      have hmb' : (F2.rootSubtrees l).Marked b l :=
        ((C03_root_subtrees_exact F2 l).2 b l).2 (Or.inl hmb)
      exact ancestorClosed_prefix (sub := some l)
        (rooted_ancestorClosed _ _ (fun f hf => by cases hf; exact hr2)) hx0 hxb hmb'
    · have hx2 : F2.HasNode (a ++ [i]) := (hsame2.hasNode _).1 hx
      refine ((C03_root_subtrees_exact F2 l).2 _ l).2 (Or.inl ((hm _ l).2
        ⟨Or.inr (Or.inr ⟨hx2, rfl, a, i, rfl, hs⟩), fun h => hrl h.1 h.2.1⟩))

/-- C05: the leaves of the new subforest are the old leaves that received no children and the
children of the selected leaves. -/
theorem C05_new_leaves (F : Forest) (hF : F.Regular) (sub ref : Option Flag) (l : Flag)
    (cu : Bool) (hl : ∀ a, ¬ F.Marked a l) (hsl : sub ≠ some l) (hrl : cu = true → ref ≠ some l) :
    ∃ F', F.refine sub ref (some l) cu = .ok F' ∧
      ∀ x, F'.IsLeaf (some l) x ↔
        ((F.rootIf sub).IsLeaf sub x ∧
          ¬ ∃ i, F'.HasNode (x ++ [i]) ∧ (F.rootIf sub).Selected sub ref (some l) x) ∨
        (F'.HasNode x ∧ (F.rootIf sub).ChildOfSelected sub ref (some l) x) := by
  obtain ⟨F', hok, hr, hm⟩ := C05_new_subforest F hF sub ref l cu hl hsl hrl
  refine ⟨F', hok, fun x => ?_⟩
  have hroot := rootIf_rooted F sub
  have hcl := rooted_ancestorClosed _ sub hroot
  -- every old node is still there
  have hold : ∀ a, (F.rootIf sub).InSub sub a → F'.HasNode a := by
    intro a ha
    have hna : F.HasNode a := by
      rw [← (rootIf_same F sub).hasNode]
      cases sub with
      | none => exact ha
      | some s => exact Forest.Marked.hasNode ha
    obtain ⟨F2, hok2, hn2, -⟩ := C05_refine_exact F hF sub ref (some l) cu
    rw [hok] at hok2
    cases hok2
    exact ((C03_root_subtrees_exact F2 l).1.hasNode a).2 ((hn2 a).2 (Or.inl hna))
  have hchild : ∀ a, (F.rootIf sub).ChildOfSelected sub ref (some l) a →
      ¬ (F.rootIf sub).InSub sub a := by
    rintro a ⟨b, i, rfl, hs⟩ h
    exact hs.1.2 i h
  unfold Forest.IsLeaf
  simp only [Forest.InSub] at *
  constructor
  · rintro ⟨h1, h2⟩
    obtain ⟨hx, h1 | h1⟩ := (hm x).1 h1
    · left
      refine ⟨⟨h1, fun i hi => ?_⟩, ?_⟩
      · exact h2 i ((hm _).2 ⟨hold _ hi, Or.inl hi⟩)
      · rintro ⟨i, hi, hs⟩
        exact h2 i ((hm _).2 ⟨hi, Or.inr ⟨x, i, rfl, hs⟩⟩)
    · exact Or.inr ⟨hx, h1⟩
  · rintro (⟨h1, h2⟩ | ⟨hx, h1⟩)
    · refine ⟨(hm x).2 ⟨hold x h1.1, Or.inl h1.1⟩, fun i hi => ?_⟩
      obtain ⟨hn, h | ⟨a, j, he, hs⟩⟩ := (hm _).1 hi
      · exact h1.2 i h
      · have hxa : x = a := by
          have := congrArg List.dropLast he
          simpa using this
        subst hxa
        exact h2 ⟨i, hn, hs⟩
    · refine ⟨(hm x).2 ⟨hx, Or.inr h1⟩, fun i hi => ?_⟩
      obtain ⟨hn, h | ⟨a, j, he, hs⟩⟩ := (hm _).1 hi
      · exact hchild x h1 (hcl x i (Forest.hasNode_ne_nil hx) h)
      · have hxa : x = a := by
          have := congrArg List.dropLast he
          simpa using this
        subst hxa
        exact hchild x h1 hs.1.1

/-- C05: without a new label, refining the subforest `s` extends `s` by the children of the
selected leaves, and `s` is again rooted. -/
theorem C05_same_subforest (F : Forest) (hF : F.Regular) (s : Flag) (ref : Option Flag)
    (cu : Bool) (hrl : cu = true → ref ≠ some s) :
    ∃ F', F.refine (some s) ref none cu = .ok F' ∧ F'.Rooted s ∧
      ∀ x, F'.Marked x s ↔ (F.rootSubtrees s).Marked x s ∨
        (F'.HasNode x ∧ (F.rootSubtrees s).ChildOfSelected (some s) ref none x) := by
  obtain ⟨F2, hok, hn, hm⟩ := C05_refine_exact F hF (some s) ref none cu
  have hroot := C03_root_subtrees_rooted F s
  have hex : ∀ x, F2.Marked x s ↔ (F.rootSubtrees s).Marked x s ∨
        (F2.HasNode x ∧ (F.rootSubtrees s).ChildOfSelected (some s) ref none x) := by
    intro x
    rw [hm]
    constructor
    · rintro ⟨h | ⟨-, h⟩ | ⟨h1, -, h2⟩, -⟩
      · exact Or.inl h
      · cases h
      · exact Or.inr ⟨h1, h2⟩
    · rintro (h | ⟨h1, h2⟩)
      · exact ⟨Or.inl h, fun h => hrl h.1 h.2.1⟩
      · exact ⟨Or.inr (Or.inr ⟨h1, rfl, h2⟩), fun h => hrl h.1 h.2.1⟩
  have hnode1 := (C03_root_subtrees_exact F s).1.hasNode
  refine ⟨F2, hok, ⟨fun i hi => ?_, fun a i ha h => ?_⟩, hex⟩
  · rw [hex]
    rcases (hn [i]).1 hi with h | ⟨a, j, he, hs, -⟩
    · exact Or.inl (hroot.1 i ((hnode1 _).2 h))
    · exact Or.inr ⟨hi, a, j, he, hs⟩
  · rcases (hex _).1 h with h | ⟨h1, a', i', he, hs⟩
    · refine ⟨(hex _).2 (Or.inl (hroot.2 a i ha h).1), fun j hj => (hex _).2 ?_⟩
      rcases (hn _).1 hj with h' | ⟨a', j', he, hs, -⟩
      · exact Or.inl ((hroot.2 a i ha h).2 j ((hnode1 _).2 h'))
      · exact Or.inr ⟨hj, a', j', he, hs⟩
    · have haa : a = a' := by
        have := congrArg List.dropLast he
        simpa using this
      subst haa
      exact ⟨(hex _).2 (Or.inl hs.1.1), fun j hj => (hex _).2 (Or.inr ⟨hj, a, j, rfl, hs⟩)⟩

/-- C05: with `clean_up` the refinement flag disappears from the selected leaves and from no
other node that had it. -/
theorem C05_clean_up (F : Forest) (hF : F.Regular) (sub : Option Flag) (r : Flag)
    (new : Option Flag) (hsub : sub ≠ some r) (hnew : new ≠ some r) :
    ∃ F', F.refine sub (some r) new true = .ok F' ∧
      ∀ x, F'.Marked x r ↔ F.Marked x r ∧ ¬ (F.rootIf sub).IsLeaf sub x := by
  obtain ⟨F2, hok, hn, hm⟩ := C05_refine_exact F hF sub (some r) new true
  refine ⟨_, hok, fun x => ?_⟩
  have h1 : (F.rootIf sub).Marked x r ↔ F.Marked x r := by
    cases sub with
    | none => rfl
    | some s =>
      rw [show F.rootIf (some s) = F.rootSubtrees s from rfl, (C03_root_subtrees_exact F s).2 x r]
      constructor
      · rintro (h | ⟨h, -⟩)
        · exact h
        · exact absurd (by rw [h]) hsub
      · exact Or.inl
  have h2 : (F2.rootIf new).Marked x r ↔ F2.Marked x r := by
    cases new with
    | none => rfl
    | some s =>
      rw [show F2.rootIf (some s) = F2.rootSubtrees s from rfl, (C03_root_subtrees_exact F2 s).2 x r]
      constructor
      · rintro (h | ⟨h, -⟩)
        · exact h
        · exact absurd (by rw [h]) hnew
      · exact Or.inl
  rw [h2, hm]
  have hcl : childLabel sub new ≠ some r := by
    cases new with
    | none => exact hsub
    | some l => exact hnew
  constructor
  · rintro ⟨h | ⟨-, h⟩ | ⟨-, h, -⟩, h'⟩
    · refine ⟨h1.1 h, fun hl => h' ⟨rfl, rfl, hl, Or.inr ⟨r, rfl, Or.inl h⟩⟩⟩
    · exact absurd h hnew
    · exact absurd h hcl
  · rintro ⟨h, hl⟩
    exact ⟨Or.inl (h1.2 h), fun h' => hl h'.2.2.1⟩

/-! ### Non-vacuity -/

/-- All nodes of the example forest. -/
theorem exForest_cases {a : Path} {t : Tree} (ht : exForest.get? a = some t) :
    a ∈ [[0], [0, 0], [0, 1], [0, 1, 0], [0, 1, 1], [1]] := by
  rcases a with _ | ⟨x, a⟩
  · simp at ht
  rcases x with _ | _ | x
  · rcases a with _ | ⟨y, a⟩
    · decide
    rcases y with _ | _ | y
    · rcases a with _ | ⟨z, a⟩
      · decide
      · rcases z with _ | _ | z <;>
          simp [Forest.get?, exForest, Tree.get?, Tree.kids, exLeaf] at ht
    · rcases a with _ | ⟨z, a⟩
      · decide
      rcases z with _ | _ | z
      · rcases a with _ | ⟨w, a⟩
        · decide
        · rcases w with _ | _ | w <;>
            simp [Forest.get?, exForest, Tree.get?, Tree.kids, exLeaf] at ht
      · rcases a with _ | ⟨w, a⟩
        · decide
        · rcases w with _ | _ | w <;>
            simp [Forest.get?, exForest, Tree.get?, Tree.kids, exLeaf] at ht
      · simp [Forest.get?, exForest, Tree.get?, Tree.kids] at ht
    · simp [Forest.get?, exForest, Tree.get?, Tree.kids] at ht
  · rcases a with _ | ⟨y, a⟩
    · decide
    · rcases y with _ | _ | y <;> simp [Forest.get?, exForest, Tree.get?, Tree.kids] at ht
  · simp [Forest.get?, exForest] at ht

theorem exForest_forall {P : Path → Tree → Prop}
    (h : ∀ a ∈ [[0], [0, 0], [0, 1], [0, 1, 0], [0, 1, 1], [1]],
      ∀ t, exForest.get? a = some t → P a t) (a : Path) (t : Tree)
    (ht : exForest.get? a = some t) : P a t := h a (exForest_cases ht) t ht

theorem exForest_regular : exForest.Regular := by
  refine exForest_forall ?_
  intro a ha t ht
  simp only [List.mem_cons, List.not_mem_nil, or_false] at ha
  rcases ha with rfl | rfl | rfl | rfl | rfl | rfl <;> cases ht <;> rfl

theorem exForest_fresh9 (a : Path) : ¬ exForest.Marked a 9 := by
  rintro ⟨t, ht, hf⟩
  revert hf
  refine exForest_forall (P := fun _ t => ¬ (9 ∈ t.info.flags)) ?_ a t ht
  clear ht a t
  intro a ha t ht
  simp only [List.mem_cons, List.not_mem_nil, or_false] at ha
  rcases ha with rfl | rfl | rfl | rfl | rfl | rfl <;> cases ht <;> decide

/-- The hypotheses of the C05 theorems hold for the example with subforest 5, refinement flag 7
and new label 9, and there is a leaf of the subforest 5 to refine. -/
example : exForest.Regular ∧ (∀ a, ¬ exForest.Marked a 9) ∧ exForest.IsLeaf (some 5) [0, 1] ∧
    exForest.HasNode [0, 1, 0] ∧ exForest.Rooted 5 := by
  refine ⟨exForest_regular, exForest_fresh9, ⟨⟨_, rfl, by decide⟩, ?_⟩, rfl, exForest_rooted⟩
  rintro i ⟨t, ht, hf⟩
  rcases i with _ | _ | i
  · cases ht; exact absurd hf (by decide)
  · cases ht; exact absurd hf (by decide)
  · simp [Forest.get?, exForest, Tree.get?, Tree.kids] at ht

end Verif.Trees
