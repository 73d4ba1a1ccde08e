import Verif.Forest.RefineProps

/-! # C06: `coarsen` -/

namespace Verif.Trees

/-- The node is in the subforest (tree level). -/
def Tree.inSub (t : Tree) (sub : Option Flag) : Prop := ∀ s, sub = some s → s ∈ t.info.flags

theorem coarsenKids_eq (sub coa new : Option Flag) (cu : Bool) (ks : List (Option Tree)) :
    Tree.coarsenKids sub coa new cu ks = ks.map (Option.map (Tree.coarsen sub coa new cu)) := by
  induction ks with
  | nil => simp [Tree.coarsenKids]
  | cons k ks ih => cases k <;> simp [Tree.coarsenKids, Tree.coarsenOpt, ih]

theorem inSub_iff (t : Tree) (sub : Option Flag) :
    (sub.isSome && !t.isMarked sub) = true ↔ ¬ t.inSub sub := by
  cases sub with
  | none => simp [Tree.inSub]
  | some s => simp [Tree.inSub, Tree.isMarked]

theorem coarsen_of_not_inSub (sub coa new : Option Flag) (cu : Bool) (t : Tree)
    (h : ¬ t.inSub sub) : t.coarsen sub coa new cu = t := by
  cases t with
  | node inf ks => rw [Tree.coarsen, if_pos ((inSub_iff _ _).2 h)]

theorem coarsen_of_wants (sub coa new : Option Flag) (cu : Bool) (t : Tree)
    (h : t.inSub sub) (hw : t.wantsCoarsening sub coa = true) :
    t.coarsen sub coa new cu = (t.labelled new).coarsenHere sub new coa cu := by
  cases t with
  | node inf ks => rw [Tree.coarsen, if_neg (fun h' => (inSub_iff _ _).1 h' h), if_pos hw]

theorem coarsen_of_not_wants (sub coa new : Option Flag) (cu : Bool) (t : Tree)
    (h : t.inSub sub) (hw : t.wantsCoarsening sub coa = false) :
    t.coarsen sub coa new cu =
      .node (t.labelled new).info (t.kids.map (Option.map (Tree.coarsen sub coa new cu))) := by
  cases t with
  | node inf ks =>
    rw [Tree.coarsen, if_neg (fun h' => (inSub_iff _ _).1 h' h), if_neg (by simp [hw])]
    split
    · rw [coarsenKids_eq]; rfl
    · rename_i hc
      have hc' : (Tree.node inf ks).hasChildren sub = false := by simpa using hc
      have hk : ks.map (Option.map (Tree.coarsen sub coa new cu)) = ks := by
        conv_rhs => rw [← List.map_id ks]
        apply List.map_congr_left
        intro k hk
        cases k with
        | none => rfl
        | some c =>
          simp only [Option.map_some, id_eq, Option.some.injEq]
          cases sub with
          | none =>
            simp only [Tree.hasChildren, List.any_eq_false] at hc'
            have := hc' (some c) hk
            simp at this
          | some s =>
            apply coarsen_of_not_inSub
            simp only [Tree.hasChildren, List.any_eq_false] at hc'
            have := hc' (some c) hk
            simp [Tree.isMarked] at this
            intro h'
            exact this (h' s rfl)
      rw [Tree.kids_node, hk]
      cases new <;> rfl

/-- The recursion of `coarsen` reaches the node at relative path `q`. -/
def Tree.Reach (sub coa : Option Flag) : Path → Tree → Prop
  | [], t => t.inSub sub
  | i :: q, t => t.inSub sub ∧ t.wantsCoarsening sub coa = false ∧
      ∃ c, t.kids[i]? = some (some c) ∧ Tree.Reach sub coa q c

/-- The recursion reaches the node and coarsens it. -/
def Tree.Stop (sub coa : Option Flag) (q : Path) (t : Tree) : Prop :=
  t.Reach sub coa q ∧ ∃ s, t.get? q = some s ∧ s.wantsCoarsening sub coa = true

theorem reach_nil (sub coa : Option Flag) (t : Tree) : t.Reach sub coa [] ↔ t.inSub sub := by
  simp [Tree.Reach]

theorem reach_cons (sub coa : Option Flag) (t : Tree) (i : Nat) (q : Path) :
    t.Reach sub coa (i :: q) ↔ t.inSub sub ∧ t.wantsCoarsening sub coa = false ∧
      ∃ c, t.kids[i]? = some (some c) ∧ c.Reach sub coa q := by
  rw [Tree.Reach]

theorem stop_nil (sub coa : Option Flag) (t : Tree) :
    t.Stop sub coa [] ↔ t.inSub sub ∧ t.wantsCoarsening sub coa = true := by
  simp [Tree.Stop, Tree.Reach]

theorem stop_cons (sub coa : Option Flag) (t : Tree) (i : Nat) (q : Path) :
    t.Stop sub coa (i :: q) ↔ t.inSub sub ∧ t.wantsCoarsening sub coa = false ∧
      ∃ c, t.kids[i]? = some (some c) ∧ c.Stop sub coa q := by
  unfold Tree.Stop
  rw [reach_cons]
  constructor
  · rintro ⟨⟨h1, h2, c, hc, h3⟩, s, hs, h4⟩
    refine ⟨h1, h2, c, hc, h3, s, ?_, h4⟩
    simpa [Tree.get?, hc] using hs
  · rintro ⟨h1, h2, c, hc, h3, s, hs, h4⟩
    exact ⟨⟨h1, h2, c, hc, h3⟩, s, by simpa [Tree.get?, hc] using hs, h4⟩

theorem get?_cons_none_or (t : Tree) (i : Nat) (q : Path) :
    (∃ c, t.kids[i]? = some (some c) ∧ t.get? (i :: q) = c.get? q) ∨
    ((∀ c, t.kids[i]? ≠ some (some c)) ∧ t.get? (i :: q) = none) := by
  rw [Tree.get?]
  split
  · rename_i c hc; exact Or.inl ⟨c, hc, rfl⟩
  · rename_i h; exact Or.inr ⟨h, rfl⟩

theorem deleteChildren_get?_cons (t : Tree) (i : Nat) (q : Path) :
    t.deleteChildren.get? (i :: q) = none := by
  rw [Tree.get?]
  split
  · rename_i c hc
    rw [Tree.deleteChildren, Tree.kids_node, List.getElem?_map] at hc
    cases hk : t.kids[i]? <;> simp [hk] at hc
  · rfl

theorem coarsen_isSome (sub coa new : Option Flag) (cu : Bool) (q : Path) (t : Tree) :
    ((t.coarsen sub coa new cu).get? q).isSome ↔ (t.get? q).isSome ∧
      ¬ (new = none ∧ sub = none ∧ ∃ p, p <+: q ∧ p ≠ q ∧ t.Stop sub coa p) := by
  induction q generalizing t with
  | nil => simp
  | cons i q ih =>
    by_cases hin : t.inSub sub
    · by_cases hw : t.wantsCoarsening sub coa = true
      · have hst : t.Stop sub coa [] := (stop_nil _ _ _).2 ⟨hin, hw⟩
        rw [coarsen_of_wants _ _ _ _ _ hin hw]
        have hst' : ∃ p, p <+: i :: q ∧ p ≠ i :: q ∧ t.Stop sub coa p :=
          ⟨[], List.nil_prefix, by simp, hst⟩
        simp only [hst', and_true]
        unfold Tree.coarsenHere
        rw [Tree.get?_cons_of_kids (cleaned_kids _ _ _)]
        rcases new with _ | l
        · rcases sub with _ | s
          · simp [deleteChildren_get?_cons]
          · simp only [reduceCtorEq, false_and, and_false, not_false_eq_true, and_true]
            simp only [Tree.get?, Tree.kids_node, labelled_kids, List.getElem?_map]
            cases hk : t.kids[i]? with
            | none => simp
            | some k => cases k with
              | none => simp
              | some c =>
                simp only [Option.map_some]
                cases q with
                | nil => simp
                | cons j q => rw [Tree.get?_cons_of_kids (mapFlags_kids c _)]
        · simp [Tree.get?_cons_of_kids (labelled_kids t (some l))]
      · have hw' : t.wantsCoarsening sub coa = false := by simpa using hw
        rw [coarsen_of_not_wants _ _ _ _ _ hin hw']
        rcases get?_cons_none_or t i q with ⟨c, hc, he⟩ | ⟨hc, he⟩
        · rw [he]
          have h1 : (Tree.node (t.labelled new).info
              (t.kids.map (Option.map (Tree.coarsen sub coa new cu)))).get? (i :: q) =
              (c.coarsen sub coa new cu).get? q := by
            simp [Tree.get?, Tree.kids_node, hc]
          rw [h1, ih]
          refine and_congr_right fun _ => not_congr (and_congr_right fun _ => and_congr_right fun _ => ?_)
          constructor
          · rintro ⟨p, hp, hne, hs⟩
            exact ⟨i :: p, by simpa using hp, by simpa using hne,
              (stop_cons _ _ _ _ _).2 ⟨hin, hw', c, hc, hs⟩⟩
          · rintro ⟨p, hp, hne, hs⟩
            cases p with
            | nil => exact absurd ((stop_nil _ _ _).1 hs).2 hw
            | cons j p =>
              rw [List.cons_prefix_cons] at hp
              obtain ⟨rfl, hp⟩ := hp
              obtain ⟨-, -, c', hc', hs⟩ := (stop_cons _ _ _ _ _).1 hs
              rw [hc] at hc'; cases hc'
              exact ⟨p, hp, by simpa using hne, hs⟩
        · rw [he]
          have h1 : (Tree.node (t.labelled new).info
              (t.kids.map (Option.map (Tree.coarsen sub coa new cu)))).get? (i :: q) = none := by
            rw [Tree.get?, Tree.kids_node, List.getElem?_map]
            split
            · rename_i c h
              cases hk : t.kids[i]? with
              | none => simp [hk] at h
              | some k => cases k with
                | none => simp [hk] at h
                | some c => exact absurd hk (hc c)
            · rfl
          simp [h1]
    · rw [coarsen_of_not_inSub _ _ _ _ _ hin]
      constructor
      · intro h
        refine ⟨h, ?_⟩
        rintro ⟨rfl, rfl, -⟩
        exact hin (by intro s hs; cases hs)
      · exact fun h => h.1

theorem markedAt_cons {t c : Tree} {i : Nat} (hc : t.kids[i]? = some (some c)) (q : Path)
    (g : Flag) : t.MarkedAt (i :: q) g ↔ c.MarkedAt q g := by
  simp [Tree.MarkedAt, Tree.get?, hc]

theorem not_markedAt_cons {t : Tree} {i : Nat} (hc : ∀ c, t.kids[i]? ≠ some (some c)) (q : Path)
    (g : Flag) : ¬ t.MarkedAt (i :: q) g := by
  rintro ⟨s, hs, -⟩
  rw [Tree.get?] at hs
  split at hs
  · rename_i c h; exact hc c h
  · cases hs

theorem coarsen_marked (sub coa new : Option Flag) (cu : Bool) (q : Path) (t : Tree) (g : Flag) :
    (t.coarsen sub coa new cu).MarkedAt q g ↔
      ((t.coarsen sub coa new cu).get? q).isSome ∧
      (t.MarkedAt q g ∨ (t.Reach sub coa q ∧ new = some g)) ∧
      ¬ (new = none ∧ sub = some g ∧ ∃ p i, q = p ++ [i] ∧ t.Stop sub coa p) ∧
      ¬ (cu = true ∧ coa = some g ∧ t.Stop sub coa q) := by
  induction q generalizing t with
  | nil =>
    simp only [Tree.get?_nil, Option.isSome_some, true_and]
    have e0 : ¬ (new = none ∧ sub = some g ∧ ∃ p i, ([] : Path) = p ++ [i] ∧ t.Stop sub coa p) := by
      rintro ⟨-, -, p, i, h, -⟩; simp at h
    simp only [e0, not_false_eq_true, true_and, reach_nil, stop_nil]
    by_cases hin : t.inSub sub
    · by_cases hw : t.wantsCoarsening sub coa = true
      · rw [coarsen_of_wants _ _ _ _ _ hin hw]
        unfold Tree.coarsenHere
        simp only
        rw [cleaned_marked]
        simp only [hin, hw, and_true, true_and]
        refine and_congr_left fun _ => ?_
        rw [← (by simpa using labelled_marked t new [] g :
          (t.labelled new).MarkedAt [] g ↔ t.MarkedAt [] g ∨ new = some g)]
        rcases new with _ | l <;> rcases sub with _ | s <;>
          simp [Tree.MarkedAt, Tree.deleteChildren]
      · have hw' : t.wantsCoarsening sub coa = false := by simpa using hw
        rw [coarsen_of_not_wants _ _ _ _ _ hin hw']
        simp only [hin, hw', Bool.false_eq_true, and_false, not_false_eq_true, and_true, true_and]
        rw [← (by simpa using labelled_marked t new [] g :
          (t.labelled new).MarkedAt [] g ↔ t.MarkedAt [] g ∨ new = some g)]
        simp [Tree.MarkedAt]
    · rw [coarsen_of_not_inSub _ _ _ _ _ hin]; simp [hin]
  | cons i q ih =>
    by_cases hin : t.inSub sub
    · by_cases hw : t.wantsCoarsening sub coa = true
      · have hnr : ¬ t.Reach sub coa (i :: q) := by rw [reach_cons]; simp [hw]
        have hns : ∀ j p, ¬ t.Stop sub coa (j :: p) := by
          intro j p; rw [stop_cons]; simp [hw]
        have hst : t.Stop sub coa [] := (stop_nil _ _ _).2 ⟨hin, hw⟩
        have e1 : (∃ p j, i :: q = p ++ [j] ∧ t.Stop sub coa p) ↔ q = [] := by
          constructor
          · rintro ⟨p, j, he, hs⟩
            cases p with
            | nil => simp at he; exact he.2
            | cons k p => exact absurd hs (hns k p)
          · rintro rfl; exact ⟨[], i, rfl, hst⟩
        simp only [hnr, hns, e1, false_and, or_false, and_false, not_false_eq_true, and_true]
        rw [coarsen_of_wants _ _ _ _ _ hin hw]
        unfold Tree.coarsenHere
        simp only [Tree.MarkedAt, Tree.get?_cons_of_kids (cleaned_kids _ _ _)]
        rcases new with _ | l
        · rcases sub with _ | s
          · simp [deleteChildren_get?_cons]
          · simp only [Tree.labelled, true_and, Option.some.injEq]
            rcases get?_cons_none_or t i q with ⟨c, hc, he⟩ | ⟨hc, he⟩
            · have h1 : (Tree.node t.info (t.kids.map (Option.map
                  (Tree.mapFlags (removeFlag (some s)))))).get? (i :: q) =
                  (c.mapFlags (removeFlag (some s))).get? q := by
                simp [Tree.get?, Tree.kids_node, hc]
              rw [h1, he]
              cases q with
              | nil =>
                simp only [Tree.get?_nil, Option.some.injEq, exists_eq_left', and_true,
                  Option.isSome_some, true_and]
                simp [Tree.mapFlags, removeFlag, eq_comm, and_comm]
              | cons j q =>
                rw [Tree.get?_cons_of_kids (mapFlags_kids c _)]
                simp only [reduceCtorEq, and_false, not_false_eq_true, and_true]
                constructor
                · rintro ⟨x, hx, hg⟩; exact ⟨by simp [hx], x, hx, hg⟩
                · exact fun h => h.2
            · have h1 : (Tree.node t.info (t.kids.map (Option.map
                  (Tree.mapFlags (removeFlag (some s)))))).get? (i :: q) = none := by
                rw [Tree.get?, Tree.kids_node, List.getElem?_map]
                split
                · rename_i c h
                  cases hk : t.kids[i]? with
                  | none => simp [hk] at h
                  | some k => cases k with
                    | none => simp [hk] at h
                    | some c => exact absurd hk (hc c)
                · rfl
              simp [h1]
        · simp only [reduceCtorEq, false_and, not_false_eq_true, and_true,
            Tree.get?_cons_of_kids (labelled_kids t (some l))]
          constructor
          · rintro ⟨x, hx, hg⟩; exact ⟨by simp [hx], x, hx, hg⟩
          · exact fun h => h.2
      · have hw' : t.wantsCoarsening sub coa = false := by simpa using hw
        rw [coarsen_of_not_wants _ _ _ _ _ hin hw']
        rcases get?_cons_none_or t i q with ⟨c, hc, he⟩ | ⟨hc, he⟩
        · have hc' : (Tree.node (t.labelled new).info
              (t.kids.map (Option.map (Tree.coarsen sub coa new cu)))).kids[i]? =
              some (some (c.coarsen sub coa new cu)) := by simp [hc]
          rw [markedAt_cons hc', markedAt_cons hc, ih c]
          have h1 : (Tree.node (t.labelled new).info
              (t.kids.map (Option.map (Tree.coarsen sub coa new cu)))).get? (i :: q) =
              (c.coarsen sub coa new cu).get? q := by
            simp [Tree.get?, hc]
          rw [h1]
          have r1 : t.Reach sub coa (i :: q) ↔ c.Reach sub coa q := by
            rw [reach_cons]; simp [hin, hw', hc]
          have r2 : ∀ p, t.Stop sub coa (i :: p) ↔ c.Stop sub coa p := by
            intro p; rw [stop_cons]; simp [hin, hw', hc]
          have r3 : (∃ p j, i :: q = p ++ [j] ∧ t.Stop sub coa p) ↔
              (∃ p j, q = p ++ [j] ∧ c.Stop sub coa p) := by
            constructor
            · rintro ⟨p, j, he, hs⟩
              cases p with
              | nil => exact absurd ((stop_nil _ _ _).1 hs).2 hw
              | cons k p =>
                simp only [List.cons_append, List.cons.injEq] at he
                obtain ⟨rfl, he⟩ := he
                exact ⟨p, j, he, (r2 p).1 hs⟩
            · rintro ⟨p, j, rfl, hs⟩
              exact ⟨i :: p, j, rfl, (r2 p).2 hs⟩
          rw [r1, r2, r3]
        · have hc' : ∀ c, (Tree.node (t.labelled new).info
              (t.kids.map (Option.map (Tree.coarsen sub coa new cu)))).kids[i]? ≠ some (some c) := by
            intro c h
            rw [Tree.kids_node, List.getElem?_map] at h
            cases hk : t.kids[i]? with
            | none => simp [hk] at h
            | some k => cases k with
              | none => simp [hk] at h
              | some c => exact absurd hk (hc c)
          constructor
          · exact fun h => absurd h (not_markedAt_cons hc' q g)
          · rintro ⟨h, -⟩
            exfalso
            rcases get?_cons_none_or _ i q with ⟨c, hc2, -⟩ | ⟨-, he2⟩
            · exact hc' c hc2
            · rw [he2] at h; cases h
    · rw [coarsen_of_not_inSub _ _ _ _ _ hin]
      have hnr : ¬ t.Reach sub coa (i :: q) := by rw [reach_cons]; simp [hin]
      have hns : ∀ p, ¬ t.Stop sub coa p := by
        intro p
        cases p with
        | nil => rw [stop_nil]; simp [hin]
        | cons j p => rw [stop_cons]; simp [hin]
      simp only [hnr, hns, false_and, or_false, and_false, exists_false, not_false_eq_true, and_true]
      constructor
      · rintro ⟨s, hs, hg⟩; exact ⟨by simp [hs], s, hs, hg⟩
      · exact fun h => h.2

/-! ### Forest level -/

/-- The criterion of `coarsen` for merging the children of the node at `a`: it carries the
coarsening flag; if none is given, it has children in the subforest and all its children are of
type LEAF. -/
def Forest.Wants (F : Forest) (sub coa : Option Flag) (a : Path) : Prop :=
  match coa with
  | some c => F.Marked a c
  | none => (∃ i, F.InSub sub (a ++ [i])) ∧
      ∀ i t, F.get? (a ++ [i]) = some t → t.info.kind = .leaf

/-- The node and all its ancestors are in the subforest, and no proper ancestor meets the
criterion. -/
def Forest.Reached (F : Forest) (sub coa : Option Flag) (b : Path) : Prop :=
  F.HasNode b ∧ ∀ a, a ≠ [] → a <+: b → F.InSub sub a ∧ (a ≠ b → ¬ F.Wants sub coa a)

/-- The nodes whose children are merged: topmost nodes meeting the criterion. -/
def Forest.Merged (F : Forest) (sub coa : Option Flag) (a : Path) : Prop :=
  F.Reached sub coa a ∧ F.Wants sub coa a

theorem wants_iff (F : Forest) (sub coa : Option Flag) (a : Path) (t : Tree)
    (h : F.get? a = some t) : F.Wants sub coa a ↔ t.wantsCoarsening sub coa = true := by
  have ha : a ≠ [] := by rintro rfl; simp at h
  cases coa with
  | some c =>
    simp [Forest.Wants, Tree.wantsCoarsening, Forest.Marked, h, Tree.isMarked]
  | none =>
    have hch : (∃ i, F.InSub sub (a ++ [i])) ↔ t.hasChildren sub = true := by
      have := hasChildren_false_iff F a t h sub
      rw [← not_iff_not, Bool.not_eq_true, this]; push_neg; rfl
    simp only [Forest.Wants, hch, Tree.wantsCoarsening]
    have hget : ∀ i s, F.get? (a ++ [i]) = some s ↔ t.kids[i]? = some (some s) := by
      intro i s
      rw [Forest.get?_append _ _ _ ha, h]
      simp only [Option.bind_some, Tree.get?_singleton_eq_some]
    simp only [hget]
    by_cases hc : t.hasChildren sub = true
    · simp only [hc, true_and, if_true, Bool.and_eq_true, List.all_eq_true, decide_eq_true_eq,
        Bool.not_eq_true', List.isEmpty_eq_false_iff]
      have hne : t.getChildren none false ≠ [] := by
        obtain ⟨i, c, hic, -⟩ := (hasChildren_iff t sub).1 hc
        intro h0
        have : (i, c) ∈ t.getChildren none false := (mem_getChildren _ _ _ _ _).2 ⟨hic, by simp⟩
        rw [h0] at this; cases this
      simp only [hne, ne_eq, not_false_eq_true, and_true]
      constructor
      · rintro h' ⟨i, c⟩ hm
        exact h' i c ((mem_getChildren _ _ _ _ _).1 hm).1
      · intro h' i c hm
        exact h' (i, c) ((mem_getChildren _ _ _ _ _).2 ⟨hm, by simp⟩)
    · simp [hc]

theorem inSub_forest_iff (F : Forest) (sub : Option Flag) (a : Path) (t : Tree)
    (h : F.get? a = some t) : F.InSub sub a ↔ t.inSub sub := by
  rw [Forest.inSub_iff_get, h]; simp [Tree.inSub]

theorem reached_iff (F : Forest) (sub coa : Option Flag) (a : Path) (t : Tree) (q : Path)
    (h : F.get? a = some t) (hup : ∀ b, b ≠ [] → b <+: a → b ≠ a →
      F.InSub sub b ∧ ¬ F.Wants sub coa b) :
    F.Reached sub coa (a ++ q) ↔ t.Reach sub coa q := by
  have ha : a ≠ [] := by rintro rfl; simp at h
  induction q generalizing a t with
  | nil =>
    rw [List.append_nil, reach_nil, ← inSub_forest_iff F sub a t h]
    constructor
    · exact fun h' => (h'.2 a ha (List.prefix_refl _)).1
    · intro hin
      refine ⟨by simp [Forest.HasNode, h], fun b hb hba => ?_⟩
      by_cases hne : b = a
      · subst hne; exact ⟨hin, fun h' => absurd rfl h'⟩
      · exact ⟨(hup b hb hba hne).1, fun _ => (hup b hb hba hne).2⟩
  | cons i q ih =>
    rw [reach_cons, ← inSub_forest_iff F sub a t h]
    have hgc : ∀ c, F.get? (a ++ [i]) = some c ↔ t.kids[i]? = some (some c) := by
      intro c
      rw [Forest.get?_append _ _ _ ha, h]
      simp only [Option.bind_some, Tree.get?_singleton_eq_some]
    have hup' : F.InSub sub a → ¬ F.Wants sub coa a →
        ∀ b, b ≠ [] → b <+: a ++ [i] → b ≠ a ++ [i] → F.InSub sub b ∧ ¬ F.Wants sub coa b := by
      intro hin hw b hb hba hne
      rcases List.prefix_concat_iff.1 hba with h' | h'
      · exact absurd h' hne
      · by_cases hbe : b = a
        · subst hbe; exact ⟨hin, hw⟩
        · exact hup b hb h' hbe
    constructor
    · intro hr
      have hin := (hr.2 a ha (List.prefix_append _ _)).1
      have hw := (hr.2 a ha (List.prefix_append _ _)).2 (by simp)
      have hw' : t.wantsCoarsening sub coa = false := by
        rw [wants_iff F sub coa a t h] at hw; simpa using hw
      have hn : F.HasNode (a ++ [i]) := hr.1.prefix ⟨q, by simp⟩ (by simp)
      obtain ⟨c, hc⟩ := Option.isSome_iff_exists.1 hn
      refine ⟨hin, hw', c, (hgc c).1 hc, ?_⟩
      refine (ih (a ++ [i]) c hc (hup' hin hw) (by simp)).1 ?_
      rw [List.append_assoc]; exact hr
    · rintro ⟨hin, hw', c, hc, hr⟩
      have hw : ¬ F.Wants sub coa a := by rw [wants_iff F sub coa a t h]; simp [hw']
      have := (ih (a ++ [i]) c ((hgc c).2 hc) (hup' hin hw) (by simp)).2 hr
      rw [List.append_assoc] at this; exact this

theorem get?_coarsen (F : Forest) (sub coa new : Option Flag) (cu : Bool) (i : Nat) (q : Path)
    (t : Tree) (h : F.get? [i] = some t) (F' : Forest)
    (hF' : F' = ⟨F.trees.map (Tree.coarsen sub coa new cu)⟩) :
    F'.get? [i] = some (t.coarsen sub coa new cu) := by
  subst hF'
  simp only [Forest.get?, List.getElem?_map] at *
  cases ht : F.trees[i]? with
  | none => simp [ht] at h
  | some t' => simp [ht] at h ⊢; rw [h]

theorem get?_coarsen_none (F : Forest) (sub coa new : Option Flag) (cu : Bool) (i : Nat) (q : Path)
    (h : F.get? [i] = none) (F' : Forest)
    (hF' : F' = ⟨F.trees.map (Tree.coarsen sub coa new cu)⟩) :
    F'.get? (i :: q) = none := by
  subst hF'
  simp only [Forest.get?, List.getElem?_map] at *
  cases ht : F.trees[i]? with
  | none => simp
  | some t' => simp [ht] at h

/-- C06: the exact effect of `coarsen` for all parameters, on which nodes exist and how they are
marked, with `F1` the forest after rooting the subforest:
* a node disappears iff neither new label nor subforest is given and a proper ancestor is merged;
* the new label is put on exactly the reached nodes; without new label, the subforest flag is
  removed from exactly the children of merged nodes; with `clean_up`, the coarsening flag is
  removed from exactly the merged nodes; all other flags stay. -/
theorem C06_coarsen_exact (F : Forest) (sub coa new : Option Flag) (cu : Bool) :
    (∀ b, (F.coarsen sub coa new cu).HasNode b ↔ F.HasNode b ∧
      ¬ (new = none ∧ sub = none ∧
        ∃ a, a ≠ [] ∧ a <+: b ∧ a ≠ b ∧ (F.rootIf sub).Merged sub coa a)) ∧
    (∀ b g, (F.coarsen sub coa new cu).Marked b g ↔
      (F.coarsen sub coa new cu).HasNode b ∧
      ((F.rootIf sub).Marked b g ∨ ((F.rootIf sub).Reached sub coa b ∧ new = some g)) ∧
      ¬ (new = none ∧ sub = some g ∧
        ∃ a i, b = a ++ [i] ∧ (F.rootIf sub).Merged sub coa a) ∧
      ¬ (cu = true ∧ coa = some g ∧ (F.rootIf sub).Merged sub coa b)) := by
  have hn := (rootIf_same F sub).hasNode
  simp only [← hn]
  unfold Forest.coarsen
  simp only
  generalize F.rootIf sub = F1
  have hstop : ∀ i q t, F1.get? [i] = some t →
      (F1.Merged sub coa (i :: q) ↔ t.Stop sub coa q) := by
    intro i q t ht
    have hup : ∀ b, b ≠ [] → b <+: [i] → b ≠ [i] → F1.InSub sub b ∧ ¬ F1.Wants sub coa b := by
      intro b hb hbi hne
      exact absurd (hbi.eq_of_length (by
        have h1 := hbi.length_le
        have h2 : b.length ≠ 0 := by simpa using hb
        simp only [List.length_cons, List.length_nil] at h1 ⊢; omega)) hne
    have hr := reached_iff F1 sub coa [i] t q ht hup
    simp only [List.singleton_append] at hr
    unfold Forest.Merged Tree.Stop
    rw [hr]
    refine and_congr_right fun hr' => ?_
    have hnode := (hr.2 hr').1
    have := F1.hasNode_append [i] q t ht
    simp only [List.singleton_append] at this
    obtain ⟨s, hs⟩ := Option.isSome_iff_exists.1 (this.1 hnode)
    have hg : F1.get? (i :: q) = some s := by
      have := Forest.get?_append F1 [i] q (by simp)
      simp only [List.singleton_append] at this
      rw [this, ht]; exact hs
    rw [wants_iff F1 sub coa _ s hg, hs]
    simp
  have hreach : ∀ i q t, F1.get? [i] = some t →
      (F1.Reached sub coa (i :: q) ↔ t.Reach sub coa q) := by
    intro i q t ht
    have hup : ∀ b, b ≠ [] → b <+: [i] → b ≠ [i] → F1.InSub sub b ∧ ¬ F1.Wants sub coa b := by
      intro b hb hbi hne
      exact absurd (hbi.eq_of_length (by
        have h1 := hbi.length_le
        have h2 : b.length ≠ 0 := by simpa using hb
        simp only [List.length_cons, List.length_nil] at h1 ⊢; omega)) hne
    have hr := reached_iff F1 sub coa [i] t q ht hup
    simpa only [List.singleton_append] using hr
  constructor
  · intro b
    rcases b with _ | ⟨i, q⟩
    · simp [Forest.HasNode]
    cases ht : F1.get? [i] with
    | none =>
      have h1 : ¬ F1.HasNode (i :: q) := fun h => by
        have := h.prefix (a := [i]) ⟨q, rfl⟩ (by simp)
        simp [Forest.HasNode, ht] at this
      have h2 := get?_coarsen_none F1 sub coa new cu i q ht _ rfl
      unfold Forest.HasNode at h1 ⊢
      simp [h2, h1]
    | some t =>
      have h2 := get?_coarsen F1 sub coa new cu i q t ht _ rfl
      have h3 := Forest.hasNode_append _ [i] q _ h2
      have h4 := F1.hasNode_append [i] q t ht
      simp only [List.singleton_append] at h3 h4
      rw [h3, h4, coarsen_isSome]
      refine and_congr_right fun _ => not_congr (and_congr_right fun _ => and_congr_right fun _ => ?_)
      constructor
      · rintro ⟨p, hp, hne, hs⟩
        exact ⟨i :: p, by simp, by simpa using hp, by simpa using hne, (hstop i p t ht).2 hs⟩
      · rintro ⟨a, ha, hp, hne, hs⟩
        rcases a with _ | ⟨j, p⟩
        · exact absurd rfl ha
        rw [List.cons_prefix_cons] at hp
        obtain ⟨rfl, hp⟩ := hp
        exact ⟨p, hp, by simpa using hne, (hstop j p t ht).1 hs⟩
  · intro b g
    rcases b with _ | ⟨i, q⟩
    · simp [Forest.HasNode, Forest.Marked]
    cases ht : F1.get? [i] with
    | none =>
      have h2 := get?_coarsen_none F1 sub coa new cu i q ht _ rfl
      unfold Forest.HasNode Forest.Marked
      simp [h2]
    | some t =>
      have h2 := get?_coarsen F1 sub coa new cu i q t ht _ rfl
      have h3 := Forest.hasNode_append _ [i] q _ h2
      have h5 := Forest.markedAt_append _ [i] q _ g h2
      have h6 := F1.markedAt_append [i] q t g ht
      simp only [List.singleton_append] at h3 h5 h6
      rw [h3, h5, h6, coarsen_marked, hreach i q t ht, hstop i q t ht]
      have h7 : (∃ p j, q = p ++ [j] ∧ t.Stop sub coa p) ↔
          ∃ a j, i :: q = a ++ [j] ∧ F1.Merged sub coa a := by
        constructor
        · rintro ⟨p, j, rfl, hs⟩
          exact ⟨i :: p, j, rfl, (hstop i p t ht).2 hs⟩
        · rintro ⟨a, j, he, hs⟩
          rcases a with _ | ⟨k, p⟩
          · exact absurd rfl (Forest.hasNode_ne_nil hs.1.1)
          simp only [List.cons_append, List.cons.injEq] at he
          obtain ⟨rfl, rfl⟩ := he
          exact ⟨p, j, rfl, (hstop i p t ht).1 hs⟩
      rw [h7]

/-- Among the proper prefixes with a property there is a shortest one. -/
theorem exists_topmost (P : Path → Prop) (b : Path) (h : ∃ a, a ≠ [] ∧ a <+: b ∧ a ≠ b ∧ P a) :
    ∃ a, a ≠ [] ∧ a <+: b ∧ a ≠ b ∧ P a ∧ ∀ a', a' ≠ [] → a' <+: a → a' ≠ a → ¬ P a' := by
  obtain ⟨a, ha⟩ := h
  induction hn : a.length using Nat.strong_induction_on generalizing a with
  | _ n ih =>
    by_cases hex : ∃ a', a' ≠ [] ∧ a' <+: a ∧ a' ≠ a ∧ P a'
    · obtain ⟨a', h1, h2, h3, h4⟩ := hex
      have hlt : a'.length < n := by
        have := h2.length_le
        rcases Nat.lt_or_ge a'.length a.length with h | h
        · omega
        · exact absurd (h2.eq_of_length (by omega)) h3
      refine ih a'.length hlt a' ⟨h1, h2.trans ha.2.1, ?_, h4⟩ rfl
      rintro rfl
      have h5 := ha.2.1.length_le
      omega
    · exact ⟨a, ha.1, ha.2.1, ha.2.2.1, ha.2.2.2, fun a' h1 h2 h3 h4 => hex ⟨a', h1, h2, h3, h4⟩⟩

/-- C06: `coarsen(coarsening_flag=c)` deletes exactly the proper descendants of the nodes marked
`c`; surviving nodes keep their flags, except `c` itself if `clean_up`. -/
theorem C06_coarsen_delete (F : Forest) (c : Flag) (cu : Bool) :
    (∀ b, (F.coarsen none (some c) none cu).HasNode b ↔
      F.HasNode b ∧ ∀ a, a <+: b → a ≠ b → ¬ F.Marked a c) ∧
    (∀ b g, (F.coarsen none (some c) none cu).Marked b g ↔
      (F.coarsen none (some c) none cu).HasNode b ∧ F.Marked b g ∧ ¬ (cu = true ∧ g = c)) := by
  obtain ⟨h1, h2⟩ := C06_coarsen_exact F none (some c) none cu
  have hnodes : ∀ b, (F.coarsen none (some c) none cu).HasNode b ↔
      F.HasNode b ∧ ∀ a, a <+: b → a ≠ b → ¬ F.Marked a c := by
    intro b
    rw [h1]
    refine and_congr_right fun hb => ?_
    constructor
    · intro hno a hab hne hm
      obtain ⟨a', h3, h4, h5, h6, h7⟩ := exists_topmost (fun a => F.Marked a c) b
        ⟨a, Forest.hasNode_ne_nil hm.hasNode, hab, hne, hm⟩
      refine hno ⟨rfl, rfl, a', h3, h4, h5, ⟨h6.hasNode, fun a'' h8 h9 => ?_⟩, h6⟩
      exact ⟨h6.hasNode.prefix h9 h8, fun h10 => h7 a'' h8 h9 h10⟩
    · rintro hall ⟨-, -, a, -, hab, hne, hm⟩
      exact hall a hab hne hm.2
  refine ⟨hnodes, fun b g => ?_⟩
  rw [h2]
  refine and_congr_right fun hb => ?_
  have hb' := (hnodes b).1 hb
  constructor
  · rintro ⟨h | ⟨-, h⟩, -, h3⟩
    · refine ⟨h, ?_⟩
      rintro ⟨h4, rfl⟩
      refine h3 ⟨h4, rfl, ⟨h.hasNode, fun a h5 h6 => ⟨h.hasNode.prefix h6 h5, fun h7 =>
        hb'.2 a h6 h7⟩⟩, h⟩
    · cases h
  · rintro ⟨h, h3⟩
    refine ⟨Or.inl h, fun h4 => ?_, fun h4 => h3 ⟨h4.1, ?_⟩⟩
    · cases h4.2.1
    · have := h4.2.1; cases this; rfl

/-- C06: without any flag, `coarsen()` deletes exactly the children of those nodes all of whose
children are of type LEAF, in a forest where nodes of type LEAF have no children. -/
theorem C06_coarsen_all (F : Forest) (cu : Bool)
    (hleaf : ∀ a t, F.get? a = some t → t.info.kind = .leaf → ∀ i, ¬ F.HasNode (a ++ [i])) :
    (∀ b, (F.coarsen none none none cu).HasNode b ↔ F.HasNode b ∧
      ¬ ∃ a i, a ≠ [] ∧ b = a ++ [i] ∧ ∀ j t, F.get? (a ++ [j]) = some t → t.info.kind = .leaf) ∧
    (∀ b g, (F.coarsen none none none cu).Marked b g ↔
      (F.coarsen none none none cu).HasNode b ∧ F.Marked b g) := by
  obtain ⟨h1, h2⟩ := C06_coarsen_exact F none none none cu
  refine ⟨fun b => ?_, fun b g => ?_⟩
  · rw [h1]
    refine and_congr_right fun hb => not_congr ?_
    constructor
    · rintro ⟨-, -, a, ha, ⟨q, rfl⟩, hne, ⟨-, hw⟩⟩
      rcases q with _ | ⟨i, q⟩
      · simp at hne
      rcases q with _ | ⟨j, q⟩
      · exact ⟨a, i, ha, rfl, hw.2⟩
      · exfalso
        have hi : F.HasNode (a ++ [i]) := hb.prefix ⟨j :: q, by simp⟩ (by simp)
        obtain ⟨t, ht⟩ := Option.isSome_iff_exists.1 hi
        refine hleaf _ t ht (hw.2 i t ht) j (hb.prefix ⟨q, by simp⟩ (by simp))
    · rintro ⟨a, i, ha, rfl, hall⟩
      refine ⟨rfl, rfl, a, ha, List.prefix_append _ _, by simp, ⟨hb.prefix (List.prefix_append _ _) ha,
        fun a' ha' hp => ⟨hb.prefix (hp.trans (List.prefix_append _ _)) ha', fun hne hw => ?_⟩⟩,
        ⟨i, hb⟩, hall⟩
      -- a proper ancestor `a'` of `a` has a child above or equal to `a`, which has children
      obtain ⟨q, rfl⟩ := hp
      rcases q with _ | ⟨k, q⟩
      · simp at hne
      have hk : F.HasNode (a' ++ [k]) := hb.prefix ⟨q ++ [i], by simp⟩ (by simp)
      obtain ⟨t, ht⟩ := Option.isSome_iff_exists.1 hk
      have hl := hleaf _ t ht (hw.2 k t ht)
      rcases q with _ | ⟨m, q⟩
      · exact hl i (by simpa using hb)
      · exact hl m (hb.prefix ⟨q ++ [i], by simp⟩ (by simp))
  · rw [h2]
    simp
    exact fun _ => Iff.rfl

/-- C06: with a fresh new label, `coarsen` deletes nothing, and the new label is a rooted
subforest: the nodes of the old one with no proper ancestor marked `c`. -/
theorem C06_coarsen_new_label (F : Forest) (sub : Option Flag) (c l : Flag) (cu : Bool)
    (hl : ∀ a, ¬ F.Marked a l) (hsl : sub ≠ some l) (hcl : cu = true → c ≠ l) :
    (∀ b, (F.coarsen sub (some c) (some l) cu).HasNode b ↔ F.HasNode b) ∧
    (F.coarsen sub (some c) (some l) cu).Rooted l ∧
    (∀ b, (F.coarsen sub (some c) (some l) cu).Marked b l ↔
      (F.rootIf sub).InSub sub b ∧ ∀ a, a <+: b → a ≠ b → ¬ (F.rootIf sub).Marked a c) := by
  obtain ⟨h1, h2⟩ := C06_coarsen_exact F sub (some c) (some l) cu
  have hroot := rootIf_rooted F sub
  have hsame := rootIf_same F sub
  have hacl := rooted_ancestorClosed _ sub hroot
  have hn : ∀ b, (F.coarsen sub (some c) (some l) cu).HasNode b ↔ F.HasNode b := by
    intro b; rw [h1]; simp
  have hl1 : ∀ a, ¬ (F.rootIf sub).Marked a l := by
    intro a ha
    cases sub with
    | none => exact hl a ha
    | some s =>
      rcases ((C03_root_subtrees_exact F s).2 a l).1 ha with h | ⟨h, -⟩
      · exact hl a h
      · exact hsl (by rw [h])
  have hnode : ∀ a, (F.rootIf sub).InSub sub a → (F.rootIf sub).HasNode a := by
    intro a h
    cases sub with
    | none => exact h
    | some s => exact Forest.Marked.hasNode h
  have hm : ∀ b, (F.coarsen sub (some c) (some l) cu).Marked b l ↔
      (F.rootIf sub).InSub sub b ∧ ∀ a, a <+: b → a ≠ b → ¬ (F.rootIf sub).Marked a c := by
    intro b
    rw [h2, hn, ← hsame.hasNode]
    constructor
    · rintro ⟨hb, h | ⟨h, -⟩, -, -⟩
      · exact absurd h (hl1 b)
      · refine ⟨(h.2 b (Forest.hasNode_ne_nil hb) (List.prefix_refl _)).1, fun a ha hne hma => ?_⟩
        exact (h.2 a (Forest.hasNode_ne_nil hma.hasNode) ha).2 hne hma
    · rintro ⟨hb, hall⟩
      refine ⟨hnode b hb, Or.inr ⟨⟨hnode b hb, fun a ha hp => ⟨ancestorClosed_prefix hacl ha hp hb,
        fun hne => hall a hp hne⟩⟩, rfl⟩, by simp, ?_⟩
      rintro ⟨h3, h4, -⟩
      cases h4
      exact hcl h3 rfl
  refine ⟨hn, ⟨fun i hi => ?_, fun a i ha h => ?_⟩, hm⟩
  · rw [hm]
    have hi' : (F.rootIf sub).HasNode [i] := by rw [hsame.hasNode, ← hn]; exact hi
    constructor
    · cases sub with
      | none => exact hi'
      | some s => exact (hroot s rfl).1 i hi'
    · intro a hp hne hma
      have h0 := Forest.hasNode_ne_nil hma.hasNode
      refine hne (hp.eq_of_length ?_)
      have h3 := hp.length_le
      have h4 : a.length ≠ 0 := by simpa using h0
      simp only [List.length_cons, List.length_nil] at h3 ⊢; omega
  · rw [hm] at h
    obtain ⟨h3, h4⟩ := h
    refine ⟨(hm a).2 ⟨hacl a i ha h3, fun b hp hne => ?_⟩, fun j hj => (hm _).2 ⟨?_, fun b hp hne => ?_⟩⟩
    · refine h4 b (hp.trans (List.prefix_append _ _)) ?_
      rintro rfl
      have := hp.length_le; simp at this; omega
    · have hj' : (F.rootIf sub).HasNode (a ++ [j]) := by rw [hsame.hasNode, ← hn]; exact hj
      cases sub with
      | none => exact hj'
      | some s => exact ((hroot s rfl).2 a i ha h3).2 j hj'
    · rcases List.prefix_concat_iff.1 hp with h' | h'
      · exact absurd h' hne
      · refine h4 b (h'.trans (List.prefix_append _ _)) ?_
        rintro rfl
        have := h'.length_le; simp at this; omega

/-- C06 (part): coarsening a subforest in place, `coarsen(subforest_flag=s, coarsening_flag=c)`.
If every merged node has only leaves of the subforest as children, `s` is afterwards rooted and
the merged nodes are leaves of it.  Missing: the hypothesis; without it the claim is false of the
code, see `C06_coarsen_subforest_violated`. -/
theorem C06_coarsen_subforest_partial (F : Forest) (s c : Flag) (cu : Bool)
    (hsc : cu = true → s ≠ c)
    (hleaf : ∀ a i j, (F.rootSubtrees s).Merged (some s) (some c) a →
      ¬ (F.rootSubtrees s).Marked (a ++ [i] ++ [j]) s) :
    (∀ b, (F.coarsen (some s) (some c) none cu).HasNode b ↔ F.HasNode b) ∧
    (F.coarsen (some s) (some c) none cu).Rooted s ∧
    (∀ a, (F.rootSubtrees s).Merged (some s) (some c) a →
      (F.coarsen (some s) (some c) none cu).IsLeaf (some s) a) := by
  obtain ⟨h1, h2⟩ := C06_coarsen_exact F (some s) (some c) none cu
  have hroot := C03_root_subtrees_rooted F s
  have hsame := (C03_root_subtrees_exact F s).1
  have hacl := rooted_ancestorClosed _ (some s) (fun f hf => by cases hf; exact hroot)
  have hn : ∀ b, (F.coarsen (some s) (some c) none cu).HasNode b ↔ F.HasNode b := by
    intro b; rw [h1]; simp
  have hm : ∀ b, (F.coarsen (some s) (some c) none cu).Marked b s ↔
      (F.rootSubtrees s).Marked b s ∧
        ¬ ∃ a i, b = a ++ [i] ∧ (F.rootSubtrees s).Merged (some s) (some c) a := by
    intro b
    rw [h2, hn]
    constructor
    · rintro ⟨-, h | ⟨-, h⟩, h3, -⟩
      · exact ⟨h, fun h' => h3 ⟨rfl, rfl, h'⟩⟩
      · cases h
    · rintro ⟨h, h3⟩
      refine ⟨(hsame.hasNode b).1 h.hasNode, Or.inl h, fun h' => h3 h'.2.2, ?_⟩
      rintro ⟨h4, h5, -⟩
      cases h5; exact hsc h4 rfl
  refine ⟨hn, ⟨fun i hi => (hm _).2 ⟨?_, ?_⟩, fun a i ha h => ?_⟩, fun a ha => ⟨(hm _).2 ⟨?_, ?_⟩, ?_⟩⟩
  · exact hroot.1 i (by rw [hsame.hasNode, ← hn]; exact hi)
  · rintro ⟨a, j, he, hma⟩
    rcases a with _ | ⟨k, a⟩
    · exact absurd rfl (Forest.hasNode_ne_nil hma.1.1)
    · simp at he
  · obtain ⟨h3, h4⟩ := (hm _).1 h
    refine ⟨(hm a).2 ⟨(hroot.2 a i ha h3).1, ?_⟩, fun j hj => (hm _).2 ⟨?_, ?_⟩⟩
    · rintro ⟨b, j, rfl, hmb⟩
      exact hleaf b j i hmb h3
    · exact (hroot.2 a i ha h3).2 j (by rw [hsame.hasNode, ← hn]; exact hj)
    · rintro ⟨b, k, he, hmb⟩
      have : a = b := by simpa using congrArg List.dropLast he
      subst this
      exact h4 ⟨a, i, rfl, hmb⟩
  · exact (ha.1.2 a (Forest.hasNode_ne_nil ha.1.1) (List.prefix_refl _)).1
  · rintro ⟨b, i, rfl, hmb⟩
    have hb0 := Forest.hasNode_ne_nil hmb.1.1
    exact (ha.1.2 b hb0 (List.prefix_append _ _)).2 (by simp) hmb.2
  · intro i hi
    exact ((hm _).1 hi).2 ⟨a, i, rfl, ha⟩

/-- A forest for the counterexample: one tree of depth 2, all marked 3, the root marked 4. -/
def exDeep : Forest := ⟨[
  .node ⟨.root, true, [0], 0, {3, 4}⟩
    [some (.node ⟨.branch, true, [0, 0], 1, {3}⟩ [some (exLeaf [0, 0, 0] {3}), some (exLeaf [0, 0, 1] {3})]),
     some (exLeaf [0, 1] {3})]]⟩

theorem exDeep_cases {a : Path} (ht : exDeep.HasNode a) :
    a ∈ [[0], [0, 0], [0, 1], [0, 0, 0], [0, 0, 1]] := by
  obtain ⟨t, ht⟩ := Option.isSome_iff_exists.1 ht
  rcases a with _ | ⟨x, a⟩
  · simp at ht
  rcases x with _ | x
  · rcases a with _ | ⟨y, a⟩
    · decide
    rcases y with _ | _ | y
    · rcases a with _ | ⟨z, a⟩
      · decide
      rcases z with _ | _ | z
      · rcases a with _ | ⟨w, a⟩
        · decide
        · rcases w with _ | _ | w <;>
            simp [Forest.get?, exDeep, Tree.get?, Tree.kids, exLeaf] at ht
      · rcases a with _ | ⟨w, a⟩
        · decide
        · rcases w with _ | _ | w <;>
            simp [Forest.get?, exDeep, Tree.get?, Tree.kids, exLeaf] at ht
      · simp [Forest.get?, exDeep, Tree.get?, Tree.kids] at ht
    · rcases a with _ | ⟨z, a⟩
      · decide
      · rcases z with _ | _ | z <;>
          simp [Forest.get?, exDeep, Tree.get?, Tree.kids, exLeaf] at ht
    · simp [Forest.get?, exDeep, Tree.get?, Tree.kids] at ht
  · simp [Forest.get?, exDeep] at ht

theorem exDeep_all3 {a : Path} (ha : exDeep.HasNode a) : exDeep.Marked a 3 := by
  have := exDeep_cases ha
  simp only [List.mem_cons, List.not_mem_nil, or_false] at this
  rcases this with rfl | rfl | rfl | rfl | rfl <;> exact ⟨_, rfl, by decide⟩

theorem exDeep_rooted : exDeep.Rooted 3 :=
  ⟨fun _ hi => exDeep_all3 hi, fun _ _ ha h =>
    ⟨exDeep_all3 (h.hasNode.prefix (List.prefix_append _ _) ha), fun _ hj => exDeep_all3 hj⟩⟩

/-- C06, negation: `coarsen(subforest_flag=s, coarsening_flag=c)` can leave `s` not rooted:
below a merged node the grandchildren keep the flag while the children lose it
(mesh.py 1068-1073). -/
theorem C06_coarsen_subforest_violated :
    exDeep.Rooted 3 ∧ ¬ (exDeep.coarsen (some 3) (some 4) none true).Rooted 3 := by
  refine ⟨exDeep_rooted, fun hr => ?_⟩
  have e : exDeep.rootIf (some 3) = exDeep := C03_root_subtrees_of_rooted exDeep 3 exDeep_rooted
  obtain ⟨h1, h2⟩ := C06_coarsen_exact exDeep (some 3) (some 4) none true
  rw [e] at h2
  have hmerged : exDeep.Merged (some 3) (some 4) [0] := by
    refine ⟨⟨rfl, fun a ha hp => ⟨exDeep_all3 ((show exDeep.HasNode [0] from rfl).prefix hp ha),
      fun hne => ?_⟩⟩, ⟨_, rfl, by decide⟩⟩
    have h3 := hp.length_le
    have h4 : a.length ≠ 0 := by simpa using ha
    exact absurd (hp.eq_of_length (by simp only [List.length_cons, List.length_nil] at h3 ⊢; omega)) hne
  -- the grandchild keeps flag 3
  have hg : (exDeep.coarsen (some 3) (some 4) none true).Marked [0, 0, 0] 3 := by
    rw [h2]
    refine ⟨(h1 _).2 ⟨rfl, by simp⟩, Or.inl (exDeep_all3 rfl), ?_, ?_⟩
    · rintro ⟨-, -, a, i, he, hm⟩
      have : a = [0, 0] := by simpa using (congrArg List.dropLast he).symm
      subst this
      obtain ⟨t, ht, hf⟩ := hm.2
      cases ht; exact absurd hf (by decide)
    · rintro ⟨-, h, -⟩; cases h
  -- the child does not
  have hc : ¬ (exDeep.coarsen (some 3) (some 4) none true).Marked [0, 0] 3 := by
    rw [h2]
    rintro ⟨-, -, h, -⟩
    exact h ⟨rfl, rfl, [0], 0, rfl, hmerged⟩
  exact hc (hr.2 [0, 0] 0 (by simp) hg).1

/-! ### Non-vacuity -/

/-- A split root marked 4, everything marked 3. -/
def exFlat : Forest := ⟨[
  .node ⟨.root, true, [0], 0, {3, 4}⟩ [some (exLeaf [0, 0] {3}), some (exLeaf [0, 1] {3})]]⟩

theorem exFlat_cases {a : Path} (ht : exFlat.HasNode a) : a ∈ [[0], [0, 0], [0, 1]] := by
  obtain ⟨t, ht⟩ := Option.isSome_iff_exists.1 ht
  rcases a with _ | ⟨x, a⟩
  · simp at ht
  rcases x with _ | x
  · rcases a with _ | ⟨y, a⟩
    · decide
    rcases y with _ | _ | y
    · rcases a with _ | ⟨z, a⟩
      · decide
      · rcases z with _ | _ | z <;>
          simp [Forest.get?, exFlat, Tree.get?, Tree.kids, exLeaf] at ht
    · rcases a with _ | ⟨z, a⟩
      · decide
      · rcases z with _ | _ | z <;>
          simp [Forest.get?, exFlat, Tree.get?, Tree.kids, exLeaf] at ht
    · simp [Forest.get?, exFlat, Tree.get?, Tree.kids] at ht
  · simp [Forest.get?, exFlat] at ht

theorem exFlat_all3 {a : Path} (ha : exFlat.HasNode a) : exFlat.Marked a 3 := by
  have := exFlat_cases ha
  simp only [List.mem_cons, List.not_mem_nil, or_false] at this
  rcases this with rfl | rfl | rfl <;> exact ⟨_, rfl, by decide⟩

theorem exFlat_rooted : exFlat.Rooted 3 :=
  ⟨fun _ hi => exFlat_all3 hi, fun _ _ ha h =>
    ⟨exFlat_all3 (h.hasNode.prefix (List.prefix_append _ _) ha), fun _ hj => exFlat_all3 hj⟩⟩

/-- The hypotheses of `C06_coarsen_subforest_partial` hold for `exFlat`, where the root is
merged. -/
example : (∀ a i j, (exFlat.rootSubtrees 3).Merged (some 3) (some 4) a →
      ¬ (exFlat.rootSubtrees 3).Marked (a ++ [i] ++ [j]) 3) ∧
    (exFlat.rootSubtrees 3).Merged (some 3) (some 4) [0] := by
  rw [C03_root_subtrees_of_rooted exFlat 3 exFlat_rooted]
  constructor
  · intro a i j hm h
    have h1 := exFlat_cases h.hasNode
    have h0 : a.length ≠ 0 := by simpa using Forest.hasNode_ne_nil hm.1.1
    have h2 : ∀ b ∈ [[0], [0, 0], [0, 1]], b.length < 3 := by decide
    have := h2 _ h1
    simp at this
    omega
  · refine ⟨⟨rfl, fun a ha hp => ⟨exFlat_all3 ((show exFlat.HasNode [0] from rfl).prefix hp ha),
      fun hne => ?_⟩⟩, ⟨_, rfl, by decide⟩⟩
    have h3 := hp.length_le
    have h4 : a.length ≠ 0 := by simpa using ha
    exact absurd (hp.eq_of_length (by simp only [List.length_cons, List.length_nil] at h3 ⊢; omega)) hne

/-- The hypotheses of `C06_coarsen_new_label` hold for `exForest` with subforest 5, coarsening
flag 7 and new label 9. -/
example : (∀ a, ¬ exForest.Marked a 9) ∧ (some 5 : Option Flag) ≠ some 9 ∧ (7 : Flag) ≠ 9 :=
  ⟨exForest_fresh9, by decide, by decide⟩

end Verif.Trees
