import Verif.Forest.Queries

/-! Helper lemmas: `refine` as a local change below each leaf. -/

namespace Verif.Trees

/-! ### composing modifications -/

theorem List.modify_modify_same {α : Type} (l : List α) (i : Nat) (f g : α → α) :
    (l.modify i f).modify i g = l.modify i (g ∘ f) := by
  apply List.ext_getElem?
  intro j
  simp only [List.getElem?_modify]
  split <;> cases l[j]? <;> simp

theorem Tree.modify_modify (f g : Tree → Tree) (p : Path) (t : Tree) :
    (t.modify f p).modify g p = t.modify (g ∘ f) p := by
  induction p generalizing t with
  | nil => simp [Tree.modify]
  | cons i p ih =>
    simp only [Tree.modify, Tree.info_node, Tree.kids_node, List.modify_modify_same]
    congr 2
    funext o
    cases o <;> simp [ih]

theorem Forest.modify_modify (F : Forest) (f g : Tree → Tree) (a : Path) :
    (F.modify f a).modify g a = F.modify (g ∘ f) a := by
  cases a with
  | nil => rfl
  | cons i p =>
    simp only [Forest.modify, List.modify_modify_same]
    congr 2
    funext t
    exact Tree.modify_modify f g p t

theorem Forest.get?_modify_self (F : Forest) (f : Tree → Tree) (a : Path) (ha : a ≠ []) :
    (F.modify f a).get? a = (F.get? a).map f := by
  have := F.get?_modify_append f a [] ha
  rw [List.append_nil] at this
  rw [this]; cases F.get? a <;> simp

theorem Forest.get?_modify_incomparable (F : Forest) (f : Tree → Tree) (a b : Path)
    (h1 : ¬ a <+: b) (h2 : ¬ b <+: a) : (F.modify f a).get? b = F.get? b := by
  by_cases hb : b = []
  · subst hb; simp at h2
  have hv : ∀ q, ((F.modify f a).get? b).bind (fun s => s.view? q) =
      (F.get? b).bind (fun s => s.view? q) := by
    intro q
    have hnp : ¬ a <+: b ++ q := by
      intro h
      rcases List.prefix_or_prefix_of_prefix h (List.prefix_append b q) with h | h
      · exact h1 h
      · exact h2 h
    have := F.view?_modify_of_not_prefix f a (b ++ q) hnp
    unfold Forest.view? at this
    rw [Forest.get?_append _ _ _ hb, Forest.get?_append _ _ _ hb] at this
    unfold Tree.view?
    cases h3 : (F.modify f a).get? b <;> cases h4 : F.get? b <;> simpa [h3, h4] using this
  cases h3 : (F.modify f a).get? b with
  | none => cases h4 : F.get? b with
    | none => rfl
    | some s => have := hv []; simp [h3, h4, Tree.view?] at this
  | some s' => cases h4 : F.get? b with
    | none => have := hv []; simp [h3, h4, Tree.view?] at this
    | some s =>
      congr 1
      apply Tree.ext_view
      intro q
      simpa [h3, h4] using hv q

theorem Forest.modify_congr (F : Forest) (f g : Tree → Tree) (a : Path)
    (h : ∀ t, F.get? a = some t → f t = g t) : F.modify f a = F.modify g a := by
  by_cases ha : a = []
  · subst ha; rfl
  apply Forest.ext_view
  intro b
  by_cases hab : a <+: b
  · obtain ⟨q, rfl⟩ := hab
    rw [Forest.view?_modify_append _ _ _ _ ha, Forest.view?_modify_append _ _ _ _ ha]
    cases hg : F.get? a with
    | none => rfl
    | some t => simp [h t hg]
  · rw [Forest.view?_modify_of_not_prefix _ _ _ _ hab, Forest.view?_modify_of_not_prefix _ _ _ _ hab]

/-! ### the local effect of refining one leaf -/

/-- Label the direct children. -/
def Tree.labelKids (t : Tree) (l : Flag) : Tree :=
  .node t.info (t.kids.map (Option.map (Tree.mapFlags (addFlag (some l)))))

/-- Effect of one pass of the refinement loop, seen from the leaf. -/
def Tree.refineLocal (sub ref new : Option Flag) (cleanUp : Bool) (t : Tree) : Tree :=
  let t := t.labelled new
  if ref.isSome && !t.isMarked ref then t
  else
    let t := if t.hasChildren none then t else t.splitRegular
    let t := match childLabel sub new with
      | some l => t.labelKids l
      | none => t
    if ref.isSome && cleanUp then t.mapFlags (removeFlag ref) else t

theorem view?_labelKids (t : Tree) (l : Flag) (q : Path) :
    (t.labelKids l).view? q =
      if q.length = 1 then (t.view? q).map (View.mapFlags (insert l)) else t.view? q := by
  rcases q with _ | ⟨i, _ | ⟨j, q⟩⟩
  · simp [Tree.view?, Tree.view, Tree.labelKids]
  · simp only [Tree.view?, Tree.get?_singleton, Tree.labelKids, Tree.kids_node,
      List.getElem?_map, List.length_singleton, if_true]
    cases t.kids[i]? with
    | none => simp
    | some o => cases o <;> simp [Tree.view, Tree.mapFlags, View.mapFlags, addFlag]
  · simp only [Tree.view?, Tree.get?_cons, Tree.labelKids, Tree.kids_node, List.getElem?_map,
      List.length_cons]
    cases t.kids[i]? with
    | none => simp
    | some o => cases o <;> simp [Tree.mapFlags]

theorem foldl_mark_children (F : Forest) (a : Path) (l : Flag) (ha : a ≠ []) :
    (F.childPaths a).foldl (fun F c => F.mark c (some l)) F =
      F.modify (fun t => t.labelKids l) a := by
  apply Forest.ext_view
  intro b
  have hM := foldl_mark_markedOn F l (F.childPaths a)
  by_cases hab : a <+: b
  · obtain ⟨q, rfl⟩ := hab
    rw [Forest.view?_modify_append _ _ _ _ ha]
    have hv : F.view? (a ++ q) = (F.get? a).bind (fun s => s.view? q) := by
      unfold Forest.view? Tree.view?
      rw [Forest.get?_append _ _ _ ha]
      cases F.get? a <;> simp
    cases hg : F.get? a with
    | none =>
      simp only [hg, Option.bind_none] at hv ⊢
      exact hM.view_none hv
    | some s =>
      simp only [hg, Option.bind_some] at hv ⊢
      rw [view?_labelKids]
      by_cases hq : q.length = 1
      · rw [if_pos hq]
        obtain ⟨i, rfl⟩ : ∃ i, q = [i] := List.length_eq_one_iff.1 hq
        by_cases hn : F.HasNode (a ++ [i])
        · rw [hM.view_mem (b := a ++ [i]) (by
            show a ++ [i] ∈ F.childPaths a
            exact (F.mem_childPaths _ _ ha).2 ⟨i, rfl, hn⟩), hv]
        · rw [Forest.hasNode_iff_view] at hn
          have hn' : F.view? (a ++ [i]) = none := by simpa using hn
          rw [hM.view_none hn', ← hv, hn']; rfl
      · rw [if_neg hq, hM.view_not_mem, hv]
        intro hmem
        obtain ⟨i, hi, -⟩ := (F.mem_childPaths _ _ ha).1 hmem
        have := List.append_cancel_left hi
        simp [this] at hq
  · rw [Forest.view?_modify_of_not_prefix _ _ _ _ hab, hM.view_not_mem]
    intro hmem
    obtain ⟨i, rfl, -⟩ := (F.mem_childPaths _ _ ha).1 hmem
    exact hab (List.prefix_append _ _)

theorem labelled_info_regular (t : Tree) (new : Option Flag) :
    (t.labelled new).info.regular = t.info.regular := by
  cases new <;> simp [Tree.labelled, Tree.mapFlags]

theorem isMarked_eq {F : Forest} {a : Path} {t : Tree} (h : F.get? a = some t)
    (flag : Option Flag) : F.isMarked a flag = t.isMarked flag := by
  simp [Forest.isMarked, h]

theorem refineLeaf_local (F : Forest) (sub ref new : Option Flag) (cleanUp : Bool) (a : Path)
    (t : Tree) (ha : a ≠ []) (hg : F.get? a = some t) (hr : t.info.regular = true) :
    F.refineLeaf sub ref new cleanUp a =
      .ok (F.modify (Tree.refineLocal sub ref new cleanUp) a) := by
  have h1 : F.markIf a new = F.modify (fun t => t.labelled new) a := by
    cases new with
    | none =>
      change F = _
      apply Forest.ext_view
      intro b
      by_cases hab : a <+: b
      · obtain ⟨q, rfl⟩ := hab
        rw [Forest.view?_modify_append _ _ _ _ ha]
        unfold Forest.view? Tree.view?
        rw [Forest.get?_append _ _ _ ha]
        cases F.get? a <;> simp [Tree.labelled]
      · rw [Forest.view?_modify_of_not_prefix _ _ _ _ hab]
    | some l => rfl
  have hg1 : (F.modify (fun t => t.labelled new) a).get? a = some (t.labelled new) := by
    rw [Forest.get?_modify_self _ _ _ ha, hg]; rfl
  unfold Forest.refineLeaf
  simp only
  rw [h1, isMarked_eq hg1]
  by_cases hc : (ref.isSome && !(t.labelled new).isMarked ref) = true
  · rw [if_pos hc]
    congr 1
    apply Forest.modify_congr
    intro t' ht'
    rw [hg] at ht'; cases ht'
    simp [Tree.refineLocal, hc]
  · rw [if_neg hc]
    have h2 : (F.modify (fun t => t.labelled new) a).splitIfLeaf a =
        Except.ok (F.modify (fun t => if (t.labelled new).hasChildren none then t.labelled new
          else (t.labelled new).splitRegular) a) := by
      unfold Forest.splitIfLeaf
      rw [hg1]
      simp only
      split
      · rename_i hh
        congr 1
        apply Forest.modify_congr
        intro t' ht'
        rw [hg] at ht'; cases ht'
        simp [hh]
      · rename_i hh
        unfold Forest.split
        rw [hg1]
        have : (t.labelled new).split none = .ok (t.labelled new).splitRegular := by
          unfold Tree.split
          rw [labelled_info_regular, hr]; rfl
        simp only [this]
        rw [Forest.modify_modify]
        congr 1
        apply Forest.modify_congr
        intro t' ht'
        rw [hg] at ht'; cases ht'
        simp [hh]
    simp only [h2]
    congr 1
    have h3 : ∀ G : Forest, G.markChildrenIf a (childLabel sub new) = G.modify (fun t => match childLabel sub new with
          | some l => t.labelKids l
          | none => t) a := by
      intro G
      unfold Forest.markChildrenIf
      cases childLabel sub new with
      | some l => exact foldl_mark_children G a l ha
      | none =>
        apply Forest.ext_view
        intro b
        by_cases hab : a <+: b
        · obtain ⟨q, rfl⟩ := hab
          rw [Forest.view?_modify_append _ _ _ _ ha]
          unfold Forest.view? Tree.view?
          rw [Forest.get?_append _ _ _ ha]
          cases G.get? a <;> simp
        · rw [Forest.view?_modify_of_not_prefix _ _ _ _ hab]
    rw [h3, Forest.modify_modify]
    by_cases hcl : (ref.isSome && cleanUp) = true
    · rw [if_pos hcl]
      unfold Forest.unmark
      rw [Forest.modify_modify]
      apply Forest.modify_congr
      intro t' ht'
      rw [hg] at ht'; cases ht'
      simp only [Function.comp, Tree.refineLocal]
      rw [if_neg hc, if_pos hcl]
    · rw [if_neg hcl]
      apply Forest.modify_congr
      intro t' ht'
      rw [hg] at ht'; cases ht'
      simp only [Function.comp, Tree.refineLocal]
      rw [if_neg hc, if_neg hcl]

/-! ### the loop over an antichain of leaves -/

/-- No path in the list is a prefix of another one. -/
def Antichain (l : List Path) : Prop := l.Pairwise (fun a b => ¬ a <+: b ∧ ¬ b <+: a)

theorem refineLoop_ok (sub ref new : Option Flag) (cleanUp : Bool) (l : List Path) (F : Forest)
    (hl : Antichain l) (hr : ∀ a ∈ l, a ≠ [] ∧ ∃ t, F.get? a = some t ∧ t.info.regular = true) :
    ∃ F', Forest.refineLoop sub ref new cleanUp l F = .ok F' ∧
      (∀ a ∈ l, F'.get? a = (F.get? a).map (Tree.refineLocal sub ref new cleanUp)) ∧
      (∀ b, (∀ a ∈ l, ¬ a <+: b) → F'.view? b = F.view? b) := by
  induction l generalizing F with
  | nil => exact ⟨F, rfl, by simp, fun b _ => rfl⟩
  | cons a l ih =>
    obtain ⟨ha, t, hg, hreg⟩ := hr a (by simp)
    unfold Antichain at hl
    rw [List.pairwise_cons] at hl
    rw [Forest.refineLoop, refineLeaf_local F sub ref new cleanUp a t ha hg hreg]
    simp only
    have hkeep : ∀ b ∈ l, (F.modify (Tree.refineLocal sub ref new cleanUp) a).get? b = F.get? b :=
      fun b hb => F.get?_modify_incomparable _ _ _ (hl.1 b hb).1 (hl.1 b hb).2
    obtain ⟨F', h1, h2, h3⟩ := ih (F.modify (Tree.refineLocal sub ref new cleanUp) a) hl.2
      (by
        intro b hb
        obtain ⟨hb0, s, hs, hsr⟩ := hr b (by simp [hb])
        exact ⟨hb0, s, by rw [hkeep b hb]; exact hs, hsr⟩)
    refine ⟨F', h1, ?_, ?_⟩
    · intro b hb
      rcases List.mem_cons.1 hb with rfl | hb
      · -- the node `b` is not below any later leaf, its view below is unchanged
        have hv : ∀ q, F'.view? (b ++ q) =
            (F.modify (Tree.refineLocal sub ref new cleanUp) b).view? (b ++ q) := by
          intro q
          apply h3
          intro c hc hpre
          rcases List.prefix_or_prefix_of_prefix hpre (List.prefix_append b q) with h | h
          · exact (hl.1 c hc).2 h
          · exact (hl.1 c hc).1 h
        have hself := F.get?_modify_self (Tree.refineLocal sub ref new cleanUp) b ha
        rw [← hself]
        have key : ∀ q, (F'.get? b).bind (fun s => s.view? q) =
            ((F.modify (Tree.refineLocal sub ref new cleanUp) b).get? b).bind
              (fun s => s.view? q) := by
          intro q
          have := hv q
          unfold Forest.view? at this
          rw [Forest.get?_append _ _ _ ha, Forest.get?_append _ _ _ ha] at this
          unfold Tree.view?
          cases h3 : F'.get? b <;>
            cases h4 : (F.modify (Tree.refineLocal sub ref new cleanUp) b).get? b <;>
            simpa [h3, h4] using this
        rw [hself, hg] at key ⊢
        cases h4 : F'.get? b with
        | none => have := key []; simp [h4, Tree.view?] at this
        | some s =>
          simp only [Option.map_some]
          congr 1
          apply Tree.ext_view
          intro q
          simpa [h4] using key q
      · rw [h2 b hb, hkeep b hb]
    · intro b hb
      rw [h3 b (fun c hc => hb c (by simp [hc]))]
      exact F.view?_modify_of_not_prefix _ _ _ (hb a (by simp))

end Verif.Trees
