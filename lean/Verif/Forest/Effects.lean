import Verif.Forest.Traverse
import Mathlib.Data.Set.Basic

/-! Helper lemmas: what each operation changes, node by node. -/

namespace Verif.Trees

def Tree.view? (t : Tree) (a : Path) : Option View := (t.get? a).map Tree.view

/-! ### `modify` -/

theorem join_getElem?_modify (l : List (Option Tree)) (i j : Nat) (g : Tree → Tree) :
    (l.modify i (Option.map g))[j]?.join = if i = j then l[j]?.join.map g else l[j]?.join := by
  rw [List.getElem?_modify]
  split
  · cases l[j]? with
    | none => simp
    | some o => cases o <;> simp
  · cases l[j]? with
    | none => simp
    | some o => simp

theorem Tree.get?_modify_append (f : Tree → Tree) (p q : Path) (t : Tree) :
    (t.modify f p).get? (p ++ q) = (t.get? p).bind (fun s => (f s).get? q) := by
  induction p generalizing t with
  | nil => simp [Tree.modify]
  | cons i p ih =>
    rw [List.cons_append, Tree.get?_cons, Tree.get?_cons]
    simp only [Tree.modify, Tree.kids_node, join_getElem?_modify, if_true]
    cases h : t.kids[i]?.join with
    | none => simp
    | some c => simp [ih]

theorem view_modify_cons (f : Tree → Tree) (i : Nat) (p : Path) (t : Tree) :
    (t.modify f (i :: p)).view = t.view := by
  simp only [Tree.modify, Tree.view, Tree.info_node, Tree.kids_node, Prod.mk.injEq, true_and]
  apply List.ext_getElem?
  intro j
  simp only [List.getElem?_map, List.getElem?_modify]
  split
  · cases t.kids[j]? with
    | none => simp
    | some o => cases o <;> simp
  · simp

theorem Tree.view?_modify_of_not_prefix (f : Tree → Tree) (p q : Path) (t : Tree)
    (h : ¬ p <+: q) : (t.modify f p).view? q = t.view? q := by
  induction p generalizing t q with
  | nil => simp at h
  | cons i p ih =>
    cases q with
    | nil => simp [Tree.view?, view_modify_cons]
    | cons j q =>
      have key : (t.modify f (i :: p)).get? (j :: q) =
          (if i = j then t.kids[j]?.join.map (Tree.modify f p) else t.kids[j]?.join).bind
            (fun c => c.get? q) := by
        rw [Tree.get?_cons]
        simp only [Tree.modify, Tree.kids_node, join_getElem?_modify]
      unfold Tree.view?
      rw [key, Tree.get?_cons]
      by_cases hij : i = j
      · subst hij
        have h' : ¬ p <+: q := by simpa using h
        cases hc : t.kids[i]?.join with
        | none => simp
        | some c =>
          have := ih q c h'
          simpa [Tree.view?] using this
      · simp [hij]

theorem Forest.top_modify (F : Forest) (f : Tree → Tree) (a : Path) (h : a ≠ []) :
    (F.modify f a).top = F.top.modify f a := by
  cases a with
  | nil => exact absurd rfl h
  | cons i p =>
    simp only [Forest.modify, Forest.top, Tree.modify, Tree.info_node, Tree.kids_node]
    congr 1
    apply List.ext_getElem?
    intro j
    simp only [List.getElem?_map, List.getElem?_modify]
    split <;> cases F.trees[j]? <;> simp

theorem Forest.get?_modify_append (F : Forest) (f : Tree → Tree) (p q : Path) (h : p ≠ []) :
    (F.modify f p).get? (p ++ q) = (F.get? p).bind (fun s => (f s).get? q) := by
  rw [Forest.get?_eq_top _ _ (by simp [h]), Forest.top_modify _ _ _ h, Tree.get?_modify_append,
    Forest.get?_eq_top _ _ h]

theorem Forest.view?_modify_of_not_prefix (F : Forest) (f : Tree → Tree) (p q : Path)
    (h : ¬ p <+: q) : (F.modify f p).view? q = F.view? q := by
  by_cases hp : p = []
  · subst hp; simp at h
  by_cases hq : q = []
  · subst hq; simp [Forest.view?]
  unfold Forest.view?
  rw [Forest.get?_eq_top _ _ hq, Forest.get?_eq_top _ _ hq, Forest.top_modify _ _ _ hp]
  exact Tree.view?_modify_of_not_prefix f p q F.top h

theorem Forest.view?_modify_append (F : Forest) (f : Tree → Tree) (p q : Path) (h : p ≠ []) :
    (F.modify f p).view? (p ++ q) = (F.get? p).bind (fun s => (f s).view? q) := by
  unfold Forest.view? Tree.view?
  rw [Forest.get?_modify_append _ _ _ _ h]
  cases F.get? p <;> simp

theorem Tree.view?_mapFlags (g : Finset Flag → Finset Flag) (t : Tree) (q : Path) :
    (t.mapFlags g).view? q =
      if q = [] then some ({ t.info with flags := g t.info.flags }, t.kids.map Option.isSome)
      else t.view? q := by
  cases q with
  | nil => simp [Tree.view?, Tree.view, Tree.mapFlags]
  | cons i q => simp [Tree.view?, Tree.get?_cons, Tree.mapFlags]

/-- Change the flags in a view. -/
def View.mapFlags (g : Finset Flag → Finset Flag) (v : View) : View :=
  ({ v.1 with flags := g v.1.flags }, v.2)

theorem Forest.view?_modify_mapFlags (F : Forest) (g : Finset Flag → Finset Flag) (a b : Path)
    (ha : a ≠ []) :
    (F.modify (Tree.mapFlags g) a).view? b =
      if b = a then (F.view? b).map (View.mapFlags g) else F.view? b := by
  by_cases hab : a <+: b
  · obtain ⟨q, rfl⟩ := hab
    rw [Forest.view?_modify_append _ _ _ _ ha]
    unfold Forest.view?
    rw [Forest.get?_append _ _ _ ha]
    cases h : F.get? a with
    | none => simp
    | some s =>
      simp only [Option.bind_some, Tree.view?_mapFlags]
      by_cases hq : q = []
      · subst hq; simp [View.mapFlags, Tree.view]
      · simp [hq, Tree.view?]
  · rw [Forest.view?_modify_of_not_prefix _ _ _ _ hab]
    have : b ≠ a := by rintro rfl; exact hab (List.prefix_refl _)
    simp [this]

theorem Forest.modify_nil (F : Forest) (f : Tree → Tree) : F.modify f [] = F := rfl

@[simp] theorem Forest.view?_nil (F : Forest) : F.view? [] = none := rfl

theorem Forest.view?_modify_mapFlags' (F : Forest) (g : Finset Flag → Finset Flag) (a b : Path) :
    (F.modify (Tree.mapFlags g) a).view? b =
      if b = a then (F.view? b).map (View.mapFlags g) else F.view? b := by
  by_cases ha : a = []
  · subst ha
    rw [Forest.modify_nil]
    split
    · rename_i h; subst h; simp
    · rfl
  · exact F.view?_modify_mapFlags g a b ha

/-! ### facts read off a view -/

theorem Forest.hasNode_iff_view (F : Forest) (a : Path) :
    F.HasNode a ↔ (F.view? a).isSome := by
  simp [Forest.HasNode, Forest.view?]

theorem Forest.marked_iff_view (F : Forest) (a : Path) (f : Flag) :
    F.Marked a f ↔ ∃ v, F.view? a = some v ∧ f ∈ v.1.flags := by
  unfold Forest.Marked Forest.view?
  constructor
  · rintro ⟨t, h, h2⟩; exact ⟨t.view, by simp [h], h2⟩
  · rintro ⟨v, h, h2⟩
    obtain ⟨t, ht, rfl⟩ := Option.map_eq_some_iff.1 h
    exact ⟨t, ht, h2⟩

theorem Forest.isMarked_iff (F : Forest) (a : Path) (f : Flag) :
    F.isMarked a (some f) = true ↔ F.Marked a f := by
  unfold Forest.isMarked Forest.Marked
  cases F.get? a <;> simp [Tree.isMarked]

theorem Forest.Marked.hasNode {F : Forest} {a : Path} {f : Flag} (h : F.Marked a f) :
    F.HasNode a := by
  obtain ⟨t, h, -⟩ := h; simp [Forest.HasNode, h]

theorem Forest.hasNode_ne_nil {F : Forest} {a : Path} (h : F.HasNode a) : a ≠ [] := by
  rintro rfl; simp [Forest.HasNode] at h

theorem Forest.HasNode.prefix {F : Forest} {a b : Path} (h : F.HasNode b) (hab : a <+: b)
    (ha : a ≠ []) : F.HasNode a := by
  obtain ⟨q, rfl⟩ := hab
  unfold Forest.HasNode at *
  rw [Forest.get?_append _ _ _ ha] at h
  cases h1 : F.get? a <;> simp [h1] at h ⊢

theorem Forest.mem_childPaths (F : Forest) (a c : Path) (ha : a ≠ []) :
    c ∈ F.childPaths a ↔ ∃ i, c = a ++ [i] ∧ F.HasNode c := by
  unfold Forest.childPaths
  constructor
  · intro h
    cases hg : F.get? a with
    | none => simp [hg] at h
    | some t =>
      simp only [hg, List.mem_map, Prod.exists] at h
      obtain ⟨i, s, h1, rfl⟩ := h
      rw [mem_getChildren] at h1
      refine ⟨i, rfl, ?_⟩
      unfold Forest.HasNode
      rw [Forest.get?_append _ _ _ ha, hg]
      simp [Tree.get?_singleton, h1.1]
  · rintro ⟨i, rfl, h⟩
    unfold Forest.HasNode at h
    rw [Forest.get?_append _ _ _ ha] at h
    cases hg : F.get? a with
    | none => simp [hg] at h
    | some t =>
      simp only [hg, Option.bind_some, Tree.get?_singleton] at h
      simp only [List.mem_map, Prod.exists]
      cases hc : t.kids[i]?.join with
      | none => simp [hc] at h
      | some s =>
        refine ⟨i, s, ?_, rfl⟩
        rw [mem_getChildren]
        exact ⟨by simpa [Option.join_eq_some_iff] using hc, by simp⟩

/-! ### marking a set of nodes -/

/-- `F'` is `F` with flag `f` added to exactly the nodes in `S` (and nothing else changed). -/
def MarkedOn (F : Forest) (f : Flag) (S : Set Path) (F' : Forest) : Prop :=
  ∀ b, ∀ g : Finset Flag → Finset Flag,
    ((b ∈ S → g = insert f) ∧ (b ∉ S → g = id)) → F'.view? b = (F.view? b).map (View.mapFlags g)

theorem View.mapFlags_id (v : View) : v.mapFlags id = v := rfl

theorem MarkedOn.view_mem {F F' : Forest} {f : Flag} {S : Set Path} (h : MarkedOn F f S F')
    {b : Path} (hb : b ∈ S) : F'.view? b = (F.view? b).map (View.mapFlags (insert f)) :=
  h b _ ⟨fun _ => rfl, fun h => absurd hb h⟩

theorem MarkedOn.view_not_mem {F F' : Forest} {f : Flag} {S : Set Path} (h : MarkedOn F f S F')
    {b : Path} (hb : b ∉ S) : F'.view? b = F.view? b := by
  rw [h b id ⟨fun h => absurd h hb, fun _ => rfl⟩]
  cases F.view? b <;> simp [View.mapFlags_id]

theorem MarkedOn.mk' {F F' : Forest} {f : Flag} {S : Set Path}
    (h1 : ∀ b, b ∈ S → F'.view? b = (F.view? b).map (View.mapFlags (insert f)))
    (h2 : ∀ b, b ∉ S → F'.view? b = F.view? b) : MarkedOn F f S F' := by
  intro b g hg
  by_cases hb : b ∈ S
  · rw [hg.1 hb]; exact h1 b hb
  · rw [hg.2 hb, h2 b hb]; cases F.view? b <;> simp [View.mapFlags_id]

theorem MarkedOn.refl (F : Forest) (f : Flag) : MarkedOn F f ∅ F :=
  MarkedOn.mk' (fun _ h => absurd h (by simp)) (fun _ _ => rfl)

theorem MarkedOn.trans {F F' F'' : Forest} {f : Flag} {S S' : Set Path}
    (h : MarkedOn F f S F') (h' : MarkedOn F' f S' F'') : MarkedOn F f (S ∪ S') F'' := by
  refine MarkedOn.mk' ?_ ?_
  · intro b hb
    by_cases h1 : b ∈ S' <;> by_cases h2 : b ∈ S
    · rw [h'.view_mem h1, h.view_mem h2]
      cases F.view? b <;> simp [View.mapFlags]
    · rw [h'.view_mem h1, h.view_not_mem h2]
    · rw [h'.view_not_mem h1, h.view_mem h2]
    · simp [h1, h2] at hb
  · intro b hb
    simp only [Set.mem_union, not_or] at hb
    rw [h'.view_not_mem hb.2, h.view_not_mem hb.1]

theorem MarkedOn.view_none {F F' : Forest} {f : Flag} {S : Set Path} (h : MarkedOn F f S F')
    {b : Path} (hb : F.view? b = none) : F'.view? b = none := by
  by_cases hS : b ∈ S
  · rw [h.view_mem hS, hb]; rfl
  · rw [h.view_not_mem hS, hb]

theorem MarkedOn.congr {F F' : Forest} {f : Flag} {S S' : Set Path} (h : MarkedOn F f S F')
    (hS : ∀ b, F.HasNode b → (b ∈ S ↔ b ∈ S')) : MarkedOn F f S' F' := by
  refine MarkedOn.mk' ?_ ?_
  · intro b hb
    by_cases hn : F.HasNode b
    · exact h.view_mem ((hS b hn).2 hb)
    · rw [Forest.hasNode_iff_view] at hn
      have hn' : F.view? b = none := by simpa using hn
      rw [h.view_none hn', hn']
      try rfl
  · intro b hb
    by_cases hn : F.HasNode b
    · exact h.view_not_mem (fun h => hb ((hS b hn).1 h))
    · rw [Forest.hasNode_iff_view] at hn
      have hn' : F.view? b = none := by simpa using hn
      rw [h.view_none hn', hn']
      try rfl

theorem MarkedOn.hasNode_iff {F F' : Forest} {f : Flag} {S : Set Path} (h : MarkedOn F f S F')
    (b : Path) : F'.HasNode b ↔ F.HasNode b := by
  rw [Forest.hasNode_iff_view, Forest.hasNode_iff_view]
  by_cases hb : b ∈ S
  · rw [h.view_mem hb]; simp
  · rw [h.view_not_mem hb]

theorem MarkedOn.marked_iff {F F' : Forest} {f : Flag} {S : Set Path} (h : MarkedOn F f S F')
    (b : Path) (g : Flag) :
    F'.Marked b g ↔ F.Marked b g ∨ (g = f ∧ b ∈ S ∧ F.HasNode b) := by
  rw [Forest.marked_iff_view, Forest.marked_iff_view, Forest.hasNode_iff_view]
  by_cases hb : b ∈ S
  · rw [h.view_mem hb]
    cases F.view? b with
    | none => simp
    | some v => simp [View.mapFlags, hb, or_comm]
  · rw [h.view_not_mem hb]; simp [hb]

theorem Forest.mark_markedOn (F : Forest) (a : Path) (f : Flag) :
    MarkedOn F f {a} (F.mark a (some f)) := by
  unfold Forest.mark
  refine MarkedOn.mk' ?_ ?_
  · intro b hb
    rw [Set.mem_singleton_iff] at hb
    rw [Forest.view?_modify_mapFlags', if_pos hb]; rfl
  · intro b hb
    rw [Set.mem_singleton_iff] at hb
    rw [Forest.view?_modify_mapFlags', if_neg hb]

theorem foldl_mark_markedOn (F : Forest) (f : Flag) (l : List Path) :
    MarkedOn F f {b | b ∈ l} (l.foldl (fun F c => F.mark c (some f)) F) := by
  induction l generalizing F with
  | nil => simpa using MarkedOn.refl F f
  | cons a l ih =>
    rw [List.foldl_cons]
    refine ((F.mark_markedOn a f).trans (ih _)).congr ?_
    intro b _
    simp

/-! ### chains of ancestors -/

theorem mem_chainUp (a b : Path) (ha : a ≠ []) : b ∈ chainUp a ↔ b ≠ [] ∧ b <+: a := by
  induction hn : a.length using Nat.strong_induction_on generalizing a with
  | _ n ih =>
    rw [chainUp]
    split
    · rename_i hl
      obtain ⟨x, rfl⟩ : ∃ x, a = [x] := by
        rcases a with _ | ⟨x, _ | ⟨y, a⟩⟩
        · simp at ha
        · exact ⟨x, rfl⟩
        · simp at hl
      constructor
      · intro h; simp at h; subst h; simp
      · rintro ⟨h1, h2⟩
        rcases b with _ | ⟨y, b⟩
        · simp at h1
        · simp at h2; simp [h2.1, h2.2]
    · rename_i hl
      have hd : a.dropLast ≠ [] := by
        intro h0
        have := congrArg List.length h0
        simp at this; omega
      rw [List.mem_cons, ih _ (by simp; omega) _ hd rfl]
      have hlast := List.dropLast_append_getLast ha
      constructor
      · rintro (rfl | ⟨h1, h2⟩)
        · exact ⟨ha, List.prefix_refl _⟩
        · exact ⟨h1, h2.trans (List.dropLast_prefix a)⟩
      · rintro ⟨h1, h2⟩
        rw [← hlast] at h2
        rcases List.prefix_concat_iff.1 h2 with h | h
        · left; rw [h, hlast]
        · right; exact ⟨h1, h⟩

theorem chainUp_eq (a : Path) : ∃ t, chainUp a = a :: t := by
  rw [chainUp]; split
  · exact ⟨[], rfl⟩
  · exact ⟨_, rfl⟩

theorem ancestors_of_len_le (a : Path) (h : a.length ≤ 1) : ancestors a = [] := by
  unfold ancestors; rw [chainUp, if_pos h]; rfl

theorem ancestors_of_len_gt (a : Path) (h : 1 < a.length) :
    ancestors a = a.dropLast :: ancestors a.dropLast := by
  obtain ⟨t, ht⟩ := chainUp_eq a.dropLast
  have h1 : ancestors a = chainUp a.dropLast := by
    unfold ancestors
    rw [chainUp, if_neg (by omega)]; rfl
  have h2 : ancestors a.dropLast = t := by unfold ancestors; rw [ht]; rfl
  rw [h1, h2, ht]

theorem mem_ancestors (a b : Path) : b ∈ ancestors a ↔ b ≠ [] ∧ b <+: a ∧ b ≠ a := by
  by_cases h : a.length ≤ 1
  · rw [ancestors_of_len_le a h]
    simp only [List.not_mem_nil, false_iff, not_and, not_not]
    intro h1 h2
    have := h2.length_le
    have hb : b.length ≠ 0 := by simpa using h1
    exact h2.eq_of_length (by omega)
  · have hd : a.dropLast ≠ [] := by
      intro h0
      have := congrArg List.length h0
      simp at this; omega
    have ha : a ≠ [] := by rintro rfl; simp at h
    have h1 : ancestors a = chainUp a.dropLast := by
      unfold ancestors
      rw [chainUp, if_neg h]; rfl
    rw [h1, mem_chainUp _ _ hd]
    constructor
    · rintro ⟨h2, h3⟩
      refine ⟨h2, h3.trans (List.dropLast_prefix a), ?_⟩
      rintro rfl
      have := h3.length_le
      simp at this; omega
    · rintro ⟨h2, h3, h4⟩
      refine ⟨h2, ?_⟩
      rw [← List.dropLast_append_getLast ha] at h3
      rcases List.prefix_concat_iff.1 h3 with h | h
      · exact absurd (h.trans (List.dropLast_append_getLast ha)) h4
      · exact h

/-! ### rooting subtrees -/

/-- Ancestors of `a` and the children of these ancestors. -/
def UpSet (F : Forest) (a : Path) : Set Path :=
  {x | ∃ b ∈ ancestors a, x = b ∨ ∃ i, x = b ++ [i] ∧ F.HasNode x}

theorem markFamily_markedOn (F : Forest) (f : Flag) (b : Path) (hb : b ≠ []) :
    MarkedOn F f {x | x = b ∨ ∃ i, x = b ++ [i] ∧ F.HasNode x} (Forest.markFamily f F b) := by
  unfold Forest.markFamily
  refine ((F.mark_markedOn b f).trans (foldl_mark_markedOn _ f _)).congr ?_
  intro x _
  simp only [Set.mem_union, Set.mem_singleton_iff, Set.mem_ofPred_eq]
  rw [Forest.mem_childPaths _ _ _ hb]
  simp [(F.mark_markedOn b f).hasNode_iff]

theorem foldl_markFamily_markedOn (F : Forest) (f : Flag) (l : List Path)
    (hl : ∀ b ∈ l, b ≠ []) :
    MarkedOn F f {x | ∃ b ∈ l, x = b ∨ ∃ i, x = b ++ [i] ∧ F.HasNode x}
      (l.foldl (Forest.markFamily f) F) := by
  induction l generalizing F with
  | nil => simpa using MarkedOn.refl F f
  | cons a l ih =>
    rw [List.foldl_cons]
    have h1 := markFamily_markedOn F f a (hl a (by simp))
    refine (h1.trans (ih _ (fun b hb => hl b (by simp [hb])))).congr ?_
    intro x _
    simp only [Set.mem_union, Set.mem_ofPred_eq, h1.hasNode_iff, List.mem_cons,
      exists_eq_or_imp]

theorem upSet_mono {F : Forest} {a a' x : Path} (ha : a ∈ UpSet F a') (hx : x ∈ UpSet F a) :
    x ∈ UpSet F a' := by
  obtain ⟨b, hb, hb2⟩ := ha
  obtain ⟨c, hc, hc2⟩ := hx
  refine ⟨c, ?_, hc2⟩
  rw [mem_ancestors] at *
  obtain ⟨hb0, hb1, hb3⟩ := hb
  obtain ⟨hc0, hc1, hc3⟩ := hc
  have hcb : c <+: b := by
    rcases hb2 with rfl | ⟨i, rfl, -⟩
    · exact hc1
    · rcases List.prefix_concat_iff.1 hc1 with h | h
      · exact absurd h hc3
      · exact h
  refine ⟨hc0, hcb.trans hb1, ?_⟩
  rintro rfl
  exact hb3 (hb1.eq_of_length (le_antisymm hb1.length_le hcb.length_le))

theorem hasNode_markedOn_upSet {F F' : Forest} {f : Flag} {S : Set Path} (h : MarkedOn F f S F')
    (a : Path) : UpSet F' a = UpSet F a := by
  ext x; simp only [UpSet, Set.mem_ofPred_eq, h.hasNode_iff]

/-- The visiting loop of `root_subtrees`. -/
theorem foldl_rootVisit (F0 F : Forest) (f : Flag) (S : Set Path) (l : List Path)
    (h0 : MarkedOn F0 f S F)
    (hS : ∀ a ∈ S, (∃ i, a = [i]) ∨ ∃ a', F0.Marked a' f ∧ UpSet F0 a' ⊆ S ∧ a ∈ UpSet F0 a') :
    MarkedOn F0 f (S ∪ {x | ∃ a ∈ l, F0.Marked a f ∧ x ∈ UpSet F0 a})
      (l.foldl (Forest.rootVisit f) F) := by
  induction l generalizing F S with
  | nil => simpa using h0
  | cons a l ih =>
    rw [List.foldl_cons]
    have hstep : MarkedOn F0 f (S ∪ {x | F0.Marked a f ∧ x ∈ UpSet F0 a}) (Forest.rootVisit f F a) := by
      unfold Forest.rootVisit
      split
      · rename_i hm
        rw [Forest.isMarked_iff, h0.marked_iff] at hm
        have h1 := foldl_markFamily_markedOn F f (ancestors a)
          (fun b hb => ((mem_ancestors a b).1 hb).1)
        refine (h0.trans h1).congr ?_
        intro x _
        have hU : (x ∈ {x | ∃ b ∈ ancestors a, x = b ∨ ∃ i, x = b ++ [i] ∧ F.HasNode x}) ↔
            x ∈ UpSet F0 a := by
          rw [← hasNode_markedOn_upSet h0]; rfl
        rw [Set.mem_union, Set.mem_union, hU]
        rcases hm with hm | ⟨-, ha, hn⟩
        · simp [hm]
        · rcases hS a ha with ⟨i, rfl⟩ | ⟨a', h2, h3, h4⟩
          · have : x ∉ UpSet F0 [i] := by
              rintro ⟨b, hb, -⟩
              rw [ancestors_of_len_le _ (by simp)] at hb
              simp at hb
            simp [this]
          · constructor
            · rintro (h | h)
              · exact Or.inl h
              · exact Or.inl (h3 (upSet_mono h4 h))
            · rintro (h | h)
              · exact Or.inl h
              · exact Or.inr h.2
      · rename_i hm
        rw [Forest.isMarked_iff, h0.marked_iff] at hm
        refine h0.congr ?_
        intro x _
        have : ¬ F0.Marked a f := fun h => hm (Or.inl h)
        simp [this]
    refine (ih _ _ hstep ?_).congr ?_
    · rintro b (hb | hb)
      · rcases hS b hb with h | ⟨a', h2, h3, h4⟩
        · exact Or.inl h
        · exact Or.inr ⟨a', h2, fun x hx => Or.inl (h3 hx), h4⟩
      · right
        exact ⟨a, hb.1, fun x hx => Or.inr ⟨hb.1, hx⟩, hb.2⟩
    · intro x _
      simp only [Set.mem_union, Set.mem_ofPred_eq, List.mem_cons, exists_eq_or_imp]
      tauto

theorem length_of_head {a : Path} {i : Nat} (h : a.head? = some i) : ∃ p, a = i :: p := by
  cases a with
  | nil => simp at h
  | cons j p => simp at h; exact ⟨p, by rw [h]⟩

theorem Forest.trees_length_of_hasNode {F : Forest} {i : Nat} {p : Path} (h : F.HasNode (i :: p)) :
    i < F.trees.length := by
  unfold Forest.HasNode at h
  rw [Forest.get?_cons] at h
  by_contra hn
  rw [List.getElem?_eq_none (by omega)] at h
  simp at h

/-- Result of `rootTree` for the `k`-th tree. -/
theorem rootTree_markedOn (F0 F : Forest) (f : Flag) (k : Nat) (S : Set Path)
    (h0 : MarkedOn F0 f S F)
    (hS : ∀ a ∈ S, (∃ i, a = [i]) ∨ ∃ a', F0.Marked a' f ∧ UpSet F0 a' ⊆ S ∧ a ∈ UpSet F0 a') :
    MarkedOn F0 f (S ∪ {[k]} ∪ {x | ∃ a, a.head? = some k ∧ F0.Marked a f ∧ x ∈ UpSet F0 a})
      (Forest.rootTree f F k) := by
  unfold Forest.rootTree
  have h1 := h0.trans (F.mark_markedOn [k] f)
  have hS1 : ∀ a ∈ S ∪ {[k]}, (∃ i, a = [i]) ∨
      ∃ a', F0.Marked a' f ∧ UpSet F0 a' ⊆ S ∪ {[k]} ∧ a ∈ UpSet F0 a' := by
    rintro b (hb | hb)
    · rcases hS b hb with h | ⟨a', h2, h3, h4⟩
      · exact Or.inl h
      · exact Or.inr ⟨a', h2, fun x hx => Or.inl (h3 hx), h4⟩
    · exact Or.inl ⟨k, hb⟩
  simp only
  cases hg : (F.mark [k] (some f)).get? [k] with
  | none =>
    simp only
    refine h1.congr ?_
    intro x _
    have : ∀ a, a.head? = some k → ¬ F0.Marked a f := by
      intro a ha hm
      obtain ⟨p, rfl⟩ := length_of_head ha
      have := hm.hasNode.prefix (a := [k]) (by simp) (by simp)
      rw [← h1.hasNode_iff] at this
      simp [Forest.HasNode, hg] at this
    simp only [Set.mem_union, Set.mem_ofPred_eq]
    constructor
    · intro h; exact Or.inl h
    · rintro (h | ⟨a, ha, hm, -⟩)
      · exact h
      · exact absurd hm (this a ha)
  | some t =>
    simp only
    refine (foldl_rootVisit F0 _ f _ _ h1 hS1).congr ?_
    intro x _
    have key : ∀ a, F0.Marked a f →
        (a ∈ (t.traverse [k] none .depthFirst).map (·.1) ↔ a.head? = some k) := by
      intro a hm
      simp only [List.mem_map, Prod.exists, exists_and_right, exists_eq_right]
      constructor
      · rintro ⟨s, hs⟩
        rw [Tree.mem_traverse] at hs
        obtain ⟨⟨r, rfl, -⟩, -⟩ := hs
        simp
      · intro ha
        obtain ⟨p, rfl⟩ := length_of_head ha
        have hn := hm.hasNode
        rw [← h1.hasNode_iff] at hn
        unfold Forest.HasNode at hn
        rw [show k :: p = [k] ++ p from rfl, Forest.get?_append _ _ _ (by simp), hg] at hn
        obtain ⟨s, hs⟩ := Option.isSome_iff_exists.1 hn
        refine ⟨s, ?_⟩
        rw [Tree.mem_traverse]
        exact ⟨⟨p, rfl, by simpa using hs⟩, by simp⟩
    simp only [Set.mem_union, Set.mem_ofPred_eq, Set.mem_singleton_iff]
    constructor
    · rintro (h | ⟨a, h1, h2, h3⟩)
      · exact Or.inl h
      · exact Or.inr ⟨a, (key a h2).1 h1, h2, h3⟩
    · rintro (h | ⟨a, h1, h2, h3⟩)
      · exact Or.inl h
      · exact Or.inr ⟨a, (key a h2).2 h1, h2, h3⟩

theorem foldl_rootTree_markedOn (F0 : Forest) (f : Flag) (n : Nat) :
    MarkedOn F0 f ({x | ∃ i, i < n ∧ x = [i]} ∪
        {x | ∃ a k, k < n ∧ a.head? = some k ∧ F0.Marked a f ∧ x ∈ UpSet F0 a})
      ((List.range n).foldl (Forest.rootTree f) F0) := by
  induction n with
  | zero => simpa using MarkedOn.refl F0 f
  | succ n ih =>
    rw [List.range_succ, List.foldl_append]
    refine (rootTree_markedOn F0 _ f n _ ih ?_).congr ?_
    · rintro a (⟨i, -, rfl⟩ | ⟨a', k, h1, h2, h3, h4⟩)
      · exact Or.inl ⟨i, rfl⟩
      · exact Or.inr ⟨a', h3, fun x hx => Or.inr ⟨a', k, h1, h2, h3, hx⟩, h4⟩
    · intro x _
      simp only [Set.mem_union, Set.mem_ofPred_eq, Set.mem_singleton_iff]
      constructor
      · rintro (((⟨i, h1, h2⟩ | ⟨a, k, h1, h2⟩) | h) | ⟨a, h1, h2⟩)
        · exact Or.inl ⟨i, by omega, h2⟩
        · exact Or.inr ⟨a, k, by omega, h2⟩
        · exact Or.inl ⟨n, by omega, h⟩
        · exact Or.inr ⟨a, n, by omega, h1, h2⟩
      · rintro (⟨i, h1, h2⟩ | ⟨a, k, h1, h2, h3⟩)
        · rcases Nat.lt_succ_iff_lt_or_eq.1 h1 with h | h
          · exact Or.inl (Or.inl (Or.inl ⟨i, h, h2⟩))
          · subst h; exact Or.inl (Or.inr h2)
        · rcases Nat.lt_succ_iff_lt_or_eq.1 h1 with h | h
          · exact Or.inl (Or.inl (Or.inr ⟨a, k, h, h2, h3⟩))
          · subst h; exact Or.inr ⟨a, h2, h3⟩

/-- The exact effect of `root_subtrees`. -/
theorem Forest.rootSubtrees_markedOn (F : Forest) (f : Flag) :
    MarkedOn F f {x | (∃ i, x = [i]) ∨ ∃ a, F.Marked a f ∧ x ∈ UpSet F a} (F.rootSubtrees f) := by
  unfold Forest.rootSubtrees
  refine (foldl_rootTree_markedOn F f _).congr ?_
  intro x hx
  simp only [Set.mem_union, Set.mem_ofPred_eq]
  constructor
  · rintro (⟨i, h1, h2⟩ | ⟨a, k, h1, h2, h3⟩)
    · exact Or.inl ⟨i, h2⟩
    · exact Or.inr ⟨a, h3⟩
  · rintro (⟨i, rfl⟩ | ⟨a, h3, h4⟩)
    · exact Or.inl ⟨i, F.trees_length_of_hasNode hx, rfl⟩
    · cases a with
      | nil => exact absurd rfl (Forest.hasNode_ne_nil h3.hasNode)
      | cons k p =>
        exact Or.inr ⟨k :: p, k, F.trees_length_of_hasNode h3.hasNode, rfl, h3, h4⟩

end Verif.Trees
