import Verif.Forest.Refine

/-!
# Properties of trees and forests (C01-C04, C07, C09-C12, C14)
-/

namespace Verif.Trees

/-! ## A concrete forest used for the non-vacuity examples

Two trees with two slots per node; the first tree is split, and so is its second child.
Flag 5 marks both roots, both children of the first root; flag 7 marks one grandchild only. -/

def exLeaf (addr : List Nat) (fl : Finset Flag) : Tree :=
  .node ⟨.leaf, true, addr, addr.length - 1, fl⟩ [none, none]

def exForest : Forest := ⟨[
  .node ⟨.root, true, [0], 0, {5}⟩
    [some (exLeaf [0, 0] {5}),
     some (.node ⟨.branch, true, [0, 1], 1, {5}⟩
        [some (exLeaf [0, 1, 0] {7}), some (exLeaf [0, 1, 1] ∅)])],
  .node ⟨.root, true, [1], 0, {5}⟩ [none, none]]⟩

/-! ## C01: traversal -/

/-- C01: the traversal yields exactly the (flagged) nodes of the forest, each with its path. -/
theorem C01_traverse_complete (F : Forest) (flag : Option Flag) (mode : Mode) (a : Path)
    (t : Tree) :
    (a, t) ∈ F.traverse flag mode ↔
      F.get? a = some t ∧ ∀ f, flag = some f → f ∈ t.info.flags :=
  F.mem_traverse flag mode a t

/-- C01: no node is yielded twice. -/
theorem C01_traverse_nodup (F : Forest) (flag : Option Flag) (mode : Mode) :
    ((F.traverse flag mode).map (·.1)).Nodup := by
  unfold List.Nodup
  rw [List.pairwise_map]
  cases mode with
  | depthFirst =>
    refine (F.traverse_df_sorted flag).imp ?_
    intro x y h he
    rw [he] at h
    exact lt_irrefl _ h
  | breadthFirst =>
    refine (F.traverse_bf_sorted flag).imp ?_
    rintro x y (h | ⟨-, h⟩) he <;> rw [he] at h
    · exact lt_irrefl _ h
    · exact lt_irrefl _ h

/-- C01: depth-first order is the lexicographic order of paths (pre-order: a node before its
progeny, the progeny of a child before the next sibling). -/
theorem C01_depth_first_order (F : Forest) (flag : Option Flag) :
    ((F.traverse flag .depthFirst).map (·.1)).Pairwise (fun a b => a < b) := by
  rw [List.pairwise_map]; exact F.traverse_df_sorted flag

/-- C01: breadth-first order is by depth, then from left to right. -/
theorem C01_breadth_first_order (F : Forest) (flag : Option Flag) :
    ((F.traverse flag .breadthFirst).map (·.1)).Pairwise BfLt := by
  rw [List.pairwise_map]; exact F.traverse_bf_sorted flag

/-- C01: a flagged traversal is the unflagged one restricted to the marked nodes. -/
theorem C01_traverse_flag (F : Forest) (f : Flag) (mode : Mode) :
    F.traverse (some f) mode =
      (F.traverse none mode).filter (fun it => decide (f ∈ it.2.info.flags)) := rfl

/-- C01 for `Tree.traverse` started at an arbitrary node `t` with path `p`: exactly the
descendants, in the stated order. -/
theorem C01_tree_traverse (p : Path) (t : Tree) (flag : Option Flag) (mode : Mode) :
    (∀ a s, (a, s) ∈ t.traverse p flag mode ↔
      (∃ r, a = p ++ r ∧ t.get? r = some s) ∧ ∀ f, flag = some f → f ∈ s.info.flags) ∧
    ((t.traverse p flag mode).map (·.1)).Pairwise
      (match mode with
       | .depthFirst => fun a b => a < b
       | .breadthFirst => BfLt) := by
  refine ⟨fun a s => t.mem_traverse p flag mode a s, ?_⟩
  rw [List.pairwise_map]
  cases mode with
  | depthFirst => exact t.traverse_df_sorted p flag
  | breadthFirst => exact t.traverse_bf_sorted p flag

/-- Non-vacuity (test): the example forest has the node `[0, 1, 0]`, marked 7. -/
example : exForest.get? [0, 1, 0] = some (exLeaf [0, 1, 0] {7}) := rfl

/-! ## C02: leaves -/

theorem Forest.inSub_iff_get (F : Forest) (flag : Option Flag) (a : Path) :
    F.InSub flag a ↔ ∃ t, F.get? a = some t ∧ ∀ f, flag = some f → f ∈ t.info.flags := by
  cases flag with
  | none => simp [Forest.InSub, Forest.HasNode, Option.isSome_iff_exists]
  | some f => simp [Forest.InSub, Forest.Marked]

theorem hasChildren_false_iff (F : Forest) (a : Path) (t : Tree) (h : F.get? a = some t)
    (sub : Option Flag) :
    t.hasChildren sub = false ↔ ∀ i, ¬ F.InSub sub (a ++ [i]) := by
  have ha : a ≠ [] := by rintro rfl; simp at h
  rw [← not_iff_not, Bool.not_eq_false, hasChildren_iff]
  simp only [not_forall, not_not]
  refine exists_congr fun i => ?_
  rw [Forest.inSub_iff_get, Forest.get?_append _ _ _ ha, h]
  simp only [Option.bind_some, Tree.get?_singleton_eq_some]

/-- C02: `get_leaves(flag, subforest_flag)` returns exactly the leaves of the subforest
(that carry `flag`), each once. -/
theorem C02_get_leaves (F : Forest) (flag sub : Option Flag) (mode : Mode) :
    (∀ a, a ∈ (F.getLeaves flag sub mode).map (·.1) ↔
      F.IsLeaf sub a ∧ ∀ f, flag = some f → F.Marked a f) ∧
    ((F.getLeaves flag sub mode).map (·.1)).Nodup := by
  constructor
  · intro a
    simp only [Forest.getLeaves, List.mem_map, Prod.exists, exists_and_right, exists_eq_right,
      mem_selectLeaves, Forest.mem_traverse, Forest.IsLeaf]
    constructor
    · rintro ⟨t, ⟨h1, h2⟩, h3, h4⟩
      exact ⟨⟨(F.inSub_iff_get _ _).2 ⟨t, h1, h2⟩, (hasChildren_false_iff F a t h1 sub).1 h3⟩,
        fun f hf => ⟨t, h1, h4 f hf⟩⟩
    · rintro ⟨⟨h1, h2⟩, h3⟩
      obtain ⟨t, h4, h5⟩ := (F.inSub_iff_get _ _).1 h1
      refine ⟨t, ⟨h4, h5⟩, (hasChildren_false_iff F a t h4 sub).2 h2, fun f hf => ?_⟩
      obtain ⟨t', h6, h7⟩ := h3 f hf
      rw [h4] at h6; cases h6; exact h7
  · unfold List.Nodup
    rw [List.pairwise_map]
    apply selectLeaves_pairwise
    have := C01_traverse_nodup F sub mode
    unfold List.Nodup at this
    rwa [List.pairwise_map] at this

/-- C02 for `Tree.get_leaves` at an arbitrary node `t` with path `p`: exactly the selected descendants without selected children (that carry `flag`), each once, in
the order of the traversal. -/
theorem C02_tree_leaves (p : Path) (t : Tree) (flag sub : Option Flag) (mode : Mode) :
    (∀ a s, (a, s) ∈ t.getLeaves p flag sub mode ↔ (∃ r, a = p ++ r ∧ t.get? r = some s) ∧ (∀ f, sub = some f → f ∈ s.info.flags) ∧
      (∀ i c, s.get? [i] = some c → ∃ f, sub = some f ∧ f ∉ c.info.flags) ∧ ∀ f, flag = some f → f ∈ s.info.flags) ∧
    ((t.getLeaves p flag sub mode).map (·.1)).Pairwise
      (match mode with
       | .depthFirst => fun a b => a < b
       | .breadthFirst => BfLt) := by
  constructor
  · intro a s
    rw [Tree.getLeaves, mem_selectLeaves, Tree.mem_traverse, and_assoc]
    refine and_congr_right fun _ => and_congr_right fun _ => and_congr_left fun _ => ?_
    rw [← not_iff_not, Bool.not_eq_false, hasChildren_iff]
    push Not
    refine exists_congr fun i => ?_
    simp only [Tree.get?_singleton_eq_some]
  · rw [List.pairwise_map]
    refine selectLeaves_pairwise _ _ _ ?_
    have := (C01_tree_traverse p t sub mode).2
    rwa [List.pairwise_map] at this

/-- Non-vacuity (test): a marked subtree with one marked leaf. -/
example : ((Tree.node ⟨.root, true, [], 0, {5}⟩ [some (.node ⟨.branch, true, [0], 1, {5}⟩ [some (.node ⟨.leaf, true, [0, 0], 2, ∅⟩ [none])])]).getLeaves
    [3] none (some 5) .depthFirst).map (·.1) = [[3, 0]] := by decide +kernel

/-- The selected nodes contain with a node all its ancestors. -/
def Forest.AncestorClosed (F : Forest) (sub : Option Flag) : Prop :=
  ∀ a i, a ≠ [] → F.InSub sub (a ++ [i]) → F.InSub sub a

theorem ancestorClosed_prefix {F : Forest} {sub : Option Flag} (h : F.AncestorClosed sub)
    {a b : Path} (ha : a ≠ []) (hab : a <+: b) (hb : F.InSub sub b) : F.InSub sub a := by
  obtain ⟨q, rfl⟩ := hab
  induction q using List.reverseRecOn with
  | nil => simpa using hb
  | append_singleton q i ih =>
    rw [← List.append_assoc] at hb
    exact ih (h _ _ (by simp [ha]) hb)

/-- A rooted subforest is closed under ancestors, and so is the whole forest. -/
theorem rooted_ancestorClosed (F : Forest) (sub : Option Flag)
    (h : ∀ f, sub = some f → F.Rooted f) : F.AncestorClosed sub := by
  intro a i ha hi
  cases sub with
  | none => exact Forest.HasNode.prefix hi (List.prefix_append _ _) ha
  | some f => exact ((h f rfl).2 a i ha hi).1

/-- C02: in an ancestor-closed subforest no leaf is a proper ancestor of another leaf. -/
theorem C02_leaves_antichain (F : Forest) (sub : Option Flag) (h : F.AncestorClosed sub)
    (a b : Path) (ha : F.IsLeaf sub a) (hb : F.IsLeaf sub b) (hab : a <+: b) : a = b := by
  obtain ⟨q, rfl⟩ := hab
  cases q with
  | nil => simp
  | cons i q =>
    have ha0 : a ≠ [] := by
      obtain ⟨t, ht, -⟩ := (F.inSub_iff_get _ _).1 ha.1
      rintro rfl; simp at ht
    exact absurd (ancestorClosed_prefix h (a := a ++ [i]) (by simp)
      ⟨q, by simp⟩ hb.1) (ha.2 i)

/-- C02: every node of the subforest has a leaf of the subforest at or below it. -/
theorem C02_leaves_cover (F : Forest) (sub : Option Flag) (a : Path) (ha : F.InSub sub a) :
    ∃ b, a <+: b ∧ F.IsLeaf sub b := by
  obtain ⟨t, ht, hf⟩ := (F.inSub_iff_get _ _).1 ha
  clear ha
  induction t using Tree.ind generalizing a with
  | h inf ks ih =>
    by_cases hl : ∃ i, F.InSub sub (a ++ [i])
    · obtain ⟨i, hi⟩ := hl
      obtain ⟨c, hc, hcf⟩ := (F.inSub_iff_get _ _).1 hi
      have ha0 : a ≠ [] := by rintro rfl; simp at ht
      have hc' := hc
      rw [Forest.get?_append _ _ _ ha0, ht] at hc'
      simp only [Option.bind_some, Tree.get?_singleton_eq_some, Tree.kids_node] at hc'
      obtain ⟨b, hb1, hb2⟩ := ih c (List.mem_of_getElem? hc') (a ++ [i]) hc hcf
      exact ⟨b, (List.prefix_append _ _).trans hb1, hb2⟩
    · exact ⟨a, List.prefix_refl _, (F.inSub_iff_get _ _).2 ⟨_, ht, hf⟩,
        fun i hi => hl ⟨i, hi⟩⟩

/-- Non-vacuity: flag 5 is a rooted subforest of the example, hence ancestor closed, with the
leaf `[0, 1]`. -/
theorem exForest_rooted : exForest.Rooted 5 := by
  constructor
  · intro i hi
    rcases i with _ | _ | i
    · exact ⟨_, rfl, by decide⟩
    · exact ⟨_, rfl, by decide⟩
    · simp [Forest.HasNode, Forest.get?, exForest] at hi
  · rintro a i ha ⟨t, ht, hf⟩
    rcases a with _ | ⟨x, _ | ⟨y, _ | ⟨z, a⟩⟩⟩
    · exact absurd rfl ha
    · rcases x with _ | _ | x
      · refine ⟨⟨_, rfl, by decide⟩, ?_⟩
        intro j hj
        rcases j with _ | _ | j
        · exact ⟨_, rfl, by decide⟩
        · exact ⟨_, rfl, by decide⟩
        · simp [Forest.HasNode, Forest.get?, exForest, Tree.get?, Tree.kids] at hj
      · rcases i with _ | _ | i <;>
          simp [Forest.get?, exForest, Tree.get?, Tree.kids] at ht
      · simp [Forest.get?, exForest] at ht
    · rcases x with _ | _ | x
      · rcases y with _ | _ | y
        · rcases i with _ | _ | i <;>
            simp [Forest.get?, exForest, Tree.get?, Tree.kids, exLeaf] at ht
        · rcases i with _ | _ | i
          · simp [Forest.get?, exForest, Tree.get?, Tree.kids, exLeaf] at ht
            subst ht; exact absurd hf (by decide)
          · simp [Forest.get?, exForest, Tree.get?, Tree.kids, exLeaf] at ht
            subst ht; exact absurd hf (by decide)
          · simp [Forest.get?, exForest, Tree.get?, Tree.kids] at ht
        · simp [Forest.get?, exForest, Tree.get?, Tree.kids] at ht
      · rcases y with _ | _ | y <;> simp [Forest.get?, exForest, Tree.get?, Tree.kids] at ht
      · simp [Forest.get?, exForest] at ht
    · rcases x with _ | _ | x
      · rcases y with _ | _ | y
        · rcases z with _ | _ | z <;>
            simp [Forest.get?, exForest, Tree.get?, Tree.kids, exLeaf] at ht
        · rcases z with _ | _ | z
          · cases a with
            | nil => rcases i with _ | _ | i <;>
                simp [Forest.get?, exForest, Tree.get?, Tree.kids, exLeaf] at ht
            | cons w a => rcases w with _ | _ | w <;>
                simp [Forest.get?, exForest, Tree.get?, Tree.kids, exLeaf] at ht
          · cases a with
            | nil => rcases i with _ | _ | i <;>
                simp [Forest.get?, exForest, Tree.get?, Tree.kids, exLeaf] at ht
            | cons w a => rcases w with _ | _ | w <;>
                simp [Forest.get?, exForest, Tree.get?, Tree.kids, exLeaf] at ht
          · simp [Forest.get?, exForest, Tree.get?, Tree.kids] at ht
        · simp [Forest.get?, exForest, Tree.get?, Tree.kids] at ht
      · rcases y with _ | _ | y <;> simp [Forest.get?, exForest, Tree.get?, Tree.kids] at ht
      · simp [Forest.get?, exForest] at ht

example : exForest.AncestorClosed (some 5) :=
  rooted_ancestorClosed _ _ (fun f hf => by cases hf; exact exForest_rooted)

/-! ## C03: root_subtrees -/

theorem forced_iff (F : Forest) (f : Flag) (x : Path) (hx : F.HasNode x) :
    Forced F f x ↔ F.Marked x f ∨ (∃ i, x = [i]) ∨ ∃ a, F.Marked a f ∧ x ∈ UpSet F a := by
  constructor
  · intro h
    -- strengthen: the set is closed under the rules
    have key : ∀ y, Forced F f y → F.Marked y f ∨ (∃ i, y = [i]) ∨
        ∃ a, F.Marked a f ∧ y ∈ UpSet F a := by
      intro y hy
      induction hy with
      | old h => exact Or.inl h
      | root h => exact Or.inr (Or.inl ⟨_, rfl⟩)
      | @parent a i ha _ ih =>
        rcases ih with h | ⟨j, h⟩ | ⟨b, hb, c, hc, h⟩
        · refine Or.inr (Or.inr ⟨_, h, a, ?_, Or.inl rfl⟩)
          rw [mem_ancestors]; exact ⟨ha, List.prefix_append _ _, by simp⟩
        · have := congrArg List.length h
          simp at this; exact absurd this ha
        · refine Or.inr (Or.inr ⟨b, hb, a, ?_, Or.inl rfl⟩)
          rw [mem_ancestors] at hc ⊢
          obtain ⟨hc0, hc1, hc2⟩ := hc
          rcases h with rfl | ⟨j, h, -⟩
          · refine ⟨ha, (List.prefix_append _ _).trans hc1, ?_⟩
            rintro rfl
            have := hc1.length_le; simp at this; omega
          · have : a = c := by
              have h' := congrArg List.dropLast h
              simpa using h'
            subst this
            exact ⟨hc0, hc1, hc2⟩
      | @sibling a i j ha _ hn ih =>
        rcases ih with h | ⟨k, h⟩ | ⟨b, hb, c, hc, h⟩
        · refine Or.inr (Or.inr ⟨_, h, a, ?_, Or.inr ⟨j, rfl, hn⟩⟩)
          rw [mem_ancestors]; exact ⟨ha, List.prefix_append _ _, by simp⟩
        · have := congrArg List.length h
          simp at this; exact absurd this ha
        · refine Or.inr (Or.inr ⟨b, hb, a, ?_, Or.inr ⟨j, rfl, hn⟩⟩)
          rw [mem_ancestors] at hc ⊢
          obtain ⟨hc0, hc1, hc2⟩ := hc
          rcases h with rfl | ⟨k, h, -⟩
          · refine ⟨ha, (List.prefix_append _ _).trans hc1, ?_⟩
            rintro rfl
            have := hc1.length_le; simp at this; omega
          · have : a = c := by
              have h' := congrArg List.dropLast h
              simpa using h'
            subst this
            exact ⟨hc0, hc1, hc2⟩
    exact key x h
  · -- every ancestor of a forced node is forced
    have hanc : ∀ a, Forced F f a → ∀ b, b ≠ [] → b <+: a → Forced F f b := by
      rintro a ha b hb ⟨q, rfl⟩
      induction q using List.reverseRecOn with
      | nil => simpa using ha
      | append_singleton q i ih =>
        rw [← List.append_assoc] at ha
        exact ih (Forced.parent (by simp [hb]) ha)
    rintro (h | ⟨i, rfl⟩ | ⟨a, ha, b, hb, h⟩)
    · exact Forced.old h
    · exact Forced.root hx
    · rw [mem_ancestors] at hb
      obtain ⟨hb0, hb1, hb2⟩ := hb
      rcases h with rfl | ⟨j, rfl, hn⟩
      · exact hanc a (Forced.old ha) _ hb0 hb1
      · obtain ⟨q, rfl⟩ := hb1
        cases q with
        | nil => simp at hb2
        | cons k q =>
          exact Forced.sibling hb0 (hanc _ (Forced.old ha) (b ++ [k]) (by simp) ⟨q, by simp⟩) hn

/-- C03: the exact effect of `root_subtrees(f)`.  Nodes and all attributes other than flags
are unchanged, and a node carries flag `g` afterwards iff it did before, or `g = f` and the
node is forced by the closure rules. -/
theorem C03_root_subtrees_exact (F : Forest) (f : Flag) :
    SameUpToFlags F (F.rootSubtrees f) ∧
    ∀ a g, (F.rootSubtrees f).Marked a g ↔
      F.Marked a g ∨ (g = f ∧ F.HasNode a ∧ Forced F f a) := by
  have hM := F.rootSubtrees_markedOn f
  constructor
  · intro a
    by_cases ha : a ∈ {x | (∃ i, x = [i]) ∨ ∃ a, F.Marked a f ∧ x ∈ UpSet F a}
    · rw [hM.view_mem ha]; cases F.view? a <;> simp [View.mapFlags]
    · rw [hM.view_not_mem ha]
  · intro a g
    rw [hM.marked_iff]
    constructor
    · rintro (h | ⟨rfl, h, hn⟩)
      · exact Or.inl h
      · exact Or.inr ⟨rfl, hn, (forced_iff F g a hn).2 (Or.inr h)⟩
    · rintro (h | ⟨rfl, hn, h⟩)
      · exact Or.inl h
      · rcases (forced_iff F g a hn).1 h with h | h
        · exact Or.inl h
        · exact Or.inr ⟨rfl, h, hn⟩

theorem SameUpToFlags.hasNode {F F' : Forest} (h : SameUpToFlags F F') (a : Path) :
    F'.HasNode a ↔ F.HasNode a := by
  rw [Forest.hasNode_iff_view, Forest.hasNode_iff_view]
  have := congrArg Option.isSome (h a)
  simp only [Option.isSome_map] at this
  rw [this]

/-- C03: the result is rooted. -/
theorem C03_root_subtrees_rooted (F : Forest) (f : Flag) : (F.rootSubtrees f).Rooted f := by
  obtain ⟨h1, h2⟩ := C03_root_subtrees_exact F f
  constructor
  · intro i hi
    rw [h1.hasNode] at hi
    exact (h2 _ _).2 (Or.inr ⟨rfl, hi, Forced.root hi⟩)
  · intro a i ha hm
    have hn : F.HasNode (a ++ [i]) := (h1.hasNode _).1 hm.hasNode
    have hf : Forced F f (a ++ [i]) := by
      rcases (h2 _ _).1 hm with h | h
      · exact Forced.old h
      · exact h.2.2
    refine ⟨(h2 _ _).2 (Or.inr ⟨rfl, hn.prefix (List.prefix_append _ _) ha,
      Forced.parent ha hf⟩), fun j hj => ?_⟩
    rw [h1.hasNode] at hj
    exact (h2 _ _).2 (Or.inr ⟨rfl, hj, Forced.sibling ha hf hj⟩)

/-- C03: the result is the least rooted marking that contains the given one. -/
theorem C03_root_subtrees_least (F : Forest) (f : Flag) (S : Path → Prop)
    (hold : ∀ a, F.Marked a f → S a) (hroot : ∀ i, F.HasNode [i] → S [i])
    (hcl : ∀ a i, a ≠ [] → S (a ++ [i]) → S a ∧ ∀ j, F.HasNode (a ++ [j]) → S (a ++ [j])) :
    ∀ a, (F.rootSubtrees f).Marked a f → S a := by
  intro a ha
  have hf : Forced F f a := by
    rcases ((C03_root_subtrees_exact F f).2 a f).1 ha with h | h
    · exact Forced.old h
    · exact h.2.2
  clear ha
  induction hf with
  | old h => exact hold _ h
  | root h => exact hroot _ h
  | parent ha _ ih => exact (hcl _ _ ha ih).1
  | sibling ha _ hn ih => exact (hcl _ _ ha ih).2 _ hn

/-- C03: on a rooted subforest the call changes nothing. -/
theorem C03_root_subtrees_of_rooted (F : Forest) (f : Flag) (h : F.Rooted f) :
    F.rootSubtrees f = F := by
  have hS : ∀ a, (F.rootSubtrees f).Marked a f → F.Marked a f :=
    C03_root_subtrees_least F f (fun a => F.Marked a f) (fun _ h => h) h.1 h.2
  have hM := F.rootSubtrees_markedOn f
  apply Forest.ext_view
  intro b
  by_cases hb : b ∈ {x | (∃ i, x = [i]) ∨ ∃ a, F.Marked a f ∧ x ∈ UpSet F a}
  · rw [hM.view_mem hb]
    cases hv : F.view? b with
    | none => rfl
    | some v =>
      have hn : F.HasNode b := by rw [Forest.hasNode_iff_view, hv]; rfl
      have := hS b ((hM.marked_iff b f).2 (Or.inr ⟨rfl, hb, hn⟩))
      rw [Forest.marked_iff_view, hv] at this
      obtain ⟨v', hv', hf⟩ := this
      cases hv'
      simp only [Option.map_some, View.mapFlags, Finset.insert_eq_self.2 hf]
  · rw [hM.view_not_mem hb]

/-- C03: the operation is idempotent. -/
theorem C03_root_subtrees_idempotent (F : Forest) (f : Flag) :
    (F.rootSubtrees f).rootSubtrees f = F.rootSubtrees f :=
  C03_root_subtrees_of_rooted _ _ (C03_root_subtrees_rooted F f)

/-- Non-vacuity: flag 7 marks a grandchild only, so the closure is a proper extension. -/
example : exForest.Marked [0, 1, 0] 7 ∧ ¬ exForest.Marked [0] 7 ∧
    (exForest.rootSubtrees 7).Marked [0] 7 := by
  refine ⟨⟨_, rfl, by decide⟩, ?_, ?_⟩
  · rintro ⟨t, ht, hf⟩
    cases ht; revert hf; decide
  · exact (C03_root_subtrees_rooted exForest 7).1 0
      (((C03_root_subtrees_exact exForest 7).1.hasNode [0]).2 rfl)

/-! ## C04: subtrees_rooted -/

theorem rootedAt_iff (F : Forest) (f : Flag) (a : Path) :
    F.rootedAt f a = true ↔ (F.Marked a f → ∀ b, b ≠ [] → b <+: a → b ≠ a →
      F.Marked b f ∧ ∀ j, F.HasNode (b ++ [j]) → F.Marked (b ++ [j]) f) := by
  unfold Forest.rootedAt
  by_cases hm : F.Marked a f
  · rw [if_pos ((F.isMarked_iff a f).2 hm)]
    simp only [List.all_eq_true, Bool.and_eq_true, mem_ancestors, Forest.isMarked_iff, hm,
      true_imp_iff]
    constructor
    · intro h b h1 h2 h3
      refine ⟨(h b ⟨h1, h2, h3⟩).1, fun j hj => ?_⟩
      exact (h b ⟨h1, h2, h3⟩).2 _ ((F.mem_childPaths _ _ h1).2 ⟨j, rfl, hj⟩)
    · rintro h b ⟨h1, h2, h3⟩
      refine ⟨(h b h1 h2 h3).1, fun c hc => ?_⟩
      obtain ⟨j, rfl, hj⟩ := (F.mem_childPaths _ _ h1).1 hc
      exact (h b h1 h2 h3).2 j hj
  · rw [if_neg (by rw [F.isMarked_iff]; exact hm)]
    simp [hm]

theorem Forest.range_hasNode (F : Forest) (i : Nat) : i < F.trees.length ↔ F.HasNode [i] := by
  constructor
  · intro h; unfold Forest.HasNode; rw [Forest.get?_singleton]; simp [h]
  · exact F.trees_length_of_hasNode

/-- C04: `subtrees_rooted(f)` returns `True` exactly for rooted subforests. -/
theorem C04_subtrees_rooted_iff (F : Forest) (f : Flag) :
    F.subtreesRooted (some f) = true ↔ F.Rooted f := by
  unfold Forest.subtreesRooted
  simp only [List.all_eq_true, List.mem_range, Bool.and_eq_true, Forest.isMarked_iff]
  constructor
  · intro h
    have hroot : ∀ i, F.HasNode [i] → F.Marked [i] f :=
      fun i hi => (h i ((F.range_hasNode i).2 hi)).1
    refine ⟨hroot, ?_⟩
    intro a i ha hm
    obtain ⟨x, p, rfl⟩ : ∃ x p, a = x :: p := by
      cases a with
      | nil => exact absurd rfl ha
      | cons x p => exact ⟨x, p, rfl⟩
    have hx : F.HasNode [x] := hm.hasNode.prefix (by simp) (by simp)
    have h2 := (h x ((F.range_hasNode x).2 hx)).2
    cases hg : F.get? [x] with
    | none => simp [Forest.HasNode, hg] at hx
    | some t =>
      simp only [hg, List.all_eq_true] at h2
      have hmem : (x :: p ++ [i]) ∈ (t.traverse [x] none .depthFirst).map (·.1) := by
        obtain ⟨s, hs, -⟩ := hm
        rw [show x :: p ++ [i] = [x] ++ (p ++ [i]) by simp, Forest.get?_append _ _ _ (by simp),
          hg] at hs
        simp only [List.mem_map, Prod.exists, exists_and_right, exists_eq_right]
        refine ⟨s, ?_⟩
        rw [Tree.mem_traverse]
        exact ⟨⟨p ++ [i], by simp, by simpa using hs⟩, by simp⟩
      exact (rootedAt_iff F f _).1 (h2 _ hmem) hm (x :: p) ha (List.prefix_append _ _) (by simp)
  · intro h i hi
    refine ⟨h.1 i ((F.range_hasNode i).1 hi), ?_⟩
    have hanc : ∀ a, F.Marked a f → ∀ b, b ≠ [] → b <+: a → F.Marked b f := by
      rintro a ha b hb ⟨q, rfl⟩
      induction q using List.reverseRecOn with
      | nil => simpa using ha
      | append_singleton q i ih =>
        rw [← List.append_assoc] at ha
        exact ih (h.2 _ _ (by simp [hb]) ha).1
    cases hg : F.get? [i] with
    | none => rfl
    | some t =>
      simp only [List.all_eq_true]
      intro a _
      rw [rootedAt_iff]
      intro hm b hb hba hne
      refine ⟨hanc a hm b hb hba, ?_⟩
      obtain ⟨q, rfl⟩ := hba
      cases q with
      | nil => simp at hne
      | cons k q =>
        exact (h.2 b k hb (hanc _ hm (b ++ [k]) (by simp) ⟨q, by simp⟩)).2

/-- C04: without a flag the answer is `True`; after `root_subtrees(f)` it is `True`. -/
theorem C04_subtrees_rooted_after (F : Forest) (f : Flag) :
    F.subtreesRooted none = true ∧ (F.rootSubtrees f).subtreesRooted (some f) = true :=
  ⟨rfl, (C04_subtrees_rooted_iff _ _).2 (C03_root_subtrees_rooted F f)⟩

/-- Non-vacuity: both answers occur. -/
example : exForest.subtreesRooted (some 5) = true ∧ exForest.subtreesRooted (some 7) = false := by
  refine ⟨(C04_subtrees_rooted_iff _ _).2 exForest_rooted, ?_⟩
  rw [← Bool.not_eq_true, C04_subtrees_rooted_iff]
  intro h
  obtain ⟨t, ht, hf⟩ := h.1 0 rfl
  cases ht; revert hf; decide

/-! ## C07: marking -/

/-- Observable effect of changing the flags of exactly the nodes selected by `S` by `g`. -/
def FlagsChanged (F F' : Forest) (S : Path → Prop) (g : Finset Flag → Finset Flag) : Prop :=
  ∀ b, (S b → F'.view? b = (F.view? b).map (fun v => ({ v.1 with flags := g v.1.flags }, v.2))) ∧
    (¬ S b → F'.view? b = F.view? b)

/-- C07: `mark`/`unmark` without recursion change the flags of the node itself only. -/
theorem C07_mark_single (F : Forest) (a : Path) (flag : Option Flag) :
    FlagsChanged F (F.mark a flag) (fun b => b = a) (addFlag flag) ∧
    FlagsChanged F (F.unmark a flag) (fun b => b = a) (removeFlag flag) := by
  refine ⟨fun b => ⟨fun h => ?_, fun h => ?_⟩, fun b => ⟨fun h => ?_, fun h => ?_⟩⟩ <;>
    simp only [Forest.mark, Forest.unmark] <;> rw [Forest.view?_modify_mapFlags'] <;>
    simp [h] <;> rfl

/-- C07: `recursive=True` reaches exactly the node and its descendants. -/
theorem C07_mark_recursive (F : Forest) (a : Path) (flag : Option Flag) (ha : a ≠ []) :
    FlagsChanged F (F.markRec a flag) (fun b => a <+: b) (addFlag flag) ∧
    FlagsChanged F (F.unmarkRec a flag) (fun b => a <+: b) (removeFlag flag) := by
  refine ⟨fun b => ⟨fun h => ?_, fun h => ?_⟩, fun b => ⟨fun h => ?_, fun h => ?_⟩⟩ <;>
    simp only [Forest.markRec, Forest.unmarkRec] <;>
    rw [Forest.view?_modify_mapFlagsRec _ _ _ _ ha] <;> simp [h] <;> rfl

/-- C07: `recursive=True, reverse=True` reaches exactly the node and its ancestors. -/
theorem C07_mark_reverse (F : Forest) (a : Path) (flag : Option Flag) (ha : a ≠ []) :
    FlagsChanged F (F.markUp a flag) (fun b => b ≠ [] ∧ b <+: a) (addFlag flag) ∧
    FlagsChanged F (F.unmarkUp a flag) (fun b => b ≠ [] ∧ b <+: a) (removeFlag flag) := by
  refine ⟨fun b => ?_, fun b => ?_⟩
  · have h := view?_foldl_mapFlags F (addFlag flag) (chainUp a) (addFlag_idem flag) b
    constructor <;> intro hb
    · rw [if_pos ((mem_chainUp a b ha).2 hb)] at h; exact h
    · rw [if_neg (fun h' => hb ((mem_chainUp a b ha).1 h'))] at h; exact h
  · have h := view?_foldl_mapFlags F (removeFlag flag) (chainUp a) (removeFlag_idem flag) b
    constructor <;> intro hb
    · rw [if_pos ((mem_chainUp a b ha).2 hb)] at h; exact h
    · rw [if_neg (fun h' => hb ((mem_chainUp a b ha).1 h'))] at h; exact h

/-- C07: the flag-set laws: `mark(f)` adds exactly `f` (the flag `True` if none is given),
`unmark(f)` removes exactly `f` (all flags if none is given), and `is_marked` reports
membership (non-emptiness if no flag is given). -/
theorem C07_flag_laws (s : Finset Flag) (f g : Flag) (t : Tree) :
    (g ∈ addFlag (some f) s ↔ g = f ∨ g ∈ s) ∧ addFlag none s = addFlag (some flagTrue) s ∧
    (g ∈ removeFlag (some f) s ↔ g ≠ f ∧ g ∈ s) ∧ removeFlag none s = ∅ ∧
    (t.isMarked (some f) = true ↔ f ∈ t.info.flags) ∧
    (t.isMarked none = true ↔ ∃ h, h ∈ t.info.flags) := by
  refine ⟨by simp [addFlag], rfl, by simp [removeFlag], rfl, by simp [Tree.isMarked], ?_⟩
  simp [Tree.isMarked, Finset.eq_empty_iff_forall_notMem]

/-- C07: `record(f)` marks every node of the forest. -/
theorem C07_record (F : Forest) (flag : Option Flag) :
    FlagsChanged F (F.record flag) (fun _ => True) (addFlag flag) := by
  intro b
  refine ⟨fun _ => ?_, fun h => absurd trivial h⟩
  unfold Forest.record
  rw [view?_foldl_markRec]
  cases b with
  | nil => simp
  | cons i p =>
    by_cases hi : i < F.trees.length
    · rw [if_pos ⟨i, hi, rfl⟩]; rfl
    · rw [if_neg (by rintro ⟨j, hj, h⟩; simp at h; omega)]
      have : F.view? (i :: p) = none := by
        unfold Forest.view?
        rw [Forest.get?_cons, List.getElem?_eq_none (by omega)]; rfl
      rw [this]; rfl

/-- Non-vacuity: `[0, 1]` is a node with proper descendants and a proper ancestor. -/
example : exForest.HasNode [0, 1] ∧ exForest.HasNode [0, 1, 0] ∧ exForest.HasNode [0] :=
  ⟨rfl, rfl, rfl⟩

/-! ## C08: addresses (query part; histories are treated in `History`) -/

/-- C08: searching the path of a node finds the node. -/
theorem C08_find_node (F : Forest) (a : Path) (t : Tree) (h : F.get? a = some t) :
    F.findNode a = .ok (.node a t) := findNode_found F a t h

/-! ## C09: nearest flagged ancestor -/

/-- `b` is the deepest node among the nonempty prefixes of `a` selected by `S`. -/
def DeepestOn (S : Path → Prop) (a b : Path) : Prop :=
  (b ≠ [] ∧ b <+: a ∧ S b) ∧ ∀ c, c ≠ [] → c <+: a → S c → c <+: b

theorem chainUp_of_len_gt (a : Path) (h : 1 < a.length) :
    chainUp a = a :: chainUp a.dropLast := by
  rw [chainUp, if_neg (by omega)]

theorem dropLast_prefix_of_ne {a c : Path} (h : c <+: a) (hne : c ≠ a) : c <+: a.dropLast := by
  by_cases ha : a = []
  · subst ha; simp at h; exact absurd h hne
  rw [← List.dropLast_append_getLast ha] at h
  rcases List.prefix_concat_iff.1 h with h | h
  · exact absurd (h.trans (List.dropLast_append_getLast ha)) hne
  · exact h

/-- Stored depths are correct: depth + 1 is the length of the path. -/
def Forest.DepthOK (F : Forest) : Prop := ∀ a t, F.get? a = some t → t.info.depth + 1 = a.length

theorem Forest.DepthOK.depthAt {F : Forest} (h : F.DepthOK) {a : Path} (ha : F.HasNode a) :
    F.depthAt a + 1 = a.length := by
  unfold Forest.depthAt
  cases hg : F.get? a with
  | none => simp [Forest.HasNode, hg] at ha
  | some t => exact h a t hg

theorem nearestLoop_chainUp (F : Forest) (f : Flag) (hd : F.DepthOK) (a : Path)
    (ha : F.HasNode a) :
    (∃ b, F.nearestLoop f (chainUp a) = .ok (some b) ∧ DeepestOn (fun c => F.Marked c f) a b) ∨
    (F.nearestLoop f (chainUp a) = .ok none ∧ ∀ c, c ≠ [] → c <+: a → ¬ F.Marked c f) := by
  induction hn : a.length using Nat.strong_induction_on generalizing a with
  | _ n ih =>
    have ha0 := Forest.hasNode_ne_nil ha
    by_cases hm : F.Marked a f
    · left
      refine ⟨a, ?_, ⟨ha0, List.prefix_refl _, hm⟩, fun c _ h _ => h⟩
      obtain ⟨t, ht⟩ := chainUp_eq a
      rw [ht, Forest.nearestLoop, if_pos ((F.isMarked_iff a f).2 hm)]
    · have hm' : ¬ (F.isMarked a (some f) = true) := by rwa [F.isMarked_iff]
      by_cases hl : a.length ≤ 1
      · right
        have hlen : a.length = 1 := by
          have : a.length ≠ 0 := by simpa using ha0
          omega
        constructor
        · rw [chainUp, if_pos hl, Forest.nearestLoop, if_neg hm', if_pos]
          have := hd.depthAt ha; omega
        · intro c hc0 hc
          have : c = a := by
            have h1 : c.length ≠ 0 := by simpa using hc0
            exact hc.eq_of_length (by have := hc.length_le; omega)
          subst this; exact hm
      · have hd0 : a.dropLast ≠ [] := by
          intro h0
          have := congrArg List.length h0
          simp at this; omega
        have hstep : F.nearestLoop f (chainUp a) = F.nearestLoop f (chainUp a.dropLast) := by
          rw [chainUp_of_len_gt a (by omega), Forest.nearestLoop, if_neg hm', if_neg]
          have := hd.depthAt ha; omega
        rw [hstep]
        have hdn : F.HasNode a.dropLast := ha.prefix (List.dropLast_prefix a) hd0
        rcases ih _ (by simp; omega) a.dropLast hdn rfl with ⟨b, h1, ⟨h2, h3, h4⟩, h5⟩ | ⟨h1, h2⟩
        · left
          refine ⟨b, h1, ⟨h2, h3.trans (List.dropLast_prefix a), h4⟩, fun c hc0 hc hcm => ?_⟩
          refine h5 c hc0 (dropLast_prefix_of_ne hc ?_) hcm
          rintro rfl; exact hm hcm
        · right
          refine ⟨h1, fun c hc0 hc hcm => h2 c hc0 (dropLast_prefix_of_ne hc ?_) hcm⟩
          rintro rfl; exact hm hcm

/-- C09: `nearest_ancestor(f)` returns the deepest marked node on the path from the root to
the node itself, `None` iff there is none, and never fails. -/
theorem C09_nearest_ancestor (F : Forest) (hd : F.DepthOK) (a : Path) (ha : F.HasNode a)
    (f : Flag) :
    (∃ b, F.nearestAncestor a (some f) = .ok (some b) ∧
      DeepestOn (fun c => F.Marked c f) a b) ∨
    (F.nearestAncestor a (some f) = .ok none ∧ ∀ c, c ≠ [] → c <+: a → ¬ F.Marked c f) :=
  nearestLoop_chainUp F f hd a ha

/-- C09: without a flag the node itself is returned. -/
theorem C09_nearest_ancestor_none (F : Forest) (a : Path) :
    F.nearestAncestor a none = .ok (some a) := rfl

theorem getParent_flag (F : Forest) (f : Flag) (a : Path) :
    (∃ b, F.getParent a (some f) = some b ∧
      DeepestOn (fun c => F.Marked c f ∧ c ≠ a) a b) ∨
    (F.getParent a (some f) = none ∧ ∀ c, c ≠ [] → c <+: a → c ≠ a → ¬ F.Marked c f) := by
  unfold Forest.getParent
  simp only
  induction hn : a.length using Nat.strong_induction_on generalizing a with
  | _ n ih =>
    by_cases hl : a.length ≤ 1
    · right
      rw [ancestors_of_len_le a hl]
      refine ⟨rfl, fun c hc0 hc hne => ?_⟩
      have h1 : c.length ≠ 0 := by simpa using hc0
      exact absurd (hc.eq_of_length (by have := hc.length_le; omega)) hne
    · have hd0 : a.dropLast ≠ [] := by
        intro h0
        have := congrArg List.length h0
        simp at this; omega
      have hdne : a.dropLast ≠ a := by
        intro h0
        have := congrArg List.length h0
        simp at this; omega
      rw [ancestors_of_len_gt a (by omega), List.find?_cons]
      by_cases hm : F.Marked a.dropLast f
      · left
        have : F.isMarked a.dropLast (some f) = true := (F.isMarked_iff _ _).2 hm
        simp only [this]
        refine ⟨a.dropLast, rfl, ⟨hd0, List.dropLast_prefix a, hm, hdne⟩, ?_⟩
        rintro c hc0 hc ⟨hcm, hne⟩
        exact dropLast_prefix_of_ne hc hne
      · have : F.isMarked a.dropLast (some f) = false := by
          rw [← Bool.not_eq_true, F.isMarked_iff]; exact hm
        simp only [this]
        rcases ih _ (by simp; omega) a.dropLast rfl with ⟨b, h1, ⟨h2, h3, h4⟩, h5⟩ | ⟨h1, h2⟩
        · left
          refine ⟨b, h1, ⟨h2, h3.trans (List.dropLast_prefix a), h4.1, ?_⟩, ?_⟩
          · rintro rfl
            have := h3.length_le; simp at this; omega
          · rintro c hc0 hc ⟨hcm, hne⟩
            refine h5 c hc0 (dropLast_prefix_of_ne hc hne) ⟨hcm, ?_⟩
            rintro rfl; exact hm hcm
        · right
          refine ⟨h1, fun c hc0 hc hne hcm => ?_⟩
          refine h2 c hc0 (dropLast_prefix_of_ne hc hne) ?_ hcm
          rintro rfl; exact hm hcm

/-- C09: `get_parent(f)` returns the deepest marked *proper* ancestor, `None` iff there is none. -/
theorem C09_get_parent (F : Forest) (f : Flag) (a : Path) :
    (∃ b, F.getParent a (some f) = some b ∧
      DeepestOn (fun c => F.Marked c f ∧ c ≠ a) a b) ∨
    (F.getParent a (some f) = none ∧ ∀ c, c ≠ [] → c <+: a → c ≠ a → ¬ F.Marked c f) :=
  getParent_flag F f a

theorem exForest_depthOK : exForest.DepthOK := by
  intro a t ht
  rcases a with _ | ⟨x, a⟩
  · simp at ht
  rcases x with _ | _ | x
  · rcases a with _ | ⟨y, a⟩
    · cases ht; rfl
    rcases y with _ | _ | y
    · rcases a with _ | ⟨z, a⟩
      · cases ht; rfl
      · rcases z with _ | _ | z <;>
          simp [Forest.get?, exForest, Tree.get?, Tree.kids, exLeaf] at ht
    · rcases a with _ | ⟨z, a⟩
      · cases ht; rfl
      rcases z with _ | _ | z
      · rcases a with _ | ⟨w, a⟩
        · cases ht; rfl
        · rcases w with _ | _ | w <;>
            simp [Forest.get?, exForest, Tree.get?, Tree.kids, exLeaf] at ht
      · rcases a with _ | ⟨w, a⟩
        · cases ht; rfl
        · rcases w with _ | _ | w <;>
            simp [Forest.get?, exForest, Tree.get?, Tree.kids, exLeaf] at ht
      · simp [Forest.get?, exForest, Tree.get?, Tree.kids] at ht
    · simp [Forest.get?, exForest, Tree.get?, Tree.kids] at ht
  · rcases a with _ | ⟨y, a⟩
    · cases ht; rfl
    rcases y with _ | _ | y <;> simp [Forest.get?, exForest, Tree.get?, Tree.kids] at ht
  · simp [Forest.get?, exForest] at ht

/-- Non-vacuity: the example satisfies the hypotheses at depth 2. -/
example : exForest.DepthOK ∧ exForest.HasNode [0, 1, 0] := ⟨exForest_depthOK, rfl⟩

/-! ## C10: contains -/

theorem containsLoop_iff (F : Forest) (hd : F.DepthOK) (a b : Path) (ha : F.HasNode a)
    (hb : F.HasNode b) (hlen : a.length ≤ b.length) (hne : b ≠ a) :
    F.containsLoop a b (ancestors b) = .ok (decide (a <+: b)) := by
  induction hn : b.length using Nat.strong_induction_on generalizing b with
  | _ n ih =>
    have hda := hd.depthAt ha
    have hdb := hd.depthAt hb
    have ha0 : a.length ≠ 0 := by simpa using Forest.hasNode_ne_nil ha
    by_cases hl : b.length ≤ 1
    · have hnp : ¬ a <+: b := fun h => hne (h.eq_of_length (by omega)).symm
      rw [ancestors_of_len_le b hl, Forest.containsLoop, if_neg (by omega)]
      simp [hnp]
    · rw [ancestors_of_len_gt b (by omega), Forest.containsLoop]
      by_cases hgt : F.depthAt b > F.depthAt a
      · rw [if_pos hgt]
        by_cases he : a = b.dropLast
        · rw [if_pos he]
          have : a <+: b := by rw [he]; exact List.dropLast_prefix b
          simp [this]
        · rw [if_neg he]
          have hd0 : b.dropLast ≠ [] := by
            intro h0
            have := congrArg List.length h0
            simp at this; omega
          rw [ih _ (by simp; omega) b.dropLast (hb.prefix (List.dropLast_prefix b) hd0)
            (by simp; omega) (fun h => he h.symm) rfl]
          congr 1
          rw [decide_eq_decide]
          constructor
          · exact fun h => h.trans (List.dropLast_prefix b)
          · exact fun h => dropLast_prefix_of_ne h (fun h' => hne h'.symm)
      · rw [if_neg hgt]
        have hnp : ¬ a <+: b := fun h => hne (h.eq_of_length (by omega)).symm
        simp [hnp]

/-- C10: `a.contains(b)` never fails and answers whether `a` lies on the path from the root
to `b`. -/
theorem C10_contains_iff (F : Forest) (hd : F.DepthOK) (a b : Path) (ha : F.HasNode a)
    (hb : F.HasNode b) : F.contains a b = .ok (decide (a <+: b)) := by
  unfold Forest.contains
  have hda := hd.depthAt ha
  have hdb := hd.depthAt hb
  split
  · have hnp : ¬ a <+: b := fun h => by have := h.length_le; omega
    simp [hnp]
  · split
    · rename_i h; subst h; simp
    · rename_i h1 h2
      exact containsLoop_iff F hd a b ha hb (by omega) h2

/-- C10: containment is a partial order on nodes. -/
theorem C10_contains_order (F : Forest) (hd : F.DepthOK) (a b c : Path) (ha : F.HasNode a)
    (hb : F.HasNode b) (hc : F.HasNode c) :
    F.contains a a = .ok true ∧
    (F.contains a b = .ok true → F.contains b a = .ok true → a = b) ∧
    (F.contains a b = .ok true → F.contains b c = .ok true → F.contains a c = .ok true) := by
  rw [C10_contains_iff F hd a a ha ha, C10_contains_iff F hd a b ha hb,
    C10_contains_iff F hd b a hb ha, C10_contains_iff F hd b c hb hc,
    C10_contains_iff F hd a c ha hc]
  simp only [Except.ok.injEq, decide_eq_true_eq]
  exact ⟨List.prefix_refl _, fun h1 h2 => h1.eq_of_length (le_antisymm h1.length_le h2.length_le),
    fun h1 h2 => h1.trans h2⟩

/-! ## C11: is_contained_in -/

/-- C11: for a flag `t` and a reference flag `r`, the answer is `True` iff the flags are equal
or every leaf of subforest `t` has itself or an ancestor marked `r`. -/
theorem C11_is_contained_in_iff (F : Forest) (t r : Flag) :
    F.isContainedIn (some t) (some r) = true ↔
      t = r ∨ ∀ a, F.IsLeaf (some t) a → ∃ b, b ≠ [] ∧ b <+: a ∧ F.Marked b r := by
  unfold Forest.isContainedIn
  simp only [Option.some.injEq]
  split
  · rename_i h; subst h; simp
  · rename_i hne
    have hne' : t ≠ r := fun h => hne h.symm
    simp only [hne', false_or, List.all_eq_true]
    constructor
    · intro h a ha
      have hmem : a ∈ (F.getLeaves none (some t) .breadthFirst).map (·.1) :=
        ((C02_get_leaves F none (some t) .breadthFirst).1 a).2 ⟨ha, by simp⟩
      obtain ⟨it, hit, rfl⟩ := List.mem_map.1 hmem
      have h1 := h it hit
      by_cases hm : F.Marked it.1 r
      · exact ⟨it.1, Forest.hasNode_ne_nil hm.hasNode, List.prefix_refl _, hm⟩
      · rw [if_neg (by rw [F.isMarked_iff]; exact hm)] at h1
        rcases getParent_flag F r it.1 with ⟨b, -, ⟨h2, h3, h4, -⟩, -⟩ | ⟨h2, -⟩
        · exact ⟨b, h2, h3, h4⟩
        · rw [h2] at h1; simp at h1
    · intro h it hit
      have hmem : it.1 ∈ (F.getLeaves none (some t) .breadthFirst).map (·.1) :=
        List.mem_map_of_mem hit
      have hl := (((C02_get_leaves F none (some t) .breadthFirst).1 it.1).1 hmem).1
      obtain ⟨b, hb0, hb1, hb2⟩ := h it.1 hl
      by_cases hm : F.Marked it.1 r
      · rw [if_pos ((F.isMarked_iff _ _).2 hm)]
      · rw [if_neg (by rw [F.isMarked_iff]; exact hm)]
        rcases getParent_flag F r it.1 with ⟨c, h2, -⟩ | ⟨-, h3⟩
        · rw [h2]; rfl
        · exact absurd hb2 (h3 b hb0 hb1 (by rintro rfl; exact hm hb2))

/-- C11: the unflagged forest counts as contained in every subforest, and every subforest as
contained in the unflagged forest. -/
theorem C11_is_contained_in_none (F : Forest) (t r : Option Flag) :
    F.isContainedIn none r = true ∧ F.isContainedIn t none = true := by
  refine ⟨rfl, ?_⟩
  cases t with
  | none => rfl
  | some t =>
    unfold Forest.isContainedIn
    simp only [reduceCtorEq, if_false, List.all_eq_true]
    intro it hit
    have hmem : it.1 ∈ (F.getLeaves none (some t) .breadthFirst).map (·.1) :=
      List.mem_map_of_mem hit
    have hl := (((C02_get_leaves F none (some t) .breadthFirst).1 it.1).1 hmem).1.1
    obtain ⟨s, hs, hf⟩ := hl
    rw [if_pos]
    rw [isMarked_eq hs]
    simp only [Tree.isMarked, decide_eq_true_eq]
    intro h0; rw [h0] at hf; simp at hf

/-! ## C12: depth -/

/-- C12: `tree_depth()` is the maximum of the depths of the nodes. -/
theorem C12_tree_depth (t : Tree) :
    (∀ p s, t.get? p = some s → s.info.depth ≤ t.treeDepth none) ∧
    ∃ p s, t.get? p = some s ∧ s.info.depth = t.treeDepth none := by
  have hub := (treeDepth_le_iff t (t.treeDepth none)).1 le_rfl
  refine ⟨hub, ?_⟩
  by_contra hcon
  have hlt : ∀ p s, t.get? p = some s → s.info.depth < t.treeDepth none := by
    intro p s hs
    refine lt_of_le_of_ne (hub p s hs) fun he => hcon ⟨p, s, hs, he⟩
  have h0 := hlt [] t rfl
  have : t.treeDepth none ≤ t.treeDepth none - 1 :=
    (treeDepth_le_iff t _).2 (fun p s hs => by have := hlt p s hs; omega)
  omega

/-- C12, flags: what `tree_depth(flag)` computes.  The flag selects among the children of the node, not further down: it is the maximum of the node's own depth and
of the depths of all descendants of its marked children, so an upper bound of the depth of a marked subtree; missing: equality, see `C12_flagged_depth_violated`. -/
theorem C12_tree_depth_flag_partial (t : Tree) (f : Flag) :
    t.info.depth ≤ t.treeDepth (some f) ∧
    (∀ i c, t.get? [i] = some c → f ∈ c.info.flags → ∀ p s, c.get? p = some s → s.info.depth ≤ t.treeDepth (some f)) ∧
    (t.treeDepth (some f) = t.info.depth ∨
      ∃ i c, t.get? [i] = some c ∧ f ∈ c.info.flags ∧ ∃ p s, c.get? p = some s ∧ s.info.depth = t.treeDepth (some f)) := by
  have hiff : ∀ m, t.treeDepth (some f) ≤ m ↔ t.info.depth ≤ m ∧
      ∀ i c, t.get? [i] = some c → f ∈ c.info.flags → ∀ p s, c.get? p = some s → s.info.depth ≤ m := by
    intro m
    unfold Tree.treeDepth
    split
    · rename_i hch
      rw [foldl_max_le_iff]
      refine and_congr_right fun _ => ?_
      simp only [treeDepthAll_le_iff, Prod.forall]
      constructor
      · intro h i c hc hf
        exact h i c ((mem_getChildren _ _ _ _ _).2 ⟨Tree.get?_singleton_eq_some.1 hc, by simpa using hf⟩)
      · intro h i c hc
        obtain ⟨h1, h2⟩ := (mem_getChildren _ _ _ _ _).1 hc
        exact h i c (Tree.get?_singleton_eq_some.2 h1) (by simpa using h2)
    · rename_i hch
      constructor
      · intro h
        refine ⟨h, fun i c hc _ => ?_⟩
        exact absurd ((hasChildren_iff t none).2 ⟨i, c, by simpa [Tree.get?_singleton_eq_some] using hc, by simp⟩) hch
      · exact fun h => h.1
  obtain ⟨h1, h2⟩ := (hiff _).1 le_rfl
  refine ⟨h1, h2, ?_⟩
  by_contra hcon
  rw [not_or] at hcon
  obtain ⟨h0, hcon⟩ := hcon
  have : t.treeDepth (some f) ≤ t.treeDepth (some f) - 1 := (hiff _).2 ⟨by omega, fun i c hc hf p s hs => by
    have := h2 i c hc hf p s hs
    have hne : s.info.depth ≠ t.treeDepth (some f) := fun he => hcon ⟨i, c, hc, hf, p, s, hs, he⟩
    omega⟩
  omega

/-- Non-vacuity (test): an unmarked child is not followed, an unmarked grandchild is. -/
example : (Tree.node ⟨.root, true, [], 0, {5}⟩ [some (.node ⟨.leaf, true, [0], 1, ∅⟩ [none])]).treeDepth (some 5) = 0 ∧
    (Tree.node ⟨.root, true, [], 0, {5}⟩ [some (.node ⟨.branch, true, [0], 1, {5}⟩ [some (.node ⟨.leaf, true, [0, 0], 2, ∅⟩ [none])])]).treeDepth (some 5) = 2 := by
  decide +kernel

/-- C12: `Forest.depth()` is the maximum of the depths of all nodes of the forest (0 if empty). -/
theorem C12_forest_depth (F : Forest) :
    (∀ a t, F.get? a = some t → t.info.depth ≤ F.depth) ∧
    (F.depth = 0 ∨ ∃ a t, F.get? a = some t ∧ t.info.depth = F.depth) := by
  have hiff : ∀ m, F.depth ≤ m ↔ ∀ a t, F.get? a = some t → t.info.depth ≤ m := by
    intro m
    unfold Forest.depth
    rw [foldl_max_le_iff]
    simp only [Nat.zero_le, true_and, treeDepth_le_iff]
    constructor
    · intro h a t ht
      cases a with
      | nil => simp at ht
      | cons i p =>
        rw [Forest.get?_cons] at ht
        obtain ⟨r, hr, ht⟩ := Option.bind_eq_some_iff.1 ht
        exact h r (List.mem_of_getElem? hr) p t ht
    · intro h r hr p s hs
      obtain ⟨i, hi⟩ := List.mem_iff_getElem?.1 hr
      exact h (i :: p) s (by rw [Forest.get?_cons, hi]; simpa using hs)
  have hub := (hiff F.depth).1 le_rfl
  refine ⟨hub, ?_⟩
  by_contra hcon
  rw [not_or] at hcon
  obtain ⟨h0, hcon⟩ := hcon
  have : F.depth ≤ F.depth - 1 := (hiff _).2 (fun a t ht => by
    have := hub a t ht
    have hne : t.info.depth ≠ F.depth := fun he => hcon ⟨a, t, ht, he⟩
    omega)
  omega

/-- C12 fails for flags (the recursive call drops the flag): a tree whose flagged subtree has
depth 1, but `tree_depth(flag)` answers 2. -/
theorem C12_flagged_depth_violated :
    ∃ (t : Tree) (f : Flag), t.treeDepth (some f) = 2 ∧
      ∀ p s, t.get? p = some s → f ∈ s.info.flags → s.info.depth ≤ 1 := by
  refine ⟨.node ⟨.root, true, [], 0, {5}⟩
    [some (.node ⟨.branch, true, [0], 1, {5}⟩
      [some (.node ⟨.leaf, true, [0, 0], 2, ∅⟩ [none])])], 5, ?_, ?_⟩
  · decide
  · intro p s hs hf
    rcases p with _ | ⟨x, _ | ⟨y, _ | ⟨z, p⟩⟩⟩
    · cases hs; decide
    · rcases x with _ | x
      · cases hs; decide
      · simp [Tree.get?, Tree.kids] at hs
    · rcases x with _ | x
      · rcases y with _ | y
        · cases hs; revert hf; decide
        · simp [Tree.get?, Tree.kids] at hs
      · simp [Tree.get?, Tree.kids] at hs
    · rcases x with _ | x
      · rcases y with _ | y
        · rcases z with _ | z <;> simp [Tree.get?, Tree.kids] at hs
        · simp [Tree.get?, Tree.kids] at hs
      · simp [Tree.get?, Tree.kids] at hs

/-! ## C14: make_rooted_subtree / is_rooted_subtree -/

/-- Nodes of the tree that contains the node `a`. -/
def InTreeOf (a b : Path) : Prop := b ≠ [] ∧ b.head? = a.head?

theorem mem_traverse_root (F : Forest) (a b : Path) (t : Tree) (ht : F.get? (rootPath a) = some t) :
    b ∈ (t.traverse (rootPath a) none .breadthFirst).map (·.1) ↔ F.HasNode b ∧ InTreeOf a b := by
  obtain ⟨i, p, rfl⟩ : ∃ i p, a = i :: p := by
    cases a with
    | nil => simp [rootPath] at ht
    | cons i p => exact ⟨i, p, rfl⟩
  have hrp : rootPath (i :: p) = [i] := by simp [rootPath]
  rw [hrp] at ht ⊢
  simp only [List.mem_map, Prod.exists, exists_and_right, exists_eq_right, Tree.mem_traverse]
  constructor
  · rintro ⟨s, ⟨r, rfl, hs⟩, -⟩
    refine ⟨?_, by simp, by simp⟩
    unfold Forest.HasNode
    rw [Forest.get?_append _ _ _ (by simp), ht]
    simp [hs]
  · rintro ⟨hn, hb0, hb⟩
    obtain ⟨q, rfl⟩ := length_of_head hb
    unfold Forest.HasNode at hn
    rw [show i :: q = [i] ++ q from rfl, Forest.get?_append _ _ _ (by simp), ht] at hn
    obtain ⟨s, hs⟩ := Option.isSome_iff_exists.1 hn
    exact ⟨s, ⟨q, rfl, by simpa using hs⟩, by simp⟩

/-- C14: `is_rooted_subtree(f)` answers whether within the node's tree every ancestor of a
marked node is marked. -/
theorem C14_is_rooted_subtree_iff (F : Forest) (a : Path) (ha : F.HasNode a) (f : Flag) :
    F.isRootedSubtree a f = true ↔
      ∀ b i, b ≠ [] → InTreeOf a b → F.Marked (b ++ [i]) f → F.Marked b f := by
  have ha0 := Forest.hasNode_ne_nil ha
  obtain ⟨i0, p0, rfl⟩ : ∃ i p, a = i :: p := by
    cases a with
    | nil => exact absurd rfl ha0
    | cons i p => exact ⟨i, p, rfl⟩
  have hr : F.HasNode (rootPath (i0 :: p0)) := ha.prefix (by simp [rootPath]) (by simp [rootPath])
  unfold Forest.isRootedSubtree
  cases hg : F.get? (rootPath (i0 :: p0)) with
  | none => simp [Forest.HasNode, hg] at hr
  | some t =>
    simp only [List.all_eq_true]
    constructor
    · intro h b i hb0 hb hm
      have hmem := (mem_traverse_root F (i0 :: p0) (b ++ [i]) t hg).2 ⟨hm.hasNode, by simp, by
        rw [← hb.2]; cases b with
        | nil => exact absurd rfl hb0
        | cons => simp⟩
      have h1 := h _ hmem
      rw [if_pos ((F.isMarked_iff _ _).2 hm)] at h1
      simp only [List.all_eq_true, mem_ancestors, Forest.isMarked_iff] at h1
      exact h1 b ⟨hb0, List.prefix_append _ _, by simp⟩
    · intro h x hx
      split
      · rename_i hm
        rw [F.isMarked_iff] at hm
        simp only [List.all_eq_true, mem_ancestors, Forest.isMarked_iff]
        rintro b ⟨hb0, hb1, -⟩
        have hx' := (mem_traverse_root F (i0 :: p0) x t hg).1 hx
        obtain ⟨q, rfl⟩ := hb1
        have hbt : b.head? = (i0 :: p0).head? := by
          rw [← hx'.2.2]; cases b with
          | nil => exact absurd rfl hb0
          | cons => simp
        clear hx hx'
        induction q using List.reverseRecOn with
        | nil => simpa using hm
        | append_singleton q i ih =>
          rw [← List.append_assoc] at hm
          refine ih (h _ _ (by simp [hb0]) ⟨by simp [hb0], ?_⟩ hm)
          rw [← hbt]; cases b with
          | nil => exact absurd rfl hb0
          | cons => simp
      · rfl

/-- C14: `make_rooted_subtree(f)` marks, in addition to what was marked, exactly the ancestors
of the marked nodes of the tree, and changes nothing else. -/
theorem C14_make_rooted_subtree_exact (F : Forest) (a : Path) (ha : F.HasNode a) (f : Flag) :
    SameUpToFlags F (F.makeRootedSubtree a f) ∧
    ∀ b g, (F.makeRootedSubtree a f).Marked b g ↔
      F.Marked b g ∨ (g = f ∧ InTreeOf a b ∧ ∃ q, F.Marked (b ++ q) f) := by
  have ha0 := Forest.hasNode_ne_nil ha
  have hr : F.HasNode (rootPath a) := ha.prefix (List.take_prefix _ _) (by
    cases a with
    | nil => exact absurd rfl ha0
    | cons => simp [rootPath])
  obtain ⟨t, hg⟩ := Option.isSome_iff_exists.1 hr
  have hmk : F.makeRootedSubtree a f =
      ((t.traverse (rootPath a) none .breadthFirst).map (·.1)).foldl
      (fun F x => if F.isMarked x (some f) then
          (ancestors x).foldl (fun F b => F.mark b (some f)) F else F) F := by
    unfold Forest.makeRootedSubtree; rw [hg]
  -- invariant of the loop
  have hloop : ∀ (l : List Path) (G : Forest) (S : Set Path), MarkedOn F f S G →
      (∀ x ∈ S, ∃ y, F.Marked y f ∧ x ∈ ancestors y ∧ ∀ z ∈ ancestors y, z ∈ S) →
      MarkedOn F f (S ∪ {x | ∃ y ∈ l, F.Marked y f ∧ x ∈ ancestors y})
        (l.foldl (fun F x => if F.isMarked x (some f) then
          (ancestors x).foldl (fun F b => F.mark b (some f)) F else F) G) := by
    intro l
    induction l with
    | nil => intro G S h _; simpa using h
    | cons y l ih =>
      intro G S h hS
      rw [List.foldl_cons]
      have hstep : MarkedOn F f (S ∪ {x | F.Marked y f ∧ x ∈ ancestors y})
          (if G.isMarked y (some f) then
            (ancestors y).foldl (fun F b => F.mark b (some f)) G else G) := by
        split
        · rename_i hm
          rw [Forest.isMarked_iff, h.marked_iff] at hm
          refine (h.trans (foldl_mark_markedOn G f (ancestors y))).congr ?_
          intro x _
          simp only [Set.mem_union, Set.mem_ofPred_eq]
          rcases hm with hm | ⟨-, hy, -⟩
          · simp [hm]
          · obtain ⟨y', h1, h2, h3⟩ := hS y hy
            constructor
            · rintro (h' | h')
              · exact Or.inl h'
              · refine Or.inl (h3 x ?_)
                rw [mem_ancestors] at h2 h' ⊢
                refine ⟨h'.1, h'.2.1.trans h2.2.1, ?_⟩
                rintro rfl
                exact h2.2.2 (h2.2.1.eq_of_length
                  (le_antisymm h2.2.1.length_le h'.2.1.length_le))
            · rintro (h' | h')
              · exact Or.inl h'
              · exact Or.inr h'.2
        · rename_i hm
          rw [Forest.isMarked_iff, h.marked_iff] at hm
          refine h.congr ?_
          intro x _
          have : ¬ F.Marked y f := fun h => hm (Or.inl h)
          simp [this]
      refine (ih _ _ hstep ?_).congr ?_
      · rintro x (hx | hx)
        · obtain ⟨y', h1, h2, h3⟩ := hS x hx
          exact ⟨y', h1, h2, fun z hz => Or.inl (h3 z hz)⟩
        · exact ⟨y, hx.1, hx.2, fun z hz => Or.inr ⟨hx.1, hz⟩⟩
      · intro x _
        simp only [Set.mem_union, Set.mem_ofPred_eq, List.mem_cons, exists_eq_or_imp]
        tauto
  have hM := hloop ((t.traverse (rootPath a) none .breadthFirst).map (·.1)) F ∅
    (MarkedOn.refl F f) (by simp)
  rw [← hmk] at hM
  constructor
  · intro b
    by_cases hb : b ∈ (∅ ∪ {x | ∃ y ∈ (t.traverse (rootPath a) none .breadthFirst).map (·.1),
        F.Marked y f ∧ x ∈ ancestors y} : Set Path)
    · rw [hM.view_mem hb]; cases F.view? b <;> simp [View.mapFlags]
    · rw [hM.view_not_mem hb]
  · intro b g
    rw [hM.marked_iff]
    have hhead : ∀ (b q : Path), b ≠ [] → (b ++ q).head? = b.head? := by
      intro b q hb; cases b with
      | nil => exact absurd rfl hb
      | cons => simp
    constructor
    · rintro (h | ⟨rfl, h, hn⟩)
      · exact Or.inl h
      · simp only [Set.empty_union, Set.mem_ofPred_eq] at h
        obtain ⟨y, hy, hm, hb⟩ := h
        rw [mem_ancestors] at hb
        obtain ⟨hb0, ⟨q, rfl⟩, -⟩ := hb
        have := (mem_traverse_root F a _ t hg).1 hy
        exact Or.inr ⟨rfl, ⟨hb0, by rw [← this.2.2, hhead _ _ hb0]⟩, q, hm⟩
    · rintro (h | ⟨rfl, ⟨hb0, hb⟩, q, hm⟩)
      · exact Or.inl h
      · by_cases hq : q = []
        · subst hq; left; simpa using hm
        · right
          refine ⟨rfl, ?_, hm.hasNode.prefix (List.prefix_append _ _) hb0⟩
          simp only [Set.empty_union, Set.mem_ofPred_eq]
          refine ⟨b ++ q, (mem_traverse_root F a _ t hg).2 ⟨hm.hasNode, by simp [hb0], ?_⟩, hm, ?_⟩
          · rw [hhead _ _ hb0, hb]
          · rw [mem_ancestors]; exact ⟨hb0, List.prefix_append _ _, by simp [hq]⟩

/-- C14: after `make_rooted_subtree(f)`, `is_rooted_subtree(f)` answers `True`. -/
theorem C14_make_rooted_subtree_rooted (F : Forest) (a : Path) (ha : F.HasNode a) (f : Flag) :
    (F.makeRootedSubtree a f).isRootedSubtree a f = true := by
  obtain ⟨h1, h2⟩ := C14_make_rooted_subtree_exact F a ha f
  rw [C14_is_rooted_subtree_iff _ _ ((h1.hasNode a).2 ha)]
  intro b i hb0 hbt hm
  rw [h2] at hm ⊢
  rcases hm with hm | ⟨-, -, q, hm⟩
  · exact Or.inr ⟨rfl, hbt, [i], hm⟩
  · exact Or.inr ⟨rfl, hbt, [i] ++ q, by rw [← List.append_assoc]; exact hm⟩

/-- Non-vacuity: flag 7 of the example is not a rooted subtree. -/
example : exForest.HasNode [0] ∧ exForest.isRootedSubtree [0] 7 = false := by
  refine ⟨rfl, ?_⟩
  rw [← Bool.not_eq_true, C14_is_rooted_subtree_iff _ _ (show exForest.HasNode [0] from rfl)]
  intro h
  have := h [0, 1] 0 (by simp) ⟨by simp, rfl⟩ ⟨_, rfl, by decide⟩
  obtain ⟨t, ht, hf⟩ := this
  cases ht; revert hf; decide

end Verif.Trees
