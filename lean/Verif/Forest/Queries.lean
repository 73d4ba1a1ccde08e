import Verif.Forest.Effects

/-! Helper lemmas: extensionality, recursive marking, depth, address search. -/

namespace Verif.Trees

/-! ### extensionality -/

theorem view_eq_iff {t t' : Tree} (h : t.view = t'.view) :
    t.info = t'.info ∧ ∀ i : Nat, t.kids[i]?.map Option.isSome = t'.kids[i]?.map Option.isSome := by
  simp only [Tree.view, Prod.mk.injEq] at h
  refine ⟨h.1, fun i => ?_⟩
  have := congrArg (fun l => l[i]?) h.2
  simpa using this

theorem Tree.ext_view {t t' : Tree} (h : ∀ p, t.view? p = t'.view? p) : t = t' := by
  induction t using Tree.ind generalizing t' with
  | h inf ks ih =>
    have h0 := h []
    simp only [Tree.view?, Tree.get?_nil, Option.map_some, Option.some.injEq] at h0
    obtain ⟨h1, h2⟩ := view_eq_iff h0
    obtain ⟨inf', ks'⟩ := t'
    simp only [Tree.info_node, Tree.kids_node] at h1 h2
    subst h1
    congr 1
    apply List.ext_getElem?
    intro i
    have hi := h2 i
    have hp : ∀ p, (ks[i]?.join.bind (fun c => c.get? p)).map Tree.view =
        (ks'[i]?.join.bind (fun c => c.get? p)).map Tree.view := by
      intro p
      have := h (i :: p)
      simpa [Tree.view?, Tree.get?_cons] using this
    cases hk : ks[i]? with
    | none => cases hk' : ks'[i]? with
      | none => rfl
      | some o => simp [hk, hk'] at hi
    | some o => cases hk' : ks'[i]? with
      | none => simp [hk, hk'] at hi
      | some o' =>
        simp only [hk, hk', Option.map_some, Option.some.injEq] at hi
        cases o with
        | none => cases o' with
          | none => rfl
          | some c' => simp at hi
        | some c => cases o' with
          | none => simp at hi
          | some c' =>
            have : c = c' := by
              apply ih c (List.mem_of_getElem? hk)
              intro p
              have := hp p
              simpa [hk, hk', Tree.view?] using this
            rw [this]

theorem Forest.ext_view {F F' : Forest} (h : ∀ a, F.view? a = F'.view? a) : F = F' := by
  obtain ⟨ts⟩ := F
  obtain ⟨ts'⟩ := F'
  congr 1
  apply List.ext_getElem?
  intro i
  have hp : ∀ p, (ts[i]?.bind (fun c => c.get? p)).map Tree.view =
      (ts'[i]?.bind (fun c => c.get? p)).map Tree.view := by
    intro p
    have := h (i :: p)
    simpa [Forest.view?, Forest.get?_cons] using this
  cases hk : ts[i]? with
  | none => cases hk' : ts'[i]? with
    | none => rfl
    | some o => have := hp []; simp [hk, hk'] at this
  | some c => cases hk' : ts'[i]? with
    | none => have := hp []; simp [hk, hk'] at this
    | some c' =>
      have : c = c' := by
        apply Tree.ext_view
        intro p
        have := hp p
        simpa [hk, hk', Tree.view?] using this
      rw [this]

/-! ### recursive marking -/

theorem mapFlagsKids_eq (g : Finset Flag → Finset Flag) (ks : List (Option Tree)) :
    Tree.mapFlagsKids g ks = ks.map (Option.map (Tree.mapFlagsRec g)) := by
  induction ks with
  | nil => simp [Tree.mapFlagsKids]
  | cons k ks ih =>
    rw [Tree.mapFlagsKids, ih, List.map_cons]
    cases k <;> simp [Tree.mapFlagsOpt]

theorem mapFlagsRec_eq (g : Finset Flag → Finset Flag) (t : Tree) :
    t.mapFlagsRec g = .node { t.info with flags := g t.info.flags }
      (t.kids.map (Option.map (Tree.mapFlagsRec g))) := by
  cases t; rw [Tree.mapFlagsRec, mapFlagsKids_eq]; rfl

theorem get?_mapFlagsRec (g : Finset Flag → Finset Flag) (t : Tree) (p : Path) :
    (t.mapFlagsRec g).get? p = (t.get? p).map (Tree.mapFlagsRec g) := by
  induction p generalizing t with
  | nil => simp
  | cons i p ih =>
    rw [Tree.get?_cons, Tree.get?_cons, mapFlagsRec_eq]
    simp only [Tree.kids_node, List.getElem?_map]
    cases t.kids[i]? with
    | none => simp
    | some o => cases o <;> simp [ih]

theorem view_mapFlagsRec (g : Finset Flag → Finset Flag) (t : Tree) :
    (t.mapFlagsRec g).view = t.view.mapFlags g := by
  rw [mapFlagsRec_eq]
  simp [Tree.view, View.mapFlags]

theorem Forest.view?_modify_mapFlagsRec (F : Forest) (g : Finset Flag → Finset Flag) (a b : Path)
    (ha : a ≠ []) :
    (F.modify (Tree.mapFlagsRec g) a).view? b =
      if a <+: b then (F.view? b).map (View.mapFlags g) else F.view? b := by
  split
  · rename_i hab
    obtain ⟨q, rfl⟩ := hab
    rw [Forest.view?_modify_append _ _ _ _ ha]
    unfold Forest.view? Tree.view?
    rw [Forest.get?_append _ _ _ ha]
    cases h : F.get? a with
    | none => simp
    | some s =>
      simp only [Option.bind_some, get?_mapFlagsRec, Option.map_map]
      congr 1
      funext x
      exact view_mapFlagsRec g x
  · rename_i hab
    exact Forest.view?_modify_of_not_prefix _ _ _ _ hab

/-- Folding a flag change over a list of paths without repetition. -/
theorem view?_foldl_mapFlags (F : Forest) (g : Finset Flag → Finset Flag) (l : List Path)
    (hg : ∀ s, g (g s) = g s) (b : Path) :
    (l.foldl (fun F a => F.modify (Tree.mapFlags g) a) F).view? b =
      if b ∈ l then (F.view? b).map (View.mapFlags g) else F.view? b := by
  induction l generalizing F with
  | nil => simp
  | cons a l ih =>
    rw [List.foldl_cons, ih, Forest.view?_modify_mapFlags']
    by_cases h1 : b ∈ l <;> by_cases h2 : b = a
    · simp only [h1, if_true, h2, List.mem_cons, true_or]
      cases F.view? a <;> simp [View.mapFlags, hg]
    · simp [h1, h2]
    · simp only [h2, if_true, List.mem_cons, true_or]
      subst h2; simp [h1]
    · simp [h1, h2]

theorem addFlag_idem (flag : Option Flag) (s : Finset Flag) :
    addFlag flag (addFlag flag s) = addFlag flag s := by
  cases flag <;> simp [addFlag]

theorem removeFlag_idem (flag : Option Flag) (s : Finset Flag) :
    removeFlag flag (removeFlag flag s) = removeFlag flag s := by
  cases flag <;> simp [removeFlag]

/-- `record`: every node of every tree. -/
theorem view?_foldl_markRec (F : Forest) (flag : Option Flag) (n : Nat) (b : Path) :
    ((List.range n).foldl (fun F i => F.markRec [i] flag) F).view? b =
      if (∃ i, i < n ∧ b.head? = some i) then (F.view? b).map (View.mapFlags (addFlag flag))
      else F.view? b := by
  induction n with
  | zero => simp
  | succ n ih =>
    rw [List.range_succ, List.foldl_append]
    simp only [List.foldl_cons, List.foldl_nil]
    change (Forest.modify _ (Tree.mapFlagsRec (addFlag flag)) [n]).view? b = _
    rw [Forest.view?_modify_mapFlagsRec _ _ _ _ (by simp), ih]
    have hpre : [n] <+: b ↔ b.head? = some n := by
      cases b with
      | nil => simp
      | cons x b => simp [eq_comm]
    by_cases h1 : b.head? = some n
    · have hno : ¬ ∃ i, i < n ∧ b.head? = some i := by
        rintro ⟨i, hi, h⟩
        rw [h1] at h; simp at h; omega
      have hyes : ∃ i, i < n + 1 ∧ b.head? = some i := ⟨n, by omega, h1⟩
      rw [if_pos (hpre.2 h1), if_neg hno, if_pos hyes]
    · rw [if_neg (fun h => h1 (hpre.1 h))]
      congr 1
      simp only [eq_iff_iff]
      constructor
      · rintro ⟨i, hi, h⟩; exact ⟨i, by omega, h⟩
      · rintro ⟨i, hi, h⟩
        refine ⟨i, ?_, h⟩
        rcases Nat.lt_succ_iff_lt_or_eq.1 hi with h' | h'
        · exact h'
        · subst h'; exact absurd h h1

/-! ### depth -/

theorem treeDepthKids_ge (d : Nat) (ks : List (Option Tree)) : d ≤ Tree.treeDepthKids d ks := by
  induction ks generalizing d with
  | nil => simp [Tree.treeDepthKids]
  | cons k ks ih => rw [Tree.treeDepthKids]; exact le_trans (le_max_left _ _) (ih _)

theorem treeDepthKids_le_iff (d m : Nat) (ks : List (Option Tree)) :
    Tree.treeDepthKids d ks ≤ m ↔ d ≤ m ∧ ∀ c, some c ∈ ks → c.treeDepthAll ≤ m := by
  induction ks generalizing d with
  | nil => simp [Tree.treeDepthKids]
  | cons k ks ih =>
    rw [Tree.treeDepthKids, ih]
    cases k with
    | none => simp [Tree.treeDepthOpt]
    | some c => simp [Tree.treeDepthOpt, and_assoc]

theorem treeDepthAll_le_iff (t : Tree) (m : Nat) :
    t.treeDepthAll ≤ m ↔ ∀ p s, t.get? p = some s → s.info.depth ≤ m := by
  induction t using Tree.ind with
  | h inf ks ih =>
    rw [Tree.treeDepthAll, treeDepthKids_le_iff]
    constructor
    · rintro ⟨h1, h2⟩ p s hs
      cases p with
      | nil => simp at hs; subst hs; exact h1
      | cons i p =>
        rw [Tree.get?_cons] at hs
        obtain ⟨c, hc, hs⟩ := Option.bind_eq_some_iff.1 hs
        have hc' : some c ∈ ks := by
          rw [Option.join_eq_some_iff] at hc
          exact List.mem_of_getElem? hc
        exact (ih c hc').1 (h2 c hc') p s hs
    · intro h
      refine ⟨h [] _ rfl, fun c hc => (ih c hc).2 ?_⟩
      intro p s hs
      obtain ⟨i, hi⟩ := List.mem_iff_getElem?.1 hc
      exact h (i :: p) s (by rw [Tree.get?_cons]; simp [hi, hs])

theorem foldl_max_le_iff {α : Type} (l : List α) (g : α → Nat) (d m : Nat) :
    l.foldl (fun d x => max d (g x)) d ≤ m ↔ d ≤ m ∧ ∀ x ∈ l, g x ≤ m := by
  induction l generalizing d with
  | nil => simp
  | cons x l ih => simp [ih, and_assoc]

theorem treeDepth_le_iff (t : Tree) (m : Nat) :
    t.treeDepth none ≤ m ↔ ∀ p s, t.get? p = some s → s.info.depth ≤ m := by
  rw [← treeDepthAll_le_iff]
  have h2 : t.treeDepthAll ≤ m ↔ t.info.depth ≤ m ∧ ∀ c, some c ∈ t.kids → c.treeDepthAll ≤ m := by
    cases t; rw [Tree.treeDepthAll, treeDepthKids_le_iff]; rfl
  rw [h2]
  unfold Tree.treeDepth
  split
  · rw [foldl_max_le_iff]
    refine and_congr_right fun _ => ?_
    constructor
    · intro h c hc
      obtain ⟨i, hi⟩ := List.mem_iff_getElem?.1 hc
      exact h (i, c) ((mem_getChildren t none false i c).2 ⟨hi, by simp⟩)
    · rintro h ⟨i, c⟩ hc
      exact h c (List.mem_of_getElem? ((mem_getChildren t none false i c).1 hc).1)
  · rename_i hn
    constructor
    · intro h
      refine ⟨h, fun c hc => ?_⟩
      obtain ⟨i, hi⟩ := List.mem_iff_getElem?.1 hc
      exact absurd ((hasChildren_iff t none).2 ⟨i, c, hi, by simp⟩) hn
    · exact fun h => h.1

/-! ### searching by address -/

theorem findLoop_found (t : Tree) (p : Path) (q : List Nat) (s : Tree) (h : t.get? q = some s) :
    t.findLoop p q = .ok (.node (p ++ q) s) := by
  induction q generalizing t p with
  | nil => simp at h; subst h; simp [Tree.findLoop]
  | cons i q ih =>
    rw [Tree.get?_cons] at h
    obtain ⟨c, hc, hs⟩ := Option.bind_eq_some_iff.1 h
    rw [Option.join_eq_some_iff] at hc
    have hlen : i < t.kids.length := by
      by_contra hn; rw [List.getElem?_eq_none (by omega)] at hc; simp at hc
    have hch : t.hasChildren none = true := (hasChildren_iff t none).2 ⟨i, c, hc, by simp⟩
    rw [Tree.findLoop.eq_def]; simp only [hch]
    simp only [hlen, decide_true, Bool.and_self, if_true, hc]
    rw [ih c (p ++ [i]) hs]; simp

theorem forestFindLoop_found (t : Tree) (p : Path) (q : List Nat) (s : Tree)
    (h : t.get? q = some s) : t.forestFindLoop p q = .ok (.node (p ++ q) s) := by
  induction q generalizing t p with
  | nil => simp at h; subst h; simp [Tree.forestFindLoop]
  | cons i q ih =>
    rw [Tree.get?_cons] at h
    obtain ⟨c, hc, hs⟩ := Option.bind_eq_some_iff.1 h
    rw [Option.join_eq_some_iff] at hc
    have hlen : i < t.kids.length := by
      by_contra hn; rw [List.getElem?_eq_none (by omega)] at hc; simp at hc
    have hch : t.hasChildren none = true := (hasChildren_iff t none).2 ⟨i, c, hc, by simp⟩
    rw [Tree.forestFindLoop.eq_def]; simp only [hch]
    simp only [hlen, if_true, hc]
    rw [ih c (p ++ [i]) hs]; simp

theorem findNode_found (F : Forest) (a : Path) (s : Tree) (h : F.get? a = some s) :
    F.findNode a = .ok (.node a s) := by
  cases a with
  | nil => simp at h
  | cons i q =>
    rw [Forest.get?_cons] at h
    obtain ⟨t, ht, hs⟩ := Option.bind_eq_some_iff.1 h
    have hlen : 0 < F.trees.length := by
      by_contra hn
      have : F.trees = [] := List.length_eq_zero_iff.1 (by omega)
      rw [this] at ht; simp at ht
    simp only [Forest.findNode, hlen, if_true, ht]
    rw [forestFindLoop_found t [i] q s hs]; simp

end Verif.Trees
