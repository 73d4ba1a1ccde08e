import Verif.Forest.CoarsenProps

/-! # C08, C13: structural invariant over all histories, addresses -/

namespace Verif.Trees

/-! ## Specification -/

/-- What the observable content `v` of the node at path `a` has to look like, in a tree with
`n` child slots per node. -/
structure NodeOK (n : Nat) (a : Path) (v : View) : Prop where
  regular : v.1.regular = true
  /-- the stored address is the position of the tree followed by the child positions -/
  addr : v.1.addr = a
  /-- depth: 0 for a root, parent depth plus one otherwise -/
  depth : v.1.depth + 1 = a.length
  slots : v.2.length = n
  /-- all or none of the child slots are occupied -/
  allOrNone : (∀ x ∈ v.2, x = true) ∨ (∀ x ∈ v.2, x = false)
  kindRoot : a.length = 1 → v.1.kind = .root
  kindLeaf : a.length ≠ 1 → (∀ x ∈ v.2, x = false) → v.1.kind = .leaf
  kindBranch : a.length ≠ 1 → (∃ x ∈ v.2, x = true) → v.1.kind = .branch

/-- The structural invariant; `n i` is the number of child slots in tree `i`. -/
def Forest.WF (F : Forest) : Prop :=
  ∃ n : Nat → Nat, ∀ i p v, F.view? (i :: p) = some v → NodeOK (n i) (i :: p) v

/-- The public operations on a forest of regular trees. -/
inductive Op where
  | plant (n : Nat)                      -- `add_tree(Tree(n_children=n))`
  | split (a : Path)                     -- `node.split()`
  | deleteChildren (a : Path)            -- `node.delete_children()`
  | mark (a : Path) (f : Option Flag)
  | unmark (a : Path) (f : Option Flag)
  | markRec (a : Path) (f : Option Flag)
  | unmarkRec (a : Path) (f : Option Flag)
  | markUp (a : Path) (f : Option Flag)
  | unmarkUp (a : Path) (f : Option Flag)
  | record (f : Option Flag)
  | rootSubtrees (f : Flag)
  | makeRooted (a : Path) (f : Flag)
  | refine (sub ref new : Option Flag) (cleanUp : Bool)
  | coarsen (sub coa new : Option Flag) (cleanUp : Bool)

/-- One operation; operations on a node that does not exist fail. -/
def step (F : Forest) : Op → Except Err Forest
  | .plant n => F.addTree (newRoot n true)
  | .split a => F.split a
  | .deleteChildren a => if (F.get? a).isSome then .ok (F.modify Tree.deleteChildren a)
      else .error .attribute
  | .mark a f => if (F.get? a).isSome then .ok (F.mark a f) else .error .attribute
  | .unmark a f => if (F.get? a).isSome then .ok (F.unmark a f) else .error .attribute
  | .markRec a f => if (F.get? a).isSome then .ok (F.markRec a f) else .error .attribute
  | .unmarkRec a f => if (F.get? a).isSome then .ok (F.unmarkRec a f) else .error .attribute
  | .markUp a f => if (F.get? a).isSome then .ok (F.markUp a f) else .error .attribute
  | .unmarkUp a f => if (F.get? a).isSome then .ok (F.unmarkUp a f) else .error .attribute
  | .record f => .ok (F.record f)
  | .rootSubtrees f => .ok (F.rootSubtrees f)
  | .makeRooted a f => if (F.get? a).isSome then .ok (F.makeRootedSubtree a f)
      else .error .attribute
  | .refine sub ref new cu => F.refine sub ref new cu
  | .coarsen sub coa new cu => .ok (F.coarsen sub coa new cu)

/-- A history: a sequence of operations starting from the empty forest. -/
def run : List Op → Forest → Except Err Forest
  | [], F => .ok F
  | op :: ops, F => match step F op with
    | .ok F' => run ops F'
    | .error e => .error e

/-! ## Preservation -/

theorem NodeOK.setFlags {n : Nat} {a : Path} {v v' : View} (h : NodeOK n a v)
    (he : ({ v'.1 with flags := ∅ }, v'.2) = (({ v.1 with flags := ∅ }, v.2) : View)) :
    NodeOK n a v' := by
  obtain ⟨⟨k, r, ad, d, fl⟩, o⟩ := v
  obtain ⟨⟨k', r', ad', d', fl'⟩, o'⟩ := v'
  simp only [Prod.mk.injEq, Info.mk.injEq] at he
  obtain ⟨⟨rfl, rfl, rfl, rfl, -⟩, rfl⟩ := he
  exact ⟨h.regular, h.addr, h.depth, h.slots, h.allOrNone, h.kindRoot, h.kindLeaf, h.kindBranch⟩

theorem Forest.WF.same {F F' : Forest} (h : F.WF) (hs : SameUpToFlags F F') : F'.WF := by
  obtain ⟨n, hn⟩ := h
  refine ⟨n, fun i p v hv => ?_⟩
  have := hs (i :: p)
  rw [hv] at this
  cases hv0 : F.view? (i :: p) with
  | none => simp [hv0] at this
  | some v0 =>
    rw [hv0] at this
    simp only [Option.map_some, Option.some.injEq] at this
    exact (hn i p v0 hv0).setFlags this

theorem SameUpToFlags.of_changed {F F' : Forest} {S : Path → Prop}
    {g : Finset Flag → Finset Flag} (h : FlagsChanged F F' S g) : SameUpToFlags F F' := by
  intro a
  by_cases hS : S a
  · rw [(h a).1 hS]; cases F.view? a <;> rfl
  · rw [(h a).2 hS]

theorem Forest.WF.regular {F : Forest} (h : F.WF) : F.Regular := by
  obtain ⟨n, hn⟩ := h
  intro a t ht
  rcases a with _ | ⟨i, p⟩
  · simp at ht
  have := (hn i p t.view (by simp [Forest.view?, ht])).regular
  exact this

theorem view?_splitRegular (t : Tree) (q : Path) (v : View)
    (h : t.splitRegular.view? q = some v) :
    (q = [] ∧ v = ({ t.info with
        kind := (if t.kids.length = 0 then t.info.kind else promote t.info.kind) },
      List.replicate t.kids.length true)) ∨
    (∃ i, i < t.kids.length ∧ q = [i] ∧ v = (newChild t.info t.kids.length true i).view) := by
  unfold Tree.view? at h
  rcases q with _ | ⟨i, q⟩
  · left
    simp only [Tree.get?_nil, Option.map_some, Option.some.injEq] at h
    refine ⟨rfl, ?_⟩
    rw [← h]
    simp only [Tree.view, Tree.splitRegular, Tree.info_node, Tree.kids_node, Prod.mk.injEq,
      true_and]
    apply List.ext_getElem
    · simp
    · intro j h1 h2; simp
  · right
    rw [Tree.get?] at h
    simp only [Tree.splitRegular, Tree.kids_node, List.getElem?_map] at h
    by_cases hi : i < t.kids.length
    · rw [List.getElem?_range hi] at h
      simp only [Option.map_some] at h
      rcases q with _ | ⟨j, q⟩
      · simp at h
        exact ⟨i, hi, rfl, h.symm⟩
      · exfalso
        simp [newChild, Tree.get?] at h
        split at h <;> simp_all [List.getElem?_replicate]
    · rw [List.getElem?_eq_none (by simpa using hi)] at h
      simp at h

/-- Replacing the subtree at `a` preserves the invariant if the new subtree is locally fine. -/
theorem WF.modify {F : Forest} {n : Nat → Nat} (g : Tree → Tree) (a : Path) (t : Tree)
    (hn : ∀ i p v, F.view? (i :: p) = some v → NodeOK (n i) (i :: p) v)
    (hg : F.get? a = some t)
    (hloc : ∀ q v, (g t).view? q = some v → ∀ i p, a ++ q = i :: p → NodeOK (n i) (i :: p) v) :
    ∀ i p v, (F.modify g a).view? (i :: p) = some v → NodeOK (n i) (i :: p) v := by
  have ha : a ≠ [] := by rintro rfl; simp at hg
  intro i p v hv
  by_cases hp : a <+: i :: p
  · obtain ⟨q, hq⟩ := hp
    rw [← hq, Forest.view?_modify_append _ _ _ _ ha, hg] at hv
    exact hloc q v hv i p hq
  · rw [Forest.view?_modify_of_not_prefix _ _ _ _ hp] at hv
    exact hn i p v hv

theorem Forest.WF.split {F F' : Forest} {a : Path} (h : F.WF) (hs : F.split a = .ok F') : F'.WF := by
  obtain ⟨n, hn⟩ := h
  unfold Forest.split at hs
  cases hg : F.get? a with
  | none => simp [hg] at hs
  | some t =>
    have ha : a ≠ [] := by rintro rfl; simp at hg
    obtain ⟨i0, p0, rfl⟩ : ∃ i p, a = i :: p := List.exists_cons_of_ne_nil ha
    have hok := hn i0 p0 t.view (by simp [Forest.view?, hg])
    have hr : t.info.regular = true := hok.regular
    rw [hg] at hs
    simp only [Tree.split, hr, if_true, Except.ok.injEq] at hs
    subst hs
    refine ⟨n, WF.modify _ _ t hn hg ?_⟩
    intro q v hv i p he
    have hsl : t.kids.length = n i0 := by simpa [Tree.view] using hok.slots
    rcases view?_splitRegular t q v hv with ⟨rfl, rfl⟩ | ⟨j, hj, rfl, rfl⟩
    · simp only [List.append_nil, List.cons.injEq] at he
      obtain ⟨rfl, rfl⟩ := he
      refine ⟨hr, hok.addr, hok.depth, by simpa using hsl, Or.inl (by simp), fun h1 => ?_,
        fun h1 h2 => ?_, fun h1 h2 => ?_⟩
      · have := hok.kindRoot h1
        simp only [Tree.view] at this
        simp [this, promote]
      · have h0 : t.kids.length = 0 := by
          by_contra h0
          have := h2 true (by simp [h0])
          cases this
        simp only [h0, if_true]
        refine hok.kindLeaf h1 ?_
        have : t.kids = [] := by simpa using h0
        simp [Tree.view, this]
      · have h0 : t.kids.length ≠ 0 := by
          rintro h0
          obtain ⟨x, hx, -⟩ := h2
          simp [h0] at hx
        simp only [h0, if_false]
        rcases hok.allOrNone with h3 | h3
        · have : t.info.kind = .branch := by
            refine hok.kindBranch h1 ?_
            have : t.kids ≠ [] := by simpa using h0
            obtain ⟨x, hx⟩ := List.exists_mem_of_ne_nil _ this
            refine ⟨x.isSome, by simp [Tree.view]; exact ⟨x, hx, rfl⟩, h3 _ (by simp [Tree.view]; exact ⟨x, hx, rfl⟩)⟩
          simp [this, promote]
        · have : t.info.kind = .leaf := hok.kindLeaf h1 h3
          simp [this, promote]
    · have he' : i0 :: (p0 ++ [j]) = i :: p := he
      simp only [List.cons.injEq] at he'
      obtain ⟨rfl, rfl⟩ := he'
      have h1 : t.info.addr = i0 :: p0 := hok.addr
      have h2 : t.info.depth + 1 = (i0 :: p0).length := hok.depth
      refine ⟨rfl, ?_, ?_, ?_, Or.inr ?_, ?_, ?_, ?_⟩
      · simp [newChild, Tree.view, h1]
      · simp [newChild, Tree.view] at *; omega
      · simpa [newChild, Tree.view] using hsl
      · intro x hx
        simp only [newChild, Tree.view, if_true, Tree.kids_node, List.map_replicate,
          Option.isSome_none, List.mem_replicate] at hx
        exact hx.2
      · intro h; simp at h
      · intro _ _; rfl
      · rintro _ ⟨x, hx, hxt⟩
        simp only [newChild, Tree.view, if_true, Tree.kids_node, List.map_replicate,
          Option.isSome_none, List.mem_replicate] at hx
        rw [hx.2] at hxt; cases hxt

/-- The content of a node after `delete_children()`. -/
def delView (v : View) : View :=
  ({ v.1 with kind := if v.1.kind = .branch then .leaf else v.1.kind }, v.2.map (fun _ => false))

theorem NodeOK.del {n : Nat} {a : Path} {v : View} (h : NodeOK n a v) : NodeOK n a (delView v) := by
  refine ⟨h.regular, h.addr, h.depth, by simpa [delView] using h.slots,
    Or.inr (by simp [delView]), fun h1 => ?_, fun h1 _ => ?_, ?_⟩
  · simp [delView, h.kindRoot h1]
  · by_cases hb : v.1.kind = .branch
    · simp [delView, hb]
    · rw [delView]
      simp only [hb, if_false]
      apply h.kindLeaf h1
      rcases h.allOrNone with h2 | h2
      · intro x hx
        exact absurd (h.kindBranch h1 ⟨x, hx, h2 x hx⟩) hb
      · exact h2
  · rintro _ ⟨x, hx, hxt⟩
    simp only [delView, List.mem_map] at hx
    obtain ⟨_, _, rfl⟩ := hx
    cases hxt

theorem view_deleteChildren (t : Tree) : t.deleteChildren.view = delView t.view := by
  by_cases hb : t.info.kind = .branch <;> simp [Tree.deleteChildren, Tree.view, delView, hb]

theorem Forest.WF.delete {F : Forest} {a : Path} (h : F.WF) (hs : (F.get? a).isSome) :
    (F.modify Tree.deleteChildren a).WF := by
  obtain ⟨n, hn⟩ := h
  obtain ⟨t, hg⟩ := Option.isSome_iff_exists.1 hs
  have ha : a ≠ [] := by rintro rfl; simp at hg
  refine ⟨n, WF.modify _ _ t hn hg ?_⟩
  intro q v hv i p he
  rcases q with _ | ⟨j, q⟩
  · rw [List.append_nil] at he
    subst he
    simp only [Tree.view?, Tree.get?_nil, Option.map_some, Option.some.injEq] at hv
    rw [← hv, view_deleteChildren]
    exact (hn i p t.view (by simp [Forest.view?, hg])).del
  · simp [Tree.view?, deleteChildren_get?_cons] at hv

theorem SameUpToFlags.mark (F : Forest) (a : Path) (f : Option Flag) :
    SameUpToFlags F (F.mark a f) := .of_changed (C07_mark_single F a f).1

theorem SameUpToFlags.unmark (F : Forest) (a : Path) (f : Option Flag) :
    SameUpToFlags F (F.unmark a f) := .of_changed (C07_mark_single F a f).2

theorem Forest.WF.foldl_mark {F : Forest} (h : F.WF) (l : List Path) (f : Option Flag) :
    (l.foldl (fun F c => F.mark c f) F).WF := by
  induction l generalizing F with
  | nil => exact h
  | cons c l ih => exact ih (h.same (SameUpToFlags.mark F c f))

theorem Forest.WF.refineLeaf {F F' : Forest} {sub ref new : Option Flag} {cu : Bool} {a : Path}
    (h : F.WF) (hr : F.refineLeaf sub ref new cu a = .ok F') : F'.WF := by
  unfold Forest.refineLeaf at hr
  simp only at hr
  have h1 : (F.markIf a new).WF := by
    cases new with
    | none => exact h
    | some l => exact h.same (SameUpToFlags.mark F a (some l))
  split at hr
  · cases hr; exact h1
  · split at hr
    · cases hr
    · rename_i F2 hF2
      have h2 : F2.WF := by
        unfold Forest.splitIfLeaf at hF2
        split at hF2
        · split at hF2
          · cases hF2; exact h1
          · exact h1.split hF2
        · cases hF2
      have h3 : (F2.markChildrenIf a (childLabel sub new)).WF := by
        unfold Forest.markChildrenIf
        split
        · exact h2.foldl_mark _ _
        · exact h2
      cases hr
      split
      · exact h3.same (SameUpToFlags.unmark _ _ _)
      · exact h3

theorem Forest.WF.refineLoop {sub ref new : Option Flag} {cu : Bool} {l : List Path}
    {F F' : Forest} (h : F.WF) (hr : Forest.refineLoop sub ref new cu l F = .ok F') : F'.WF := by
  induction l generalizing F with
  | nil => cases hr; exact h
  | cons a l ih =>
    rw [Forest.refineLoop] at hr
    split at hr
    · rename_i F1 hF1; exact ih (h.refineLeaf hF1) hr
    · cases hr

theorem Forest.WF.refine {sub ref new : Option Flag} {cu : Bool} {F F' : Forest} (h : F.WF)
    (hr : F.refine sub ref new cu = .ok F') : F'.WF := by
  unfold Forest.refine at hr
  simp only at hr
  split at hr
  · rename_i F1 hF1
    cases hr
    exact ((h.same (rootIf_same F sub)).refineLoop hF1).same (rootIf_same _ _)
  · cases hr

/-- Content of a node after `coarsen`: as before up to flags, or with deleted children. -/
theorem coarsen_view (sub coa new : Option Flag) (cu : Bool) (q : Path) (t : Tree) (v' : View)
    (h : (t.coarsen sub coa new cu).view? q = some v') :
    ∃ v, t.view? q = some v ∧ (({ v'.1 with flags := ∅ }, v'.2) =
        (({ v.1 with flags := ∅ }, v.2) : View) ∨
      ({ v'.1 with flags := ∅ }, v'.2) =
        (({ (delView v).1 with flags := ∅ }, (delView v).2) : View)) := by
  induction q generalizing t with
  | nil =>
    refine ⟨t.view, rfl, ?_⟩
    simp only [Tree.view?, Tree.get?_nil, Option.map_some, Option.some.injEq] at h
    subst h
    by_cases hin : t.inSub sub
    · by_cases hw : t.wantsCoarsening sub coa = true
      · rw [coarsen_of_wants _ _ _ _ _ hin hw]
        unfold Tree.coarsenHere Tree.cleaned
        simp only
        by_cases hb : t.info.kind = .branch <;>
        rcases new with _ | l <;> rcases sub with _ | s <;> split <;>
          simp [Tree.view, Tree.labelled, Tree.mapFlags, Tree.deleteChildren, delView, hb]
      · have hw' : t.wantsCoarsening sub coa = false := by simpa using hw
        rw [coarsen_of_not_wants _ _ _ _ _ hin hw']
        left
        rcases new with _ | l <;> simp [Tree.view, Tree.labelled, Tree.mapFlags]
    · rw [coarsen_of_not_inSub _ _ _ _ _ hin]; exact Or.inl rfl
  | cons i q ih =>
    by_cases hin : t.inSub sub
    · by_cases hw : t.wantsCoarsening sub coa = true
      · rw [coarsen_of_wants _ _ _ _ _ hin hw] at h
        unfold Tree.coarsenHere at h
        simp only [Tree.view?, Tree.get?_cons_of_kids (cleaned_kids _ _ _)] at h
        rcases new with _ | l
        · rcases sub with _ | s
          · simp [deleteChildren_get?_cons] at h
          · rcases get?_cons_none_or t i q with ⟨c, hc, he⟩ | ⟨hc, he⟩
            · have h1 : (Tree.node (t.labelled none).info ((t.labelled none).kids.map (Option.map
                  (Tree.mapFlags (removeFlag (some s)))))).get? (i :: q) =
                  (c.mapFlags (removeFlag (some s))).get? q := by
                simp [Tree.get?, Tree.kids_node, labelled_kids, hc]
              simp only [h1] at h
              unfold Tree.view?
              rw [he]
              cases q with
              | nil =>
                simp only [Tree.get?_nil, Option.map_some, Option.some.injEq] at h
                subst h
                exact ⟨c.view, rfl, Or.inl (by simp [Tree.view, Tree.mapFlags])⟩
              | cons j q =>
                rw [Tree.get?_cons_of_kids (mapFlags_kids c _)] at h
                exact ⟨v', h, Or.inl rfl⟩
            · have h1 : (Tree.node (t.labelled none).info ((t.labelled none).kids.map (Option.map
                  (Tree.mapFlags (removeFlag (some s)))))).get? (i :: q) = none := by
                rw [Tree.get?, Tree.kids_node, List.getElem?_map, labelled_kids]
                split
                · rename_i c h
                  cases hk : t.kids[i]? with
                  | none => simp [hk] at h
                  | some k => cases k with
                    | none => simp [hk] at h
                    | some c => exact absurd hk (hc c)
                · rfl
              simp [h1] at h
        · simp only [Tree.get?_cons_of_kids (labelled_kids t (some l))] at h
          exact ⟨v', h, Or.inl rfl⟩
      · have hw' : t.wantsCoarsening sub coa = false := by simpa using hw
        rw [coarsen_of_not_wants _ _ _ _ _ hin hw'] at h
        rcases get?_cons_none_or t i q with ⟨c, hc, he⟩ | ⟨hc, he⟩
        · have h1 : (Tree.node (t.labelled new).info
              (t.kids.map (Option.map (Tree.coarsen sub coa new cu)))).get? (i :: q) =
              (c.coarsen sub coa new cu).get? q := by
            simp [Tree.get?, hc]
          unfold Tree.view? at h ⊢
          rw [h1] at h
          rw [he]
          exact ih c h
        · exfalso
          have h1 : (Tree.node (t.labelled new).info
              (t.kids.map (Option.map (Tree.coarsen sub coa new cu)))).get? (i :: q) = none := by
            rw [Tree.get?, Tree.kids_node, List.getElem?_map]
            split
            · rename_i c h
              cases hk : t.kids[i]? with
              | none => simp [hk] at h
              | some k => cases k with
                | none => simp [hk] at h
                | some c => exact absurd hk (hc c)
            · rfl
          simp [Tree.view?, h1] at h
    · rw [coarsen_of_not_inSub _ _ _ _ _ hin] at h
      exact ⟨v', h, Or.inl rfl⟩

theorem Forest.WF.coarsen {F : Forest} (h : F.WF) (sub coa new : Option Flag) (cu : Bool) :
    (F.coarsen sub coa new cu).WF := by
  obtain ⟨n, hn⟩ := h.same (rootIf_same F sub)
  refine ⟨n, fun i p v hv => ?_⟩
  unfold Forest.coarsen at hv
  simp only at hv
  cases ht : (F.rootIf sub).get? [i] with
  | none =>
    have h2 := get?_coarsen_none (F.rootIf sub) sub coa new cu i p ht _ rfl
    simp [Forest.view?, h2] at hv
  | some t =>
    have h2 := get?_coarsen (F.rootIf sub) sub coa new cu i p t ht _ rfl
    have h3 := Forest.get?_append ⟨(F.rootIf sub).trees.map (Tree.coarsen sub coa new cu)⟩ [i] p
      (by simp)
    have h4 := Forest.get?_append (F.rootIf sub) [i] p (by simp)
    simp only [List.singleton_append] at h3 h4
    have hv' : (t.coarsen sub coa new cu).view? p = some v := by
      unfold Forest.view? at hv
      rw [h3, h2] at hv
      exact hv
    obtain ⟨v0, hv0, hsame⟩ := coarsen_view sub coa new cu p t v hv'
    have hv1 : (F.rootIf sub).view? (i :: p) = some v0 := by
      unfold Forest.view?
      rw [h4, ht]
      exact hv0
    rcases hsame with hs | hs
    · exact (hn i p v0 hv1).setFlags hs
    · exact (hn i p v0 hv1).del.setFlags hs

theorem Forest.WF.plant {F F' : Forest} {n : Nat} (h : F.WF)
    (hs : F.addTree (newRoot n true) = .ok F') : F'.WF := by
  obtain ⟨m, hm⟩ := h
  simp only [Forest.addTree, newRoot, Tree.info_node, if_true, Except.ok.injEq] at hs
  subst hs
  refine ⟨fun i => if i = F.trees.length then n else m i, fun i p v hv => ?_⟩
  beta_reduce
  by_cases hi : i < F.trees.length
  · rw [if_neg (by omega)]
    apply hm i p v
    rw [← hv]
    unfold Forest.view?
    rw [Forest.get?_cons, Forest.get?_cons, List.getElem?_append_left hi]
  · unfold Forest.view? at hv
    rw [Forest.get?_cons, List.getElem?_append_right (by omega)] at hv
    by_cases hi' : i = F.trees.length
    · subst hi'
      simp only [Nat.sub_self, List.getElem?_cons_zero, Option.bind_some] at hv
      rw [if_pos rfl]
      rcases p with _ | ⟨j, p⟩
      · simp only [Tree.get?_nil, Option.map_some, Option.some.injEq] at hv
        subst hv
        refine ⟨rfl, rfl, rfl, by simp [Tree.view], Or.inr ?_, fun _ => rfl,
          fun h => absurd rfl h, fun h => absurd rfl h⟩
        intro x hx
        simp [Tree.view, List.mem_replicate] at hx
        exact hx.2
      · exfalso
        simp [Tree.get?] at hv
        split at hv <;> simp_all [List.getElem?_replicate]
    · rw [List.getElem?_eq_none (by simp; omega)] at hv
      simp at hv

theorem step_wf {F F' : Forest} {op : Op} (h : F.WF) (hs : step F op = .ok F') : F'.WF := by
  have ha : ∀ {a : Path}, (F.get? a).isSome = true → a ≠ [] := by
    rintro a h rfl; simp at h
  cases op with
  | plant n => exact h.plant hs
  | split a => exact h.split hs
  | refine sub ref new cu => exact h.refine hs
  | coarsen sub coa new cu => cases hs; exact h.coarsen _ _ _ _
  | record f => cases hs; exact h.same (.of_changed (C07_record F f))
  | rootSubtrees f => cases hs; exact h.same (C03_root_subtrees_exact F f).1
  | deleteChildren a =>
    simp only [step] at hs
    split at hs
    · rename_i hn; cases hs; exact h.delete hn
    · cases hs
  | mark a f =>
    simp only [step] at hs
    split at hs
    · cases hs; exact h.same (.of_changed (C07_mark_single F a f).1)
    · cases hs
  | unmark a f =>
    simp only [step] at hs
    split at hs
    · cases hs; exact h.same (.of_changed (C07_mark_single F a f).2)
    · cases hs
  | markRec a f =>
    simp only [step] at hs
    split at hs
    · rename_i hn; cases hs; exact h.same (.of_changed (C07_mark_recursive F a f (ha hn)).1)
    · cases hs
  | unmarkRec a f =>
    simp only [step] at hs
    split at hs
    · rename_i hn; cases hs; exact h.same (.of_changed (C07_mark_recursive F a f (ha hn)).2)
    · cases hs
  | markUp a f =>
    simp only [step] at hs
    split at hs
    · rename_i hn; cases hs; exact h.same (.of_changed (C07_mark_reverse F a f (ha hn)).1)
    · cases hs
  | unmarkUp a f =>
    simp only [step] at hs
    split at hs
    · rename_i hn; cases hs; exact h.same (.of_changed (C07_mark_reverse F a f (ha hn)).2)
    · cases hs
  | makeRooted a f =>
    simp only [step] at hs
    split at hs
    · rename_i hn; cases hs; exact h.same (C14_make_rooted_subtree_exact F a hn f).1
    · cases hs

/-! ## Properties -/

/-- C13: after any history of operations, starting from the empty forest, the structural
invariant holds at every node. -/
theorem C13_invariant (ops : List Op) (F : Forest) (h : run ops ⟨[]⟩ = .ok F) : F.WF := by
  have gen : ∀ (ops : List Op) (F0 F : Forest), F0.WF → run ops F0 = .ok F → F.WF := by
    intro ops
    induction ops with
    | nil => intro F0 F h0 h; cases h; exact h0
    | cons op ops ih =>
      intro F0 F h0 h
      rw [run] at h
      split at h
      · rename_i F1 hF1; exact ih F1 F (step_wf h0 hF1) h
      · cases h
  refine gen ops _ F ⟨fun _ => 0, fun i p v hv => ?_⟩ h
  simp [Forest.view?, Forest.get?] at hv

/-- C13: `refine` and `coarsen` never fail on a reachable forest. -/
theorem C13_refine_total (ops : List Op) (F : Forest) (h : run ops ⟨[]⟩ = .ok F)
    (sub ref new : Option Flag) (cu : Bool) : ∃ F', F.refine sub ref new cu = .ok F' := by
  obtain ⟨F2, h2, -⟩ := C05_refine_exact F (C13_invariant ops F h).regular sub ref new cu
  exact ⟨_, h2⟩

/-- C13, outside the listed operations: `child.remove()` does not update the parent's type
(mesh.py 750-755), so a BRANCH without children can arise. -/
theorem C13_remove_violated :
    ∃ t : Tree, t.info.kind = .branch ∧ t.hasChildren none = true ∧
      (t.removeChildAt 0).hasChildren none = false ∧ (t.removeChildAt 0).info.kind = .branch :=
  ⟨.node ⟨.branch, false, [0, 0], 1, ∅⟩ [some (exLeaf [0, 0, 0] ∅)], rfl, rfl, rfl, rfl⟩

/-- C08: after any history, looking up the stored address of a node finds that node. -/
theorem C08_find_own_address (ops : List Op) (F : Forest) (h : run ops ⟨[]⟩ = .ok F)
    (a : Path) (t : Tree) (ht : F.get? a = some t) :
    F.findNode t.info.addr = .ok (.node a t) ∧ t.info.addr.length = t.info.depth + 1 := by
  obtain ⟨n, hn⟩ := C13_invariant ops F h
  rcases a with _ | ⟨i, p⟩
  · simp at ht
  have hok := hn i p t.view (by simp [Forest.view?, ht])
  have h1 : t.info.addr = i :: p := hok.addr
  have h2 : t.info.depth + 1 = (i :: p).length := hok.depth
  rw [h1, h2]
  exact ⟨C08_find_node F _ t ht, rfl⟩

/-- C08: distinct nodes have distinct addresses. -/
theorem C08_addresses_distinct (ops : List Op) (F : Forest) (h : run ops ⟨[]⟩ = .ok F)
    (a b : Path) (t s : Tree) (ht : F.get? a = some t) (hs : F.get? b = some s)
    (he : t.info.addr = s.info.addr) : a = b := by
  have h1 := (C08_find_own_address ops F h a t ht).1
  have h2 := (C08_find_own_address ops F h b s hs).1
  rw [he, h2] at h1
  simp only [Except.ok.injEq, Found.node.injEq] at h1
  exact h1.1.symm

/-- C08: depths as stored agree with the position, so the depth hypothesis of C09 and C10
holds in every reachable forest. -/
theorem C08_depthOK (ops : List Op) (F : Forest) (h : run ops ⟨[]⟩ = .ok F) : F.DepthOK := by
  obtain ⟨n, hn⟩ := C13_invariant ops F h
  intro a t ht
  rcases a with _ | ⟨i, p⟩
  · simp at ht
  exact (hn i p t.view (by simp [Forest.view?, ht])).depth

/-- C08, negation: an address that denotes no node is not rejected when it continues below a
node without children (mesh.py 1335-1343): the reachable forest with a single unsplit root
answers the address `[0, 7]` with that root. -/
theorem C08_missing_address_violated :
    ∃ F, run [.plant 4] ⟨[]⟩ = .ok F ∧ ¬ F.HasNode [0, 7] ∧
      ∃ t, F.findNode [0, 7] = .ok (.node [0] t) := by
  refine ⟨_, rfl, ?_, _, rfl⟩
  intro h
  unfold Forest.HasNode at h
  exact absurd h (by decide)

/-- C08, negation: `node.find_node(node.get_node_address())` started from a tree of a forest does
not find the node (mesh.py 958-972): the root of tree 1, once split, is answered its own
child 1. -/
theorem C08_tree_find_node_violated :
    ∃ F, run [.plant 2, .plant 2, .split [1]] ⟨[]⟩ = .ok F ∧
      ∃ t s, F.get? [1] = some t ∧ t.info.addr = [1] ∧
        F.treeFindNode [1] t.info.addr = .ok (.node [1, 1] s) :=
  ⟨_, rfl, _, _, rfl, rfl, rfl⟩

/-- C08, negation outside the listed histories: after `remove_tree(0)` the addresses of the
remaining trees are stale (mesh.py 1405-1415), the address of tree 0 is `[1]` and is not found. -/
theorem C08_remove_tree_violated :
    ∃ F F', run [.plant 2, .plant 2] ⟨[]⟩ = .ok F ∧ F.removeTree 0 = .ok F' ∧
      ∃ t, F'.get? [0] = some t ∧ t.info.addr = [1] ∧ F'.findNode t.info.addr = .ok .nothing :=
  ⟨_, _, rfl, rfl, _, rfl, rfl, rfl⟩

/-- C08, negation outside the listed histories: a tree that was split before being planted keeps
addresses without the forest position (mesh.py 465-474). -/
theorem C08_plant_split_violated :
    ∃ F t, Forest.addTree ⟨[]⟩ (newRoot 2 true).splitRegular = .ok F ∧
      F.get? [0, 1] = some t ∧ t.info.addr = [1] ∧ F.findNode t.info.addr = .ok .nothing :=
  ⟨_, _, rfl, rfl, rfl, rfl⟩

/-- Non-vacuity: a history with two trees, a split, marks and a split of a child succeeds and
has a node at depth 2. -/
example : ∃ F, run [.plant 4, .plant 2, .split [0], .mark [0, 1] (some 3), .split [0, 1],
    .markRec [0, 1] (some 5), .deleteChildren [1]] ⟨[]⟩ = .ok F ∧ F.HasNode [0, 1, 2] :=
  ⟨_, rfl, rfl⟩

end Verif.Trees
