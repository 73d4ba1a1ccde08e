import Verif.Crash.Root
import Verif.Forest.History

/-!
# C92: `refine` interrupted

`refine` (mesh.py 1651-1723) roots the subforest, walks over its leaves - labels, splits, labels the
children, removes the refinement flag - and closes the new label.  An exception may leave it between any two
of these changes, and between any two of the marks that `root_subtrees` and the labelling of the children set.
An exception inside `split` (some children attached, some not) is not modelled.
-/

namespace Verif.Trees

/-- One pass of the loop of `refine` over the leaves, started in `F` and left in `G` (mesh.py 1677-1717). -/
inductive PassCrash (sub ref new : Option Flag) (F : Forest) (a : Path) : Forest → Prop
  | start : PassCrash sub ref new F a F
  | labelled : PassCrash sub ref new F a (F.markIf a new)
  | children {F' G : Forest} : (ref.isSome && !(F.markIf a new).isMarked a ref) = false →
      (F.markIf a new).splitIfLeaf a = .ok F' →
      (∀ l, childLabel sub new = some l → MarksCrash l (F'.childPaths a) F' G) →
      (childLabel sub new = none → G = F') → PassCrash sub ref new F a G

/-- The loop of `refine` over the leaves, left by an exception (mesh.py 1677-1717). -/
inductive LoopCrash (sub ref new : Option Flag) (cu : Bool) : List Path → Forest → Forest → Prop
  | stop {F : Forest} : LoopCrash sub ref new cu [] F F
  | here {a : Path} {as : List Path} {F G : Forest} : PassCrash sub ref new F a G →
      LoopCrash sub ref new cu (a :: as) F G
  | next {a : Path} {as : List Path} {F F' G : Forest} : F.refineLeaf sub ref new cu a = .ok F' →
      LoopCrash sub ref new cu as F' G → LoopCrash sub ref new cu (a :: as) F G

/-- `refine(sub, ref, new, clean_up)`, called on `F` and left by an exception when the forest was `G`
(mesh.py 1651-1723). -/
inductive RefineCrash (F : Forest) (sub ref new : Option Flag) (cu : Bool) : Forest → Prop
  | rooting {f : Flag} {G : Forest} : sub = some f → RootCrash F f G → RefineCrash F sub ref new cu G
  | loop {G : Forest} : LoopCrash sub ref new cu (((F.rootIf sub).getLeaves none sub .breadthFirst).map (·.1))
      (F.rootIf sub) G → RefineCrash F sub ref new cu G
  | closing {F2 G : Forest} {l : Flag} : Forest.refineLoop sub ref new cu
      (((F.rootIf sub).getLeaves none sub .breadthFirst).map (·.1)) (F.rootIf sub) = .ok F2 → new = some l →
      RootCrash F2 l G → RefineCrash F sub ref new cu G

/-! ### the subtree at one leaf -/

/-- What the subtree `t'` at a leaf can be when the call is interrupted, if it was `t` before. -/
structure LocalMid (sub ref new : Option Flag) (cu : Bool) (t t' : Tree) : Prop where
  len : t'.kids.length = t.kids.length
  reg : (∀ q v, t.view? q = some v → v.1.regular = true) → ∀ q v, t'.view? q = some v → v.1.regular = true
  n1 : ∀ q, (t.get? q).isSome → (t'.get? q).isSome
  n2 : ∀ q, (t'.get? q).isSome → (t.get? q).isSome ∨
    (t.Chosen ref new ∧ t.hasChildren none = false ∧ ∃ i, i < t.kids.length ∧ q = [i])
  n3 : t.hasChildren none = false → ∀ i j, (t'.get? [j]).isSome → i < t.kids.length → (t'.get? [i]).isSome
  m1 : ∀ q g, t.MarkedAt q g → ¬ (q = [] ∧ t.Chosen ref new ∧ cu = true ∧ ref = some g) → t'.MarkedAt q g
  m2 : ∀ q g, t'.MarkedAt q g → t.MarkedAt q g ∨ (q = [] ∧ new = some g) ∨
    (q.length = 1 ∧ t.Chosen ref new ∧ childLabel sub new = some g)
  m3 : ∀ r, ref = some r → t.Chosen ref new → t.MarkedAt [] r → ¬ t'.MarkedAt [] r →
    (t.hasChildren none = false → ∀ i, i < t.kids.length → (t'.get? [i]).isSome) ∧
    ∀ i l, childLabel sub new = some l → (t'.get? [i]).isSome → t'.MarkedAt [i] l
  m4 : ∀ l, new = some l → ref ≠ some l → ∀ i, (t'.get? [i]).isSome → ¬ (t.get? [i]).isSome → t'.MarkedAt [] l

lemma hasChildren_get {t : Tree} (h : t.hasChildren none = false) (j : Nat) : ¬ (t.get? [j]).isSome := by
  rw [Tree.get?_singleton]
  intro hs
  obtain ⟨c, hc⟩ := Option.isSome_iff_exists.1 hs
  rw [Option.join_eq_some_iff] at hc
  simp only [Tree.hasChildren, List.any_eq_false] at h
  have := h (some c) (List.mem_of_getElem? hc)
  simp at this

lemma LocalMid.refl (sub ref new : Option Flag) (cu : Bool) (t : Tree) : LocalMid sub ref new cu t t where
  len := rfl
  reg := id
  n1 _ := id
  n2 _ := .inl
  n3 h i j hj := absurd hj (hasChildren_get h j)
  m1 _ _ h _ := h
  m2 _ _ := .inl
  m3 _ _ _ h h' := absurd h h'
  m4 _ _ _ _ h h' := absurd h h'

lemma LocalMid.labelled (sub ref new : Option Flag) (cu : Bool) (t : Tree) :
    LocalMid sub ref new cu t (t.labelled new) where
  len := by rw [labelled_kids]
  reg h q v hv := by
    cases q with
    | nil =>
      simp only [Tree.view?, Tree.get?_nil, Option.map_some, Option.some.injEq] at hv
      subst hv
      have := h [] t.view (by simp [Tree.view?])
      simp only [Tree.view] at this ⊢
      rw [labelled_info_regular]; exact this
    | cons i q => refine h (i :: q) v ?_; rw [← hv, Tree.view?, Tree.view?, Tree.get?_cons_of_kids (labelled_kids t new)]
  n1 q := (labelled_isSome t new q).2
  n2 q h := .inl ((labelled_isSome t new q).1 h)
  n3 h i j hj := absurd ((labelled_isSome t new [j]).1 hj) (hasChildren_get h j)
  m1 q g h _ := (labelled_marked t new q g).2 (.inl h)
  m2 q g h := ((labelled_marked t new q g).1 h).imp_right .inl
  m3 r _ _ h h' := absurd ((labelled_marked t new [] r).2 (.inl h)) h'
  m4 l _ _ i h h' := absurd ((labelled_isSome t new [i]).1 h) h'

lemma LocalMid.split {sub ref new : Option Flag} {cu : Bool} {t t' : Tree} (hch : t.Chosen ref new)
    (hv : ∀ q, t'.view? q = ((t.labelled new).splitIf).view? q ∨ (q.length = 1 ∧ ∃ l, childLabel sub new = some l ∧
      t'.view? q = (((t.labelled new).splitIf).view? q).map (View.mapFlags (insert l)))) :
    LocalMid sub ref new cu t t' := by
  have hs : ∀ q, (t'.get? q).isSome ↔ (t.get? q).isSome ∨
      (t.hasChildren none = false ∧ ∃ i, i < t.kids.length ∧ q = [i]) := by
    intro q
    have h : ((t.labelled new).splitIf.get? q).isSome ↔ (t'.get? q).isSome := by
      have e : ∀ s : Tree, (s.get? q).isSome = (s.view? q).isSome := fun s => by simp [Tree.view?]
      rw [e, e]
      rcases hv q with h | ⟨-, l, -, h⟩ <;> rw [h] <;> simp
    rw [← h, splitIf_isSome, labelled_isSome, labelled_kids, hasChildren_of_kids (labelled_kids t new)]
  have hm : ∀ q g, t.MarkedAt q g ∨ (q = [] ∧ new = some g) → t'.MarkedAt q g := by
    intro q g h
    have h1 := (splitIf_marked (t.labelled new) q g).2 ((labelled_marked t new q g).2 h)
    rw [markedAt_view] at h1 ⊢
    obtain ⟨v, h2, h3⟩ := h1
    rcases hv q with h | ⟨-, l, -, h⟩
    · exact ⟨v, h.trans h2, h3⟩
    · exact ⟨_, by rw [h, h2]; rfl, by simp [View.mapFlags, h3]⟩
  have hm2 : ∀ q g, t'.MarkedAt q g → (t.MarkedAt q g ∨ (q = [] ∧ new = some g)) ∨
      (q.length = 1 ∧ childLabel sub new = some g) := by
    intro q g h
    rw [← labelled_marked, ← splitIf_marked]
    rw [markedAt_view] at h ⊢
    obtain ⟨v, h2, h3⟩ := h
    rcases hv q with h | ⟨hq, l, hl, h⟩
    · exact .inl ⟨v, h ▸ h2, h3⟩
    · rw [h2] at h
      cases hw : (t.labelled new).splitIf.view? q with
      | none => simp [hw] at h
      | some w =>
        simp only [hw, Option.map_some, Option.some.injEq] at h
        subst h
        simp only [View.mapFlags, Finset.mem_insert] at h3
        rcases h3 with rfl | h3
        · exact .inr ⟨hq, hl⟩
        · exact .inl ⟨w, rfl, h3⟩
  have hv0 : t'.view? [] = ((t.labelled new).splitIf).view? [] := by
    rcases hv [] with h | ⟨h, -⟩
    · exact h
    · simp at h
  refine ⟨?_, ?_, fun q h => (hs q).2 (.inl h), fun q h => ?_, fun h i j _ hi => (hs _).2 (.inr ⟨h, i, hi, rfl⟩),
    fun q g h _ => hm q g (.inl h), fun q g h => ?_, fun r _ _ h h' => absurd (hm [] r (.inl h)) h',
    fun l hl _ i _ _ => hm [] l (.inr ⟨rfl, hl⟩)⟩
  · simp only [Tree.view?, Tree.get?_nil, Option.map_some, Option.some.injEq, Tree.view, Prod.mk.injEq] at hv0
    have h1 := congrArg List.length hv0.2
    simp only [List.length_map] at h1
    rw [h1]
    unfold Tree.splitIf
    split
    · rw [labelled_kids]
    · simp [Tree.splitRegular, labelled_kids]
  · intro hr q v hvq
    have hu : ∀ q v, (t.labelled new).splitIf.view? q = some v → v.1.regular = true := by
      have hl := (LocalMid.labelled sub ref new cu t).reg hr
      intro q v h
      unfold Tree.splitIf at h
      split at h
      · exact hl q v h
      · rcases view?_splitRegular _ _ _ h with ⟨-, rfl⟩ | ⟨i, -, -, rfl⟩
        · have := hl [] (t.labelled new).view (by simp [Tree.view?])
          simpa [Tree.view] using this
        · simp [newChild, Tree.view]
    rcases hv q with h | ⟨-, l, -, h⟩
    · exact hu q v (h ▸ hvq)
    · rw [hvq] at h
      cases hw : (t.labelled new).splitIf.view? q with
      | none => simp [hw] at h
      | some w =>
        simp only [hw, Option.map_some, Option.some.injEq] at h
        subst h
        exact hu q w hw
  · rcases (hs q).1 h with h | h
    · exact .inl h
    · exact .inr ⟨hch, h⟩
  · rcases hm2 q g h with (h | h) | h
    · exact .inl h
    · exact .inr (.inl h)
    · exact .inr (.inr ⟨h.1, hch, h.2⟩)

lemma LocalMid.done (sub ref new : Option Flag) (cu : Bool) (t : Tree) :
    LocalMid sub ref new cu t (t.refineLocal sub ref new cu) := by
  by_cases hch : t.Chosen ref new
  swap
  · rw [(refineLocal_eq sub ref new cu t).1 hch]; exact .labelled sub ref new cu t
  have hmid : LocalMid sub ref new cu t (((t.labelled new).splitIf).labelKidsIf (childLabel sub new)) := by
    refine LocalMid.split hch fun q => ?_
    rw [labelKidsIf_view]
    by_cases hq : q.length = 1
    · rw [if_pos hq]
      cases hc : childLabel sub new with
      | none => left; simp only; cases (t.labelled new).splitIf.view? q <;> rfl
      | some l => exact .inr ⟨hq, l, rfl, rfl⟩
    · rw [if_neg hq]; exact .inl rfl
  have hk : (t.refineLocal sub ref new cu).kids = (((t.labelled new).splitIf).labelKidsIf (childLabel sub new)).kids := by
    rw [(refineLocal_eq sub ref new cu t).2 hch, cleaned_kids]
  have hm := refineLocal_marked sub ref new cu t
  have hs := refineLocal_isSome sub ref new cu t
  refine ⟨by rw [hk, hmid.len], ?_, fun q h => (hs q).2 (.inl h), fun q h => (hs q).1 h,
    fun h i j _ hi => (hs _).2 (.inr ⟨hch, h, i, hi, rfl⟩), fun q g h h' => (hm q g).2 ⟨.inl h, h'⟩, fun q g h => ?_,
    fun r _ _ _ _ => ⟨fun h i hi => (hs _).2 (.inr ⟨hch, h, i, hi, rfl⟩), fun i l hl hi =>
      (hm [i] l).2 ⟨.inr (.inr ⟨rfl, hch, hl, hi⟩), by simp⟩⟩, ?_⟩
  · intro hr q v hv
    cases q with
    | nil =>
      simp only [Tree.view?, Tree.get?_nil, Option.map_some, Option.some.injEq] at hv
      subst hv
      have := hmid.reg hr [] _ (by simp [Tree.view?]; rfl)
      rw [(refineLocal_eq sub ref new cu t).2 hch]
      simp only [Tree.view] at this ⊢
      unfold Tree.cleaned
      split <;> simpa [Tree.mapFlags] using this
    | cons i q => exact hmid.reg hr (i :: q) v (by rw [← hv, Tree.view?, Tree.view?, Tree.get?_cons_of_kids hk])
  · rcases ((hm q g).1 h).1 with h | h | ⟨h1, h2, h3, -⟩
    · exact .inl h
    · exact .inr (.inl h)
    · exact .inr (.inr ⟨h1, h2, h3⟩)
  · intro l hl hr i _ _
    exact (hm [] l).2 ⟨.inr (.inl ⟨rfl, hl⟩), fun h => hr h.2.2.2⟩

/-! ### one pass, and the loop -/

lemma get_of_views {F G : Forest} {b : Path} (hb : b ≠ []) (hv : ∀ q, G.view? (b ++ q) = F.view? (b ++ q)) :
    G.get? b = F.get? b := by
  have hv' : ∀ q, (G.get? b).bind (fun s => s.view? q) = (F.get? b).bind (fun s => s.view? q) := by
    intro q
    have := hv q
    unfold Forest.view? at this
    rw [Forest.get?_append _ _ _ hb, Forest.get?_append _ _ _ hb] at this
    unfold Tree.view?
    cases h3 : G.get? b <;> cases h4 : F.get? b <;> simpa [h3, h4] using this
  cases h3 : G.get? b with
  | none => cases h4 : F.get? b with
    | none => rfl
    | some s => have := hv' []; simp [h3, h4, Tree.view?] at this
  | some s' => cases h4 : F.get? b with
    | none => have := hv' []; simp [h3, h4, Tree.view?] at this
    | some s =>
      congr 1
      apply Tree.ext_view
      intro q
      simpa [h3, h4] using hv' q

lemma markIf_modify (F : Forest) (a : Path) (new : Option Flag) (ha : a ≠ []) :
    F.markIf a new = F.modify (fun t => t.labelled new) a := by
  cases new with
  | none =>
    change F = _
    apply Forest.ext_view
    intro b
    by_cases hab : a <+: b
    · obtain ⟨q, rfl⟩ := hab
      rw [Forest.view?_modify_append _ _ _ _ ha]
      unfold Forest.view? Tree.view?
      rw [Forest.get?_append _ _ _ ha]
      cases F.get? a <;> simp [Tree.labelled]
    · rw [Forest.view?_modify_of_not_prefix _ _ _ _ hab]
  | some l => rfl

lemma splitIfLeaf_modify {F : Forest} {a : Path} {t : Tree} (ha : a ≠ []) (hg : F.get? a = some t)
    (hr : t.info.regular = true) : F.splitIfLeaf a = .ok (F.modify Tree.splitIf a) := by
  unfold Forest.splitIfLeaf
  rw [hg]
  simp only
  split
  · rename_i hh
    congr 1
    apply Forest.ext_view
    intro b
    by_cases hab : a <+: b
    · obtain ⟨q, rfl⟩ := hab
      rw [Forest.view?_modify_append _ _ _ _ ha, hg]
      unfold Forest.view? Tree.view?
      rw [Forest.get?_append _ _ _ ha, hg]
      simp [Tree.splitIf, hh]
    · rw [Forest.view?_modify_of_not_prefix _ _ _ _ hab]
  · rename_i hh
    unfold Forest.split
    rw [hg]
    have : t.split none = .ok t.splitRegular := by
      unfold Tree.split
      rw [hr]; rfl
    simp only [this]
    congr 1
    apply Forest.modify_congr
    intro t' ht'
    rw [hg] at ht'; cases ht'
    simp [Tree.splitIf, hh]

lemma marksCrash_markedOn {f : Flag} {l : List Path} {F G : Forest} (h : MarksCrash f l F G) :
    ∃ S : Set Path, S ⊆ {b | b ∈ l} ∧ MarkedOn F f S G := by
  refine FoldCrash.inv h (J := fun G => ∃ S : Set Path, S ⊆ {b | b ∈ l} ∧ MarkedOn F f S G)
    ⟨∅, by simp, MarkedOn.refl F f⟩ (fun s a g _ hs e => e ▸ hs) ?_
  rintro s a ha ⟨S, h1, h2⟩
  refine ⟨S ∪ {a}, ?_, h2.trans (s.mark_markedOn a f)⟩
  rintro x (hx | hx)
  · exact h1 hx
  · rw [Set.mem_singleton_iff] at hx; subst hx; exact ha

lemma passCrash_local {sub ref new : Option Flag} (cu : Bool) {F G : Forest} {a : Path} {t : Tree} (ha : a ≠ [])
    (hg : F.get? a = some t) (hr : t.info.regular = true) (h : PassCrash sub ref new F a G) :
    (∃ t', G.get? a = some t' ∧ LocalMid sub ref new cu t t') ∧ ∀ b, ¬ a <+: b → G.view? b = F.view? b := by
  cases h with
  | start => exact ⟨⟨t, hg, .refl _ _ _ _ t⟩, fun _ _ => rfl⟩
  | labelled =>
    rw [markIf_modify _ _ _ ha]
    exact ⟨⟨_, by rw [Forest.get?_modify_self _ _ _ ha, hg]; rfl, .labelled _ _ _ _ t⟩,
      fun b hb => Forest.view?_modify_of_not_prefix _ _ _ _ hb⟩
  | @children F' G hsel hsp h1 h2 =>
    rw [markIf_modify _ _ _ ha] at hsel hsp
    have hg1 : (F.modify (fun t => t.labelled new) a).get? a = some (t.labelled new) := by
      rw [Forest.get?_modify_self _ _ _ ha, hg]; rfl
    have hch : t.Chosen ref new := by
      by_contra hn
      rw [isMarked_eq hg1, (chosen_iff ref new t).2 hn] at hsel
      cases hsel
    rw [splitIfLeaf_modify ha hg1 (by rw [labelled_info_regular]; exact hr), Forest.modify_modify] at hsp
    cases hsp
    have hg2 : (F.modify (Tree.splitIf ∘ fun t => t.labelled new) a).get? a = some (t.labelled new).splitIf := by
      rw [Forest.get?_modify_self _ _ _ ha, hg]; rfl
    have hq : ∀ {H : Forest} {s : Tree}, H.get? a = some s → ∀ q, H.view? (a ++ q) = s.view? q := by
      intro H s hs q
      unfold Forest.view? Tree.view?
      rw [Forest.get?_append _ _ _ ha, hs]; rfl
    have key : ∀ G : Forest, (G = F.modify (Tree.splitIf ∘ fun t => t.labelled new) a ∨
        ∃ l, childLabel sub new = some l ∧ ∃ S : Set Path,
          S ⊆ {b | b ∈ (F.modify (Tree.splitIf ∘ fun t => t.labelled new) a).childPaths a} ∧
          MarkedOn (F.modify (Tree.splitIf ∘ fun t => t.labelled new) a) l S G) →
        (∃ t', G.get? a = some t' ∧ LocalMid sub ref new cu t t') ∧ ∀ b, ¬ a <+: b → G.view? b = F.view? b := by
      rintro G (rfl | ⟨l, hl, S, hS, hM⟩)
      · exact ⟨⟨_, hg2, LocalMid.split hch fun q => .inl rfl⟩, fun b hb => Forest.view?_modify_of_not_prefix _ _ _ _ hb⟩
      · have hn : G.HasNode a := (hM.hasNode_iff a).2 (by unfold Forest.HasNode; rw [hg2]; rfl)
        obtain ⟨t', ht'⟩ := Option.isSome_iff_exists.1 hn
        refine ⟨⟨t', ht', LocalMid.split hch fun q => ?_⟩, fun b hb => ?_⟩
        · rw [← hq ht' q, ← hq hg2 q]
          by_cases hm : a ++ q ∈ S
          · right
            obtain ⟨i, hi, -⟩ := (Forest.mem_childPaths _ _ _ ha).1 (hS hm)
            exact ⟨by rw [List.append_cancel_left hi]; rfl, l, hl, hM.view_mem hm⟩
          · exact .inl (hM.view_not_mem hm)
        · rw [hM.view_not_mem, Forest.view?_modify_of_not_prefix _ _ _ _ hb]
          intro hm
          obtain ⟨i, rfl, -⟩ := (Forest.mem_childPaths _ _ _ ha).1 (hS hm)
          exact hb (List.prefix_append _ _)
    apply key
    cases hc : childLabel sub new with
    | none => exact .inl (h2 hc)
    | some l => exact .inr ⟨l, rfl, marksCrash_markedOn (h1 l hc)⟩

lemma loopCrash_local {sub ref new : Option Flag} {cu : Bool} {l : List Path} {F G : Forest} (hl : Antichain l)
    (hr : ∀ a ∈ l, a ≠ [] ∧ ∃ t, F.get? a = some t ∧ t.info.regular = true) (h : LoopCrash sub ref new cu l F G) :
    (∀ a ∈ l, ∀ t, F.get? a = some t → ∃ t', G.get? a = some t' ∧ LocalMid sub ref new cu t t') ∧
      ∀ b, (∀ a ∈ l, ¬ a <+: b) → G.view? b = F.view? b := by
  induction h with
  | stop => exact ⟨by simp, fun _ _ => rfl⟩
  | @here a l F G hp =>
    obtain ⟨ha, t, hg, hreg⟩ := hr a (by simp)
    unfold Antichain at hl
    rw [List.pairwise_cons] at hl
    obtain ⟨h1, h2⟩ := passCrash_local cu ha hg hreg hp
    refine ⟨fun b hb s hs => ?_, fun b hb => h2 b (hb a (by simp))⟩
    rcases List.mem_cons.1 hb with rfl | hb
    · rw [hg] at hs; cases hs; exact h1
    · refine ⟨s, ?_, .refl _ _ _ _ s⟩
      rw [← hs]
      refine get_of_views (hr b (by simp [hb])).1 fun q => h2 _ fun hpre => ?_
      rcases List.prefix_or_prefix_of_prefix hpre (List.prefix_append b q) with h | h
      · exact (hl.1 b hb).1 h
      · exact (hl.1 b hb).2 h
  | @next a l F F' G he _ ih =>
    obtain ⟨ha, t, hg, hreg⟩ := hr a (by simp)
    unfold Antichain at hl
    rw [List.pairwise_cons] at hl
    rw [refineLeaf_local F sub ref new cu a t ha hg hreg] at he
    cases he
    have hkeep : ∀ b ∈ l, (F.modify (Tree.refineLocal sub ref new cu) a).get? b = F.get? b :=
      fun b hb => F.get?_modify_incomparable _ _ _ (hl.1 b hb).1 (hl.1 b hb).2
    obtain ⟨h1, h2⟩ := ih hl.2 (fun b hb => by rw [hkeep b hb]; exact hr b (by simp [hb]))
    refine ⟨fun b hb s hs => ?_, fun b hb => ?_⟩
    · rcases List.mem_cons.1 hb with rfl | hb
      · rw [hg] at hs; cases hs
        refine ⟨_, ?_, .done _ _ _ _ t⟩
        have h3 : (F.modify (Tree.refineLocal sub ref new cu) b).get? b = some (t.refineLocal sub ref new cu) := by
          rw [Forest.get?_modify_self _ _ _ ha, hg]; rfl
        rw [← h3]
        refine get_of_views ha fun q => h2 _ fun c hc hpre => ?_
        rcases List.prefix_or_prefix_of_prefix hpre (List.prefix_append b q) with h | h
        · exact (hl.1 c hc).2 h
        · exact (hl.1 c hc).1 h
      · exact h1 b hb s (by rw [hkeep b hb]; exact hs)
    · rw [h2 b (fun c hc => hb c (by simp [hc]))]
      exact F.view?_modify_of_not_prefix _ _ _ (hb a (by simp))

/-- The crash points belong to the pass: a pass that ends comes from the last of them, by removing the refinement
flag if it is to be removed. -/
lemma passCrash_last {sub ref new : Option Flag} {cu : Bool} {F F' : Forest} {a : Path}
    (h : F.refineLeaf sub ref new cu a = .ok F') :
    ∃ G, PassCrash sub ref new F a G ∧ (F' = G ∨ F' = G.unmark a ref) := by
  unfold Forest.refineLeaf at h
  simp only at h
  split at h
  · cases h; exact ⟨_, .labelled, .inl rfl⟩
  · rename_i hsel
    split at h
    · cases h
    · rename_i F1 hs
      have hm : ∀ l (L : List Path) (F : Forest), MarksCrash l L F (L.foldl (fun F c => F.mark c (some l)) F) := by
        intro l L
        unfold MarksCrash
        induction L with
        | nil => exact fun F => .stop
        | cons a L ih => exact fun F => .next (ih _)
      refine ⟨F1.markChildrenIf a (childLabel sub new), .children (by simpa using hsel) hs (fun l hl => ?_) (fun hl => ?_), ?_⟩
      · rw [hl]; exact hm _ _ _
      · rw [hl]; rfl
      · split at h <;> cases h
        · exact .inr rfl
        · exact .inl rfl

/-! ### the forest left behind -/

/-- What `refine` can leave behind if it is interrupted after the subforest was rooted: `F1` is the rooted
forest, `C` the forest an undisturbed call gives. -/
structure Mid (F1 C : Forest) (sub ref new : Option Flag) (cu : Bool) (G : Forest) : Prop where
  reg : G.Regular
  slot : ∀ a i, F1.IsLeaf sub a → (G.Slot a i ↔ F1.Slot a i)
  n1 : ∀ b, F1.HasNode b → G.HasNode b
  n2 : ∀ b, G.HasNode b → F1.HasNode b ∨ ∃ a i, b = a ++ [i] ∧ F1.Selected sub ref new a ∧
    (∀ j, ¬ F1.HasNode (a ++ [j])) ∧ F1.Slot a i
  n3 : ∀ a, F1.IsLeaf sub a → (∀ j, ¬ F1.HasNode (a ++ [j])) → ∀ i j, G.HasNode (a ++ [j]) → F1.Slot a i →
    G.HasNode (a ++ [i])
  m1 : ∀ b g, F1.Marked b g → ¬ (cu = true ∧ ref = some g ∧ F1.Selected sub ref new b) → G.Marked b g
  m2 : ∀ b g, G.Marked b g → F1.Marked b g ∨ (F1.IsLeaf sub b ∧ new = some g) ∨
    (childLabel sub new = some g ∧ ∃ a i, b = a ++ [i] ∧ F1.Selected sub ref new a) ∨ (new = some g ∧ C.Marked b g)
  m3 : ∀ a r, ref = some r → F1.Selected sub ref new a → F1.Marked a r → ¬ G.Marked a r →
    ((∀ j, ¬ F1.HasNode (a ++ [j])) → ∀ i, F1.Slot a i → G.HasNode (a ++ [i])) ∧
    ∀ i l, childLabel sub new = some l → G.HasNode (a ++ [i]) → G.Marked (a ++ [i]) l
  m4 : ∀ l, new = some l → ref ≠ some l → ∀ a i, G.HasNode (a ++ [i]) → ¬ F1.HasNode (a ++ [i]) → G.Marked a l

lemma mid_of_local {F1 G : Forest} (C : Forest) {sub ref new : Option Flag} {cu : Bool} (hF : F1.Regular)
    (hcl : F1.AncestorClosed sub)
    (h1 : ∀ a, F1.IsLeaf sub a → ∀ t, F1.get? a = some t → ∃ t', G.get? a = some t' ∧ LocalMid sub ref new cu t t')
    (h2 : ∀ b, (∀ a, F1.IsLeaf sub a → ¬ a <+: b) → G.view? b = F1.view? b) : Mid F1 C sub ref new cu G := by
  have hleaf : ∀ a, F1.IsLeaf sub a → ∃ t t', F1.get? a = some t ∧ G.get? a = some t' ∧ LocalMid sub ref new cu t t' := by
    intro a ha
    obtain ⟨t, ht, -⟩ := (F1.inSub_iff_get _ _).1 ha.1
    obtain ⟨t', h3, h4⟩ := h1 a ha t ht
    exact ⟨t, t', ht, h3, h4⟩
  have hcase : ∀ b, (∃ a t t' q, b = a ++ q ∧ F1.IsLeaf sub a ∧ F1.get? a = some t ∧ G.get? a = some t' ∧
      LocalMid sub ref new cu t t') ∨ G.view? b = F1.view? b := by
    intro b
    by_cases hb : ∃ a, F1.IsLeaf sub a ∧ a <+: b
    · obtain ⟨a, ha, q, rfl⟩ := hb
      obtain ⟨t, t', h3, h4, h5⟩ := hleaf a ha
      exact .inl ⟨a, t, t', q, rfl, ha, h3, h4, h5⟩
    · exact .inr (h2 b fun a ha hp => hb ⟨a, ha, hp⟩)
  have hsel : ∀ a t, F1.get? a = some t → (F1.Selected sub ref new a ↔ F1.IsLeaf sub a ∧ t.Chosen ref new) := by
    intro a t ht
    unfold Forest.Selected Tree.Chosen Forest.Marked
    simp [ht]
  have hn2 : ∀ b, G.HasNode b → F1.HasNode b ∨ ∃ a i, b = a ++ [i] ∧ F1.Selected sub ref new a ∧
      (∀ j, ¬ F1.HasNode (a ++ [j])) ∧ F1.Slot a i := by
    intro b hb
    rcases hcase b with ⟨a, t, t', q, rfl, ha, ht, ht', hm⟩ | hv
    · rw [Forest.hasNode_append _ _ _ _ ht'] at hb
      rw [Forest.hasNode_append _ _ _ _ ht]
      rcases hm.n2 q hb with h | ⟨h3, h4, i, hi, rfl⟩
      · exact .inl h
      · exact .inr ⟨a, i, rfl, (hsel a t ht).2 ⟨ha, h3⟩, (hasChildren_false_iff F1 a t ht none).1 h4, t, ht, hi⟩
    · left; rw [Forest.hasNode_iff_view] at hb ⊢; rwa [← hv]
  refine ⟨?_, ?_, ?_, hn2, ?_, ?_, ?_, ?_, ?_⟩
  · intro b s hs
    rcases hcase b with ⟨a, t, t', q, rfl, ha, ht, ht', hm⟩ | hv
    · have ha0 : a ≠ [] := by rintro rfl; simp at ht
      rw [Forest.get?_append _ _ _ ha0, ht'] at hs
      refine hm.reg (fun q v hq => ?_) q s.view (by simp only [Option.bind_some] at hs; simp [Tree.view?, hs])
      unfold Tree.view? at hq
      cases hu : t.get? q with
      | none => simp [hu] at hq
      | some u =>
        simp only [hu, Option.map_some, Option.some.injEq] at hq
        subst hq
        exact hF (a ++ q) u (by rw [Forest.get?_append _ _ _ ha0, ht]; exact hu)
    · unfold Forest.view? at hv
      rw [hs] at hv
      cases hu : F1.get? b with
      | none => simp [hu] at hv
      | some u =>
        simp only [hu, Option.map_some, Option.some.injEq, Tree.view, Prod.mk.injEq] at hv
        rw [hv.1]; exact hF b u hu
  · intro a i ha
    obtain ⟨t, t', ht, ht', hm⟩ := hleaf a ha
    unfold Forest.Slot
    simp [ht, ht', hm.len]
  · intro b hb
    rcases hcase b with ⟨a, t, t', q, rfl, ha, ht, ht', hm⟩ | hv
    · rw [Forest.hasNode_append _ _ _ _ ht'] 
      rw [Forest.hasNode_append _ _ _ _ ht] at hb
      exact hm.n1 q hb
    · rw [Forest.hasNode_iff_view] at hb ⊢; rwa [hv]
  · intro a ha hnc i j hj hi
    obtain ⟨t, t', ht, ht', hm⟩ := hleaf a ha
    rw [Forest.hasNode_append _ _ _ _ ht'] at hj ⊢
    obtain ⟨s, hs, hi⟩ := hi
    rw [ht] at hs; cases hs
    exact hm.n3 ((hasChildren_false_iff F1 a t ht none).2 hnc) i j hj hi
  · intro b g hb hn
    rcases hcase b with ⟨a, t, t', q, rfl, ha, ht, ht', hm⟩ | hv
    · rw [Forest.markedAt_append _ _ _ _ _ ht'] 
      rw [Forest.markedAt_append _ _ _ _ _ ht] at hb
      refine hm.m1 q g hb ?_
      rintro ⟨rfl, h3, h4, h5⟩
      rw [List.append_nil] at hn
      exact hn ⟨h4, h5, (hsel a t ht).2 ⟨ha, h3⟩⟩
    · rw [Forest.marked_iff_view] at hb ⊢; rwa [hv]
  · intro b g hb
    rcases hcase b with ⟨a, t, t', q, rfl, ha, ht, ht', hm⟩ | hv
    · rw [Forest.markedAt_append _ _ _ _ _ ht'] at hb
      rw [Forest.markedAt_append _ _ _ _ _ ht]
      rcases hm.m2 q g hb with h | ⟨rfl, h⟩ | ⟨h3, h4, h5⟩
      · exact .inl h
      · exact .inr (.inl ⟨by rwa [List.append_nil], h⟩)
      · obtain ⟨i, rfl⟩ := List.length_eq_one_iff.1 h3
        exact .inr (.inr (.inl ⟨h5, a, i, rfl, (hsel a t ht).2 ⟨ha, h4⟩⟩))
    · left; rw [Forest.marked_iff_view] at hb ⊢; rwa [← hv]
  · intro a r hr hs ha hna
    obtain ⟨t, t', ht, ht', hm⟩ := hleaf a hs.1
    have e : ∀ {H : Forest} {s : Tree}, H.get? a = some s → (H.Marked a r ↔ s.MarkedAt [] r) := by
      intro H s h
      have := H.markedAt_append a [] s r h
      rwa [List.append_nil] at this
    obtain ⟨h3, h4⟩ := hm.m3 r hr ((hsel a t ht).1 hs).2 ((e ht).1 ha) (fun h => hna ((e ht').2 h))
    refine ⟨fun hnc i hi => ?_, fun i l hl hi => ?_⟩
    · obtain ⟨s, hs, hi⟩ := hi
      rw [ht] at hs; cases hs
      rw [Forest.hasNode_append _ _ _ _ ht']
      exact h3 ((hasChildren_false_iff F1 a t ht none).2 hnc) i hi
    · rw [Forest.hasNode_append _ _ _ _ ht'] at hi
      rw [Forest.markedAt_append _ _ _ _ _ ht']
      exact h4 i l hl hi
  · intro l hl hr a i hi hni
    obtain ⟨a', i', he, hs, -, -⟩ := (hn2 _ hi).resolve_left hni
    have haa : a = a' := by
      have := congrArg List.dropLast he
      simpa using this
    subst haa
    obtain ⟨t, t', ht, ht', hm⟩ := hleaf a hs.1
    rw [Forest.hasNode_append _ _ _ _ ht'] at hi
    rw [Forest.hasNode_append _ _ _ _ ht] at hni
    have := G.markedAt_append a [] t' l ht'
    rw [List.append_nil] at this
    exact this.2 (hm.m4 l hl hr i hi hni)

lemma SameUpToFlags.slot {F G : Forest} (h : SameUpToFlags F G) (a : Path) (i : Nat) : G.Slot a i ↔ F.Slot a i := by
  have := h a
  unfold Forest.view? at this
  unfold Forest.Slot
  cases h1 : F.get? a with
  | none => cases h2 : G.get? a with
    | none => simp
    | some t2 => simp [h1, h2] at this
  | some t1 => cases h2 : G.get? a with
    | none => simp [h1, h2] at this
    | some t2 =>
      simp only [h1, h2, Option.map_some, Option.some.injEq, Prod.mk.injEq, Tree.view] at this
      have h3 := congrArg List.length this.2
      simp at h3
      simp [h3]

lemma Mid.closing {F1 F2 G : Forest} {sub ref : Option Flag} {l : Flag} {cu : Bool}
    (h : Mid F1 (F2.rootSubtrees l) sub ref (some l) cu F2) (hG : MarkedForced F2 l G) :
    Mid F1 (F2.rootSubtrees l) sub ref (some l) cu G := by
  have hn := hG.hasNode
  obtain ⟨S, hM, hS⟩ := id hG
  have hmono : ∀ b g, F2.Marked b g → G.Marked b g := fun b g h => (hM.marked_iff b g).2 (.inl h)
  refine ⟨hG.same.regular h.reg, fun a i ha => (hG.same.slot a i).trans (h.slot a i ha), fun b hb => (hn b).2 (h.n1 b hb),
    fun b hb => h.n2 b ((hn b).1 hb), fun a ha hc i j hj hi => (hn _).2 (h.n3 a ha hc i j ((hn _).1 hj) hi),
    fun b g hb hc => hmono b g (h.m1 b g hb hc), fun b g hb => ?_, fun a r hr hs ha hna => ?_,
    fun l' hl hr a i hi hni => hmono _ _ (h.m4 l' hl hr a i ((hn _).1 hi) hni)⟩
  · rcases (hM.marked_iff b g).1 hb with hb | ⟨rfl, hb, hbn⟩
    · exact h.m2 b g hb
    · exact .inr (.inr (.inr ⟨rfl, ((C03_root_subtrees_exact F2 g).2 b g).2 (.inr ⟨rfl, hbn, hS b hb hbn⟩)⟩))
  · obtain ⟨h3, h4⟩ := h.m3 a r hr hs ha fun h => hna (hmono _ _ h)
    exact ⟨fun hc i hi => (hn _).2 (h3 hc i hi), fun i l' hl hi => hmono _ _ (h4 i l' hl ((hn _).1 hi))⟩

/-- After an interruption: `root_subtrees` again gives the rooted forest, or the forest is one in the middle. -/
lemma refineCrash_mid {F G : Forest} (hF : F.Regular) {sub ref new : Option Flag} {cu : Bool}
    (h : RefineCrash F sub ref new cu G) :
    (G.rootIf sub = F.rootIf sub ∧ SameUpToFlags F G ∧ ∀ b g, sub ≠ some g → (G.Marked b g ↔ F.Marked b g)) ∨
    ∃ F2 : Forest, Forest.refineLoop sub ref new cu
      (((F.rootIf sub).getLeaves none sub .breadthFirst).map (·.1)) (F.rootIf sub) = .ok F2 ∧
      Mid (F.rootIf sub) (F2.rootIf new) sub ref new cu G := by
  have hsame := rootIf_same F sub
  have hroot := rootIf_rooted F sub
  have hreg := hsame.regular hF
  have hcl := rooted_ancestorClosed (F.rootIf sub) sub hroot
  obtain ⟨hmem, hnd⟩ := C02_get_leaves (F.rootIf sub) none sub .breadthFirst
  simp only [reduceCtorEq, false_implies, implies_true, and_true] at hmem
  have hanti : Antichain (((F.rootIf sub).getLeaves none sub .breadthFirst).map (·.1)) := by
    refine hnd.imp_of_mem ?_
    intro a b ha hb hab
    exact ⟨fun h => hab (C02_leaves_antichain _ sub hcl a b ((hmem a).1 ha) ((hmem b).1 hb) h),
      fun h => hab (C02_leaves_antichain _ sub hcl b a ((hmem b).1 hb) ((hmem a).1 ha) h).symm⟩
  have hget : ∀ a ∈ ((F.rootIf sub).getLeaves none sub .breadthFirst).map (·.1), a ≠ [] ∧
      ∃ t, (F.rootIf sub).get? a = some t ∧ t.info.regular = true := by
    intro a ha
    obtain ⟨t, ht, -⟩ := ((F.rootIf sub).inSub_iff_get _ _).1 ((hmem a).1 ha).1
    exact ⟨by rintro rfl; simp at ht, t, ht, hreg a t ht⟩
  obtain ⟨F2, hok, hin, hout⟩ := refineLoop_ok sub ref new cu _ _ hanti hget
  cases h with
  | @rooting f G hf hc =>
    subst hf
    left
    have hm := hc.markedForced
    obtain ⟨S, h1, -⟩ := id hm
    refine ⟨hm.root, hm.same, fun b g hg => ?_⟩
    rw [h1.marked_iff]
    have : g ≠ f := fun e => hg (by rw [e])
    simp [this]
  | loop hc =>
    refine .inr ⟨F2, hok, ?_⟩
    obtain ⟨h1, h2⟩ := loopCrash_local hanti hget hc
    exact mid_of_local _ hreg hcl (fun a ha t ht => h1 a ((hmem a).2 ha) t ht)
      fun b hb => h2 b fun a ha => hb a ((hmem a).1 ha)
  | @closing F2' G l hok' hl hc =>
    rw [hok] at hok'
    cases hok'
    subst hl
    refine .inr ⟨F2, hok, Mid.closing ?_ hc.markedForced⟩
    refine mid_of_local _ hreg hcl (fun a ha t ht => ⟨_, by rw [hin a ((hmem a).2 ha), ht]; rfl, .done _ _ _ _ t⟩)
      fun b hb => hout b fun a ha => hb a ((hmem a).1 ha)

end Verif.Trees
