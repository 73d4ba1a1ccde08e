import Verif.Forest.RefineProps

/-!
# C92: `root_subtrees` interrupted

`root_subtrees` (mesh.py 1243-1273) marks nodes one by one.  An exception (`KeyboardInterrupt`,
`MemoryError`) may leave it between any two of these marks.  `RootCrash F f G`: called on the forest `F`, it
was left in this way when the forest was `G`.
-/

namespace Verif.Trees

/-- A loop `for a in l: step` over a mutable state, left by an exception.  `P s a g`: the body for `a`,
started in `s`, is left in `g`.  A loop left after its last pass is included (`stop`). -/
inductive FoldCrash {σ α : Type} (P : σ → α → σ → Prop) (step : σ → α → σ) : List α → σ → σ → Prop
  | stop {s : σ} : FoldCrash P step [] s s
  | here {a : α} {l : List α} {s g : σ} : P s a g → FoldCrash P step (a :: l) s g
  | next {a : α} {l : List α} {s g : σ} : FoldCrash P step l (step s a) g → FoldCrash P step (a :: l) s g

lemma FoldCrash.inv {σ α : Type} {P : σ → α → σ → Prop} {step : σ → α → σ} {l : List α} {s g : σ}
    (h : FoldCrash P step l s g) {J : σ → Prop} (h0 : J s) (h1 : ∀ s a g, a ∈ l → J s → P s a g → J g)
    (h2 : ∀ s a, a ∈ l → J s → J (step s a)) : J g := by
  induction h with
  | stop => exact h0
  | here hp => exact h1 _ _ _ (by simp) h0 hp
  | next _ ih =>
    exact ih (h2 _ _ (by simp) h0) (fun s a g ha => h1 s a g (by simp [ha])) (fun s a ha => h2 s a (by simp [ha]))

lemma foldl_inv {σ α : Type} {step : σ → α → σ} (l : List α) {s : σ} {J : σ → Prop} (h0 : J s)
    (h2 : ∀ s a, a ∈ l → J s → J (step s a)) : J (l.foldl step s) := by
  induction l generalizing s with
  | nil => exact h0
  | cons a l ih => exact ih (h2 _ _ (by simp) h0) (fun s a ha => h2 s a (by simp [ha]))

/-- The loop marking the nodes of a list, left between two marks (mesh.py 1268-1270, 1697-1712). -/
def MarksCrash (f : Flag) (l : List Path) (F G : Forest) : Prop :=
  FoldCrash (fun F _ G => G = F) (fun F c => F.mark c (some f)) l F G

/-- One pass of the loop over the ancestors, interrupted (mesh.py 1266-1273). -/
def FamilyCrash (f : Flag) (F : Forest) (b : Path) (G : Forest) : Prop :=
  G = F ∨ MarksCrash f ((F.mark b (some f)).childPaths b) (F.mark b (some f)) G

/-- One pass of the traversal loop, interrupted (mesh.py 1258-1273). -/
def VisitCrash (f : Flag) (F : Forest) (a : Path) (G : Forest) : Prop :=
  G = F ∨ (F.isMarked a (some f) = true ∧ FoldCrash (FamilyCrash f) (Forest.markFamily f) (ancestors a) F G)

/-- One pass of the loop over the roots, interrupted (mesh.py 1253-1273). -/
def TreeCrash (f : Flag) (F : Forest) (i : Nat) (G : Forest) : Prop :=
  G = F ∨ ∃ t, (F.mark [i] (some f)).get? [i] = some t ∧
    FoldCrash (VisitCrash f) (Forest.rootVisit f) ((t.traverse [i] none .depthFirst).map (·.1)) (F.mark [i] (some f)) G

/-- `root_subtrees(f)`, called on `F` and left by an exception when the forest was `G` (mesh.py 1243-1273). -/
def RootCrash (F : Forest) (f : Flag) (G : Forest) : Prop :=
  FoldCrash (TreeCrash f) (Forest.rootTree f) (List.range F.trees.length) F G

/-! ### the invariant -/

/-- Only nodes that have to be marked have been marked. -/
def MarkedForced (F : Forest) (f : Flag) (G : Forest) : Prop :=
  ∃ S, MarkedOn F f S G ∧ ∀ x ∈ S, F.HasNode x → Forced F f x

lemma MarkedForced.refl (F : Forest) (f : Flag) : MarkedForced F f F :=
  ⟨∅, MarkedOn.refl F f, by simp⟩

lemma MarkedForced.mark {F G : Forest} {f : Flag} (h : MarkedForced F f G) {c : Path}
    (hc : F.HasNode c → Forced F f c) : MarkedForced F f (G.mark c (some f)) := by
  obtain ⟨S, h1, h2⟩ := h
  refine ⟨S ∪ {c}, h1.trans (G.mark_markedOn c f), ?_⟩
  rintro x (hx | hx) hn
  · exact h2 x hx hn
  · rw [Set.mem_singleton_iff] at hx; subst hx; exact hc hn

lemma MarkedForced.hasNode {F G : Forest} {f : Flag} (h : MarkedForced F f G) (b : Path) :
    G.HasNode b ↔ F.HasNode b := by
  obtain ⟨S, h1, -⟩ := h; exact h1.hasNode_iff b

lemma MarkedForced.forced {F G : Forest} {f : Flag} (h : MarkedForced F f G) {a : Path} (ha : G.Marked a f) :
    Forced F f a := by
  obtain ⟨S, h1, h2⟩ := h
  rcases (h1.marked_iff a f).1 ha with h | ⟨-, h, hn⟩
  · exact .old h
  · exact h2 a h hn

/-- All that marking an ancestor and its children needs. -/
def FamilyOk (F : Forest) (f : Flag) (b : Path) : Prop :=
  b ≠ [] ∧ Forced F f b ∧ ∀ j, F.HasNode (b ++ [j]) → Forced F f (b ++ [j])

lemma familyOk_of_ancestor {F : Forest} {f : Flag} {a b : Path} (ha : Forced F f a) (hb : b ∈ ancestors a) :
    FamilyOk F f b := by
  rw [mem_ancestors] at hb
  obtain ⟨hb0, ⟨q, rfl⟩, hb2⟩ := hb
  have hanc : ∀ q : Path, Forced F f (b ++ q) → Forced F f b := by
    intro q
    induction q using List.reverseRecOn with
    | nil => intro h; simpa using h
    | append_singleton q i ih =>
      intro h
      rw [← List.append_assoc] at h
      exact ih (.parent (by simp [hb0]) h)
  have hchild : ∀ (q : Path) (k : Nat), Forced F f (b ++ k :: q) → Forced F f (b ++ [k]) := by
    intro q k
    induction q using List.reverseRecOn with
    | nil => intro h; exact h
    | append_singleton q i ih =>
      intro h
      have e : b ++ k :: (q ++ [i]) = (b ++ k :: q) ++ [i] := by simp
      rw [e] at h
      exact ih (.parent (by simp) h)
  cases q with
  | nil => simp at hb2
  | cons k q => exact ⟨hb0, hanc _ ha, fun j hj => .sibling hb0 (hchild q k ha) hj⟩

lemma FamilyOk.children {F G : Forest} {f : Flag} {b c : Path} (hb : FamilyOk F f b)
    (hc : c ∈ G.childPaths b) : F.HasNode c → Forced F f c := by
  obtain ⟨i, rfl, -⟩ := (Forest.mem_childPaths _ _ _ hb.1).1 hc
  exact hb.2.2 i

lemma MarkedForced.family {F G : Forest} {f : Flag} {b : Path} (hb : FamilyOk F f b) (h : MarkedForced F f G) :
    MarkedForced F f (Forest.markFamily f G b) := by
  have h1 := h.mark (c := b) (fun _ => hb.2.1)
  exact foldl_inv _ h1 fun s c hc hs => hs.mark (hb.children hc)

lemma MarkedForced.familyCrash {F G G' : Forest} {f : Flag} {b : Path} (hb : FamilyOk F f b) (h : MarkedForced F f G)
    (hc : FamilyCrash f G b G') : MarkedForced F f G' := by
  have h1 := h.mark (c := b) (fun _ => hb.2.1)
  rcases hc with rfl | hc
  · exact h
  · exact hc.inv h1 (fun s a g _ hs e => e ▸ hs) fun s c hc hs => hs.mark (hb.children hc)

lemma MarkedForced.visit {F G : Forest} {f : Flag} {a : Path} (h : MarkedForced F f G) :
    MarkedForced F f (Forest.rootVisit f G a) := by
  unfold Forest.rootVisit
  split
  · rename_i hm
    exact foldl_inv _ h fun s b hb hs => hs.family (familyOk_of_ancestor (h.forced ((Forest.isMarked_iff _ _ _).1 hm)) hb)
  · exact h

lemma MarkedForced.visitCrash {F G G' : Forest} {f : Flag} {a : Path} (h : MarkedForced F f G)
    (hc : VisitCrash f G a G') : MarkedForced F f G' := by
  rcases hc with rfl | ⟨hm, hc⟩
  · exact h
  · have ok := fun b hb => familyOk_of_ancestor (b := b) (h.forced ((Forest.isMarked_iff _ _ _).1 hm)) hb
    exact hc.inv h (fun s b g hb hs hp => hs.familyCrash (ok b hb) hp) fun s b hb hs => hs.family (ok b hb)

lemma MarkedForced.tree {F G : Forest} {f : Flag} {i : Nat} (h : MarkedForced F f G) :
    MarkedForced F f (Forest.rootTree f G i) := by
  have h1 := h.mark (c := [i]) (fun hn => .root hn)
  unfold Forest.rootTree
  simp only
  split
  · exact foldl_inv _ h1 fun s b _ hs => hs.visit
  · exact h1

lemma MarkedForced.treeCrash {F G G' : Forest} {f : Flag} {i : Nat} (h : MarkedForced F f G)
    (hc : TreeCrash f G i G') : MarkedForced F f G' := by
  have h1 := h.mark (c := [i]) (fun hn => .root hn)
  rcases hc with rfl | ⟨t, -, hc⟩
  · exact h
  · exact hc.inv h1 (fun s b g _ hs hp => hs.visitCrash hp) fun s b _ hs => hs.visit

lemma RootCrash.markedForced {F G : Forest} {f : Flag} (h : RootCrash F f G) : MarkedForced F f G :=
  FoldCrash.inv h (MarkedForced.refl F f) (fun _ _ _ _ hs hp => hs.treeCrash hp) fun _ _ _ hs => hs.tree

/-! ### what the marks and the nodes determine -/

/-- Two forests with the same nodes and the same marks. -/
def SameMarks (F G : Forest) : Prop :=
  (∀ b, G.HasNode b ↔ F.HasNode b) ∧ ∀ b g, G.Marked b g ↔ F.Marked b g

lemma SameMarks.symm {F G : Forest} (h : SameMarks F G) : SameMarks G F :=
  ⟨fun b => (h.1 b).symm, fun b g => (h.2 b g).symm⟩

lemma SameMarks.trans {F G H : Forest} (h : SameMarks F G) (h' : SameMarks G H) : SameMarks F H :=
  ⟨fun b => (h'.1 b).trans (h.1 b), fun b g => (h'.2 b g).trans (h.2 b g)⟩

lemma forced_mono {F G : Forest} {f : Flag} (hn : ∀ b, F.HasNode b → G.HasNode b)
    (hm : ∀ b, F.Marked b f → Forced G f b) {a : Path} (h : Forced F f a) : Forced G f a := by
  induction h with
  | old h => exact hm _ h
  | root h => exact .root (hn _ h)
  | parent ha _ ih => exact .parent ha ih
  | sibling ha _ hn' ih => exact .sibling ha ih (hn _ hn')

/-- Closing the flag `f`: the result depends on the nodes, and on the flag only between the flag itself and its
closure. -/
lemma root_marks {F G : Forest} {f : Flag} (hn : ∀ b, G.HasNode b ↔ F.HasNode b)
    (h1 : ∀ b, F.Marked b f → (G.rootSubtrees f).Marked b f)
    (h2 : ∀ b, G.Marked b f → (F.rootSubtrees f).Marked b f) (b : Path) :
    (G.rootSubtrees f).Marked b f ↔ (F.rootSubtrees f).Marked b f := by
  obtain ⟨a1, a2⟩ := C03_root_subtrees_exact F f
  obtain ⟨b1, b2⟩ := C03_root_subtrees_exact G f
  have fF : ∀ b, (F.rootSubtrees f).Marked b f → Forced F f b := fun b h => by
    rcases (a2 _ _).1 h with h | h
    · exact .old h
    · exact h.2.2
  have fG : ∀ b, (G.rootSubtrees f).Marked b f → Forced G f b := fun b h => by
    rcases (b2 _ _).1 h with h | h
    · exact .old h
    · exact h.2.2
  constructor
  · intro h
    refine (a2 _ _).2 (.inr ⟨rfl, (hn b).1 ((b1.hasNode b).1 h.hasNode), ?_⟩)
    exact forced_mono (fun b h => (hn b).1 h) (fun b h => fF b (h2 b h)) (fG b h)
  · intro h
    refine (b2 _ _).2 (.inr ⟨rfl, (hn b).2 ((a1.hasNode b).1 h.hasNode), ?_⟩)
    exact forced_mono (fun b h => (hn b).2 h) (fun b h => fG b (h1 b h)) (fF b h)

lemma sameMarks_root {F G : Forest} {f : Flag} (hn : ∀ b, G.HasNode b ↔ F.HasNode b)
    (hg : ∀ b g, g ≠ f → (G.Marked b g ↔ F.Marked b g)) (h1 : ∀ b, F.Marked b f → (G.rootSubtrees f).Marked b f)
    (h2 : ∀ b, G.Marked b f → (F.rootSubtrees f).Marked b f) : SameMarks (F.rootSubtrees f) (G.rootSubtrees f) := by
  obtain ⟨a1, a2⟩ := C03_root_subtrees_exact F f
  obtain ⟨b1, b2⟩ := C03_root_subtrees_exact G f
  refine ⟨fun b => by rw [b1.hasNode, a1.hasNode, hn], fun b g => ?_⟩
  by_cases e : g = f
  · subst e; exact root_marks hn h1 h2 b
  · rw [a2, b2]
    simp [e, hg b g e]

lemma ext_marks {F G : Forest} (h : SameUpToFlags F G) (hm : ∀ b g, G.Marked b g ↔ F.Marked b g) : G = F := by
  apply Forest.ext_view
  intro a
  have h1 := h a
  have h2 := hm a
  simp only [Forest.marked_iff_view] at h2
  cases hG : G.view? a with
  | none => cases hF : F.view? a with
    | none => rfl
    | some v => simp [hG, hF] at h1
  | some w => cases hF : F.view? a with
    | none => simp [hG, hF] at h1
    | some v =>
      simp only [hG, hF, Option.map_some, Option.some.injEq, Prod.mk.injEq, exists_eq_left'] at h1 h2
      have h3 : w.1.flags = v.1.flags := Finset.ext h2
      obtain ⟨⟨k, r, ad, d, fl⟩, o⟩ := v
      obtain ⟨⟨k', r', ad', d', fl'⟩, o'⟩ := w
      simp only [Info.mk.injEq] at h1 h3
      subst h3
      simp [h1]

lemma MarkedForced.same {F G : Forest} {f : Flag} (h : MarkedForced F f G) : SameUpToFlags F G := by
  obtain ⟨S, h1, -⟩ := h
  intro a
  by_cases ha : a ∈ S
  · rw [h1.view_mem ha]; cases F.view? a <;> simp [View.mapFlags]
  · rw [h1.view_not_mem ha]

lemma MarkedForced.root {F G : Forest} {f : Flag} (h : MarkedForced F f G) : G.rootSubtrees f = F.rootSubtrees f := by
  obtain ⟨S, h1, h2⟩ := id h
  have a := C03_root_subtrees_exact F f
  have b := C03_root_subtrees_exact G f
  refine ext_marks ?_ (sameMarks_root (h.hasNode) ?_ ?_ ?_).2
  · intro x; rw [b.1 x, h.same x, ← a.1 x]
  · intro b g e; rw [h1.marked_iff]; simp [e]
  · intro x hx; exact (b.2 _ _).2 (.inl ((h1.marked_iff _ _).2 (.inl hx)))
  · intro x hx; exact (a.2 _ _).2 (.inr ⟨rfl, (h.hasNode x).1 hx.hasNode, h.forced hx⟩)

/-- **C92** (`root_subtrees` interrupted).  Wherever `root_subtrees(f)` is left by an exception: no node and no
other flag has changed, a node carries `f` only if it did or has to, and calling `root_subtrees(f)` again gives
exactly the forest an undisturbed call would have given. -/
theorem C92_root_subtrees {F G : Forest} {f : Flag} (h : RootCrash F f G) :
    SameUpToFlags F G ∧ (∀ b g, G.Marked b g → (F.rootSubtrees f).Marked b g) ∧ (∀ b g, F.Marked b g → G.Marked b g) ∧
      G.rootSubtrees f = F.rootSubtrees f := by
  have hm := h.markedForced
  obtain ⟨S, h1, h2⟩ := id hm
  refine ⟨hm.same, fun b g hg => ?_, fun b g hg => (h1.marked_iff _ _).2 (.inl hg), hm.root⟩
  refine ((C03_root_subtrees_exact F f).2 b g).2 ?_
  rcases (h1.marked_iff b g).1 hg with h | ⟨rfl, h, hn⟩
  · exact .inl h
  · exact .inr ⟨rfl, hn, h2 b h hn⟩

/-- Non-vacuity: the flag 7 sits on a grandchild; the call is left after it has marked the first root. -/
example : RootCrash exForest 7 (exForest.mark [0] (some 7)) ∧ ¬ exForest.Marked [0] 7 ∧
    (exForest.mark [0] (some 7)).Marked [0] 7 ∧ ¬ (exForest.mark [0] (some 7)).Marked [1] 7 ∧
    (exForest.rootSubtrees 7).Marked [1] 7 := by
  refine ⟨?_, ?_, ?_, ?_, ?_⟩
  · show FoldCrash _ _ [0, 1] _ _
    refine .here (.inr ⟨_, rfl, ?_⟩)
    have key : ∀ (t : Tree) (P : Path → Forest → Forest → Prop) (step : Forest → Path → Forest) (F : Forest),
        (∀ a, P a F F) → FoldCrash (fun s a g => P a s g) step ((t.traverse [0] none .depthFirst).map (·.1)) F F := by
      intro t P step F hP
      cases (t.traverse [0] none .depthFirst).map (·.1) with
      | nil => exact .stop
      | cons a l => exact .here (hP a)
    exact key _ (fun a s g => VisitCrash 7 s a g) _ _ fun a => .inl rfl
  · rintro ⟨t, ht, hf⟩
    cases ht; revert hf; decide
  · exact ⟨_, rfl, by decide⟩
  · rintro ⟨t, ht, hf⟩
    cases ht; revert hf; decide
  · exact (C03_root_subtrees_rooted exForest 7).1 1 (((C03_root_subtrees_exact exForest 7).1.hasNode [1]).2 rfl)

end Verif.Trees
