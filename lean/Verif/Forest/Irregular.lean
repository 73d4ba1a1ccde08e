import Verif.Forest.Traverse

/-!
# C99: irregular trees

`Tree(regular=False)` grows by `add_child` and `split(n)` and shrinks by `delete_children` and `remove` (mesh.py 245-349, 750-819).  A node has as many slots
as children were ever added; a deleted child leaves an empty slot.
-/

namespace Verif.Trees

/-! ## Histories -/

/-- What a user does to a node: `add_child()` (mesh.py 758-769), `split(n)` (794-819), `delete_children()` and `delete_children(position)`
(772-792), `get_child(position).remove()` (750-755), `mark(flag)`, `unmark(flag)` (517-526, 562-567). -/
inductive Act where
  | add
  | split (n : Option Nat)
  | deleteAll
  | deleteAt (pos : Nat)
  | remove (pos : Nat)
  | mark (f : Option Flag)
  | unmark (f : Option Flag)

/-- The call, on the node. -/
def Act.run : Act → Tree → Except Err Tree
  | .add, t => t.addChild
  | .split n, t => t.split n
  | .deleteAll, t => .ok t.deleteChildren
  | .deleteAt pos, t => t.deleteChildAt pos
  | .remove pos, t => match t.kids[pos]? with
    | none => .error .assertion
    | some none => .error .attribute
    | some (some _) => .ok (t.removeChildAt pos)
  | .mark f, t => .ok (t.mapFlags (addFlag f))
  | .unmark f, t => .ok (t.mapFlags (removeFlag f))

/-- A call on the node at a path.  All calls that raise an exception do so before they change anything (mesh.py 762, 783-785, 811, 815): the tree
stays as it was. -/
def stepAt (t : Tree) (op : Path × Act) : Tree :=
  match t.get? op.1 with
  | none => t
  | some s => match op.2.run s with
    | .ok s' => t.modify (fun _ => s') op.1
    | .error _ => t

/-- A history of calls, successful or not. -/
def history (ops : List (Path × Act)) (t : Tree) : Tree := ops.foldl stepAt t

/-- `Tree(regular=False)`, free standing, or in a forest at position `i` with `a = [i]` (mesh.py 271-308). -/
def irregularRoot (a : List Nat) : Tree := .node ⟨.root, false, a, 0, ∅⟩ []

/-! ## Specification -/

/-- There is a node at the path. -/
def Exists (t : Tree) (q : Path) : Prop := (t.get? q).isSome = true

/-- The node has a child. -/
def HasChild (t : Tree) : Prop := ∃ (i : Nat) (c : Tree), t.kids[i]? = some (some c)

/-! ## Proofs -/

/-- The path leads to an empty slot. -/
def Dead : Tree → Path → Prop
  | _, [] => False
  | t, i :: q => t.kids[i]? = some none ∨ ∃ c, t.kids[i]? = some (some c) ∧ Dead c q

theorem exists_cons (t : Tree) (i : Nat) (q : Path) : Exists t (i :: q) ↔ ∃ c, t.kids[i]? = some (some c) ∧ Exists c q := by
  unfold Exists
  rw [Tree.get?_cons]
  cases h : t.kids[i]? with
  | none => simp
  | some o => cases o <;> simp

theorem dead_not : ∀ (q : Path) (t : Tree), Dead t q → ¬ Exists t q := by
  intro q
  induction q with
  | nil => intro t h; exact h.elim
  | cons i q ih =>
    intro t h he
    obtain ⟨c, hc, he⟩ := (exists_cons t i q).1 he
    rcases h with h | ⟨c', h, hd⟩
    · rw [hc] at h; cases h
    · rw [hc] at h; cases h; exact ih _ hd he

/-- Nothing that is gone has come back, everything else is there or gone. -/
def Later (s t : Tree) : Prop := ∀ q, (Dead s q → Dead t q) ∧ (Exists s q → Exists t q ∨ Dead t q)

theorem Later.refl (t : Tree) : Later t t := fun _ => ⟨id, .inl⟩

theorem Later.trans {r s t : Tree} (h1 : Later r s) (h2 : Later s t) : Later r t := fun q =>
  ⟨fun h => (h2 q).1 ((h1 q).1 h), fun h => by
    rcases (h1 q).2 h with h | h
    · exact (h2 q).2 h
    · exact .inr ((h2 q).1 h)⟩

theorem later_of {s t : Tree} (h : ∀ (i : Nat) o, s.kids[i]? = some o → t.kids[i]? = some o ∨ t.kids[i]? = some none) : Later s t := by
  intro q
  cases q with
  | nil => exact ⟨id, fun _ => .inl (by simp [Exists])⟩
  | cons i q =>
    constructor
    · rintro (h1 | ⟨c, h1, h2⟩)
      · rcases h _ _ h1 with h3 | h3 <;> exact .inl h3
      · rcases h _ _ h1 with h3 | h3
        · exact .inr ⟨c, h3, h2⟩
        · exact .inl h3
    · intro he
      obtain ⟨c, h1, h2⟩ := (exists_cons s i q).1 he
      rcases h _ _ h1 with h3 | h3
      · exact .inl ((exists_cons t i q).2 ⟨c, h3, h2⟩)
      · exact .inr (.inl h3)

theorem kids_modify (t : Tree) (f : Tree → Tree) (i : Nat) (p : Path) (k : Nat) :
    (t.modify f (i :: p)).kids[k]? = if i = k then t.kids[k]?.map (Option.map (Tree.modify f p)) else t.kids[k]? := by
  simp only [Tree.modify, Tree.kids_node, List.getElem?_modify]
  split_ifs <;> simp

theorem later_modify {s' : Tree} : ∀ (p : Path) {t s : Tree}, t.get? p = some s → Later s s' → Later t (t.modify (fun _ => s') p) := by
  intro p
  induction p with
  | nil =>
    intro t s h hl
    rw [Tree.get?_nil] at h
    cases h
    exact hl
  | cons i p ih =>
    intro t s h hl
    obtain ⟨c, hc, hs⟩ : ∃ c, t.kids[i]? = some (some c) ∧ c.get? p = some s := by
      rw [Tree.get?_cons] at h
      cases h1 : t.kids[i]? with
      | none => rw [h1] at h; simp at h
      | some o => cases o with
        | none => rw [h1] at h; simp at h
        | some c => exact ⟨c, rfl, by rw [h1] at h; simpa using h⟩
    have hk : (t.modify (fun _ => s') (i :: p)).kids[i]? = some (some (c.modify (fun _ => s') p)) := by
      rw [kids_modify, if_pos rfl, hc]; rfl
    have hl' := ih hs hl
    intro q
    cases q with
    | nil => exact ⟨id, fun _ => .inl (by simp [Exists])⟩
    | cons k q =>
      by_cases hik : i = k
      · subst hik
        constructor
        · rintro (h1 | ⟨c', h1, h2⟩)
          · rw [hc] at h1; cases h1
          · rw [hc] at h1; cases h1
            exact .inr ⟨_, hk, (hl' q).1 h2⟩
        · intro he
          obtain ⟨c', h1, h2⟩ := (exists_cons _ _ _).1 he
          rw [hc] at h1; cases h1
          rcases (hl' q).2 h2 with h3 | h3
          · exact .inl ((exists_cons _ _ _).2 ⟨_, hk, h3⟩)
          · exact .inr (.inr ⟨_, hk, h3⟩)
      · have hk' : (t.modify (fun _ => s') (i :: p)).kids[k]? = t.kids[k]? := by rw [kids_modify, if_neg hik]
        constructor
        · rintro (h1 | ⟨c', h1, h2⟩)
          · exact .inl (hk'.trans h1)
          · exact .inr ⟨c', hk'.trans h1, h2⟩
        · intro he
          obtain ⟨c', h1, h2⟩ := (exists_cons _ _ _).1 he
          exact .inl ((exists_cons _ _ _).2 ⟨c', hk'.trans h1, h2⟩)

/-- The children that `n` calls of `add_child` make. -/
def fresh (inf : Info) (k n : Nat) : List (Option Tree) :=
  (List.range n).map (fun i => some (.node ⟨.leaf, false, inf.addr ++ [k + i], inf.depth + 1, ∅⟩ []))

theorem addChild_eq (t : Tree) (h : t.info.regular = false) :
    t.addChild = .ok (.node { t.info with kind := promote t.info.kind } (t.kids ++ fresh t.info t.kids.length 1)) := by
  simp [Tree.addChild, h, fresh, newChild]

theorem addChildren_eq : ∀ (n : Nat) (t : Tree), t.info.regular = false →
    t.addChildren n = .ok (.node { t.info with kind := if n = 0 then t.info.kind else promote t.info.kind } (t.kids ++ fresh t.info t.kids.length n)) := by
  intro n
  induction n with
  | zero => intro t _; obtain ⟨i, k⟩ := t; simp [Tree.addChildren, fresh]
  | succ n ih =>
    intro t h
    have hp : ∀ k, promote (promote k) = promote k := by intro k; cases k <;> rfl
    rw [Tree.addChildren, addChild_eq t h]
    simp only
    rw [ih _ (by simpa using h)]
    have h2 : fresh t.info t.kids.length 1 ++ fresh t.info (t.kids.length + 1) n = fresh t.info t.kids.length (n + 1) := by
      simp only [fresh, List.range_succ_eq_map, List.map_cons, List.map_map]
      simp only [List.range_zero, List.map_nil, List.singleton_append, Nat.add_zero]
      congr 2
      funext i
      simp only [Function.comp, Nat.succ_eq_add_one]
      rw [Nat.add_assoc, Nat.add_comm 1 i]
    simp only [Tree.info_node, Tree.kids_node, hp, ite_self, List.append_assoc, Nat.add_one_ne_zero, if_false]
    have hl : (t.kids ++ fresh t.info t.kids.length 1).length = t.kids.length + 1 := by simp [fresh]
    rw [hl, ← h2]
    rfl

theorem act_later {t t' : Tree} (hreg : t.info.regular = false) {a : Act} (h : a.run t = .ok t') : Later t t' := by
  refine later_of (fun i o hi => ?_)
  obtain ⟨hlt, _⟩ := List.getElem?_eq_some_iff.1 hi
  cases a with
  | add =>
    rw [Act.run, addChild_eq t hreg] at h
    cases h
    left
    rw [Tree.kids_node, List.getElem?_append_left hlt, hi]
  | split n =>
    have : t.kids.length ≠ 0 := by omega
    simp [Act.run, Tree.split, hreg, this] at h
  | deleteAll =>
    cases h
    right
    show (t.kids.map (fun _ => none))[i]? = _
    rw [List.getElem?_map, hi]
    rfl
  | deleteAt pos =>
    simp only [Act.run, Tree.deleteChildAt] at h
    split at h
    · cases h
    · cases h
    · cases h
      simp only [Tree.kids_node, List.getElem?_set]
      by_cases hp : pos = i
      · right; rw [if_pos hp, if_pos (hp ▸ hlt)]
      · left; rw [if_neg hp, hi]
  | remove pos =>
    simp only [Act.run] at h
    split at h
    · cases h
    · cases h
    · cases h
      simp only [Tree.removeChildAt, Tree.kids_node, List.getElem?_set]
      by_cases hp : pos = i
      · right; rw [if_pos hp, if_pos (hp ▸ hlt)]
      · left; rw [if_neg hp, hi]
  | mark f => cases h; left; simpa [Tree.mapFlags] using hi
  | unmark f => cases h; left; simpa [Tree.mapFlags] using hi

/-! ### The shape of the nodes -/

/-- What a node at path `q` below a root with address `a` looks like; `kd`: its type is right. -/
structure NodeI (a : List Nat) (kd : Prop) (d : Nat) (top : Bool) (s : Tree) : Prop where
  irregular : s.info.regular = false
  addr : s.info.addr = a
  depth : s.info.depth = d
  root : top = true → s.info.kind = .root
  branch : kd → top = false → HasChild s → s.info.kind = .branch
  leaf : kd → top = false → ¬ HasChild s → s.info.kind = .leaf
  below : top = false → s.info.kind ≠ .root

/-- All nodes look like that. -/
def AllI (kd : Prop) (a : List Nat) (d : Nat) (top : Bool) (t : Tree) : Prop :=
  ∀ q s, t.get? q = some s → NodeI (a ++ q) kd (d + q.length) (top && q.isEmpty) s

theorem allI_iff {kd : Prop} {a : List Nat} {d : Nat} {top : Bool} {t : Tree} : AllI kd a d top t ↔
    NodeI a kd d top t ∧ ∀ i c, t.kids[i]? = some (some c) → AllI kd (a ++ [i]) (d + 1) false c := by
  constructor
  · intro h
    refine ⟨by simpa using h [] t (by simp), fun i c hc q s hs => ?_⟩
    have := h (i :: q) s (by rw [Tree.get?_cons, hc]; exact hs)
    simpa [Nat.add_assoc, Nat.add_comm 1] using this
  · rintro ⟨h0, h1⟩ q s hs
    cases q with
    | nil =>
      rw [Tree.get?_nil] at hs
      cases hs
      simpa using h0
    | cons i q =>
      rw [Tree.get?_cons] at hs
      cases h2 : t.kids[i]? with
      | none => rw [h2] at hs; simp at hs
      | some o => cases o with
        | none => rw [h2] at hs; simp at hs
        | some c =>
          rw [h2] at hs
          have := h1 i c h2 q s (by simpa using hs)
          simpa [Nat.add_assoc, Nat.add_comm 1] using this

theorem allI_modify {kd : Prop} {s' : Tree} : ∀ (p : Path) {t s : Tree} {a : List Nat} {d : Nat} {top : Bool}, AllI kd a d top t → t.get? p = some s →
    (∀ a d top, AllI kd a d top s → AllI kd a d top s') → AllI kd a d top (t.modify (fun _ => s') p) := by
  intro p
  induction p with
  | nil =>
    intro t s a d top h hs hf
    rw [Tree.get?_nil] at hs
    cases hs
    exact hf _ _ _ h
  | cons i p ih =>
    intro t s a d top h hs hf
    obtain ⟨h0, h1⟩ := allI_iff.1 h
    have hc : HasChild (t.modify (fun _ => s') (i :: p)) ↔ HasChild t := by
      unfold HasChild
      constructor
      · rintro ⟨k, c, hk⟩
        rw [kids_modify] at hk
        split_ifs at hk with hik
        · cases h2 : t.kids[k]? with
          | none => rw [h2] at hk; simp at hk
          | some o => cases o with
            | none => rw [h2] at hk; simp at hk
            | some c' => exact ⟨k, c', h2⟩
        · exact ⟨k, c, hk⟩
      · rintro ⟨k, c, hk⟩
        by_cases hik : i = k
        · exact ⟨k, c.modify (fun _ => s') p, by rw [kids_modify, if_pos hik, hk]; rfl⟩
        · exact ⟨k, c, by rw [kids_modify, if_neg hik, hk]⟩
    refine allI_iff.2 ⟨⟨h0.irregular, h0.addr, h0.depth, h0.root, fun k ht hh => h0.branch k ht (hc.1 hh), fun k ht hh => h0.leaf k ht (fun h2 => hh (hc.2 h2)), h0.below⟩,
      fun k c hk => ?_⟩
    rw [kids_modify] at hk
    split_ifs at hk with hik
    · subst hik
      rw [Tree.get?_cons] at hs
      cases h2 : t.kids[i]? with
      | none => rw [h2] at hk; simp at hk
      | some o => cases o with
        | none => rw [h2] at hk; simp at hk
        | some c' =>
          rw [h2] at hk hs
          simp only [Option.map_some, Option.some.injEq] at hk
          subst hk
          exact ih (h1 i c' h2) (by simpa using hs) hf
    · exact h1 k c hk

theorem allI_fresh (kd : Prop) (a : List Nat) (d : Nat) : AllI kd a d false (.node ⟨.leaf, false, a, d, ∅⟩ []) := by
  rw [allI_iff]
  refine ⟨⟨rfl, rfl, rfl, by simp, fun _ _ h => ?_, fun _ _ _ => rfl, by simp⟩, fun i c h => by simp at h⟩
  obtain ⟨i, c, h⟩ := h
  simp at h

/-- Children appended by `add_child`. -/
theorem allI_append {kd : Prop} {a : List Nat} {d : Nat} {top : Bool} {t : Tree} (h : AllI kd a d top t) (n : Nat) (hn : n ≠ 0) :
    AllI kd a d top (.node { t.info with kind := promote t.info.kind } (t.kids ++ fresh t.info t.kids.length n)) := by
  obtain ⟨h0, h1⟩ := allI_iff.1 h
  have hch : HasChild (.node { t.info with kind := promote t.info.kind } (t.kids ++ fresh t.info t.kids.length n)) := by
    refine ⟨t.kids.length, .node ⟨.leaf, false, t.info.addr ++ [t.kids.length], t.info.depth + 1, ∅⟩ [], ?_⟩
    rw [Tree.kids_node, List.getElem?_append_right le_rfl]
    simp [fresh, Nat.pos_of_ne_zero hn]
  refine allI_iff.2 ⟨⟨h0.irregular, h0.addr, h0.depth, fun ht => ?_, fun hk ht _ => ?_, fun _ _ hh => absurd hch hh, fun ht => ?_⟩, fun i c hc => ?_⟩
  · show promote t.info.kind = _
    rw [h0.root ht]; rfl
  · show promote t.info.kind = _
    by_cases hh : HasChild t
    · rw [h0.branch hk ht hh]; rfl
    · rw [h0.leaf hk ht hh]; rfl
  · show promote t.info.kind ≠ _
    have := h0.below ht
    cases h2 : t.info.kind <;> simp_all [promote]
  · rw [Tree.kids_node] at hc
    by_cases hi : i < t.kids.length
    · rw [List.getElem?_append_left hi] at hc
      exact h1 i c hc
    · rw [List.getElem?_append_right (by omega)] at hc
      simp only [fresh, List.getElem?_map] at hc
      have hr : i - t.kids.length < n := by
        by_contra hr
        rw [List.getElem?_eq_none (by simp; omega)] at hc
        simp at hc
      rw [List.getElem?_range hr] at hc
      simp only [Option.map_some, Option.some.injEq] at hc
      subst hc
      have : t.kids.length + (i - t.kids.length) = i := by omega
      rw [this, h0.addr, h0.depth]
      exact allI_fresh kd _ _

theorem act_allI {kd : Prop} {t t' : Tree} {a : Act} (hr : kd → ∀ pos, a ≠ .remove pos) (h : a.run t = .ok t') (b : List Nat) (d : Nat) (top : Bool)
    (hI : AllI kd b d top t) : AllI kd b d top t' := by
  obtain ⟨h0, h1⟩ := allI_iff.1 hI
  cases a with
  | add =>
    rw [Act.run, addChild_eq t h0.irregular] at h
    cases h
    exact allI_append hI 1 (by decide)
  | split n =>
    simp only [Act.run, Tree.split, h0.irregular, Bool.false_eq_true, if_false] at h
    split_ifs at h with hk
    cases n with
    | none => cases h
    | some n =>
      simp only at h
      rw [addChildren_eq n t h0.irregular] at h
      cases h
      by_cases hn : n = 0
      · subst hn
        obtain ⟨i, k⟩ := t
        simpa [fresh] using hI
      · rw [if_neg hn]
        exact allI_append hI n hn
  | deleteAll =>
    cases h
    have hno : ¬ HasChild t.deleteChildren := by
      rintro ⟨i, c, hc⟩
      simp only [Tree.deleteChildren, Tree.kids_node, List.getElem?_map, Option.map_eq_some_iff] at hc
      obtain ⟨_, _, hc⟩ := hc
      cases hc
    refine allI_iff.2 ⟨⟨h0.irregular, h0.addr, h0.depth, fun ht => ?_, fun _ _ hh => absurd hh hno, fun hk ht _ => ?_, fun ht => ?_⟩, fun i c hc => absurd ⟨i, c, hc⟩ hno⟩
    · show (if _ then _ else _) = _
      rw [h0.root ht]; rfl
    · show (if _ then _ else _) = _
      by_cases hh : HasChild t
      · rw [h0.branch hk ht hh]; rfl
      · rw [h0.leaf hk ht hh]; rfl
    · show (if _ then _ else _) ≠ _
      have := h0.below ht
      split_ifs <;> simp_all
  | deleteAt pos =>
    simp only [Act.run, Tree.deleteChildAt] at h
    split at h
    · cases h
    · cases h
    · rename_i c0 hc0
      cases h
      have hall : ∀ inf, ((t.kids.set pos none).all (fun c => c.isNone) = true) ↔
          ¬ HasChild (.node inf (t.kids.set pos none)) := by
        intro inf
        rw [List.all_eq_true]
        constructor
        · rintro hh ⟨i, c, hc⟩
          rw [Tree.kids_node] at hc
          have := hh _ (List.mem_of_getElem? hc)
          simp at this
        · intro hh o ho
          cases o with
          | none => rfl
          | some c =>
            obtain ⟨i, hi⟩ := List.mem_iff_getElem?.1 ho
            exact absurd ⟨i, c, hi⟩ hh
      have hch : HasChild t := ⟨pos, c0, hc0⟩
      refine allI_iff.2 ⟨⟨h0.irregular, h0.addr, h0.depth, fun ht => ?_, fun hk ht hh => ?_, fun hk ht hh => ?_, fun ht => ?_⟩, fun i c hc => ?_⟩
      · show (if _ then _ else _) = _
        rw [h0.root ht]; simp
      · show (if _ then _ else _) = _
        rw [if_neg (fun h2 => (hall _).1 h2.2 hh)]
        exact h0.branch hk ht hch
      · show (if _ then _ else _) = _
        rw [if_pos ⟨h0.branch hk ht hch, (hall _).2 hh⟩]
      · show (if _ then _ else _) ≠ _
        have := h0.below ht
        split_ifs
        · exact Kind.noConfusion
        · exact this
      · rw [Tree.kids_node, List.getElem?_set] at hc
        split_ifs at hc
        · exact absurd hc (by simp)
        · exact h1 i c hc
  | remove pos =>
    have hkd : ¬ kd := fun hk => hr hk pos rfl
    simp only [Act.run] at h
    split at h
    · cases h
    · cases h
    · cases h
      refine allI_iff.2 ⟨⟨h0.irregular, h0.addr, h0.depth, h0.root, fun hk => absurd hk hkd, fun hk => absurd hk hkd, h0.below⟩, fun i c hc => ?_⟩
      simp only [Tree.removeChildAt, Tree.kids_node, List.getElem?_set] at hc
      split_ifs at hc
      · exact absurd hc (by simp)
      · exact h1 i c hc
  | mark f => cases h; exact allI_iff.2 ⟨⟨h0.irregular, h0.addr, h0.depth, h0.root, h0.branch, h0.leaf, h0.below⟩, h1⟩
  | unmark f => cases h; exact allI_iff.2 ⟨⟨h0.irregular, h0.addr, h0.depth, h0.root, h0.branch, h0.leaf, h0.below⟩, h1⟩

theorem step_allI {kd : Prop} {t : Tree} {op : Path × Act} (hr : kd → ∀ pos, op.2 ≠ .remove pos) {b : List Nat} {d : Nat} {top : Bool} (hI : AllI kd b d top t) :
    AllI kd b d top (stepAt t op) := by
  unfold stepAt
  split
  · exact hI
  · rename_i s hs
    split
    · rename_i s' hs'
      exact allI_modify op.1 hI hs (fun a d top h => act_allI hr hs' a d top h)
    · exact hI

theorem step_later {kd : Prop} {t : Tree} (op : Path × Act) {b : List Nat} {d : Nat} {top : Bool} (hI : AllI kd b d top t) : Later t (stepAt t op) := by
  unfold stepAt
  split
  · exact .refl t
  · rename_i s hs
    split
    · rename_i s' hs'
      exact later_modify op.1 hs (act_later (hI _ _ hs).irregular hs')
    · exact .refl t

theorem history_allI {kd : Prop} : ∀ (ops : List (Path × Act)) {t : Tree} {b : List Nat} {d : Nat} {top : Bool}, (kd → ∀ op ∈ ops, ∀ pos, op.2 ≠ .remove pos) →
    AllI kd b d top t → AllI kd b d top (history ops t) := by
  intro ops
  induction ops with
  | nil => intro t b d top _ h; exact h
  | cons op ops ih =>
    intro t b d top hr h
    exact ih (fun hk o ho => hr hk o (List.mem_cons_of_mem _ ho)) (step_allI (fun hk => hr hk op List.mem_cons_self) h)

theorem history_later : ∀ (ops : List (Path × Act)) {t : Tree} {b : List Nat} {d : Nat} {top : Bool}, AllI False b d top t → Later t (history ops t) := by
  intro ops
  induction ops with
  | nil => intro t b d top _; exact .refl t
  | cons op ops ih =>
    intro t b d top h
    exact (step_later op h).trans (ih (step_allI (fun hk => hk.elim) h))

theorem allI_root (kd : Prop) (a : List Nat) : AllI kd a 0 true (irregularRoot a) := by
  rw [allI_iff]
  exact ⟨⟨rfl, rfl, rfl, fun _ => rfl, by simp, by simp, by simp⟩, fun i c h => by simp [irregularRoot] at h⟩

/-! ## Theorems -/

/-- **C99** (`add_child`).  A new child is appended behind all slots, empty or not, with its own address, one level deeper, a leaf without children and flags; nothing else changes
but the type of a leaf, which becomes a branch. -/
theorem C99_add_child (t : Tree) (h : t.info.regular = false) : ∃ t', t.addChild = .ok t' ∧
    t'.kids = t.kids ++ [some (.node ⟨.leaf, false, t.info.addr ++ [t.kids.length], t.info.depth + 1, ∅⟩ [])] ∧
    t'.info = { t.info with kind := if t.info.kind = .leaf then .branch else t.info.kind } := by
  refine ⟨_, addChild_eq t h, by simp [fresh], ?_⟩
  cases hk : t.info.kind <;> simp [promote]

/-- **C99** (`split`).  `split(n)` of a node without slots makes `n` children, in order, each with its own address, one level deeper, leaves without children and flags. -/
theorem C99_split (t : Tree) (h : t.info.regular = false) (h0 : t.kids = []) (n : Nat) : ∃ t', t.split (some n) = .ok t' ∧ t'.kids.length = n ∧
    (∀ i < n, t'.kids[i]? = some (some (.node ⟨.leaf, false, t.info.addr ++ [i], t.info.depth + 1, ∅⟩ []))) ∧
    t'.info = { t.info with kind := if t.info.kind = .leaf ∧ 0 < n then .branch else t.info.kind } := by
  refine ⟨.node { t.info with kind := if n = 0 then t.info.kind else promote t.info.kind } (t.kids ++ fresh t.info t.kids.length n), ?_, ?_, fun i hi => ?_, ?_⟩
  · rw [← addChildren_eq n t h]
    simp [Tree.split, h, h0]
  · simp [h0, fresh]
  · simp [h0, fresh, hi]
  · simp only [Tree.info_node]
    congr 1
    rcases Nat.eq_zero_or_pos n with rfl | hn
    · simp
    · cases hk : t.info.kind <;> simp [promote, hn.ne', hn]

/-- **C99** (rejected calls).  `add_child` of a regular node, `split` without a number, and `split` of a node that ever had a child raise an exception. -/
theorem C99_rejected (t : Tree) : (t.info.regular = true → t.addChild = .error .assertion) ∧
    (t.info.regular = false → t.kids = [] → t.split none = .error .typeError) ∧
    (t.info.regular = false → t.kids ≠ [] → ∀ n, t.split n = .error .assertion) := by
  refine ⟨fun h => by simp [Tree.addChild, h], fun h h0 => by simp [Tree.split, h, h0], fun h h0 n => ?_⟩
  simp [Tree.split, h, h0]

/-- **C99** (addresses and depths).  After any history of `add_child`, `split`, `delete_children`, `remove`, `mark` and `unmark` on an irregular tree, the address of a node is the address of the root
followed by the positions that lead to it, the depth is their number, and the node is irregular; so no two nodes have the same address. -/
theorem C99_addresses (a : List Nat) (ops : List (Path × Act)) : (∀ q s, (history ops (irregularRoot a)).get? q = some s →
    s.info.addr = a ++ q ∧ s.info.depth = q.length ∧ s.info.regular = false) ∧
    ∀ q q' s s', (history ops (irregularRoot a)).get? q = some s → (history ops (irregularRoot a)).get? q' = some s' → s.info.addr = s'.info.addr → q = q' := by
  have h := history_allI (kd := False) ops (fun hk => hk.elim) (allI_root False a)
  refine ⟨fun q s hs => ?_, fun q q' s s' hs hs' he => ?_⟩
  · have := h q s hs
    exact ⟨this.addr, by simpa using this.depth, this.irregular⟩
  · rw [(h q s hs).addr, (h q' s' hs').addr] at he
    exact List.append_cancel_left he

/-- **C99** (types).  After any history without `remove`, the root is a ROOT, every other node with a child is a BRANCH, every other node without a child is a
LEAF. -/
theorem C99_types (a : List Nat) (ops : List (Path × Act)) (hr : ∀ op ∈ ops, ∀ pos, op.2 ≠ .remove pos) {q : Path} {s : Tree}
    (hs : (history ops (irregularRoot a)).get? q = some s) :
    (q = [] → s.info.kind = .root) ∧ (q ≠ [] → HasChild s → s.info.kind = .branch) ∧ (q ≠ [] → ¬ HasChild s → s.info.kind = .leaf) := by
  have h := history_allI (kd := True) ops (fun _ => hr) (allI_root True a) q s hs
  refine ⟨fun hq => h.root (by simp [hq]), fun hq => h.branch trivial (by simp [hq]), fun hq => h.leaf trivial (by simp [hq])⟩

/-- **C99** (addresses are not used again).  When a node has been deleted, no later call creates a node with its address. -/
theorem C99_never_again (a : List Nat) (ops₁ ops₂ ops₃ : List (Path × Act)) (q : Path) (h1 : Exists (history ops₁ (irregularRoot a)) q)
    (h2 : ¬ Exists (history ops₂ (history ops₁ (irregularRoot a))) q) :
    ¬ Exists (history ops₃ (history ops₂ (history ops₁ (irregularRoot a)))) q := by
  have i1 := history_allI (kd := False) ops₁ (fun hk => hk.elim) (allI_root False a)
  have i2 := history_allI (kd := False) ops₂ (fun hk => hk.elim) i1
  rcases (history_later ops₂ i1 q).2 h1 with h3 | h3
  · exact absurd h3 h2
  · exact dead_not q _ ((history_later ops₃ i2 q).1 h3)

theorem modify_elsewhere {s' : Tree} : ∀ (p q : Path) (t : Tree), ¬ p <+: q →
    ((t.modify (fun _ => s') p).get? q).map (fun s => (s.info, s.kids.length)) = (t.get? q).map (fun s => (s.info, s.kids.length)) := by
  intro p
  induction p with
  | nil => intro q t h; exact absurd List.nil_prefix h
  | cons i p ih =>
    intro q t h
    cases q with
    | nil => simp [Tree.modify]
    | cons k q =>
      rw [Tree.get?_cons, Tree.get?_cons, kids_modify]
      split_ifs with hik
      · subst hik
        have h' : ¬ p <+: q := fun h2 => h (List.cons_prefix_cons.2 ⟨rfl, h2⟩)
        cases h2 : t.kids[i]? with
        | none => rfl
        | some o => cases o with
          | none => rfl
          | some c => simpa using ih q c h'
      · rfl

/-- **C99** (local effect).  A call on the node at `p` changes nothing about the nodes that are not `p` or below: they exist before and after, with the same
attributes and the same number of slots. -/
theorem C99_elsewhere (t : Tree) (p q : Path) (act : Act) (h : ¬ p <+: q) :
    ((stepAt t (p, act)).get? q).map (fun s => (s.info, s.kids.length)) = (t.get? q).map (fun s => (s.info, s.kids.length)) := by
  unfold stepAt
  split
  · rfl
  · split
    · exact modify_elsewhere p q t h
    · rfl

/-! ## Examples -/

/-- A history: three children, two of them split again, one deleted, one more added, an address not used again. -/
def exHist : List (Path × Act) :=
  [([], .split (some 3)), ([1], .split (some 2)), ([2], .add), ([], .deleteAt 1), ([], .add), ([3], .split (some 1)), ([3], .mark none)]

example : Exists (history exHist (irregularRoot [0])) [3, 0] ∧ Exists (history exHist (irregularRoot [0])) [2, 0] ∧
    Exists (history (exHist.take 3) (irregularRoot [0])) [1, 1] ∧ ¬ Exists (history exHist (irregularRoot [0])) [1, 1] ∧
    (∀ op ∈ exHist, ∀ pos, op.2 ≠ .remove pos) := by
  refine ⟨by unfold Exists; decide +kernel, by unfold Exists; decide +kernel, by unfold Exists; decide +kernel, by unfold Exists; decide +kernel, ?_⟩
  intro op h pos
  simp only [exHist, List.mem_cons, List.not_mem_nil, or_false] at h
  rcases h with rfl | rfl | rfl | rfl | rfl | rfl | rfl <;> simp

/-- **Not so with `remove`**: `child.remove()` does not change the type of the parent, which stays a BRANCH without children. -/
theorem C99_types_remove_violated : ∃ ops q s, (history ops (irregularRoot [])).get? q = some s ∧ q ≠ [] ∧ ¬ HasChild s ∧ s.info.kind = .branch := by
  refine ⟨[([], .add), ([0], .add), ([0], .remove 0)], [0], .node ⟨.branch, false, [0], 1, ∅⟩ [none], rfl, by simp, ?_, rfl⟩
  rintro ⟨i, c, h⟩
  rcases i with _ | i <;> simp at h

/-- **A leaf that cannot be split**: after `delete_children` a node is a LEAF without children, and `split(n)` raises an `AssertionError` ("Cannot split irregular tree with
children"). -/
theorem C99_split_again_violated : ∃ ops s, (history ops (irregularRoot [])).get? [0] = some s ∧ s.info.kind = .leaf ∧ ¬ HasChild s ∧
    ∀ n, s.split n = .error .assertion := by
  refine ⟨[([], .add), ([0], .split (some 2)), ([0], .deleteAll)], .node ⟨.leaf, false, [0], 1, ∅⟩ [none, none], rfl, rfl, ?_, fun n => by simp [Tree.split]⟩
  rintro ⟨i, c, h⟩
  rcases i with _ | _ | i <;> simp at h

end Verif.Trees
