import Verif.Forest.Spec
import Mathlib.Data.List.Pairwise
import Mathlib.Data.List.Lex

/-! Helper lemmas: access by path, children, traversal loop. -/

namespace Verif.Trees

theorem Tree.ind {P : Tree → Prop}
    (h : ∀ inf ks, (∀ c, some c ∈ ks → P c) → P (.node inf ks)) (t : Tree) : P t := by
  refine Tree.rec (motive_1 := P) (motive_2 := fun ks => ∀ c, some c ∈ ks → P c)
    (motive_3 := fun o => ∀ c, o = some c → P c) ?_ ?_ ?_ ?_ ?_ t
  · intro inf ks ih; exact h inf ks ih
  · intro c hc; simp at hc
  · intro o ks h1 h2 c hc
    rcases List.mem_cons.1 hc with hc | hc
    · exact h1 c hc.symm
    · exact h2 c hc
  · intro c hc; cases hc
  · intro c ih c' hc; cases hc; exact ih

@[simp] theorem Tree.info_node (i k) : (Tree.node i k).info = i := rfl
@[simp] theorem Tree.kids_node (i k) : (Tree.node i k).kids = k := rfl
theorem Tree.eta (t : Tree) : t = .node t.info t.kids := by cases t; rfl

@[simp] theorem Tree.get?_nil (t : Tree) : t.get? [] = some t := by simp [Tree.get?]

theorem Tree.get?_cons (t : Tree) (i : Nat) (p : Path) :
    t.get? (i :: p) = (t.kids[i]?.join).bind (fun c => c.get? p) := by
  rw [Tree.get?]
  cases h : t.kids[i]? with
  | none => simp
  | some o => cases o <;> simp

theorem Tree.get?_append (t : Tree) (p q : Path) :
    t.get? (p ++ q) = (t.get? p).bind (fun s => s.get? q) := by
  induction p generalizing t with
  | nil => simp
  | cons i p ih =>
    rw [List.cons_append, Tree.get?_cons, Tree.get?_cons]
    cases h : t.kids[i]?.join with
    | none => simp
    | some c => simp [ih]

theorem Tree.get?_singleton (t : Tree) (i : Nat) : t.get? [i] = t.kids[i]?.join := by
  rw [Tree.get?_cons]; simp

theorem Tree.get?_singleton_eq_some {t : Tree} {i : Nat} {c : Tree} :
    t.get? [i] = some c ↔ t.kids[i]? = some (some c) := by
  rw [Tree.get?_singleton]; simp [Option.join_eq_some_iff]

/-- The forest seen as the children of a virtual root. -/
def Forest.top (F : Forest) : Tree :=
  .node ⟨.root, true, [], 0, ∅⟩ (F.trees.map some)

theorem Forest.get?_eq_top (F : Forest) (a : Path) (h : a ≠ []) : F.get? a = F.top.get? a := by
  cases a with
  | nil => exact absurd rfl h
  | cons i p =>
    rw [Tree.get?_cons]
    simp only [Forest.get?, Forest.top, Tree.kids_node, List.getElem?_map]
    cases F.trees[i]? <;> simp

@[simp] theorem Forest.get?_nil (F : Forest) : F.get? [] = none := rfl

theorem Forest.get?_cons (F : Forest) (i : Nat) (p : Path) :
    F.get? (i :: p) = F.trees[i]?.bind (fun t => t.get? p) := by
  simp only [Forest.get?]; cases F.trees[i]? <;> simp

theorem Forest.get?_singleton (F : Forest) (i : Nat) : F.get? [i] = F.trees[i]? := by
  rw [Forest.get?_cons]; simp

theorem Forest.get?_append (F : Forest) (a q : Path) (h : a ≠ []) :
    F.get? (a ++ q) = (F.get? a).bind (fun s => s.get? q) := by
  rw [Forest.get?_eq_top _ _ (by simp [h]), Tree.get?_append, Forest.get?_eq_top _ _ h]

/-! ### children -/

theorem mem_slots (ks : List (Option Tree)) (k i : Nat) (c : Tree) :
    (i, c) ∈ (ks.zipIdx k).filterMap (fun oi => oi.1.map (fun c => (oi.2, c))) ↔
      k ≤ i ∧ ks[i - k]? = some (some c) := by
  simp only [List.mem_filterMap, Prod.exists, Option.map_eq_some_iff, Prod.mk.injEq,
    List.mem_zipIdx_iff_le_and_getElem?_sub]
  constructor
  · rintro ⟨a, b, ⟨h1, h2⟩, a', rfl, rfl, rfl⟩
    exact ⟨h1, h2⟩
  · rintro ⟨h1, h2⟩
    exact ⟨some c, i, ⟨h1, h2⟩, c, rfl, rfl, rfl⟩

theorem slots_pairwise (ks : List (Option Tree)) (k : Nat) :
    ((ks.zipIdx k).filterMap (fun oi => oi.1.map (fun c => (oi.2, c)))).Pairwise
      (fun x y => x.1 < y.1) := by
  induction ks generalizing k with
  | nil => simp
  | cons o ks ih =>
    rw [List.zipIdx_cons]
    cases o with
    | none => simpa using ih (k+1)
    | some c =>
      simp only [List.filterMap_cons, Option.map_some, List.pairwise_cons]
      refine ⟨?_, ih (k+1)⟩
      rintro ⟨i, c'⟩ h
      rw [mem_slots] at h
      show k < i
      omega

theorem hasChildren_iff (t : Tree) (flag : Option Flag) :
    t.hasChildren flag = true ↔ ∃ (i : Nat) (c : Tree), t.kids[i]? = some (some c) ∧
      (∀ f, flag = some f → f ∈ c.info.flags) := by
  cases flag with
  | none =>
    simp only [Tree.hasChildren, List.any_eq_true, List.mem_iff_getElem?]
    constructor
    · rintro ⟨o, ⟨i, hi⟩, ho⟩
      cases o with
      | none => simp at ho
      | some c => exact ⟨i, c, hi, by simp⟩
    · rintro ⟨i, c, h, -⟩
      exact ⟨some c, ⟨i, h⟩, rfl⟩
  | some f =>
    simp only [Tree.hasChildren, List.any_eq_true, List.mem_iff_getElem?]
    constructor
    · rintro ⟨o, ⟨i, hi⟩, ho⟩
      cases o with
      | none => simp at ho
      | some c => exact ⟨i, c, hi, by simpa [Tree.isMarked] using ho⟩
    · rintro ⟨i, c, h, h2⟩
      exact ⟨some c, ⟨i, h⟩, by simpa [Tree.isMarked] using h2⟩

theorem mem_getChildren (t : Tree) (flag : Option Flag) (r : Bool) (i : Nat) (c : Tree) :
    (i, c) ∈ t.getChildren flag r ↔
      t.kids[i]? = some (some c) ∧ (∀ f, flag = some f → f ∈ c.info.flags) := by
  unfold Tree.getChildren
  have key : (i, c) ∈ ((if r then (t.kids.zipIdx.filterMap (fun oi => oi.1.map (fun c => (oi.2, c)))).reverse
      else (t.kids.zipIdx.filterMap (fun oi => oi.1.map (fun c => (oi.2, c)))))).filter
        (fun ic => match flag with
          | none => true
          | some f => ic.2.isMarked (some f)) ↔
      t.kids[i]? = some (some c) ∧ (∀ f, flag = some f → f ∈ c.info.flags) := by
    rw [List.mem_filter]
    have h1 : (i, c) ∈ (if r then (t.kids.zipIdx.filterMap (fun oi => oi.1.map (fun c => (oi.2, c)))).reverse
      else (t.kids.zipIdx.filterMap (fun oi => oi.1.map (fun c => (oi.2, c))))) ↔
        t.kids[i]? = some (some c) := by
      split
      · rw [List.mem_reverse, mem_slots]; simp
      · rw [mem_slots]; simp
    rw [h1]
    cases flag <;> simp [Tree.isMarked]
  split
  · exact key
  · rename_i hn
    constructor
    · simp
    · intro h
      exact absurd ((hasChildren_iff t flag).2 ⟨i, c, h⟩) hn

theorem getChildren_pairwise (t : Tree) (flag : Option Flag) :
    (t.getChildren flag false).Pairwise (fun x y => x.1 < y.1) := by
  unfold Tree.getChildren
  split
  · simp only [Bool.false_eq_true, if_false]
    exact (slots_pairwise t.kids 0).filter _
  · simp

theorem getChildren_reverse (t : Tree) (flag : Option Flag) :
    t.getChildren flag true = (t.getChildren flag false).reverse := by
  unfold Tree.getChildren
  split
  · simp [List.filter_reverse]
  · simp

theorem itemChildren_reverse (it : Item) :
    itemChildren it true = (itemChildren it false).reverse := by
  simp [itemChildren, getChildren_reverse]

theorem mem_itemChildren (p : Path) (t : Tree) (r : Bool) (a : Path) (c : Tree) :
    (a, c) ∈ itemChildren (p, t) r ↔ ∃ i, a = p ++ [i] ∧ t.kids[i]? = some (some c) := by
  simp only [itemChildren, List.mem_map, Prod.exists, mem_getChildren]
  constructor
  · rintro ⟨i, c', ⟨h1, -⟩, h2⟩
    simp only [Prod.mk.injEq] at h2
    obtain ⟨rfl, rfl⟩ := h2
    exact ⟨i, rfl, h1⟩
  · rintro ⟨i, rfl, h⟩
    exact ⟨i, c, ⟨h, by simp⟩, rfl⟩

/-! ### traversal: membership -/

/-- `(a, s)` lies below an entry of the queue. -/
def Below (q : List Item) (x : Item) : Prop :=
  ∃ p t r, (p, t) ∈ q ∧ x.1 = p ++ r ∧ t.get? r = some x.2

theorem below_cons (p : Path) (t : Tree) (q : List Item) (r : Bool) (x : Item) :
    Below ((p, t) :: q) x ↔ x = (p, t) ∨ Below (itemChildren (p, t) r) x ∨ Below q x := by
  obtain ⟨a, s⟩ := x
  constructor
  · rintro ⟨p', t', r', h1, h2, h3⟩
    rcases List.mem_cons.1 h1 with h1 | h1
    · simp only [Prod.mk.injEq] at h1
      obtain ⟨rfl, rfl⟩ := h1
      cases r' with
      | nil => left; simp at h2 h3; simp [h2, h3]
      | cons i r' =>
        right; left
        rw [Tree.get?_cons] at h3
        obtain ⟨c, hc, h3⟩ := Option.bind_eq_some_iff.1 h3
        refine ⟨p' ++ [i], c, r', ?_, by simpa using h2, h3⟩
        rw [mem_itemChildren]
        exact ⟨i, rfl, by simpa [Option.join_eq_some_iff] using hc⟩
    · right; right; exact ⟨p', t', r', h1, h2, h3⟩
  · rintro (h | h | h)
    · simp only [Prod.mk.injEq] at h
      exact ⟨p, t, [], by simp, by simpa using h.1, by simp [h.2]⟩
    · obtain ⟨p', t', r', h1, h2, h3⟩ := h
      rw [mem_itemChildren] at h1
      obtain ⟨i, rfl, h1⟩ := h1
      refine ⟨p, t, i :: r', by simp, by simpa using h2, ?_⟩
      rw [Tree.get?_cons, h1]; simpa using h3
    · obtain ⟨p', t', r', h1, h2, h3⟩ := h
      exact ⟨p', t', r', List.mem_cons_of_mem _ h1, h2, h3⟩

theorem below_append (a b : List Item) (x : Item) : Below (a ++ b) x ↔ Below a x ∨ Below b x := by
  constructor
  · rintro ⟨p, t, r, h1, h2, h3⟩
    rcases List.mem_append.1 h1 with h1 | h1
    · left; exact ⟨p, t, r, h1, h2, h3⟩
    · right; exact ⟨p, t, r, h1, h2, h3⟩
  · rintro (⟨p, t, r, h1, h2, h3⟩ | ⟨p, t, r, h1, h2, h3⟩)
    · exact ⟨p, t, r, List.mem_append_left _ h1, h2, h3⟩
    · exact ⟨p, t, r, List.mem_append_right _ h1, h2, h3⟩

theorem below_reverse (q : List Item) (x : Item) : Below q.reverse x ↔ Below q x := by
  simp [Below]

theorem traverseLoop_df_nil : traverseLoop .depthFirst [] = [] := by
  rw [traverseLoop]; rfl

theorem traverseLoop_df_concat (q : List Item) (it : Item) :
    traverseLoop .depthFirst (q ++ [it]) =
      it :: traverseLoop .depthFirst (q ++ itemChildren it true) := by
  rw [traverseLoop]
  split
  · rename_i h; simp at h
  · rename_i it' h
    simp at h; subst h
    simp

theorem traverseLoop_bf_nil : traverseLoop .breadthFirst [] = [] := by
  rw [traverseLoop]

theorem traverseLoop_bf_cons (q : List Item) (it : Item) :
    traverseLoop .breadthFirst (it :: q) =
      it :: traverseLoop .breadthFirst (q ++ itemChildren it false) := by
  rw [traverseLoop]

/-- Induction along the depth-first loop; the stack is listed with its top first. -/
theorem df_induction {P : List Item → Prop} (h0 : P [])
    (h1 : ∀ it q, P (itemChildren it false ++ q) → P (it :: q)) (q : List Item) : P q := by
  induction hn : queueSize q using Nat.strong_induction_on generalizing q with
  | _ n ih =>
    cases q with
    | nil => exact h0
    | cons it q =>
      refine h1 it q (ih (queueSize (itemChildren it false ++ q)) ?_ _ rfl)
      have := queueSize_children it false
      rw [queueSize_append]
      have h3 : queueSize (it :: q) = it.2.size + queueSize q := by simp [queueSize]
      omega

theorem bf_induction {P : List Item → Prop} (h0 : P [])
    (h1 : ∀ it q, P (q ++ itemChildren it false) → P (it :: q)) (q : List Item) : P q := by
  induction hn : queueSize q using Nat.strong_induction_on generalizing q with
  | _ n ih =>
    cases q with
    | nil => exact h0
    | cons it q =>
      refine h1 it q (ih (queueSize (q ++ itemChildren it false)) ?_ _ rfl)
      have := queueSize_children it false
      rw [queueSize_append]
      have h3 : queueSize (it :: q) = it.2.size + queueSize q := by simp [queueSize]
      omega

theorem traverseLoop_df_rev (it : Item) (q : List Item) :
    traverseLoop .depthFirst (it :: q).reverse =
      it :: traverseLoop .depthFirst (itemChildren it false ++ q).reverse := by
  rw [List.reverse_cons, traverseLoop_df_concat, itemChildren_reverse, List.reverse_append]

theorem mem_traverseLoop_df (q : List Item) (x : Item) :
    x ∈ traverseLoop .depthFirst q.reverse ↔ Below q x := by
  induction q using df_induction with
  | h0 => simp [traverseLoop_df_nil, Below]
  | h1 it q ih =>
    rw [traverseLoop_df_rev, List.mem_cons, ih, below_append]
    exact (below_cons it.1 it.2 q false x).symm

theorem mem_traverseLoop_bf (q : List Item) (x : Item) :
    x ∈ traverseLoop .breadthFirst q ↔ Below q x := by
  induction q using bf_induction with
  | h0 => simp [traverseLoop_bf_nil, Below]
  | h1 it q ih =>
    rw [traverseLoop_bf_cons, List.mem_cons, ih, below_append, or_comm (a := Below q x)]
    exact (below_cons it.1 it.2 q false x).symm

theorem mem_traverseLoop (mode : Mode) (q : List Item) (x : Item) :
    x ∈ traverseLoop mode q ↔ Below q x := by
  cases mode with
  | depthFirst => rw [← q.reverse_reverse, mem_traverseLoop_df, below_reverse, below_reverse,
      below_reverse]
  | breadthFirst => exact mem_traverseLoop_bf q x

/-! ### traversal: order -/

/-- `p` and `p'` branch apart, `p` to the left. -/
def SepLt (p p' : Path) : Prop :=
  ∃ c i j r r', p = c ++ i :: r ∧ p' = c ++ j :: r' ∧ i < j

theorem SepLt.lt_append {p p' : Path} (h : SepLt p p') (s s' : Path) : p ++ s < p' ++ s' := by
  obtain ⟨c, i, j, r, r', rfl, rfl, hij⟩ := h
  induction c with
  | nil => simp [List.cons_lt_cons_iff, hij]
  | cons k c ih => simpa [List.cons_lt_cons_iff] using ih

theorem SepLt.append {p p' : Path} (h : SepLt p p') (s s' : Path) : SepLt (p ++ s) (p' ++ s') := by
  obtain ⟨c, i, j, r, r', rfl, rfl, hij⟩ := h
  exact ⟨c, i, j, r ++ s, r' ++ s', by simp, by simp, hij⟩

theorem lt_append_cons (p : Path) (i : Nat) (r : Path) : p < p ++ i :: r := by
  induction p with
  | nil => simp
  | cons k p ih => simpa [List.cons_lt_cons_iff] using ih

theorem itemChildren_pairwise (it : Item) :
    (itemChildren it false).Pairwise
      (fun x y => ∃ i j, x.1 = it.1 ++ [i] ∧ y.1 = it.1 ++ [j] ∧ i < j) := by
  unfold itemChildren
  rw [List.pairwise_map]
  exact (getChildren_pairwise it.2 none).imp (fun {a b} h => ⟨a.1, b.1, rfl, rfl, h⟩)

theorem itemChildren_path {it x : Item} {r : Bool} (h : x ∈ itemChildren it r) :
    ∃ i, x.1 = it.1 ++ [i] := by
  obtain ⟨i, h, -⟩ := (mem_itemChildren it.1 it.2 r x.1 x.2).1 h
  exact ⟨i, h⟩

theorem traverseLoop_df_sorted (q : List Item)
    (hq : q.Pairwise (fun x y => SepLt x.1 y.1)) :
    (traverseLoop .depthFirst q.reverse).Pairwise (fun x y => x.1 < y.1) := by
  induction q using df_induction with
  | h0 => simp [traverseLoop_df_nil]
  | h1 it q ih =>
    rw [traverseLoop_df_rev, List.pairwise_cons]
    rw [List.pairwise_cons] at hq
    constructor
    · intro x hx
      rw [mem_traverseLoop_df, below_append] at hx
      rcases hx with ⟨p, t, r, h1, h2, -⟩ | ⟨p, t, r, h1, h2, -⟩
      · obtain ⟨i, h⟩ := itemChildren_path h1
        simp only at h
        rw [h2, h, List.append_assoc]
        exact lt_append_cons _ _ _
      · rw [h2]
        simpa using (hq.1 _ h1).lt_append [] r
    · apply ih
      rw [List.pairwise_append]
      refine ⟨(itemChildren_pairwise it).imp ?_, hq.2, ?_⟩
      · rintro x y ⟨i, j, h1, h2, h3⟩
        exact ⟨it.1, i, j, [], [], h1, h2, h3⟩
      · intro x hx y hy
        obtain ⟨i, h⟩ := itemChildren_path hx
        rw [h]
        simpa using (hq.1 _ hy).append [i] []

/-- Order invariant of the breadth-first queue. -/
def QueueRel (a b : Path) : Prop :=
  (b.length = a.length ∧ a < b) ∨ (b.length = a.length + 1 ∧ b.dropLast < a)

theorem sameLen_lt_append {a b : Path} (hl : a.length = b.length) (h : a < b) (s s' : Path) :
    a ++ s < b ++ s' := by
  induction a generalizing b with
  | nil =>
    cases b with
    | nil => simp at h
    | cons => simp at hl
  | cons x a ih =>
    cases b with
    | nil => simp at hl
    | cons y b =>
      simp only [List.cons_append, List.cons_lt_cons_iff] at h ⊢
      rcases h with h | ⟨h1, h2⟩
      · exact Or.inl h
      · exact Or.inr ⟨h1, ih (by simpa using hl) h2⟩

theorem traverseLoop_bf_sorted (q : List Item)
    (hq : q.Pairwise (fun x y => QueueRel x.1 y.1)) :
    (traverseLoop .breadthFirst q).Pairwise (fun x y => BfLt x.1 y.1) := by
  induction q using bf_induction with
  | h0 => simp [traverseLoop_bf_nil]
  | h1 it q ih =>
    rw [traverseLoop_bf_cons, List.pairwise_cons]
    rw [List.pairwise_cons] at hq
    constructor
    · intro x hx
      rw [mem_traverseLoop_bf, below_append] at hx
      rcases hx with ⟨p, t, r, h1, h2, -⟩ | ⟨p, t, r, h1, h2, -⟩
      · rcases hq.1 _ h1 with ⟨h3, h4⟩ | ⟨h3, h4⟩
        · cases r with
          | nil => right; rw [h2]; simp at h3 h4 ⊢; exact ⟨h3.symm, h4⟩
          | cons i r => left; rw [h2]; simp at h3 ⊢; omega
        · left; rw [h2]; simp at h3 ⊢; omega
      · obtain ⟨i, h⟩ := itemChildren_path h1
        simp only at h
        left; rw [h2, h]; simp
    · apply ih
      rw [List.pairwise_append]
      refine ⟨hq.2, (itemChildren_pairwise it).imp ?_, ?_⟩
      · rintro x y ⟨i, j, h1, h2, h3⟩
        left
        rw [h1, h2]
        refine ⟨by simp, ?_⟩
        have := SepLt.lt_append (p := it.1 ++ [i]) (p' := it.1 ++ [j])
          ⟨it.1, i, j, [], [], rfl, rfl, h3⟩ [] []
        simpa using this
      · intro x hx y hy
        obtain ⟨i, h⟩ := itemChildren_path hy
        rw [h]
        rcases hq.1 _ hx with ⟨h3, h4⟩ | ⟨h3, h4⟩
        · right; simp [h3, h4]
        · left
          refine ⟨by simp [h3], ?_⟩
          have hne : x.1 ≠ [] := by intro h0; rw [h0] at h3; simp at h3
          rw [← List.dropLast_append_getLast hne]
          exact sameLen_lt_append (by simp [h3]) h4 _ _

theorem Forest.mem_items (F : Forest) (a : Path) (t : Tree) :
    (a, t) ∈ F.items ↔ ∃ i, a = [i] ∧ F.trees[i]? = some t := by
  simp only [Forest.items, List.mem_map, Prod.exists, Prod.mk.injEq, List.mem_zipIdx_iff_getElem?]
  constructor
  · rintro ⟨t', i, h, rfl, rfl⟩; exact ⟨i, rfl, h⟩
  · rintro ⟨i, rfl, h⟩; exact ⟨t, i, h, rfl, rfl⟩

theorem zipIdx_pairwise {α : Type} (l : List α) (k : Nat) :
    (l.zipIdx k).Pairwise (fun x y => x.2 < y.2) := by
  induction l generalizing k with
  | nil => simp
  | cons x l ih =>
    rw [List.zipIdx_cons, List.pairwise_cons]
    refine ⟨?_, ih _⟩
    rintro ⟨y, i⟩ h
    rw [List.mem_zipIdx_iff_le_and_getElem?_sub] at h
    show k < i
    omega

theorem Forest.items_pairwise (F : Forest) :
    F.items.Pairwise (fun x y => ∃ i j, x.1 = [i] ∧ y.1 = [j] ∧ i < j) := by
  unfold Forest.items
  rw [List.pairwise_map]
  exact (zipIdx_pairwise F.trees 0).imp (fun {a b} h => ⟨a.2, b.2, rfl, rfl, h⟩)

theorem Forest.below_items (F : Forest) (a : Path) (t : Tree) :
    Below F.items (a, t) ↔ F.get? a = some t := by
  constructor
  · rintro ⟨p, s, r, h1, h2, h3⟩
    obtain ⟨i, rfl, h4⟩ := (F.mem_items p s).1 h1
    simp only at h2 h3
    rw [h2, List.singleton_append, Forest.get?_cons, h4]; simpa using h3
  · intro h
    cases a with
    | nil => simp at h
    | cons i p =>
      rw [Forest.get?_cons] at h
      obtain ⟨s, h1, h2⟩ := Option.bind_eq_some_iff.1 h
      exact ⟨[i], s, p, (F.mem_items _ _).2 ⟨i, rfl, h1⟩, by simp, h2⟩

theorem mem_filterFlag (flag : Option Flag) (l : List Item) (x : Item) :
    x ∈ filterFlag flag l ↔ x ∈ l ∧ ∀ f, flag = some f → f ∈ x.2.info.flags := by
  cases flag <;> simp [filterFlag, Tree.isMarked]

theorem filterFlag_pairwise {R : Item → Item → Prop} (flag : Option Flag) (l : List Item)
    (h : l.Pairwise R) : (filterFlag flag l).Pairwise R := by
  cases flag with
  | none => exact h
  | some f => exact h.filter _

theorem Forest.mem_traverse (F : Forest) (flag : Option Flag) (mode : Mode) (a : Path) (t : Tree) :
    (a, t) ∈ F.traverse flag mode ↔
      F.get? a = some t ∧ ∀ f, flag = some f → f ∈ t.info.flags := by
  unfold Forest.traverse
  rw [mem_filterFlag, mem_traverseLoop]
  cases mode
  · simp only [below_reverse, Forest.below_items]
  · simp only [Forest.below_items]

theorem Forest.traverse_df_sorted (F : Forest) (flag : Option Flag) :
    (F.traverse flag .depthFirst).Pairwise (fun x y => x.1 < y.1) := by
  apply filterFlag_pairwise
  apply traverseLoop_df_sorted
  refine F.items_pairwise.imp ?_
  rintro x y ⟨i, j, h1, h2, h3⟩
  exact ⟨[], i, j, [], [], h1, h2, h3⟩

theorem Forest.traverse_bf_sorted (F : Forest) (flag : Option Flag) :
    (F.traverse flag .breadthFirst).Pairwise (fun x y => BfLt x.1 y.1) := by
  apply filterFlag_pairwise
  apply traverseLoop_bf_sorted
  refine F.items_pairwise.imp ?_
  rintro x y ⟨i, j, h1, h2, h3⟩
  left
  rw [h1, h2]
  exact ⟨rfl, List.cons_lt_cons_iff.2 (Or.inl h3)⟩

theorem Tree.mem_traverse (p : Path) (t : Tree) (flag : Option Flag) (mode : Mode) (a : Path)
    (s : Tree) :
    (a, s) ∈ t.traverse p flag mode ↔
      (∃ r, a = p ++ r ∧ t.get? r = some s) ∧ ∀ f, flag = some f → f ∈ s.info.flags := by
  unfold Tree.traverse
  rw [mem_filterFlag, mem_traverseLoop]
  simp only [Below, List.mem_singleton, Prod.mk.injEq]
  constructor
  · rintro ⟨⟨p', t', r, ⟨rfl, rfl⟩, h2, h3⟩, h4⟩; exact ⟨⟨r, h2, h3⟩, h4⟩
  · rintro ⟨⟨r, h2, h3⟩, h4⟩; exact ⟨⟨p, t, r, ⟨rfl, rfl⟩, h2, h3⟩, h4⟩

theorem Tree.traverse_df_sorted (p : Path) (t : Tree) (flag : Option Flag) :
    (t.traverse p flag .depthFirst).Pairwise (fun x y => x.1 < y.1) := by
  apply filterFlag_pairwise
  have := traverseLoop_df_sorted [(p, t)] (by simp)
  simpa using this

theorem Tree.traverse_bf_sorted (p : Path) (t : Tree) (flag : Option Flag) :
    (t.traverse p flag .breadthFirst).Pairwise (fun x y => BfLt x.1 y.1) := by
  apply filterFlag_pairwise
  exact traverseLoop_bf_sorted [(p, t)] (by simp)

theorem mem_selectLeaves (l : List Item) (flag sub : Option Flag) (x : Item) :
    x ∈ selectLeaves l flag sub ↔ x ∈ l ∧ x.2.hasChildren sub = false ∧
      ∀ f, flag = some f → f ∈ x.2.info.flags := by
  cases flag <;> simp [selectLeaves, Tree.isMarked, and_comm]

theorem selectLeaves_pairwise {R : Item → Item → Prop} (l : List Item) (flag sub : Option Flag)
    (h : l.Pairwise R) : (selectLeaves l flag sub).Pairwise R := by
  cases flag with
  | none => exact h.filter _
  | some f => exact (h.filter _).filter _

end Verif.Trees
