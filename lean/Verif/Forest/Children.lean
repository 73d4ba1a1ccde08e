import Verif.Forest.Traverse

/-!
# C97: the queries about children agree

`has_children`, `get_children` and `get_child` of one node (mesh.py 645-740).  Python accepts negative positions as well,
counted from the end.
-/

namespace Verif.Trees

/-- What indexing a list by an integer can give: the element, or `IndexError`. -/
inductive IdxErr where
  | assertion
  | index
deriving DecidableEq, Repr

/-- `list[i]` in Python: negative positions count from the end (language semantics, used at mesh.py 684, 691, 702). -/
def pyGet {α : Type} (l : List α) (i : Int) : Except IdxErr α :=
  if 0 ≤ i then
    match l[i.toNat]? with
    | some a => .ok a
    | none => .error .index
  else if 0 ≤ i + l.length then
    match l[(i + l.length).toNat]? with
    | some a => .ok a
    | none => .error .index
  else .error .index

/-- `node.get_child(position)` (mesh.py 696-702) for any integer. -/
def Tree.getChild (t : Tree) (pos : Int) : Except IdxErr (Option Tree) :=
  if pos < t.kids.length ∧ -t.kids.length < pos then pyGet t.kids pos else .error .assertion

/-- `node.has_children(position, flag)` (mesh.py 673-692) for any integer. -/
def Tree.hasChildZ (t : Tree) (pos : Int) (flag : Option Flag) : Except IdxErr Bool :=
  if pos < t.kids.length then
    match pyGet t.kids pos with
    | .error e => .error e
    | .ok none => .ok false
    | .ok (some c) => match flag with
      | none => .ok true
      | some f => .ok (c.isMarked (some f))
  else .error .assertion

/-- The child `c` answers the query with this flag: no flag was given, or the child carries it. -/
def Answers (flag : Option Flag) (c : Tree) : Prop := ∀ f, flag = some f → f ∈ c.info.flags

lemma pyGet_nat {α : Type} (l : List α) (n : Nat) : pyGet l (n : Int) = match l[n]? with
    | some a => .ok a
    | none => .error .index := by
  simp [pyGet]

/-- **C97** (existence): there are children (with the flag) iff some position holds one. -/
theorem C97_exists (t : Tree) (flag : Option Flag) :
    t.hasChildren flag = true ↔ ∃ pos, t.hasChildAt pos flag = .ok true := by
  rw [hasChildren_iff]
  constructor
  · rintro ⟨i, c, h1, h2⟩
    obtain ⟨hlt, -⟩ := List.getElem?_eq_some_iff.1 h1
    refine ⟨i, ?_⟩
    unfold Tree.hasChildAt
    rw [if_pos hlt, h1]
    cases flag with
    | none => rfl
    | some f => simpa [Tree.isMarked] using h2 f rfl
  · rintro ⟨i, h⟩
    unfold Tree.hasChildAt at h
    split_ifs at h with hlt
    cases flag with
    | none =>
      simp only [Except.ok.injEq] at h
      split at h
      · rename_i c hc; exact ⟨i, c, hc, by simp⟩
      · cases h
    | some f =>
      simp only [Except.ok.injEq] at h
      split at h
      · rename_i c hc
        refine ⟨i, c, hc, ?_⟩
        intro g hg
        cases hg
        simpa [Tree.isMarked] using h
      · cases h

/-- **C97** (one position): `has_children(position, flag)` of a position below the number of children says whether
`get_children(flag)` yields a child at this position, and of other positions is rejected. -/
theorem C97_position (t : Tree) (flag : Option Flag) (pos : Nat) :
    (t.hasChildAt pos flag = .ok true ↔ ∃ c, (pos, c) ∈ t.getChildren flag false) ∧
    ((∃ b, t.hasChildAt pos flag = .ok b) ↔ pos < t.kids.length) := by
  constructor
  · simp only [mem_getChildren]
    unfold Tree.hasChildAt
    split_ifs with hlt
    · cases flag with
      | none =>
        simp only [Except.ok.injEq]
        split
        · rename_i c hc; simp [hc]
        · rename_i hc
          simp only [Bool.false_eq_true, false_iff, not_exists, not_and]
          exact fun c h => absurd h (hc c)
      | some f =>
        simp only [Except.ok.injEq]
        split
        · rename_i c hc; simp [hc, Tree.isMarked]
        · rename_i hc
          simp only [Bool.false_eq_true, false_iff, not_exists, not_and]
          exact fun c h => absurd h (hc c)
    · simp only [false_iff, not_exists, not_and]
      intro c h
      exact absurd (List.getElem?_eq_some_iff.1 h).1 hlt
  · unfold Tree.hasChildAt
    split_ifs with hlt
    · simp only [hlt, iff_true]
      cases flag <;> exact ⟨_, rfl⟩
    · simp [hlt]

/-- **C97** (`get_children`): yields exactly the children that answer the query, each once, in the order of their
positions, or in the opposite order; it yields nothing iff `has_children` says so. -/
theorem C97_children (t : Tree) (flag : Option Flag) :
    (∀ pos c, (pos, c) ∈ t.getChildren flag false ↔ t.kids[pos]? = some (some c) ∧ Answers flag c) ∧
    (t.getChildren flag false).Pairwise (fun x y => x.1 < y.1) ∧
    t.getChildren flag true = (t.getChildren flag false).reverse ∧
    (t.hasChildren flag = true ↔ t.getChildren flag false ≠ []) := by
  refine ⟨fun pos c => mem_getChildren t flag false pos c, getChildren_pairwise t flag, getChildren_reverse t flag, ?_⟩
  rw [hasChildren_iff]
  constructor
  · rintro ⟨i, c, h⟩ he
    have := (mem_getChildren t flag false i c).2 h
    rw [he] at this
    cases this
  · intro h
    obtain ⟨⟨i, c⟩, hm⟩ := List.exists_mem_of_ne_nil _ h
    exact ⟨i, c, (mem_getChildren t flag false i c).1 hm⟩

/-- **C97** (`get_child`): for a position that counts from the front, `get_child` gives the child that `get_children`
yields at this position, `None` if there is none, and fails iff `has_children(position)` fails. -/
theorem C97_get_child (t : Tree) (pos : Nat) :
    (∀ c, t.getChild pos = .ok (some c) ↔ (pos, c) ∈ t.getChildren none false) ∧
    (t.getChild pos = .ok none ↔ t.hasChildAt pos none = .ok false) ∧
    ((∃ e, t.getChild pos = .error e) ↔ t.hasChildAt pos none = .error .assertion) := by
  have hg : t.getChild (pos : Int) = if pos < t.kids.length then (match t.kids[pos]? with
      | some a => .ok a
      | none => .error .index) else .error .assertion := by
    unfold Tree.getChild
    rw [pyGet_nat]
    by_cases h : pos < t.kids.length
    · have h2 : ((pos : Int) < t.kids.length ∧ -(t.kids.length : Int) < pos) := by omega
      rw [if_pos h2, if_pos h]
      cases t.kids[pos]? <;> rfl
    · have h2 : ¬ ((pos : Int) < t.kids.length ∧ -(t.kids.length : Int) < pos) := by omega
      rw [if_neg h2, if_neg h]
  simp only [hg, mem_getChildren]
  unfold Tree.hasChildAt
  by_cases h : pos < t.kids.length
  · simp only [h, if_true]
    obtain ⟨o, ho⟩ : ∃ o, t.kids[pos]? = some o := ⟨_, List.getElem?_eq_getElem h⟩
    rw [ho]
    cases o <;> simp
  · simp only [h, if_false]
    have hn : t.kids[pos]? = none := List.getElem?_eq_none (by omega)
    simp [hn]

/-- **C97** (integers): for positions from the front the general query is the one above. -/
theorem C97_nat (t : Tree) (flag : Option Flag) (pos : Nat) (b : Bool) :
    t.hasChildZ pos flag = .ok b ↔ t.hasChildAt pos flag = .ok b := by
  unfold Tree.hasChildZ Tree.hasChildAt
  rw [pyGet_nat]
  by_cases h : pos < t.kids.length
  · have h2 : (pos : Int) < t.kids.length := by omega
    rw [if_pos h2, if_pos h]
    obtain ⟨o, ho⟩ : ∃ o, t.kids[pos]? = some o := ⟨_, List.getElem?_eq_getElem h⟩
    rw [ho]
    cases o <;> cases flag <;> simp
  · have h2 : ¬ (pos : Int) < t.kids.length := by omega
    rw [if_neg h2, if_neg h]
    simp

/-- **C97** (positions from the end): `-1`, ..., `-(n-1)` mean the positions `n-1`, ..., `1`, for both queries. -/
theorem C97_from_end_partial (t : Tree) (flag : Option Flag) (k : Nat) (h1 : 1 ≤ k) (h2 : k < t.kids.length) :
    t.getChild (-(k : Int)) = t.getChild ((t.kids.length - k : Nat) : Int) ∧
    t.hasChildZ (-(k : Int)) flag = t.hasChildZ ((t.kids.length - k : Nat) : Int) flag := by
  have e : pyGet t.kids (-(k : Int)) = pyGet t.kids ((t.kids.length - k : Nat) : Int) := by
    unfold pyGet
    have a1 : ¬ (0 : Int) ≤ -(k : Int) := by omega
    have a2 : (0 : Int) ≤ -(k : Int) + t.kids.length := by omega
    have a3 : (0 : Int) ≤ ((t.kids.length - k : Nat) : Int) := by omega
    rw [if_neg a1, if_pos a2, if_pos a3]
    have a4 : (-(k : Int) + t.kids.length).toNat = (((t.kids.length - k : Nat) : Int)).toNat := by omega
    rw [a4]
  unfold Tree.getChild Tree.hasChildZ
  rw [e]
  have b1 : (-(k : Int) < t.kids.length ∧ -(t.kids.length : Int) < -(k : Int)) := by omega
  have b2 : (((t.kids.length - k : Nat) : Int) < t.kids.length ∧ -(t.kids.length : Int) < ((t.kids.length - k : Nat) : Int)) := by omega
  rw [if_pos b1, if_pos b2, if_pos b1.1, if_pos b2.1]
  exact ⟨rfl, rfl⟩

/-- **C97** is violated for the position `-n` of a node with `n` children: `has_children(-n)` answers for the first
child, but `get_child(-n)` is rejected.  This holds for every node that has slots for children. -/
theorem C97_first_from_end_violated (t : Tree) (h : 0 < t.kids.length) :
    t.hasChildZ (-(t.kids.length : Int)) none = t.hasChildZ 0 none ∧ (∃ b, t.hasChildZ 0 none = .ok b) ∧
    t.getChild (-(t.kids.length : Int)) = .error .assertion ∧ ∃ o, t.getChild 0 = .ok o := by
  obtain ⟨o, ho⟩ : ∃ o, t.kids[0]? = some o := ⟨_, List.getElem?_eq_getElem h⟩
  have e0 : pyGet t.kids 0 = .ok o := by
    unfold pyGet
    simp [ho]
  have e : pyGet t.kids (-(t.kids.length : Int)) = .ok o := by
    unfold pyGet
    have a1 : ¬ (0 : Int) ≤ -(t.kids.length : Int) := by omega
    have a2 : (0 : Int) ≤ -(t.kids.length : Int) + t.kids.length := by omega
    rw [if_neg a1, if_pos a2]
    have a4 : (-(t.kids.length : Int) + t.kids.length).toNat = 0 := by omega
    rw [a4, ho]
  have b1 : -(t.kids.length : Int) < t.kids.length := by omega
  have b2 : (0 : Int) < t.kids.length := by omega
  refine ⟨?_, ?_, ?_, ?_⟩
  · unfold Tree.hasChildZ
    rw [e, e0, if_pos b1, if_pos b2]
  · unfold Tree.hasChildZ
    rw [e0, if_pos b2]
    cases o <;> exact ⟨_, rfl⟩
  · unfold Tree.getChild
    rw [if_neg (by omega)]
  · unfold Tree.getChild
    rw [e0, if_pos (by omega)]
    exact ⟨_, rfl⟩

/-- A node with four slots, of which the second holds a child with the flag 7. -/
def exNode : Tree := .node ⟨.branch, false, [0], 0, ∅⟩ [none, some (.node ⟨.leaf, false, [0, 1], 1, {7}⟩ []), none, none]

example : exNode.hasChildren (some 7) = true ∧ exNode.hasChildAt 1 (some 7) = .ok true ∧
    exNode.hasChildAt 1 (some 8) = .ok false ∧ exNode.hasChildAt 0 none = .ok false ∧
    exNode.hasChildAt 4 none = .error .assertion ∧ exNode.hasChildZ (-3) none = .ok true ∧
    exNode.hasChildZ (-5) none = .error .index ∧ (exNode.getChildren none false).map (·.1) = [1] := by
  decide +kernel

end Verif.Trees
