import Verif.Forest.Model

/-! # Flags of vertices and of `Markable` objects: C94

`Vertex` (mesh.py 1772-1990) carries its own flag set; the class `Markable`
(mesh.py 152-188) offers the same methods under the same documentation.  Flags are coded
as in `Verif.Forest.Model`. -/

namespace Verif.Trees

/-- The calls that change the flags of a vertex (or a `Markable`). -/
inductive MarkOp where
  | mark (f : Option Flag)
  | unmark (f : Option Flag)
  | clear
deriving DecidableEq

/-- `Vertex.mark(flag)` (mesh.py 1832-1843), `Vertex.unmark(flag)` (mesh.py 1846-1863).  A
vertex has no `clear`; `unmark()` does the same. -/
def vertexStep (s : Finset Flag) : MarkOp → Finset Flag
  | .mark none => insert flagTrue s
  | .mark (some f) => insert f s
  | .unmark none => ∅
  | .unmark (some f) => if f ∈ s then s.erase f else s
  | .clear => ∅

/-- `Vertex.is_marked(flag)` (mesh.py 1866-1881). -/
def vertexMarked (s : Finset Flag) : Option Flag → Bool
  | none => decide (s ≠ ∅)
  | some f => decide (f ∈ s)

/-- `Markable.mark(flag)` (mesh.py 163-167), `Markable.unmark(flag)` (mesh.py 170-174: the
body is `pass`), `Markable.clear()` (mesh.py 184-188).  `mark` requires a flag: without one
it is called with `True` here. -/
def markableStep (s : Finset Flag) : MarkOp → Finset Flag
  | .mark none => insert flagTrue s
  | .mark (some f) => insert f s
  | .unmark _ => s
  | .clear => ∅

/-- `Markable.is_marked(flag)` (mesh.py 177-181). -/
def markableMarked (s : Finset Flag) (f : Flag) : Bool := decide (f ∈ s)

/-! ## Specification: the last call that speaks about a flag decides -/

/-- What the call does to flag `f`: set it, remove it or leave it alone. -/
def MarkOp.effect (f : Flag) : MarkOp → Option Bool
  | .mark none => if f = flagTrue then some true else none
  | .mark (some g) => if f = g then some true else none
  | .unmark none => some false
  | .unmark (some g) => if f = g then some false else none
  | .clear => some false

/-- Is the flag present after the history (oldest call first), starting without flags? -/
def present (f : Flag) : List MarkOp → Bool
  | [] => false
  | ops@(_ :: _) => match (ops.reverse.filterMap (MarkOp.effect f)).head? with
    | some b => b
    | none => false

theorem present_snoc (f : Flag) (ops : List MarkOp) (o : MarkOp) :
    present f (ops ++ [o]) = (match o.effect f with | some b => b | none => present f ops) := by
  have key : ∀ l : List MarkOp, present f l =
      (match (l.reverse.filterMap (MarkOp.effect f)).head? with | some b => b | none => false) := by
    intro l; cases l <;> rfl
  rw [key, key]
  simp only [List.reverse_append, List.reverse_singleton, List.singleton_append]
  cases h : o.effect f with
  | some b => rw [List.filterMap_cons_some h]; rfl
  | none => rw [List.filterMap_cons_none h]

/-- After any history of calls, `is_marked(f)` of a vertex says whether the last call that
concerned `f` set it, and `is_marked()` whether there is any flag left. -/
theorem C94_vertex (ops : List MarkOp) :
    (∀ f, vertexMarked (ops.foldl vertexStep ∅) (some f) = present f ops) ∧
    (vertexMarked (ops.foldl vertexStep ∅) none = true ↔ ∃ f, present f ops = true) := by
  have main : ∀ f, vertexMarked (ops.foldl vertexStep ∅) (some f) = present f ops := by
    intro f
    induction ops using List.reverseRecOn with
    | nil => rfl
    | append_singleton ops o ih =>
      rw [List.foldl_append, List.foldl_cons, List.foldl_nil, present_snoc]
      simp only [vertexMarked] at ih ⊢
      generalize ops.foldl vertexStep ∅ = s at ih
      rcases o with (_ | g) | (_ | g) | _
      · by_cases h : f = flagTrue <;> simp [vertexStep, MarkOp.effect, h, ← ih]
      · by_cases h : f = g <;> simp [vertexStep, MarkOp.effect, h, ← ih]
      · simp [vertexStep, MarkOp.effect]
      · by_cases h : f = g
        · by_cases hs : g ∈ s <;> simp [vertexStep, MarkOp.effect, h, hs]
        · by_cases hs : g ∈ s <;> simp [vertexStep, MarkOp.effect, h, hs, ← ih]
      · simp [vertexStep, MarkOp.effect]
  refine ⟨main, ?_⟩
  simp only [vertexMarked, decide_eq_true_eq, ne_eq, ← Finset.nonempty_iff_ne_empty] at main ⊢
  constructor
  · rintro ⟨f, hf⟩; exact ⟨f, by rw [← main]; simpa using hf⟩
  · rintro ⟨f, hf⟩; exact ⟨f, by rw [← main] at hf; simpa using hf⟩

/-- A `Markable` obeys the same law as long as nothing is unmarked (what is missing: every
history with a call of `unmark`). -/
theorem C94_markable_partial (ops : List MarkOp) (h : ∀ g, MarkOp.unmark g ∉ ops) (f : Flag) :
    markableMarked (ops.foldl markableStep ∅) f = present f ops := by
  have e : ops.foldl markableStep ∅ = ops.foldl vertexStep ∅ := by
    have : ∀ s, ops.foldl markableStep s = ops.foldl vertexStep s := by
      induction ops with
      | nil => intro s; rfl
      | cons o ops ih =>
        intro s
        simp only [List.foldl_cons]
        rw [ih (fun g hg => h g (List.mem_cons_of_mem _ hg))]
        rcases o with (_ | g) | g | _
        · rfl
        · rfl
        · exact absurd (List.mem_cons_self ..) (h g)
        · rfl
    exact this ∅
  rw [e]
  exact (C94_vertex ops).1 f

/-- `Markable.unmark` does nothing: the flag is still there. -/
theorem C94_markable_violated : ∃ (ops : List MarkOp) (f : Flag),
    ops.getLast? = some (.unmark (some f)) ∧ present f ops = false ∧
      markableMarked (ops.foldl markableStep ∅) f = true :=
  ⟨[.mark (some 3), .unmark (some 3)], 3, by decide +kernel⟩

/-- `True == 1` in Python: a mark without flag is taken for the flag 1, and removing the
flag 1 removes it.  Flags of different purposes must not be `True` and `1`. -/
theorem C94_true_is_one_violated :
    vertexMarked ([MarkOp.mark none].foldl vertexStep ∅) (some 1) = true ∧
    vertexMarked ([MarkOp.mark none, MarkOp.unmark (some 1)].foldl vertexStep ∅) none = false := by
  decide +kernel

/-- A history with all kinds of calls. -/
example : let ops := [MarkOp.mark none, .mark (some 4), .mark (some 5), .unmark (some 4), .unmark (some 9)]
    present 5 ops = true ∧ present 4 ops = false ∧ present flagTrue ops = true ∧
    vertexMarked (ops.foldl vertexStep ∅) (some 5) = true := by
  decide +kernel

/-- A history that meets the hypothesis of `C94_markable_partial`. -/
example : (∀ g, MarkOp.unmark g ∉ [MarkOp.mark (some 2), .clear, .mark (some 3)]) ∧
    present 3 [MarkOp.mark (some 2), .clear, .mark (some 3)] = true ∧
    present 2 [MarkOp.mark (some 2), .clear, .mark (some 3)] = false := by
  refine ⟨by simp, by decide +kernel, by decide +kernel⟩

end Verif.Trees
