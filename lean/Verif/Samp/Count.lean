import Verif.Samp.Model

/-!
# `Assembler.n_samples`

The accessor `n_samples(i_problem, form_type)` of the assembler (assembler.py 3096-3138) counts the samples of a problem again, from the
kernels of its forms, and not from the `AssembledForm` that holds the values (assembler.py 4031-4045, `sizes` in `Verif.Samp.Model`).
-/

namespace Verif.Samp

/-! ## Model -/

/-- `form.type` (assembler.py 1098-1112). -/
inductive FormType where
  | constant
  | linear
  | bilinear
deriving DecidableEq, Repr

/-- What the count sees of a form: `form.type` and `form.kernel.n_samples()` (assembler.py 1112, 895-899). -/
structure FormHead where
  type : FormType
  ns : ℕ
deriving Repr

/-- Why the count can stop: `assert n_samples == n_kernel_sample` (assembler.py 3136-3137). -/
inductive CountErr where
  | assertion
deriving DecidableEq, Repr

/-- One form in the loop of `n_samples` (assembler.py 3112-3137); a kernel never says `None` (872-892). -/
def countStep (t : FormType) (n : Option ℕ) (f : FormHead) : Except CountErr (Option ℕ) :=
  if f.type = t then
    match n with
    | none => .ok (some f.ns)
    | some m => if f.ns > 1 then (if m = f.ns then .ok n else .error .assertion) else .ok n
  else .ok n

/-- `n_samples(i_problem, form_type)`, where `fs` are the forms of the problem (assembler.py 3096-3138). -/
def countSamples (fs : List FormHead) (t : FormType) : Except CountErr (Option ℕ) := fs.foldlM (countStep t) none

/-! ## Specification -/

/-- The sample sizes of the kernels of the forms of one type, in the order of the problem. -/
def sizesOf (fs : List FormHead) (t : FormType) : List ℕ := (fs.filter (·.type = t)).map (·.ns)

/-! ## Theorems -/

theorem countStep_fold (t : FormType) (m : ℕ) : ∀ fs : List FormHead,
    fs.foldlM (countStep t) (some m) =
      if ∀ n ∈ sizesOf fs t, n > 1 → n = m then .ok (some m) else .error .assertion := by
  intro fs
  induction fs with
  | nil => simp [sizesOf, pure, Except.pure]
  | cons f fs ih =>
    rw [List.foldlM_cons]
    by_cases ht : f.type = t
    · have hs : sizesOf (f :: fs) t = f.ns :: sizesOf fs t := by simp [sizesOf, ht]
      rw [hs]
      by_cases h1 : f.ns > 1
      · by_cases hm : m = f.ns
        · have : countStep t (some m) f = .ok (some m) := by simp [countStep, ht, hm]
          rw [this]
          simp only [bind, Except.bind, ih, List.forall_mem_cons]
          simp [hm]
        · have : countStep t (some m) f = .error .assertion := by simp [countStep, ht, hm, h1]
          rw [this]
          have hm' : f.ns ≠ m := fun h => hm h.symm
          simp [bind, Except.bind, h1, hm']
      · have : countStep t (some m) f = .ok (some m) := by simp [countStep, ht, h1]
        rw [this]
        simp only [bind, Except.bind, ih, List.forall_mem_cons]
        simp [h1]
    · have hs : sizesOf (f :: fs) t = sizesOf fs t := by simp [sizesOf, ht]
      have : countStep t (some m) f = .ok (some m) := by simp [countStep, ht]
      rw [this, hs]
      simp only [bind, Except.bind, ih]

theorem countSamples_eq (t : FormType) : ∀ fs : List FormHead,
    countSamples fs t = match sizesOf fs t with
      | [] => .ok none
      | m :: l => if ∀ n ∈ l, n > 1 → n = m then .ok (some m) else .error .assertion := by
  intro fs
  unfold countSamples
  induction fs with
  | nil => simp [sizesOf, pure, Except.pure]
  | cons f fs ih =>
    rw [List.foldlM_cons]
    by_cases ht : f.type = t
    · have hs : sizesOf (f :: fs) t = f.ns :: sizesOf fs t := by simp [sizesOf, ht]
      have : countStep t none f = .ok (some f.ns) := by simp [countStep, ht]
      rw [this, hs]
      simp only [bind, Except.bind]
      exact countStep_fold t f.ns fs
    · have hs : sizesOf (f :: fs) t = sizesOf fs t := by simp [sizesOf, ht]
      have : countStep t none f = .ok none := by simp [countStep, ht]
      rw [this, hs]
      simp only [bind, Except.bind]
      exact ih

theorem sizes_fold {n : ℕ} (S : ℕ) : ∀ L : List ℕ, n ≠ 1 →
    (L.foldlM addSize n = .ok S ↔ S = n ∧ ∀ k ∈ L, k > 1 → k = n) := by
  intro L h1
  induction L with
  | nil => simp [pure, Except.pure, eq_comm]
  | cons k L ih =>
    rw [List.foldlM_cons]
    by_cases hk : k > 1
    · by_cases e : n = k
      · have : addSize n k = .ok n := by simp [addSize, hk, e]
        rw [this]
        simp only [bind, Except.bind, ih, List.forall_mem_cons]
        simp [e]
      · have : addSize n k = .error .shape := by simp [addSize, hk, h1, e]
        rw [this]
        have e' : k ≠ n := fun h => e h.symm
        simp [bind, Except.bind, hk, e']
    · have : addSize n k = .ok n := by simp [addSize, hk]
      rw [this]
      simp only [bind, Except.bind, ih, List.forall_mem_cons]
      simp [hk]

/-- What `AssembledForm` holds after all its forms were added: `S` samples iff every kernel with several samples has `S`, and there is one
if `S` is not 1. -/
theorem sizes_iff (S : ℕ) : ∀ L : List ℕ, (sizes L = .ok S ↔ (∀ k ∈ L, k > 1 → k = S) ∧ (S = 1 ∨ (S > 1 ∧ S ∈ L))) := by
  intro L
  unfold sizes
  induction L with
  | nil => simp [pure, Except.pure, eq_comm]
  | cons k L ih =>
    rw [List.foldlM_cons]
    by_cases hk : k > 1
    · have : addSize 1 k = .ok k := by simp [addSize, hk]
      rw [this]
      simp only [bind, Except.bind]
      rw [sizes_fold S L (by omega)]
      constructor
      · rintro ⟨rfl, h⟩
        exact ⟨by simpa using h, Or.inr ⟨hk, by simp⟩⟩
      · rintro ⟨h, -⟩
        have := h k (by simp) hk
        subst this
        exact ⟨rfl, fun j hj => h j (by simp [hj])⟩
    · have : addSize 1 k = .ok 1 := by simp [addSize, hk]
      rw [this]
      simp only [bind, Except.bind, ih, List.forall_mem_cons, List.mem_cons (a := S)]
      constructor
      · rintro ⟨h, h'⟩
        exact ⟨⟨fun h => absurd h hk, h⟩, h'.imp id (fun h => ⟨h.1, Or.inr h.2⟩)⟩
      · rintro ⟨⟨-, h⟩, h'⟩
        refine ⟨h, h'.imp id ?_⟩
        rintro ⟨h1, rfl | h2⟩
        · exact absurd h1 hk
        · exact ⟨h1, h2⟩

/-- C100: `n_samples` of a problem says `n` exactly when the first form of that type has a kernel with `n` samples and every later form of
that type has a deterministic kernel or one with `n` samples; it says `None` exactly when the problem has no form of that type; otherwise
it raises. Forms of other types do not matter. -/
theorem C100_count (fs : List FormHead) (t : FormType) :
    (∀ n, countSamples fs t = .ok (some n) ↔
      ∃ l, sizesOf fs t = n :: l ∧ ∀ k ∈ l, k > 1 → k = n) ∧
    (countSamples fs t = .ok none ↔ ∀ f ∈ fs, f.type ≠ t) ∧
    (∀ e, countSamples fs t = .error e ↔
      ∃ m l, sizesOf fs t = m :: l ∧ ∃ k ∈ l, k > 1 ∧ k ≠ m) := by
  have hn : sizesOf fs t = [] ↔ ∀ f ∈ fs, f.type ≠ t := by
    simp [sizesOf]
  rw [← hn, countSamples_eq]
  cases hs : sizesOf fs t with
  | nil => simp
  | cons m l =>
    by_cases h : ∀ k ∈ l, k > 1 → k = m
    · simp only [if_pos h]
      refine ⟨fun n => ?_, by simp, fun e => ?_⟩
      · constructor
        · intro h'
          cases h'
          exact ⟨l, rfl, h⟩
        · rintro ⟨l', h1, -⟩
          cases h1
          rfl
      · simp only [reduceCtorEq, false_iff]
        rintro ⟨m', l', h1, k, hk, h2, h3⟩
        cases h1
        exact h3 (h k hk h2)
    · simp only [if_neg h]
      refine ⟨fun n => ?_, by simp, fun e => ?_⟩
      · simp only [reduceCtorEq, false_iff]
        rintro ⟨l', h1, h2⟩
        cases h1
        exact h h2
      · cases e
        simp only [true_iff]
        push Not at h
        obtain ⟨k, hk, h1, h2⟩ := h
        exact ⟨m, l, rfl, k, hk, h1, h2⟩

/-- C100: the number it returns is the number of samples of the assembled form of that type, and adding the forms to it did not raise. -/
theorem C100_agrees (fs : List FormHead) (t : FormType) (hpos : ∀ f ∈ fs, 1 ≤ f.ns) {n : ℕ}
    (h : countSamples fs t = .ok (some n)) : sizes (sizesOf fs t) = .ok n := by
  obtain ⟨l, hl, hk⟩ := ((C100_count fs t).1 n).1 h
  have hn : 1 ≤ n := by
    have : n ∈ sizesOf fs t := by simp [hl]
    simp only [sizesOf, List.mem_map, List.mem_filter] at this
    obtain ⟨f, hf, rfl⟩ := this
    exact hpos f hf.1
  rw [sizes_iff, hl]
  refine ⟨fun k hk' h1 => ?_, ?_⟩
  · rcases List.mem_cons.1 hk' with rfl | hk'
    · rfl
    · exact hk k hk' h1
  · rcases Nat.lt_or_ge 1 n with h1 | h1
    · exact Or.inr ⟨h1, by simp⟩
    · exact Or.inl (by omega)

/-- C100, the part that holds: for a problem that was assembled with `S` samples, the count returns `S` exactly when the first form of the
type has `S` samples, and raises otherwise. Missing: the count returns `S` for every assembled problem (`C100_count_violated`). -/
theorem C100_first_partial (fs : List FormHead) (t : FormType) {S : ℕ} (hS : sizes (sizesOf fs t) = .ok S)
    (hpos : ∀ f ∈ fs, 1 ≤ f.ns) (hne : ∃ f ∈ fs, f.type = t) :
    ((sizesOf fs t).head? = some S → countSamples fs t = .ok (some S)) ∧
    ((sizesOf fs t).head? ≠ some S → countSamples fs t = .error .assertion) := by
  obtain ⟨h1, h2⟩ := (sizes_iff S _).1 hS
  cases hs : sizesOf fs t with
  | nil =>
    obtain ⟨f, hf, ht⟩ := hne
    have : f.ns ∈ sizesOf fs t := by
      simp only [sizesOf, List.mem_map, List.mem_filter]
      exact ⟨f, ⟨hf, by simpa using ht⟩, rfl⟩
    rw [hs] at this
    simp at this
  | cons m l =>
    rw [hs] at h1 h2
    constructor
    · intro hm
      simp only [List.head?_cons, Option.some.injEq] at hm
      subst hm
      exact ((C100_count fs t).1 m).2 ⟨l, hs, fun k hk => h1 k (by simp [hk])⟩
    · intro hm
      simp only [List.head?_cons, ne_eq, Option.some.injEq] at hm
      have hm1 : m ≤ 1 := by
        by_contra hgt
        exact hm (h1 m (by simp) (by omega))
      rcases h2 with rfl | ⟨hS1, hS2⟩
      · have hm0 : m ∈ sizesOf fs t := by simp [hs]
        simp only [sizesOf, List.mem_map, List.mem_filter] at hm0
        obtain ⟨f, hf, rfl⟩ := hm0
        exact absurd (le_antisymm hm1 (hpos f hf.1)) hm
      · refine ((C100_count fs t).2.2 .assertion).2 ⟨m, l, hs, S, ?_, hS1, fun h => hm h.symm⟩
        rcases List.mem_cons.1 hS2 with h | h
        · exact absurd h.symm hm
        · exact h

/-- C100: writing the forms of a problem in another order can make the count raise, but it never changes a number that is returned. -/
theorem C100_order (fs gs : List FormHead) (t : FormType) (hpos : ∀ f ∈ fs, 1 ≤ f.ns) (hp : fs.Perm gs) {m n : ℕ}
    (h1 : countSamples fs t = .ok (some m)) (h2 : countSamples gs t = .ok (some n)) : m = n := by
  have a := C100_agrees fs t hpos h1
  have b := C100_agrees gs t (fun f hf => hpos f (hp.mem_iff.2 hf)) h2
  have hq : (sizesOf fs t).Perm (sizesOf gs t) := (hp.filter _).map _
  obtain ⟨a1, a2⟩ := (sizes_iff m _).1 a
  obtain ⟨b1, b2⟩ := (sizes_iff n _).1 b
  rcases a2 with rfl | ⟨a2, a3⟩
  · rcases b2 with rfl | ⟨b2, b3⟩
    · rfl
    · exact (a1 n (hq.mem_iff.2 b3) b2).symm
  · exact b1 m (hq.mem_iff.1 a3) a2

/-- C100 fails: two linear forms, a deterministic one and then one with three samples. The problem is accepted and has three samples, the
count raises; in the other order it returns three. -/
theorem C100_count_violated :
    ∃ fs gs : List FormHead, fs.Perm gs ∧ (∀ f ∈ fs, 1 ≤ f.ns) ∧ sizes (sizesOf fs .linear) = .ok 3 ∧
      countSamples fs .linear = .error .assertion ∧ countSamples gs .linear = .ok (some 3) := by
  refine ⟨[⟨.linear, 1⟩, ⟨.linear, 3⟩], [⟨.linear, 3⟩, ⟨.linear, 1⟩], List.Perm.swap _ _ _, by simp, ?_, ?_, ?_⟩
  · rfl
  · rfl
  · rfl

/-- A problem with forms of two types: the count of linear forms is not disturbed by a bilinear form with other samples. -/
example : countSamples [⟨.bilinear, 5⟩, ⟨.linear, 3⟩, ⟨.linear, 1⟩] .linear = .ok (some 3) ∧
    countSamples [⟨.bilinear, 5⟩, ⟨.linear, 3⟩, ⟨.linear, 1⟩] .constant = .ok none ∧
    sizes (sizesOf [⟨.bilinear, 5⟩, ⟨.linear, 3⟩, ⟨.linear, 1⟩] .linear) = .ok 3 := ⟨rfl, rfl, rfl⟩

end Verif.Samp
