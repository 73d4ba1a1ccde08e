import Verif.Store.Props
import Verif.Form.Model

/-!
# C96: consequences, violations, kernels
-/

namespace Verif.Store
open Verif.Fn (d2iArr)

variable {K : Type} {L : List Nat}

/-! ## Single calls -/

/-- In every reachable state without sharing: `modify_data([v], j, [d])` sets the value at
the dof `d` in sample `j` to `v` and changes nothing else, in this or any other function. -/
theorem C96_modify_partial (hL : L.Nodup) (hA : d2iArr L ≠ none) (ops : List (Op K))
    (h : ∀ o ∈ ops, o.fresh L) (k j d : Nat) (v : K) (hd : d ∈ L) (S : Nat)
    (hk : nSamples (run L (St.new K) ops) k = some S) (hj : j < S) :
    (step L (run L (St.new K) ops) (.modify k [v] j (some [d]))).2 = none ∧
    ∀ k' j' d', d' ∈ L →
      value L (step L (run L (St.new K) ops) (.modify k [v] j (some [d]))).1 k' j' d' =
        if k' = k ∧ j' = j ∧ d' = d then some v else value L (run L (St.new K) ops) k' j' d' := by
  have hr := run_rel hL hA ops _ _ (Rel.new (K := K)) h
  generalize run L (St.new K) ops = s at *
  generalize specRun L ⟨[], []⟩ ops = T at *
  have hf := step_rel hL hA hr (.modify k [v] j (some [d])) (by simpa [Op.fresh] using hd)
  have hfun := hr.fs_at k
  cases hs : s.fs[k]? with
  | none => simp [nSamples, hs] at hk
  | some b =>
    rw [hs] at hfun
    simp only [Option.map_some] at hfun
    have hS : S = (s.heap.getD b []).length := by simpa [nSamples, hs] using hk.symm
    subst hS
    have hnone : (step L s (.modify k [v] j (some [d]))).2 = none := by
      simp only [step, hs, rowsOf_some hA (ds := [d]) (by simpa using hd)]
      rw [if_pos hj]
      simp [spread]
    refine ⟨hnone, ?_⟩
    intro k' j' d' hd'
    have hspec : (spec L T (.modify k [v] j (some [d]))).getD T =
        { T with funs := T.funs.set k ((s.heap.getD b []).modify j (newValues L [d] [v])) } := by
      simp only [spec, hfun, Option.bind_some, Option.getD_some]
      rw [if_pos ⟨by simpa using hd, hj, .inl rfl⟩]
      simp
    rw [hspec] at hf
    have hval : ∀ (u : St K) (U : Sp K), Rel L u U → value L u k' j' d' =
        ((U.funs[k']?).bind (·[j']?)).bind (fun c => (L.idxOf? d').bind (c[·]?)) := by
      intro u U hu
      unfold value
      rw [hu.fs_at k']
      cases u.fs[k']? <;> rfl
    rw [hval _ _ hf, hval _ _ hr]
    simp only [idxOf?_of_mem hd', Option.bind_some]
    by_cases hkk : k' = k
    · subst hkk
      have hlt := (List.getElem?_eq_some_iff.1 hfun).1
      rw [List.getElem?_set_self hlt, hfun]
      simp only [Option.bind_some, List.getElem?_modify]
      by_cases hjj : j = j'
      · subst hjj
        simp only [Option.map_eq_map, if_true]
        have hg : (s.heap.getD b [])[j]? = some (s.heap.getD b [])[j] := List.getElem?_eq_getElem hj
        rw [hg]
        have hlen : (s.heap.getD b [])[j].length = L.length :=
          hr.fun_ _ (List.mem_of_getElem? hfun) _ (List.getElem_mem hj)
        generalize (s.heap.getD b [])[j] = c at hlen
        simp only [Option.map_some, Option.bind_some]
        have hp : L.idxOf d' < L.length := List.idxOf_lt_length_of_mem hd'
        simp only [newValues, List.zip_cons_cons, List.zip_nil_left, List.reverse_singleton,
          List.getElem?_map]
        rw [List.getElem?_zip_eq_some (z := (d', c[L.idxOf d']'(by omega))) |>.2
          ⟨by rw [List.getElem?_eq_getElem hp]; simp, by rw [List.getElem?_eq_getElem (by omega)]⟩]
        by_cases hdd : d' = d
        · subst hdd; simp
        · have : (d' == d) = false := by simpa using hdd
          rw [if_neg (by simp [hdd])]
          rw [List.getElem?_eq_getElem (by omega)]
          simp [List.lookup_cons, this]
      · rw [if_neg (by rintro ⟨-, h1, -⟩; exact hjj h1.symm)]
        simp [hjj]
    · rw [List.getElem?_set_ne (fun e => hkk e.symm), if_neg (fun e => hkk e.1)]

/-- `add_samples` leaves the old samples alone and appends the new ones, also if the array
is one of the user's: later changes of this array do not matter (it is a step of a history
of `C96_history_partial`). -/
theorem C96_add_partial (hL : L.Nodup) (hA : d2iArr L ≠ none) (ops : List (Op K))
    (h : ∀ o ∈ ops, o.fresh L) (k S i rows ndim : Nat) (a : Nat)
    (hk : nSamples (run L (St.new K) ops) k = some S)
    (ha : (run L (St.new K) ops).own[i]? = some (a, rows, ndim)) (hrows : rows = L.length)
    (hdim : ndim ≤ 2) :
    let s := run L (St.new K) ops
    let s' := (step L s (.add k (.var i))).1
    (step L s (.add k (.var i))).2 = none ∧
    nSamples s' k = some (S + (s.heap.getD a []).length) ∧
    (∀ j d, j < S → value L s' k j d = value L s k j d) ∧
    (∀ j d, value L s' k (S + j) d =
      ((s.heap.getD a [])[j]?).bind (fun c => (L.idxOf? d).bind (c[·]?))) ∧
    (∀ k' j d, k' ≠ k → value L s' k' j d = value L s k' j d) := by
  have hr := run_rel hL hA ops _ _ (Rel.new (K := K)) h
  generalize run L (St.new K) ops = s at *
  intro s0 s'
  cases hs : s.fs[k]? with
  | none => simp [nSamples, hs] at hk
  | some b =>
    have hS : S = (s.heap.getD b []).length := by simpa [nSamples, hs] using hk.symm
    have hlt := (List.getElem?_eq_some_iff.1 hs).1
    have he : step L s (.add k (.var i)) =
        ({ s with heap := s.heap ++ [s.heap.getD b [] ++ s.heap.getD a []],
                  fs := s.fs.set k s.heap.length }, none) := by
      simp only [step, hs, load, ha]
      rw [if_neg (by simpa using hrows), if_neg (by omega)]
    have hs' : s' = { s with heap := s.heap ++ [s.heap.getD b [] ++ s.heap.getD a []],
                             fs := s.fs.set k s.heap.length } := congrArg Prod.fst he
    have hnew : (s.heap ++ [s.heap.getD b [] ++ s.heap.getD a []]).getD s.heap.length [] =
        s.heap.getD b [] ++ s.heap.getD a [] := Verif.Arr.Exp.getD_new _ _
    have hold : ∀ q, q < s.heap.length →
        (s.heap ++ [s.heap.getD b [] ++ s.heap.getD a []]).getD q [] = s.heap.getD q [] :=
      fun q hq => Verif.Arr.Exp.getD_append _ _ hq
    refine ⟨congrArg Prod.snd he, ?_, ?_, ?_, ?_⟩
    · rw [hs', nSamples]
      simp only [List.getElem?_set_self hlt, Option.map_some, hnew, List.length_append, hS, s0]
    · intro j d hj
      rw [hs']
      simp only [value, List.getElem?_set_self hlt, s0, hs, Option.bind_eq_bind, Option.bind_some, hnew]
      rw [List.getElem?_append_left (by omega)]
    · intro j d
      rw [hs']
      simp only [value, List.getElem?_set_self hlt, Option.bind_eq_bind, Option.bind_some, hnew, s0]
      rw [List.getElem?_append_right (by omega)]
      have : S + j - (s.heap.getD b []).length = j := by omega
      rw [this]
    · intro k' j d hk'
      rw [hs']
      simp only [value, List.getElem?_set_ne (fun e => hk' e.symm), s0]
      cases hq : s.fs[k']? with
      | none => rfl
      | some q =>
        have : q < s.heap.length := hr.h.lt q (List.mem_append_left _ (List.mem_of_getElem? hq))
        show (((s.heap ++ [s.heap.getD b [] ++ s.heap.getD a []]).getD q [])[j]?).bind _ = _
        rw [hold q this]
        rfl

/-! ## Violations -/

/-- The function shows the array of the user: writing into the array changes the function,
and modifying the function changes the array. -/
theorem C96_shared_violated :
    let ops : List (Op ℚ) := [.mk 2 2 [[1, 2]], .new (.var 0)]
    let s := run [0, 1] (St.new ℚ) ops
    value [0, 1] s 0 0 0 = some 1 ∧
    value [0, 1] (step [0, 1] s (.write 0 0 0 9)).1 0 0 0 = some 9 ∧
    ((step [0, 1] s (.modify 0 [7] 0 (some [1]))).1.heap.getD 0 []) = [[1, 7]] := by
  decide +kernel

/-- Two functions made from one array are the same function. -/
theorem C96_twins_violated :
    let ops : List (Op ℚ) := [.mk 2 1 [[1, 2]], .new (.var 0), .new (.var 0)]
    let s := run [0, 1] (St.new ℚ) ops
    value [0, 1] s 1 0 1 = some 2 ∧
    value [0, 1] (step [0, 1] s (.modify 0 [7] 0 (some [1]))).1 1 0 1 = some 7 := by
  decide +kernel

/-- `data()` hands out the memory of the function. -/
theorem C96_data_violated :
    let ops : List (Op ℚ) := [.new (.lit 2 2 [[1, 2]]), .data 0, .write 0 0 1 5]
    value [0, 1] (run [0, 1] (St.new ℚ) ops) 0 0 1 = some 5 ∧
    (specRun [0, 1] ⟨[], []⟩ ops).funs = [[[1, 2]]] := by
  decide +kernel

/-- Data that `set_data` rejects have replaced the old ones. -/
theorem C96_rejected_violated :
    let s := run [0, 1] (St.new ℚ) [.new (.lit 2 2 [[1, 2]])]
    let r := step [0, 1] s (.set 0 (.lit 2 3 [[3, 4], [5, 6]]))
    r.2 = some .assertion ∧ value [0, 1] s 0 0 0 = some 1 ∧ value [0, 1] r.1 0 0 0 = some 3 ∧
    nSamples s 0 = some 1 ∧ nSamples r.1 0 = some 2 := by
  decide +kernel

/-- On a submesh (dofs 0 and 2): a value for dof 1, which does not belong to the basis, is
written to the last dof without complaint; one value per dof without the list of dofs is
rejected. -/
theorem C96_submesh_violated :
    let s := run [0, 2] (St.new ℚ) [.new (.lit 2 2 [[1, 2]])]
    let r := step [0, 2] s (.modify 0 [7] 0 (some [1]))
    r.2 = none ∧ value [0, 2] s 0 0 2 = some 2 ∧ value [0, 2] r.1 0 0 2 = some 7 ∧
    (step [0, 2] s (.modify 0 [3, 4] 0 none)).2 = some .value := by
  decide +kernel

/-- Functions of two variables: samples are appended to the wrong axis.  With as many
samples as there are already the data get a shape that does not fit the basis and no sample
is added; with another number the call raises. -/
theorem C96_bivariate_violated (n S T : Nat) (hn : 0 < n) :
    addShape n 2 [n, n, S] [n, n, S] = .ok [n, n + n, S] ∧ [n, n + n, S] ≠ [n, n, S + S] ∧
    (S ≠ T → addShape n 2 [n, n, S] [n, n, T] = .error .value) ∧
    addShape n 2 [n, n, S] [n, n] = .error .value := by
  refine ⟨by simp [addShape, append1], by simp; omega, fun h => by simp [addShape, append1, h],
    by simp [addShape, append1]⟩

/-- One variable: the shape is right. -/
theorem C96_univariate (n S T : Nat) :
    addShape n 1 [n, S] [n, T] = .ok [n, S + T] ∧ addShape n 1 [n, S] [n] = .ok [n, S + 1] := by
  simp [addShape, append1]

/-! ## Kernels -/

/-- `Kernel.n_samples()` of a kernel made from the functions `ks` at state `s`: the number is
computed when the kernel is made (assembler.py 838-884, see `Form.sampleSize`). -/
def kernelSize (s : St K) (ks : List Nat) : Except Fem.Err Nat :=
  (ks.map (fun k => (nSamples s k).getD 0)).foldlM (fun n m => Form.sizeStep n m) 1

/-- A kernel made before a history has the right number of samples after it if the history
contains no calls that change the functions' numbers of samples (`set_data`,
`add_samples`). -/
theorem C96_kernel_partial (s : St K) (ops : List (Op K)) (ks : List Nat)
    (hk : ∀ k ∈ ks, k < s.fs.length)
    (h : ∀ o ∈ ops, (∀ k a, o ≠ .set k a) ∧ (∀ k a, o ≠ .add k a))
    (hlt : ∀ a ∈ s.fs, a < s.heap.length) (howt : ∀ t ∈ s.own, t.1 < s.heap.length) :
    kernelSize (run L s ops) ks = kernelSize s ks := by
  have key : ∀ (ops : List (Op K)) (s : St K), (∀ k ∈ ks, k < s.fs.length) →
      (∀ o ∈ ops, (∀ k a, o ≠ .set k a) ∧ (∀ k a, o ≠ .add k a)) →
      (∀ a ∈ s.fs, a < s.heap.length) → (∀ t ∈ s.own, t.1 < s.heap.length) →
      ∀ k ∈ ks, nSamples (run L s ops) k = nSamples s k := by
    intro ops
    induction ops with
    | nil => intro s _ _ _ _ k _; rfl
    | cons o ops ih =>
      intro s hk h hlt howt k hkk
      -- what one step does
      have one : (∀ a ∈ (step L s o).1.fs, a < (step L s o).1.heap.length) ∧
          (∀ t ∈ (step L s o).1.own, t.1 < (step L s o).1.heap.length) ∧
          (∀ k ∈ ks, k < (step L s o).1.fs.length ∧ nSamples (step L s o).1 k = nSamples s k) := by
        have grow : ∀ (cols : List (List K)) (own : List (Nat × Nat × Nat)) (l : List Nat),
            (∀ a ∈ l, a ≤ s.heap.length) → (∀ t ∈ own, t.1 ≤ s.heap.length) →
            (∀ a ∈ (⟨s.heap ++ [cols], own, s.fs ++ l⟩ : St K).fs, a < (s.heap ++ [cols]).length) ∧
            (∀ t ∈ own, t.1 < (s.heap ++ [cols]).length) ∧
            (∀ k ∈ ks, k < (s.fs ++ l).length ∧
              nSamples (⟨s.heap ++ [cols], own, s.fs ++ l⟩ : St K) k = nSamples s k) := by
          intro cols own l hl ho
          refine ⟨?_, ?_, ?_⟩
          · intro a ha
            rw [List.length_append, List.length_singleton]
            rcases List.mem_append.1 ha with ha | ha
            · have := hlt a ha; omega
            · have := hl a ha; omega
          · intro t ht
            rw [List.length_append, List.length_singleton]
            have := ho t ht; omega
          · intro k hkk
            have h1 := hk k hkk
            refine ⟨by rw [List.length_append]; omega, ?_⟩
            simp only [nSamples, List.getElem?_append_left h1, List.getElem?_eq_getElem h1,
              Option.map_some]
            rw [Verif.Arr.Exp.getD_append _ _ (hlt _ (List.getElem_mem h1))]
        have keep : ∀ (f : List (List K) → List (List K)) (a : Nat),
            (∀ cols, (f cols).length = cols.length) →
            (∀ a' ∈ s.fs, a' < (s.heap.modify a f).length) ∧
            (∀ t ∈ s.own, t.1 < (s.heap.modify a f).length) ∧
            (∀ k ∈ ks, k < s.fs.length ∧
              nSamples (⟨s.heap.modify a f, s.own, s.fs⟩ : St K) k = nSamples s k) := by
          intro f a hf
          refine ⟨by simpa using hlt, by simpa using howt, fun k hkk => ⟨hk k hkk, ?_⟩⟩
          simp only [nSamples]
          congr 1
          funext b
          simp only [List.getD, List.getElem?_modify]
          by_cases hab : a = b
          · subst hab
            cases s.heap[a]? <;> simp [hf]
          · cases s.heap[b]? <;> simp [hab]
        have same : (∀ a ∈ s.fs, a < s.heap.length) ∧ (∀ t ∈ s.own, t.1 < s.heap.length) ∧
            (∀ k ∈ ks, k < s.fs.length ∧ nSamples s k = nSamples s k) :=
          ⟨hlt, howt, fun k hkk => ⟨hk k hkk, rfl⟩⟩
        cases o with
        | mk rows ndim cols =>
          simp only [step]
          split
          · have := grow cols (s.own ++ [(s.heap.length, rows, ndim)]) [] (by simp)
              (by
                intro t ht
                rcases List.mem_append.1 ht with ht | ht
                · exact (howt t ht).le
                · rw [List.mem_singleton] at ht; subst ht; exact le_refl _)
            simpa using this
          · exact same
        | write i j r v =>
          simp only [step]
          split
          · exact same
          · split
            · exact keep _ _ (fun cols => by simp)
            · exact same
        | data k =>
          simp only [step]
          split
          · exact same
          · rename_i a ha
            refine ⟨hlt, ?_, same.2.2⟩
            intro t ht
            rcases List.mem_append.1 ht with ht | ht
            · exact howt t ht
            · rw [List.mem_singleton] at ht; subst ht; exact hlt a (List.mem_of_getElem? ha)
        | new a =>
          cases a with
          | lit rows ndim cols =>
            simp only [step, load_lit]
            have g := grow cols s.own [] (by simp) (fun t ht => (howt t ht).le)
            simp only [List.append_nil] at g
            by_cases hv : valid rows ndim cols = true
            · rw [if_pos hv]
              simp only
              split
              · exact g
              · split
                · exact g
                · exact grow cols s.own [s.heap.length] (by simp) (fun t ht => (howt t ht).le)
            · rw [if_neg hv]; exact same
          | var i =>
            simp only [step, load]
            cases hi : s.own[i]? with
            | none => exact same
            | some t =>
              obtain ⟨a, rows, ndim⟩ := t
              simp only
              split
              · exact same
              · split
                · exact same
                · have ha : a < s.heap.length := howt _ (List.mem_of_getElem? hi)
                  refine ⟨?_, howt, fun k hkk => ?_⟩
                  · intro b hb
                    rcases List.mem_append.1 hb with hb | hb
                    · exact hlt b hb
                    · rw [List.mem_singleton] at hb; subst hb; exact ha
                  · have h1 := hk k hkk
                    exact ⟨by rw [List.length_append]; omega,
                      by simp only [nSamples, List.getElem?_append_left h1]⟩
        | set k a => exact absurd rfl ((h (.set k a) (by simp)).1 k a)
        | add k a => exact absurd rfl ((h (.add k a) (by simp)).2 k a)
        | modify k vals j dofs =>
          simp only [step]
          split
          · exact same
          · split
            · exact same
            · split
              · split
                · exact same
                · exact keep _ _ (fun cols => by simp)
              · exact same
      rw [run, ih _ (fun k hkk => (one.2.2 k hkk).1) (fun o' ho' => h o' (List.mem_cons_of_mem _ ho'))
        one.1 one.2.1 k hkk]
      exact (one.2.2 k hkk).2
  unfold kernelSize
  rw [List.map_congr_left (fun k hkk => by rw [key ops s hk h hlt howt k hkk])]

/-- A sample that is added to a function later is unknown to the kernel. -/
theorem C96_kernel_violated :
    let s := run [0, 1] (St.new ℚ) [.new (.lit 2 1 [[1, 2]])]
    let s' := (step [0, 1] s (.add 0 (.lit 2 1 [[3, 4]]))).1
    kernelSize s [0] = .ok 1 ∧ kernelSize s' [0] = .ok 2 := by
  decide +kernel

/-! ## Non-vacuity -/

/-- A history with all fresh calls, on a submesh with a gap in the dofs. -/
example : let L := [0, 2, 5]
    let ops : List (Op ℚ) := [.mk 3 1 [[1, 2, 3]], .new (.lit 3 2 [[0, 0, 0], [1, 1, 1]]),
      .new (.lit 3 1 [[4, 5, 6]]), .add 1 (.var 0), .write 0 0 2 8, .modify 0 [9] 1 (some [5]),
      .set 1 (.lit 2 1 [[1, 2]]), .modify 1 [7, 7] 0 (some [2, 0])]
    L.Nodup ∧ d2iArr L ≠ none ∧ nSamples (run L (St.new ℚ) ops) 1 = some 2 ∧
    value L (run L (St.new ℚ) ops) 0 1 5 = some 9 ∧ value L (run L (St.new ℚ) ops) 1 1 5 = some 3 ∧
    value L (run L (St.new ℚ) ops) 1 0 2 = some 7 := by
  decide +kernel

/-- ... and it is fresh. -/
example : ∀ o ∈ ([.mk 3 1 [[1, 2, 3]], .new (.lit 3 2 [[0, 0, 0], [1, 1, 1]]),
      .new (.lit 3 1 [[4, 5, 6]]), .add 1 (.var 0), .write 0 0 2 8, .modify 0 [9] 1 (some [5]),
      .set 1 (.lit 2 1 [[1, 2]]), .modify 1 [7, 7] 0 (some [2, 0])] : List (Op ℚ)),
    o.fresh [0, 2, 5] := by
  simp [Op.fresh]

end Verif.Store
