import Verif.Store.Model

/-!
# C96: nodal functions keep their data
-/

namespace Verif.Store
open Verif.Fn (d2iArr)
open Verif.Arr.Exp (HeapRel)

variable {K : Type} {L : List Nat}

/-- A table whose columns all have `n` rows. -/
def Cols (n : Nat) (cols : List (List K)) : Prop := ∀ c ∈ cols, c.length = n

/-- The concrete state stands for the abstract one. -/
structure Rel (L : List Nat) (s : St K) (S : Sp K) : Prop where
  h : HeapRel s.heap s.fs (s.own.map Prod.fst) S.funs (S.arrays.map (fun t => t.2.2))
  sh : s.own.map Prod.snd = S.arrays.map (fun t => (t.1, t.2.1))
  fun_ : ∀ t ∈ S.funs, Cols L.length t
  arr : ∀ t ∈ S.arrays, Cols t.1 t.2.2

theorem Rel.new : Rel L (St.new K) ⟨[], []⟩ :=
  ⟨⟨by simp [St.new], by simp [St.new], rfl, rfl⟩, rfl, by simp, by simp⟩

theorem Rel.fs_at {s : St K} {S : Sp K} (h : Rel L s S) (k : Nat) :
    S.funs[k]? = (s.fs[k]?).map (fun a => s.heap.getD a []) := by
  rw [← h.h.used_, List.getElem?_map]

theorem Rel.own_at {s : St K} {S : Sp K} (h : Rel L s S) (i : Nat) :
    S.arrays[i]? = (s.own[i]?).map (fun t => (t.2.1, t.2.2, s.heap.getD t.1 [])) := by
  have h1 := congrArg (·[i]?) h.h.own_
  have h2 := congrArg (·[i]?) h.sh
  simp only [List.getElem?_map] at h1 h2
  cases hs : s.own[i]? with
  | none =>
    rw [hs] at h1
    cases hS : S.arrays[i]? with
    | none => rfl
    | some t => simp [hS] at h1
  | some a =>
    rw [hs] at h1 h2
    cases hS : S.arrays[i]? with
    | none => simp [hS] at h1
    | some t =>
      simp only [hS, Option.map_some, Option.some.injEq] at h1 h2
      simp only [Option.map_some, h1, h2]

theorem set_getElem? {α : Type} {l : List α} {k : Nat} {x : α} (h : l[k]? = some x) (f : α → α) :
    l.modify k f = l.set k (f x) := by
  apply List.ext_getElem?
  intro i
  rw [List.getElem?_modify, List.getElem?_set]
  by_cases hi : k = i
  · subst hi
    rw [h]
    have := (List.getElem?_eq_some_iff.1 h).1
    simp [this]
  · simp [hi]

theorem valid_iff {rows ndim : Nat} {cols : List (List K)} (h : valid rows ndim cols = true) :
    1 ≤ ndim ∧ Cols rows cols ∧ (ndim = 1 → cols.length = 1) := by
  simp only [valid, Bool.and_eq_true, decide_eq_true_eq, List.all_eq_true, Bool.or_eq_true] at h
  exact ⟨h.1.1, h.1.2, fun hn => h.2.resolve_left (fun h' => h' hn)⟩

/-! ## Values at dofs -/

theorem assign_fold (hL : L.Nodup) (c : List K) (hc : c.length = L.length) (P : List (Nat × K))
    (hP : ∀ q ∈ P, q.1 ∈ L) :
    P.foldl (fun c q => c.set (L.idxOf q.1) q.2) c =
      (L.zip c).map (fun p => ((P.reverse.lookup p.1).getD p.2)) := by
  induction P using List.reverseRecOn with
  | nil =>
    simp only [List.foldl_nil, List.reverse_nil, List.lookup_nil, Option.getD_none]
    rw [List.map_snd_zip (by omega)]
  | append_singleton P q ih =>
    rw [List.foldl_append, ih (fun q hq => hP q (List.mem_append_left _ hq))]
    simp only [List.foldl_cons, List.foldl_nil, List.reverse_append, List.reverse_singleton,
      List.singleton_append]
    apply List.ext_getElem
    · simp
    · intro p h1 h2
      have hp : p < L.length := by simp at h2; omega
      rw [List.getElem_set]
      simp only [List.getElem_map, List.getElem_zip]
      obtain ⟨d, v⟩ := q
      have hd : d ∈ L := hP (d, v) (by simp)
      simp only [List.lookup_cons]
      by_cases he : L.idxOf d = p
      · have : L[p] = d := by subst he; simp
        rw [if_pos he, this]
        simp
      · have hne : L[p] ≠ d := by
          intro h
          apply he
          rw [← h]
          exact hL.idxOf_getElem p hp
        rw [if_neg he]
        have : (L[p] == d) = false := by simpa using hne
        simp [this]

theorem assign_newValues (hL : L.Nodup) (c : List K) (hc : c.length = L.length) (ds : List Nat)
    (vs : List K) (hds : ∀ d ∈ ds, d ∈ L) :
    assign (ds.map (fun d => L.idxOf d)) vs c = newValues L ds vs c := by
  unfold assign newValues
  rw [← assign_fold hL c hc (ds.zip vs) (fun q hq => hds _ (List.of_mem_zip hq).1)]
  rw [List.zip_map_left, List.foldl_map]
  rfl

theorem length_assign (idx : List Nat) (vs : List K) (c : List K) :
    (assign idx vs c).length = c.length := by
  unfold assign
  generalize idx.zip vs = P
  induction P generalizing c with
  | nil => rfl
  | cons q P ih => rw [List.foldl_cons, ih, List.length_set]

theorem idxOf?_of_mem {d : Nat} (h : d ∈ L) : L.idxOf? d = some (L.idxOf d) := by
  induction L with
  | nil => cases h
  | cons a L ih =>
    rw [List.idxOf?_cons, List.idxOf_cons]
    by_cases hd : a == d
    · simp [hd]
    · have : d ∈ L := by
        rcases List.mem_cons.1 h with rfl | h
        · simp at hd
        · exact h
      simp [hd, ih this]

/-- Dofs of the basis are translated to their rows. -/
theorem rowsOf_some (hA : d2iArr L ≠ none) {ds : List Nat} (hds : ∀ d ∈ ds, d ∈ L) :
    rowsOf L (some ds) = .ok (ds.map (fun d => L.idxOf d)) := by
  obtain ⟨A, hA'⟩ := Option.ne_none_iff_exists'.1 hA
  have hget : ∀ d ∈ L, A[d]? = some (some (L.idxOf d)) := by
    intro d hd
    unfold d2iArr at hA'
    cases hm : L.getLast? with
    | none => simp [hm] at hA'
    | some m =>
      rw [hm] at hA'
      simp only [Option.bind_some] at hA'
      split at hA'
      · rename_i hall
        cases hA'
        rw [List.all_eq_true] at hall
        have := hall d hd
        rw [decide_eq_true_eq] at this
        rw [List.getElem?_map, List.getElem?_range (by omega)]
        simp [idxOf?_of_mem hd]
      · cases hA'
  rw [rowsOf, hA']
  simp only
  induction ds with
  | nil => rfl
  | cons d ds ih =>
    rw [List.mapM_cons, ih (fun d hd => hds d (List.mem_cons_of_mem _ hd)), hget d (hds d (by simp))]
    rfl

theorem rowsOf_range {n : Nat} (h : L = List.range n) (hA : d2iArr L ≠ none) :
    rowsOf L none = .ok (L.map (fun d => L.idxOf d)) := by
  have hn : n ≠ 0 := by
    rintro rfl
    subst h
    exact hA rfl
  obtain ⟨m, rfl⟩ := Nat.exists_eq_succ_of_ne_zero hn
  have e : d2iArr L = some (L.map (fun d => L.idxOf? d)) := by
    unfold d2iArr
    rw [h, List.range_succ, List.getLast?_concat]
    simp only [Option.bind_some]
    rw [if_pos]
    · rw [← List.range_succ]
    · rw [List.all_eq_true]
      intro a ha
      rw [← List.range_succ, List.mem_range] at ha
      exact decide_eq_true (by omega)
  rw [rowsOf, e]
  simp only [List.map_map]
  congr 1
  refine List.map_congr_left (fun d hd => ?_)
  simp only [Function.comp, idxOf?_of_mem hd, Option.getD_some]

/-! ## One step -/

theorem load_lit {s : St K} {rows ndim : Nat} {cols : List (List K)} :
    load s (.lit rows ndim cols) = if valid rows ndim cols then
      .ok ({ s with heap := s.heap ++ [cols] }, s.heap.length, rows, ndim) else .error .value := rfl

theorem Rel.garbage {s : St K} {S : Sp K} (h : Rel L s S) (cols : List (List K)) :
    Rel L { s with heap := s.heap ++ [cols] } S :=
  ⟨h.h.garbage cols, h.sh, h.fun_, h.arr⟩

/-- Loading an argument: the memory is that of the specification, and nothing is changed for
the user and the functions. -/
theorem load_rel {s : St K} {S : Sp K} (h : Rel L s S) (a : Arg K) :
    match load s a, a.table S with
    | .ok (t, x, rows, ndim), some T => Rel L t S ∧ t.fs = s.fs ∧ t.own = s.own ∧ T = (rows, ndim, t.heap.getD x []) ∧
        Cols rows (t.heap.getD x [])
    | .error _, none => True
    | _, _ => False := by
  cases a with
  | lit rows ndim cols =>
    by_cases hv : valid rows ndim cols = true
    · rw [load_lit, if_pos hv, Arg.table, if_pos hv]
      have e : (s.heap ++ [cols]).getD s.heap.length [] = cols := Verif.Arr.Exp.getD_new _ _
      exact ⟨h.garbage cols, rfl, rfl, by simp only [e], by simp only [e]; exact (valid_iff hv).2.1⟩
    · rw [load_lit, if_neg hv, Arg.table, if_neg hv]; trivial
  | var i =>
    simp only [load, Arg.table]
    have := h.own_at i
    cases hs : s.own[i]? with
    | none => rw [hs] at this; rw [this]; trivial
    | some t =>
      rw [hs] at this
      simp only [Option.map_some] at this
      rw [this]
      exact ⟨h, rfl, rfl, rfl, h.arr _ (List.mem_of_getElem? this)⟩

theorem mem_set {α : Type} {l : List α} {k : Nat} {x y : α} (h : y ∈ l.set k x) : y = x ∨ y ∈ l :=
  (List.mem_or_eq_of_mem_set h).symm

theorem cols_modify {n : Nat} {cols : List (List K)} (h : Cols n cols) (j : Nat) (f : List K → List K)
    (hf : ∀ c ∈ cols, (f c).length = c.length) : Cols n (cols.modify j f) := by
  intro c hc
  obtain ⟨i, hi⟩ := List.mem_iff_getElem?.1 hc
  rw [List.getElem?_modify] at hi
  cases hci : cols[i]? with
  | none => simp [hci] at hi
  | some c' =>
    have hm := List.mem_of_getElem? hci
    simp only [hci, Option.map_eq_map, Option.map_some, Option.some.injEq] at hi
    by_cases hij : j = i
    · rw [if_pos hij] at hi; rw [← hi, hf c' hm]; exact h c' hm
    · rw [if_neg hij] at hi; rw [← hi]; exact h c' hm

theorem newValues_length {ds : List Nat} {vs c : List K} (hc : c.length = L.length) :
    (newValues L ds vs c).length = c.length := by
  simp [newValues, hc]

theorem flatMap_one {ds : List Nat} (v : K) : ds.flatMap (fun _ => [v]) = List.replicate ds.length v := by
  induction ds with
  | nil => rfl
  | cons d ds ih => simp [List.flatMap_cons, ih, List.replicate_succ]

/-- One fresh step: the concrete state follows the specification. -/
theorem step_rel (hL : L.Nodup) (hA : d2iArr L ≠ none) {s : St K} {S : Sp K} (h : Rel L s S)
    (o : Op K) (ho : o.fresh L) : Rel L (step L s o).1 ((spec L S o).getD S) := by
  cases o with
  | mk rows ndim cols =>
    simp only [step, spec]
    by_cases hv : valid rows ndim cols = true
    · rw [if_pos hv, if_pos hv]
      refine ⟨?_, ?_, h.fun_, ?_⟩
      · simp only [Option.getD_some, List.map_append, List.map_cons, List.map_nil]
        exact h.h.newOwn cols
      · simp only [Option.getD_some, List.map_append, List.map_cons, List.map_nil, h.sh]
      · intro t ht
        rcases List.mem_append.1 ht with ht | ht
        · exact h.arr t ht
        · rw [List.mem_singleton] at ht; subst ht; exact (valid_iff hv).2.1
    · rw [if_neg hv, if_neg hv]; exact h
  | write i j r v =>
    simp only [step, spec]
    have hi := h.own_at i
    cases hs : s.own[i]? with
    | none => rw [hs] at hi; rw [hi]; exact h
    | some t =>
      obtain ⟨a, rows, ndim⟩ := t
      rw [hs] at hi
      simp only [Option.map_some] at hi
      rw [hi]
      simp only [Option.bind_some]
      by_cases hb : r < rows ∧ j < (s.heap.getD a []).length
      · rw [if_pos hb, if_pos hb]
        simp only [Option.getD_some]
        have hk : (s.own.map Prod.fst)[i]? = some a := by simp [hs]
        have hm := h.h.modOwn hk (fun cols => cols.modify j (fun c => c.set r v))
        refine ⟨?_, ?_, h.fun_, ?_⟩
        · have e : (S.arrays.map (fun t => t.2.2)).modify i (fun cols => cols.modify j (fun c => c.set r v)) =
              (S.arrays.set i (rows, ndim, (s.heap.getD a []).modify j (fun c => c.set r v))).map (fun t => t.2.2) := by
            rw [set_getElem? (x := s.heap.getD a []) (by simp [hi]), List.map_set]
          rw [← e]; exact hm
        · show s.own.map Prod.snd = _
          rw [h.sh, List.map_set]
          apply List.ext_getElem?
          intro q
          rw [List.getElem?_set]
          split
          · rename_i hq; subst hq
            obtain ⟨h1, h2⟩ := List.getElem?_eq_some_iff.1 hi
            simp [h1, h2]
          · rfl
        · intro t ht
          rcases mem_set ht with rfl | ht
          · exact cols_modify (h.arr _ (List.mem_of_getElem? hi)) j _ (fun c _ => by simp)
          · exact h.arr t ht
      · rw [if_neg hb, if_neg hb]; exact h
  | data k => exact absurd ho (by simp [Op.fresh])
  | new a =>
    cases a with
    | var i => exact absurd ho (by simp [Op.fresh])
    | lit rows ndim cols =>
      have hd : ndim ≤ 2 := ho
      simp only [step, spec, load_lit, Arg.table]
      by_cases hv : valid rows ndim cols = true
      · rw [if_pos hv, if_pos hv]
        simp only [Option.bind_some]
        by_cases hr : rows = L.length
        · rw [if_neg (by simpa using hr), if_neg (by omega), if_pos (by simp [fits, hr, hd])]
          simp only [Option.getD_some]
          refine ⟨h.h.newUsed cols, h.sh, ?_, h.arr⟩
          intro t ht
          rcases List.mem_append.1 ht with ht | ht
          · exact h.fun_ t ht
          · rw [List.mem_singleton] at ht; subst ht
            rw [← hr]; exact (valid_iff hv).2.1
        · rw [if_pos hr, if_neg (by simp [fits, hr])]
          exact h.garbage cols
      · rw [if_neg hv, if_neg hv]; exact h
  | set k a =>
    cases a with
    | var i => exact absurd ho (by simp [Op.fresh])
    | lit rows ndim cols =>
      have hd : ndim ≤ 2 := ho
      simp only [step, spec, load_lit, Arg.table]
      rw [h.fs_at k]
      cases hs : s.fs[k]? with
      | none => exact h
      | some b =>
        simp only [Option.map_some, Option.bind_some]
        by_cases hv : valid rows ndim cols = true
        · rw [if_pos hv, if_pos hv]
          simp only [Option.bind_some]
          by_cases hr : rows = L.length
          · rw [if_neg (by simpa using hr), if_neg (by omega), if_pos (by simp [fits, hr, hd])]
            simp only [Option.getD_some]
            refine ⟨h.h.setUsed cols k, h.sh, ?_, h.arr⟩
            intro t ht
            rcases mem_set ht with rfl | ht
            · rw [← hr]; exact (valid_iff hv).2.1
            · exact h.fun_ t ht
          · rw [if_pos hr, if_neg (by simp [fits, hr])]
            exact h.garbage cols
        · rw [if_neg hv, if_neg hv]; exact h
  | modify k vals j dofs =>
    simp only [step, spec]
    rw [h.fs_at k]
    cases hs : s.fs[k]? with
    | none => exact h
    | some b =>
      simp only [Option.map_some, Option.bind_some]
      have hrows : rowsOf L dofs = .ok ((dofs.getD L).map (fun d => L.idxOf d)) ∧
          ∀ d ∈ dofs.getD L, d ∈ L := by
        cases dofs with
        | none =>
          have hr : L = List.range L.length := ho
          exact ⟨rowsOf_range hr hA, fun d hd => hd⟩
        | some ds => exact ⟨rowsOf_some hA ho, ho⟩
      obtain ⟨hrows, hds⟩ := hrows
      rw [hrows]
      simp only
      generalize dofs.getD L = ds at hds
      have hfun : S.funs[k]? = some (s.heap.getD b []) := by rw [h.fs_at k, hs]; rfl
      have hcols := h.fun_ _ (List.mem_of_getElem? hfun)
      by_cases hj : j < (s.heap.getD b []).length
      · rw [if_pos hj]
        have main : ∀ vs : List K, Rel L
            { s with heap := s.heap.modify b (fun cols => cols.modify j (assign (ds.map (fun d => L.idxOf d)) vs)) }
            { S with funs := S.funs.set k ((s.heap.getD b []).modify j (newValues L ds vs)) } := by
          intro vs
          have hm := h.h.modUsed hs (fun cols => cols.modify j (assign (ds.map (fun d => L.idxOf d)) vs))
          have e : (s.heap.getD b []).modify j (assign (ds.map (fun d => L.idxOf d)) vs) =
              (s.heap.getD b []).modify j (newValues L ds vs) := by
            apply List.ext_getElem?
            intro i
            rw [List.getElem?_modify, List.getElem?_modify]
            cases hci : (s.heap.getD b [])[i]? with
            | none => rfl
            | some c =>
              have hc := hcols c (List.mem_of_getElem? hci)
              by_cases hij : j = i <;> simp [hij, assign_newValues hL c hc ds vs hds]
          rw [set_getElem? hfun, e] at hm
          refine ⟨hm, h.sh, ?_, h.arr⟩
          intro t ht
          rcases mem_set ht with rfl | ht
          · exact cols_modify hcols j _ (fun c hc => newValues_length (hcols c hc))
          · exact h.fun_ t ht
        unfold spread
        rw [List.length_map]
        by_cases hl : vals.length = ds.length
        · rw [if_pos hl, if_pos ⟨hds, hj, .inl hl⟩, if_pos hl]
          exact main vals
        · rw [if_neg hl, if_neg hl]
          rcases vals with _ | ⟨v, _ | ⟨v', vals⟩⟩
          · rw [if_neg (by simpa using fun _ _ => hl)]; exact h
          · rw [if_pos ⟨hds, hj, .inr rfl⟩, flatMap_one]
            exact main _
          · rw [if_neg (by rintro ⟨-, -, h1 | h1⟩; exacts [hl h1, by simp at h1])]; exact h
      · rw [if_neg hj, if_neg (fun h' => hj h'.2.1)]; exact h
  | add k a =>
    simp only [step, spec]
    have hk := h.fs_at k
    cases hs : s.fs[k]? with
    | none => rw [hs] at hk; rw [hk]; exact h
    | some b =>
      rw [hs] at hk
      simp only [Option.map_some] at hk
      rw [hk]
      simp only [Option.bind_some]
      have hl := load_rel h a
      cases h1 : load s a with
      | error e =>
        rw [h1] at hl
        cases h2 : a.table S with
        | none => exact h
        | some T => rw [h2] at hl; exact absurd hl (by simp)
      | ok u =>
        obtain ⟨t, x, rows, ndim⟩ := u
        rw [h1] at hl
        cases h2 : a.table S with
        | none => rw [h2] at hl; exact absurd hl (by simp)
        | some T =>
          rw [h2] at hl
          obtain ⟨g1, g2, g3, g4, g5⟩ := hl
          subst g4
          simp only [Option.bind_some]
          have hb : t.heap.getD b [] = s.heap.getD b [] := by
            have := g1.fs_at k
            rw [g2, hs, hk] at this
            simpa using this.symm
          by_cases hr : rows = L.length
          · by_cases hd : ndim ≤ 2
            · rw [if_neg (by simpa using hr), if_neg (by omega), if_pos (by simp [fits, hr, hd])]
              simp only [Option.getD_some, hb]
              refine ⟨g1.h.setUsed _ k, g1.sh, ?_, g1.arr⟩
              intro T hT
              rcases mem_set hT with rfl | hT
              · intro c hc
                rcases List.mem_append.1 hc with hc | hc
                · exact h.fun_ _ (List.mem_of_getElem? hk) c hc
                · rw [g5 c hc, hr]
              · exact g1.fun_ T hT
            · rw [if_neg (by simpa using hr), if_pos (by omega), if_neg (by simp [fits, hd])]
              exact g1
          · rw [if_pos hr, if_neg (by simp [fits, hr])]
            exact g1

theorem run_rel (hL : L.Nodup) (hA : d2iArr L ≠ none) : ∀ (ops : List (Op K)) (s : St K) (S : Sp K),
    Rel L s S → (∀ o ∈ ops, o.fresh L) → Rel L (run L s ops) (specRun L S ops) := by
  intro ops
  induction ops with
  | nil => intro s S h _; exact h
  | cons o ops ih =>
    intro s S h ho
    exact ih _ _ (step_rel hL hA h o (ho o (by simp))) (fun o' h' => ho o' (List.mem_cons_of_mem _ h'))

/-! ## Theorems -/

/-- After any history in which no array is shared, every function has exactly the samples
and nodal values it was given: number of samples, value at every dof, and the arrays of the
user are what the user has written (what is missing: shared arrays, data with more than two
axes, values at dofs that are not in the basis, see the violations below). -/
theorem C96_history_partial (hL : L.Nodup) (hA : d2iArr L ≠ none) (ops : List (Op K))
    (h : ∀ o ∈ ops, o.fresh L) :
    let s : St K := run L (St.new K) ops
    let S : Sp K := specRun L ⟨[], []⟩ ops
    (∀ k, nSamples s k = (S.funs[k]?).map List.length) ∧
    (∀ k j d, value L s k j d =
      ((S.funs[k]?).bind (·[j]?)).bind (fun c => (L.idxOf? d).bind (c[·]?))) ∧
    (∀ i : Nat, (s.own[i]?).map (fun t => s.heap.getD t.1 []) = (S.arrays[i]?).map (fun t => t.2.2)) := by
  have hr := run_rel hL hA ops _ _ (Rel.new (K := K)) h
  intro s S
  refine ⟨fun k => ?_, fun k j d => ?_, fun i => ?_⟩
  · rw [nSamples, hr.fs_at k, Option.map_map]; rfl
  · unfold value
    rw [hr.fs_at k]
    cases s.fs[k]? <;> rfl
  · rw [hr.own_at i, Option.map_map]; rfl

end Verif.Store
