import Verif.Hist.Props
import Mathlib.Algebra.Order.BigOperators.Group.List
import Mathlib.Algebra.CharZero.Defs

/-! # C91: theorems -/

set_option linter.unusedSectionVars false

namespace Verif.Hist

open Verif.Asm

variable {R : Type} [CommRing R] {κ : Type} [DecidableEq κ]

/-! ### the argument `problems` -/

lemma formsOf_map {F : Type} (fs : List F) : formsOf (fs.map PyVal.form) = some fs := by
  induction fs with
  | nil => rfl
  | cons f fs ih => simp [formsOf, ih]

/-- What `problems` stands for: a bare form is a problem of its own. -/
inductive Item (F : Type) where
  | one (f : F)
  | many (fs : List F)

/-- The element of the python list. -/
def Item.val {F : Type} : Item F → PyVal F
  | .one f => .form f
  | .many fs => .list (fs.map .form)

/-- The forms of the problem it stands for. -/
def Item.forms {F : Type} : Item F → List F
  | .one f => [f]
  | .many fs => fs

lemma index_append {F : Type} [DecidableEq F] (f : F) : ∀ (xs ys : List (PyVal F)),
    (∀ x ∈ xs, x.isForm = false) → index f (xs ++ .form f :: ys) = some xs.length := by
  intro xs
  induction xs with
  | nil => intro ys _; simp [index]
  | cons x xs ih =>
    intro ys h
    have := ih ys fun x hx => h x (by simp [hx])
    cases x with
    | form g => have := h (.form g) (by simp); simp [PyVal.isForm] at this
    | list zs => simp [index, this]
    | other => simp [index, this]

lemma wrapLoop_items {F : Type} [DecidableEq F] : ∀ (is : List (Item F)) (xs : List (PyVal F)),
    (∀ x ∈ xs, x.isForm = false) →
    wrapLoop is.length xs.length (xs ++ is.map Item.val)
      = some (xs ++ is.map fun i => .list (i.forms.map .form)) := by
  intro is
  induction is with
  | nil => intro xs _; simp [wrapLoop]
  | cons i is ih =>
    intro xs h
    cases i with
    | one f =>
      simp only [List.length_cons, wrapLoop, List.map_cons, Item.val]
      rw [List.getElem?_append_right le_rfl]
      simp only [Nat.sub_self, List.getElem?_cons_zero]
      rw [index_append f xs _ h]
      simp only
      rw [List.set_append_right _ _ le_rfl]
      simp only [Nat.sub_self, List.set_cons_zero]
      have := ih (xs ++ [.list [.form f]]) (by
        intro x hx
        rcases List.mem_append.1 hx with hx | hx
        · exact h x hx
        · simp only [List.mem_singleton] at hx; subst hx; rfl)
      simpa [Item.forms] using this
    | many fs =>
      simp only [List.length_cons, wrapLoop, List.map_cons, Item.val]
      rw [List.getElem?_append_right le_rfl]
      simp only [Nat.sub_self, List.getElem?_cons_zero]
      have := ih (xs ++ [.list (fs.map .form)]) (by
        intro x hx
        rcases List.mem_append.1 hx with hx | hx
        · exact h x hx
        · simp only [List.mem_singleton] at hx; subst hx; rfl)
      simpa [Item.forms] using this

/-- **C91** (the argument `problems`).  One form is one problem with one form; a list of forms is one
problem with all of them; a list with at least one list in it is one problem per element, where a
bare form is a problem of its own, however often the same form occurs. -/
theorem C91_parse {F : Type} [DecidableEq F] :
    (∀ f : F, (parse (.form f)).map (·.1) = some [[f]]) ∧
    (∀ fs : List F, (parse (.list (fs.map .form))).map (·.1) = some [fs]) ∧
    (∀ is : List (Item F), (∃ fs, .many fs ∈ is) →
      (parse (.list (is.map Item.val))).map (·.1) = some (is.map Item.forms)) := by
  refine ⟨fun f => rfl, fun fs => ?_, fun is hm => ?_⟩
  · have : (fs.map PyVal.form).all PyVal.isForm = true := by simp [PyVal.isForm]
    simp only [parse, this, if_true]
    simp [formsOf_map]
  · have : (is.map Item.val).all PyVal.isForm = false := by
      obtain ⟨fs, hf⟩ := hm
      rw [List.all_eq_false]
      exact ⟨_, List.mem_map.2 ⟨_, hf, rfl⟩, by simp [Item.val, PyVal.isForm]⟩
    simp only [parse, this, Bool.false_eq_true, if_false]
    have hw := wrapLoop_items is [] (by simp)
    simp only [List.nil_append, List.length_nil] at hw
    rw [List.length_map, hw]
    have hmap : (is.map fun i => PyVal.list (i.forms.map .form)).mapM problemOf = some (is.map Item.forms) := by
      clear hw this hm
      induction is with
      | nil => rfl
      | cons i is ih =>
        simp only [List.map_cons, List.mapM_cons, problemOf, formsOf_map]
        simp only [ih]
        rfl
    simp only [bind, Option.bind]
    rw [hmap]
    rfl

example : (parse (.list [.form 7, .list [.form 8, .form 9], .form 7])).map (·.1)
    = some [[7], [8, 9], [7]] := by decide +kernel

/-- **C91** (the argument `problems`) fails to leave the caller's data alone: in a list that mixes
forms and lists the caller's own list is changed. -/
theorem C91_parse_violated : ∃ xs : List (PyVal ℕ), ∃ ps ys, parse (.list xs) = some (ps, .list ys) ∧
    xs.map PyVal.isForm ≠ ys.map PyVal.isForm :=
  ⟨[.form 1, .list [.form 2]], [[1], [2]], [.list [.form 1], .list [.form 2]], rfl, by decide⟩

/-! ### several problems -/

/-- **C91** (several problems).  Assembling several problems at once succeeds if and only if
assembling every one of them by itself does, and gives every problem exactly what it would get by
itself: no problem sees the constraints or the data of another. -/
theorem C91_independent (ord : List ℕ → List ℕ) (fuel : ℕ) (keep : Bool) (ps ps' : List (Prob κ R))
    (cs : List (CellIn κ R)) :
    assemble ord fuel keep ps cs = .ok ps' ↔ ps'.length = ps.length ∧
      ∀ i (h : i < ps.length) (h' : i < ps'.length),
        assemble ord fuel keep [ps[i]] (cs.map fun c => (c.1, fun _ => c.2 i)) = .ok [ps'[i]] := by
  rw [assemble_iff]
  refine and_congr_right fun hl => forall_congr' fun i => forall_congr' fun h => forall_congr' fun h' => ?_
  rw [assemble_iff]
  simp only [List.length_cons, List.length_nil, zero_add, List.map_map, true_and]
  constructor
  · intro hA j hj hj'
    have : j = 0 := by omega
    subst this
    exact hA
  · intro hA
    exact hA 0 (by omega) (by omega)

/-! ### several calls -/

lemma flatten_sum {α β : Type} [AddCommMonoid β] (f : α → β) (ls : List (List α)) :
    (ls.flatten.map f).sum = (ls.map fun l => (l.map f).sum).sum := by
  induction ls with
  | nil => rfl
  | cons l ls ih => simp only [List.flatten_cons, List.map_append, List.sum_append, List.map_cons, List.sum_cons, ih]

lemma forall2_sum {α β γ : Type} [AddCommMonoid γ] {r : α → β → Prop} {f : α → γ} {g : β → γ} {as : List α} {bs : List β}
    (h : List.Forall₂ r as bs) (hfg : ∀ a ∈ as, ∀ b, r a b → g b = f a) : (bs.map g).sum = (as.map f).sum := by
  induction h with
  | nil => rfl
  | cons h1 h2 ih =>
    simp only [List.map_cons, List.sum_cons]
    rw [hfg _ (by simp) _ h1, ih fun a ha => hfg a (by simp [ha])]

open Classical in
/-- **C91** (several calls: the matrix).  After any history of calls on a new assembler, entry
`(a,b)` of `get_matrix(i)` is the sum over *all* calls of `assemble`, each with the cells it went over
and the constraints in force at that moment: the local forms at the constrained basis functions of the
two dofs (nothing from a call in which one of the dofs was constrained). -/
theorem C91_matrix {ord : List ℕ → List ℕ} (ho : SetOrder ord) {fuel : ℕ} {dss : List (List Dim)} {ops : List (Op κ R)}
    {ps : List (Prob κ R)} {i : ℕ} (hi : i < dss.length) (hd : Dim.d2 ∈ dss[i]) (hev : Evaluates i dss[i] ops)
    (h : run ord fuel (dss.map Prob.new) ops = .ok ps) {s : Sys2 R} (hs : getMatrix ps i = some s)
    {P : Call κ R → ℕ → ℕ → R} (hP : ∀ k ∈ callsOf i [] [] ops, IsProlongation k.cons.hng k.cons.dir (P k))
    {a b : ℕ} (ha : a < s.urow.length) (hb : b < s.ucol.length) :
    s.entry a b = ((callsOf i [] [] ops).map fun k =>
      if Free k.cons.hng k.cons.dir s.urow[a] ∧ Free k.cons.hng k.cons.dir s.ucol[b] then
        total2 k.bil (P k s.urow[a]) (P k s.ucol[b]) else 0).sum := by
  have hi' : i < ps.length := by rw [run_length h]; simpa using hi
  obtain ⟨af, afs, h1, -, hall, hag, -, hnone, hsome⟩ := inv2_run hi hd hev h hi'
  have hc2 : ps[i].c2 = some s := by simpa [getMatrix, hi'] using hs
  have hne : callsOf i [] [] ops ≠ [] := by
    intro h0
    rw [hnone h0] at hc2
    cases hc2
  obtain ⟨s', hcon, hs'⟩ := hsome hne
  rw [hc2] at hs'
  cases hs'
  rw [entry_eq ho hcon ha hb, hag, flatten_sum, List.map_map]
  refine forall2_sum hall fun k hk af' hk' => ?_
  simp only [Function.comp]
  split_ifs with hf
  · have := assemble2_val (t := 0) hk' (hP k hk _ hf.1).1 (hP k hk _ hf.2).1.1 (hP k hk _ hf.2).1.2
    rw [zero_mul, add_zero, val2_prolong (hP k hk) (fun e he => assemble2_free hk' he) hf.1 hf.2] at this
    exact this
  · apply List.sum_eq_zero
    intro x hx
    obtain ⟨e, he, rfl⟩ := List.mem_map.1 hx
    obtain ⟨f1, f2⟩ := assemble2_free hk' he
    rw [if_neg]
    rintro ⟨e1, e2⟩
    exact hf ⟨e1 ▸ f1, e2 ▸ f2⟩

lemma all_bnd_rows {fuel : ℕ} {ks : List (Call κ R)} {afs : List (AF2 κ R)}
    (hall : List.Forall₂ (fun (k : Call κ R) (a : AF2 κ R) => assemble2 k.cons false fuel k.bil = .ok a) ks afs)
    (hsame : ∀ k ∈ ks, SameBasis k.bil) :
    ∀ p ∈ (afs.map (·.bnd)).flatten, p.1 ∈ (afs.map (·.agg)).flatten.map (·.row) := by
  induction hall with
  | nil => intro p hp; simp at hp
  | @cons k af' ks afs hk hks ih =>
    intro p hp
    simp only [List.map_cons, List.flatten_cons, List.mem_append, List.map_append] at hp ⊢
    rcases hp with hp | hp
    · exact .inl (bnd_rows hk (hsame k (by simp)) p hp)
    · exact .inr (ih (fun k hk => hsame k (by simp [hk])) p hp)

open Classical in
/-- **C91** (several calls: the Dirichlet correction, same dofs for test and trial).  The correction
vector is the sum over all calls, each with the Dirichlet values of its own time.  Missing: different test
and trial spaces (`C35_petrov_violated`). -/
theorem C91_correction_partial {ord : List ℕ → List ℕ} (ho : SetOrder ord) {fuel : ℕ} {dss : List (List Dim)} {ops : List (Op κ R)}
    {ps : List (Prob κ R)} {i : ℕ} (hi : i < dss.length) (hd : Dim.d2 ∈ dss[i]) (hev : Evaluates i dss[i] ops)
    (hsame : ∀ k ∈ callsOf i [] [] ops, SameBasis k.bil)
    (h : run ord fuel (dss.map Prob.new) ops = .ok ps) {s : Sys2 R} (hs : getMatrix ps i = some s)
    {P : Call κ R → ℕ → ℕ → R} (hP : ∀ k ∈ callsOf i [] [] ops, IsProlongation k.cons.hng k.cons.dir (P k))
    {d : Call κ R → ℕ → R} (hdl : ∀ k ∈ callsOf i [] [] ops, IsLifting k.cons.hng k.cons.dir (d k))
    {a : ℕ} (ha : a < s.urow.length) :
    corr s a = ((callsOf i [] [] ops).map fun k =>
      if Free k.cons.hng k.cons.dir s.urow[a] then total2 k.bil (P k s.urow[a]) (d k) else 0).sum := by
  have hi' : i < ps.length := by rw [run_length h]; simpa using hi
  obtain ⟨af, afs, h1, -, hall, hag, hbn, hnone, hsome⟩ := inv2_run hi hd hev h hi'
  have hc2 : ps[i].c2 = some s := by simpa [getMatrix, hi'] using hs
  have hne : callsOf i [] [] ops ≠ [] := by
    intro h0
    rw [hnone h0] at hc2
    cases hc2
  obtain ⟨s', hcon, hs'⟩ := hsome hne
  rw [hc2] at hs'
  cases hs'
  have hrows : ∀ p ∈ af.bnd, p.1 ∈ af.agg.map (·.row) := by
    rw [hag, hbn]
    exact all_bnd_rows hall hsame
  rw [corr_eq ho hcon hrows ha, hbn, flatten_sum, List.map_map]
  refine forall2_sum hall fun k hk af' hk' => ?_
  simp only [Function.comp]
  have hfree : ∀ p ∈ af'.bnd, Free k.cons.hng k.cons.dir p.1 := by
    intro p hp
    obtain ⟨e, he, e1⟩ := List.mem_map.1 (bnd_rows hk' (hsame k hk) p hp)
    exact e1 ▸ (assemble2_free hk' he).1
  split_ifs with hf
  · have := assemble2_val (t := 1) hk' (hP k hk _ hf).1 (hdl k hk).1.1 (hdl k hk).1.2
    have hz : val2 (P k s.urow[a]) (d k) af'.agg = 0 := by
      unfold val2
      apply List.sum_eq_zero
      intro x hx
      obtain ⟨e, he, rfl⟩ := List.mem_map.1 hx
      rw [(hdl k hk).2 _ (assemble2_free hk' he).2, mul_zero]
    rw [hz, zero_add, one_mul] at this
    rw [← this]
    unfold valb
    congr 1
    apply List.map_congr_left
    intro p hp
    rw [(hP k hk _ hf).2 _ (hfree p hp)]
    by_cases c : p.1 = s.urow[a] <;> simp [c]
  · apply List.sum_eq_zero
    intro x hx
    obtain ⟨p, hp, rfl⟩ := List.mem_map.1 hx
    rw [if_neg]
    intro e
    exact hf (e ▸ hfree p hp)

open Classical in
/-- **C91** (several calls: the vector).  `get_vector(i)` is the sum over all calls. -/
theorem C91_vector {ord : List ℕ → List ℕ} (ho : SetOrder ord) {fuel : ℕ} {dss : List (List Dim)} {ops : List (Op κ R)}
    {ps : List (Prob κ R)} {i : ℕ} (hi : i < dss.length) (hd : Dim.d1 ∈ dss[i]) (hev : Evaluates i dss[i] ops)
    (h : run ord fuel (dss.map Prob.new) ops = .ok ps) {u : List ℕ} {b : List R} (hs : getVector ps i = some (u, b))
    {P : Call κ R → ℕ → ℕ → R} (hP : ∀ k ∈ callsOf i [] [] ops, IsProlongation k.cons.hng k.cons.dir (P k))
    {a : ℕ} (ha : a < u.length) :
    b.getD a 0 = ((callsOf i [] [] ops).map fun k =>
      if Free k.cons.hng k.cons.dir u[a] then total1 k.lin (P k u[a]) else 0).sum := by
  have hi' : i < ps.length := by rw [run_length h]; simpa using hi
  obtain ⟨af, afs, h1, -, hall, hag, hnone, hsome⟩ := inv1_run hi hd hev h hi'
  have hc2 : ps[i].c1 = some (u, b) := by simpa [getVector, hi'] using hs
  have hne : callsOf i [] [] ops ≠ [] := by
    intro h0
    rw [hnone h0] at hc2
    cases hc2
  obtain ⟨s', hcon, hs'⟩ := hsome hne
  rw [hc2] at hs'
  cases hs'
  rw [(vec_eq ho hcon).2 a ha, hag, flatten_sum, List.map_map]
  refine forall2_sum hall fun k hk af' hk' => ?_
  simp only [Function.comp]
  obtain ⟨_, g2, g3⟩ := fold1_ok k.lin _ _ empty1_new hk'
  have hfree : ∀ e ∈ af'.agg, Free k.cons.hng k.cons.dir e.row := by
    intro e he
    rcases (g3 e.row).1 (List.mem_map.2 ⟨e, he, rfl⟩) with h0 | ⟨_, _, _, _, _, _, hf, _⟩
    · simp [AF1.new] at h0
    · exact hf
  split_ifs with hf
  · have := g2 (P k u[a]) (hP k hk _ hf).1
    simp only [AF1.new, val1_nil, add_zero] at this
    rw [← this]
    unfold val1
    congr 1
    apply List.map_congr_left
    intro e he
    rw [(hP k hk _ hf).2 _ (hfree e he)]
    by_cases c : e.row = u[a] <;> simp [c]
  · apply List.sum_eq_zero
    intro x hx
    obtain ⟨p, hp, rfl⟩ := List.mem_map.1 hx
    rw [if_neg]
    intro e
    exact hf (e ▸ hfree p hp)

/-- **C91** (several calls: the number).  Without `keep_cellwise_data`, `get_scalar(i)` is the sum over
all calls, cells and constant forms.  Missing: `keep_cellwise_data=True`, see
`C91_scalar_violated`. -/
theorem C91_scalar_partial {ord : List ℕ → List ℕ} {fuel : ℕ} {dss : List (List Dim)} {ops : List (Op κ R)}
    {ps : List (Prob κ R)} {i : ℕ} (hi : i < dss.length) (hd : Dim.d0 ∈ dss[i]) (hk : ∀ cs, Op.assemble true cs ∉ ops)
    (h : run ord fuel (dss.map Prob.new) ops = .ok ps) {x : R} (hs : getScalar ps i = some x) :
    x = ((callsOf i [] [] ops).map fun k => (k.con.map fun c => (c.2.map List.sum).sum).sum).sum := by
  have hi' : i < ps.length := by rw [run_length h]; simpa using hi
  obtain ⟨af, h1, -, hag, hnone, hsome⟩ := inv0_run hi hd hk h hi'
  have hc2 : ps[i].c0 = some x := by simpa [getScalar, hi'] using hs
  have hne : callsOf i [] [] ops ≠ [] := by
    intro h0
    rw [hnone h0] at hc2
    cases hc2
  rw [hsome hne] at hc2
  cases hc2
  exact hag

/-- **C91** (several calls: presence).  The arrays exist exactly if `assemble` was called, whatever
came after it; `add_dirichlet` and `add_hanging_nodes` change no array. -/
theorem C91_present {ord : List ℕ → List ℕ} {fuel : ℕ} {dss : List (List Dim)} {ops : List (Op κ R)}
    {ps : List (Prob κ R)} {i : ℕ} (hi : i < dss.length) (hev : Evaluates i dss[i] ops)
    (h : run ord fuel (dss.map Prob.new) ops = .ok ps) :
    (Dim.d2 ∈ dss[i] → ((getMatrix ps i).isSome ↔ ∃ keep cs, Op.assemble keep cs ∈ ops)) ∧
    (Dim.d1 ∈ dss[i] → ((getVector ps i).isSome ↔ ∃ keep cs, Op.assemble keep cs ∈ ops)) := by
  have hi' : i < ps.length := by rw [run_length h]; simpa using hi
  have hcalls : ∀ (ops : List (Op κ R)) d h, callsOf i d h ops ≠ [] ↔ ∃ keep cs, Op.assemble keep cs ∈ ops := by
    intro ops
    induction ops with
    | nil => intro d h; simp [callsOf]
    | cons op ops ih =>
      intro d h
      cases op with
      | dirichlet j vals => simp only [callsOf, ih]; simp
      | hanging j hng => simp only [callsOf, ih]; simp
      | assemble keep cs =>
        simp only [callsOf, ne_eq, reduceCtorEq, not_false_eq_true, true_iff]
        exact ⟨keep, cs, by simp⟩
  refine ⟨fun hd => ?_, fun hd => ?_⟩
  · obtain ⟨af, afs, -, -, -, -, -, hnone, hsome⟩ := inv2_run hi hd hev h hi'
    rw [← hcalls ops [] []]
    have : getMatrix ps i = ps[i].c2 := by simp [getMatrix, hi']
    rw [this]
    by_cases hc : callsOf i [] [] ops = []
    · simp [hnone hc, hc]
    · obtain ⟨s, -, hs⟩ := hsome hc
      simp [hs, hc]
  · obtain ⟨af, afs, -, -, -, -, hnone, hsome⟩ := inv1_run hi hd hev h hi'
    rw [← hcalls ops [] []]
    have : getVector ps i = ps[i].c1 := by simp [getVector, hi']
    rw [this]
    by_cases hc : callsOf i [] [] ops = []
    · simp [hnone hc, hc]
    · obtain ⟨s, -, hs⟩ := hsome hc
      simp [hs, hc]

end Verif.Hist
