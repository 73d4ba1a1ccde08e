import Verif.Hist.Witness

/-!
# C92: `assemble` interrupted by an exception

`assemble` calls code of the user: the functions in the kernels and the form's metafunctions
(assembler.py 2383, 2444, called from 2363-2466).  If one of them raises, nothing is rolled back (there
is no `try`): the assembler stays as it is at that moment.  The model gives this state, and what a
second call of `assemble` makes of it.  Interruptions inside `distribute` and `consolidate` are not
modelled: no code of the user runs there.
-/

set_option linter.unusedSectionVars false

namespace Verif.Hist

open Verif.Asm

variable {R : Type} [CommRing R] {κ : Type} [DecidableEq κ]

/-! ### the state after an exception -/

/-- The forms already evaluated on a cell with inputs `c` when form `m` of problem `j` raises: all forms of
the problems before `j`, the forms before `m` of problem `j` (assembler.py 2369-2383). -/
def evaluated (c : ℕ → List (Loc R)) (j m : ℕ) (i : ℕ) : List (Loc R) :=
  if i < j then c i else if i = j then (c i).take m else []

/-- The assembler after form `m` of problem `j` raised on the cell at position `n` of the loop: the cells
before were updated and distributed, on this cell the forms before were updated only
(assembler.py 2358-2500). -/
def crashed (fuel : ℕ) (keep : Bool) (ps : List (Prob κ R)) (cs : List (CellIn κ R)) (n j m : ℕ) :
    Except Err (List (Prob κ R)) := do
  let ps1 ← (cs.take n).foldlM (cellStep keep fuel) ps
  match cs[n]? with
  | none => .ok ps1
  | some c => ps1.zipIdx.mapM fun q => (evaluated c.2 j m q.2).foldlM (Prob.update c.1) q.1

/-! ### specification: what counts in the end -/

/-- The cells and values that count after the exception and a second, complete call: the cells before the
exception twice, the forms evaluated on the cell of the exception twice, everything else once. -/
def counted (cs : List (CellIn κ R)) (n j m : ℕ) : List (CellIn κ R) :=
  cs.take n ++ (cs.take n ++ match cs[n]? with
    | none => []
    | some c => (c.1, fun i => evaluated c.2 j m i ++ c.2 i) :: cs.drop (n + 1))

/-! ### updates of one cell commute with the work on another -/

/-- `update` where the form is there, nothing otherwise. -/
def shift (k : κ) (p : Prob κ R) : Loc R → Prob κ R
  | .c vs => { p with a0 := p.a0.map fun a => a.update k vs }
  | .l v => { p with a1 := p.a1.map fun a => a.update k v.tst v.vec }
  | .b m => { p with a2 := p.a2.map fun a => a.update k m.tst m.trl m.mat }

/-- The assembled form needed by a value is there. -/
def Has (p : Prob κ R) : Loc R → Prop
  | .c _ => p.a0.isSome
  | .l _ => p.a1.isSome
  | .b _ => p.a2.isSome

lemma update_ok_iff (k : κ) (p q : Prob κ R) (l : Loc R) : p.update k l = .ok q ↔ Has p l ∧ q = shift k p l := by
  cases l with
  | c vs => cases h : p.a0 <;> simp [Prob.update, Has, shift, h, eq_comm]
  | l v => cases h : p.a1 <;> simp [Prob.update, Has, shift, h, eq_comm]
  | b m => cases h : p.a2 <;> simp [Prob.update, Has, shift, h, eq_comm]

/-- The same forms are there. -/
def SameForms (p q : Prob κ R) : Prop :=
  p.a0.isSome = q.a0.isSome ∧ p.a1.isSome = q.a1.isSome ∧ p.a2.isSome = q.a2.isSome

lemma SameForms.has {p q : Prob κ R} (h : SameForms p q) (l : Loc R) : Has p l ↔ Has q l := by
  cases l <;> simp [Has, h.1, h.2.1, h.2.2]

lemma SameForms.refl (p : Prob κ R) : SameForms p p := ⟨rfl, rfl, rfl⟩

lemma SameForms.trans {p q r : Prob κ R} (h : SameForms p q) (h' : SameForms q r) : SameForms p r :=
  ⟨h.1.trans h'.1, h.2.1.trans h'.2.1, h.2.2.trans h'.2.2⟩

lemma shift_same (k : κ) (p : Prob κ R) (l : Loc R) : SameForms p (shift k p l) := by
  cases l <;> simp [SameForms, shift]

lemma updates_ok_iff (k : κ) : ∀ (ls : List (Loc R)) (p q : Prob κ R),
    ls.foldlM (Prob.update k) p = .ok q ↔ (∀ l ∈ ls, Has p l) ∧ q = ls.foldl (shift k) p := by
  intro ls
  induction ls with
  | nil => intro p q; simp [pure, Except.pure, eq_comm]
  | cons l ls ih =>
    intro p q
    simp only [List.foldlM_cons, bind_ok_iff, update_ok_iff, ih, List.forall_mem_cons, List.foldl_cons]
    constructor
    · rintro ⟨a, ⟨h1, rfl⟩, h2, rfl⟩
      exact ⟨⟨h1, fun x hx => ((shift_same k p l).has x).2 (h2 x hx)⟩, rfl⟩
    · rintro ⟨⟨h1, h2⟩, rfl⟩
      exact ⟨_, ⟨h1, rfl⟩, fun x hx => ((shift_same k p l).has x).1 (h2 x hx), rfl⟩

lemma shifts_same (k : κ) : ∀ (ls : List (Loc R)) (p : Prob κ R), SameForms p (ls.foldl (shift k) p) := by
  intro ls
  induction ls with
  | nil => exact fun p => .refl p
  | cons l ls ih => exact fun p => (shift_same k p l).trans (ih _)

lemma af2_comm {k k' : κ} (hk : k ≠ k') (C : Cons R) (fuel : ℕ) (a : AF2 κ R) (t u : List ℕ) (v : ℕ → ℕ → R) :
    (a.update k t u v).distribute C false fuel k' = (a.distribute C false fuel k').map (·.update k t u v) := by
  unfold AF2.distribute AF2.update
  simp only [Function.update_of_ne hk.symm]
  cases h : a.cells k' with
  | none => rfl
  | some s =>
    simp only
    cases h2 : loop2 C fuel ⟨s, a.agg, a.bnd⟩ with
    | none => rfl
    | some s' =>
      simp only [Except.map, Bool.false_eq_true, if_false]
      rw [Function.update_comm hk, Function.update_of_ne hk]

lemma af1_comm {k k' : κ} (hk : k ≠ k') (C : Cons R) (fuel : ℕ) (a : AF1 κ R) (t : List ℕ) (v : ℕ → R) :
    (a.update k t v).distribute C false fuel k' = (a.distribute C false fuel k').map (·.update k t v) := by
  unfold AF1.distribute AF1.update
  simp only [Function.update_of_ne hk.symm]
  cases h : a.cells k' with
  | none => rfl
  | some s =>
    simp only
    cases h2 : loop1 C fuel ⟨s, a.agg⟩ with
    | none => rfl
    | some s' =>
      simp only [Except.map, Bool.false_eq_true, if_false]
      rw [Function.update_comm hk, Function.update_of_ne hk]

lemma af0_comm {k k' : κ} (hk : k ≠ k') (a : AF0 κ R) (v : List R) :
    (a.update k v).distribute false k' = (a.distribute false k').map (·.update k v) := by
  unfold AF0.distribute AF0.update
  simp only [Function.update_of_ne hk.symm]
  cases h : a.cells k' with
  | none => rfl
  | some s =>
    simp only [Except.map, Bool.false_eq_true, if_false]
    rw [Function.update_comm hk, Function.update_of_ne hk]

lemma clear2_comm {k k' : κ} (hk : k ≠ k') (a : AF2 κ R) (t u : List ℕ) (v : ℕ → ℕ → R) :
    (a.update k t u v).clear k' = (a.clear k').update k t u v := by
  unfold AF2.clear AF2.update
  simp only
  rw [Function.update_comm hk, Function.update_of_ne hk]

lemma clear1_comm {k k' : κ} (hk : k ≠ k') (a : AF1 κ R) (t : List ℕ) (v : ℕ → R) :
    (a.update k t v).clear k' = (a.clear k').update k t v := by
  unfold AF1.clear AF1.update
  simp only
  rw [Function.update_comm hk, Function.update_of_ne hk]

lemma clear0_comm {k k' : κ} (hk : k ≠ k') (a : AF0 κ R) (v : List R) :
    (a.update k v).clear k' = (a.clear k').update k v := by
  unfold AF0.clear AF0.update
  simp only
  rw [Function.update_comm hk, Function.update_of_ne hk]

lemma onSome_map {α : Type} (f : α → Except Asm.Err α) (g : α → α) (h : ∀ a, f (g a) = (f a).map g) (o : Option α) :
    onSome f (o.map g) = (onSome f o).map (Option.map g) := by
  cases o with
  | none => rfl
  | some a =>
    simp only [onSome, Option.map_some, h]
    cases f a <;> rfl

lemma distribute_shift {k k' : κ} (hk : k ≠ k') (keep : Bool) (fuel : ℕ) (p : Prob κ R) (l : Loc R) :
    (shift k p l).distribute keep fuel k' = (p.distribute keep fuel k').map (shift k · l) := by
  have h0 : ∀ v : List R, ∀ a : AF0 κ R, (do
      let a' ← (a.update k v).distribute false k'
      Except.ok (if keep then a' else a'.clear k') : Except Asm.Err _)
      = ((do let a' ← a.distribute false k'; Except.ok (if keep then a' else a'.clear k')) : Except Asm.Err _).map (fun b => b.update k v) := by
    intro v a
    rw [af0_comm hk]
    cases a.distribute false k' with
    | error e => rfl
    | ok b => cases keep <;> simp [Except.map, bind, Except.bind, clear0_comm hk]
  have h1 : ∀ (t : List ℕ) (v : ℕ → R), ∀ a : AF1 κ R, (do
      let a' ← (a.update k t v).distribute p.cons false fuel k'
      Except.ok (if keep then a' else a'.clear k') : Except Asm.Err _)
      = ((do let a' ← a.distribute p.cons false fuel k'; Except.ok (if keep then a' else a'.clear k')) : Except Asm.Err _).map (fun b => b.update k t v) := by
    intro t v a
    rw [af1_comm hk]
    cases a.distribute p.cons false fuel k' with
    | error e => rfl
    | ok b => cases keep <;> simp [Except.map, bind, Except.bind, clear1_comm hk]
  have h2 : ∀ (t u : List ℕ) (v : ℕ → ℕ → R), ∀ a : AF2 κ R, (do
      let a' ← (a.update k t u v).distribute p.cons false fuel k'
      Except.ok (if keep then a' else a'.clear k') : Except Asm.Err _)
      = ((do let a' ← a.distribute p.cons false fuel k'; Except.ok (if keep then a' else a'.clear k')) : Except Asm.Err _).map (fun b => b.update k t u v) := by
    intro t u v a
    rw [af2_comm hk]
    cases a.distribute p.cons false fuel k' with
    | error e => rfl
    | ok b => cases keep <;> simp [Except.map, bind, Except.bind, clear2_comm hk]
  have hc : (shift k p l).cons = p.cons := by cases l <;> rfl
  unfold Prob.distribute
  rw [hc]
  cases l with
  | c vs =>
    simp only [shift]
    rw [onSome_map _ _ (h0 vs)]
    cases onSome _ p.a0 with
    | error e => rfl
    | ok x =>
      simp only [Except.map, bind, Except.bind]
      cases onSome _ p.a1 with
      | error e => rfl
      | ok y =>
        simp only
        cases onSome _ p.a2 <;> rfl
  | l v =>
    simp only [shift]
    rw [onSome_map _ _ (h1 v.tst v.vec)]
    cases onSome _ p.a0 with
    | error e => rfl
    | ok x =>
      simp only [Except.map, bind, Except.bind]
      cases onSome _ p.a1 with
      | error e => rfl
      | ok y =>
        simp only
        cases onSome _ p.a2 <;> rfl
  | b m =>
    simp only [shift]
    rw [onSome_map _ _ (h2 m.tst m.trl m.mat)]
    cases onSome _ p.a0 with
    | error e => rfl
    | ok x =>
      simp only [Except.map, bind, Except.bind]
      cases onSome _ p.a1 with
      | error e => rfl
      | ok y =>
        simp only
        cases onSome _ p.a2 <;> rfl

lemma shift_shift {k k' : κ} (hk : k ≠ k') (p : Prob κ R) (l l' : Loc R) :
    shift k' (shift k p l) l' = shift k (shift k' p l') l := by
  cases l <;> cases l' <;> simp only [shift, Option.map_map]
  · congr 2
    ext a
    cases a
    simp [AF0.update, Function.update_of_ne hk, Function.update_of_ne hk.symm, Function.update_comm hk]
  · congr 2
    ext a
    cases a
    simp [AF1.update, Function.update_of_ne hk, Function.update_of_ne hk.symm, Function.update_comm hk]
  · congr 2
    ext a
    cases a
    simp [AF2.update, Function.update_of_ne hk, Function.update_of_ne hk.symm, Function.update_comm hk]

lemma shifts_shift {k k' : κ} (hk : k ≠ k') : ∀ (ls : List (Loc R)) (p : Prob κ R) (l : Loc R),
    ls.foldl (shift k') (shift k p l) = shift k (ls.foldl (shift k') p) l := by
  intro ls
  induction ls with
  | nil => intro p l; rfl
  | cons x ls ih => intro p l; rw [List.foldl_cons, shift_shift hk, ih]; rfl

lemma probCell_shift {k : κ} (keep : Bool) (fuel : ℕ) (p p' : Prob κ R) (l : Loc R) (c : κ × List (Loc R))
    (hk : k ≠ c.1) : probCell keep fuel (shift k p l) c = .ok p' ↔
      ∃ q, probCell keep fuel p c = .ok q ∧ p' = shift k q l := by
  unfold probCell
  simp only [bind_ok_iff, updates_ok_iff, ← (shift_same k p l).has]
  constructor
  · rintro ⟨a, ⟨h1, rfl⟩, h2⟩
    rw [shifts_shift hk, distribute_shift hk] at h2
    cases h3 : (List.foldl (shift c.1) p c.2).distribute keep fuel c.1 with
    | error e => simp [h3, Except.map] at h2
    | ok q =>
      simp only [h3, Except.map, Except.ok.injEq] at h2
      exact ⟨q, ⟨_, ⟨h1, rfl⟩, h3⟩, h2.symm⟩
  · rintro ⟨q, ⟨a, ⟨h1, rfl⟩, h2⟩, rfl⟩
    refine ⟨_, ⟨h1, rfl⟩, ?_⟩
    rw [shifts_shift hk, distribute_shift hk, h2]
    rfl

lemma probCell_shifts {k : κ} (keep : Bool) (fuel : ℕ) (c : κ × List (Loc R)) (hk : k ≠ c.1) :
    ∀ (ls : List (Loc R)) (p p' : Prob κ R), probCell keep fuel (ls.foldl (shift k) p) c = .ok p' ↔
      ∃ q, probCell keep fuel p c = .ok q ∧ p' = ls.foldl (shift k) q := by
  intro ls
  induction ls with
  | nil => intro p p'; simp
  | cons l ls ih =>
    intro p p'
    simp only [List.foldl_cons, ih, probCell_shift keep fuel _ _ l c hk]
    constructor
    · rintro ⟨q, ⟨q', h, rfl⟩, rfl⟩
      exact ⟨q', h, rfl⟩
    · rintro ⟨q', h, rfl⟩
      exact ⟨_, ⟨q', h, rfl⟩, rfl⟩

lemma cells_shifts {k : κ} (keep : Bool) (fuel : ℕ) (ls : List (Loc R)) : ∀ (cs : List (κ × List (Loc R)))
    (_ : ∀ c ∈ cs, k ≠ c.1) (p p' : Prob κ R),
    cs.foldlM (probCell keep fuel) (ls.foldl (shift k) p) = .ok p' ↔
      ∃ q, cs.foldlM (probCell keep fuel) p = .ok q ∧ p' = ls.foldl (shift k) q := by
  intro cs
  induction cs with
  | nil => intro _ p p'; simp [pure, Except.pure, eq_comm]
  | cons c cs ih =>
    intro hk p p'
    rw [List.forall_mem_cons] at hk
    simp only [List.foldlM_cons, bind_ok_iff, probCell_shifts keep fuel c hk.1]
    constructor
    · rintro ⟨a, ⟨b, h1, rfl⟩, h2⟩
      obtain ⟨q, h3, rfl⟩ := (ih hk.2 _ _).1 h2
      exact ⟨q, ⟨b, h1, h3⟩, rfl⟩
    · rintro ⟨q, ⟨b, h1, h3⟩, rfl⟩
      exact ⟨_, ⟨b, h1, rfl⟩, (ih hk.2 _ _).2 ⟨q, h3, rfl⟩⟩

lemma distribute_same {keep : Bool} {fuel : ℕ} {k : κ} {p q : Prob κ R} (h : p.distribute keep fuel k = .ok q) : SameForms p q := by
  unfold Prob.distribute at h
  simp only [bind_ok_iff] at h
  obtain ⟨b0, g0, b1, g1, b2, g2, h3⟩ := h
  simp only [Except.ok.injEq] at h3
  subst h3
  have key : ∀ {α : Type} {f : α → Except Asm.Err α} {o o' : Option α}, onSome f o = .ok o' → o.isSome = o'.isSome := by
    intro α f o o' h
    rcases onSome_ok h with ⟨rfl, rfl⟩ | ⟨a, a', rfl, _, rfl⟩ <;> rfl
  exact ⟨key g0, key g1, key g2⟩

lemma probCell_same {keep : Bool} {fuel : ℕ} {c : κ × List (Loc R)} {p q : Prob κ R} (h : probCell keep fuel p c = .ok q) :
    SameForms p q := by
  unfold probCell at h
  simp only [bind_ok_iff, updates_ok_iff] at h
  obtain ⟨a, ⟨_, rfl⟩, h2⟩ := h
  exact (shifts_same _ _ _).trans (distribute_same h2)

lemma cells_same {keep : Bool} {fuel : ℕ} : ∀ {cs : List (κ × List (Loc R))} {p q : Prob κ R},
    cs.foldlM (probCell keep fuel) p = .ok q → SameForms p q := by
  intro cs
  induction cs with
  | nil => intro p q h; simp only [List.foldlM_nil, pure, Except.pure, Except.ok.injEq] at h; rw [h]; exact .refl q
  | cons c cs ih =>
    intro p q h
    simp only [List.foldlM_cons, bind_ok_iff] at h
    obtain ⟨a, h1, h2⟩ := h
    exact (probCell_same h1).trans (ih h2)

/-- One problem: exception, then the whole loop again. -/
lemma prob_retry (keep : Bool) (fuel : ℕ) (pre rest : List (κ × List (Loc R))) (k : κ) (part full : List (Loc R))
    (hk : ∀ c ∈ pre, k ≠ c.1) (p p1 q : Prob κ R) (h1 : pre.foldlM (probCell keep fuel) p = .ok p1)
    (h2 : part.foldlM (Prob.update k) p1 = .ok q) (p' : Prob κ R) :
    (pre ++ (k, full) :: rest).foldlM (probCell keep fuel) q = .ok p' ↔
      (pre ++ (pre ++ (k, part ++ full) :: rest)).foldlM (probCell keep fuel) p = .ok p' := by
  obtain ⟨h3, rfl⟩ := (updates_ok_iff _ _ _ _).1 h2
  simp only [List.foldlM_append, List.foldlM_cons, bind_ok_iff]
  constructor
  · rintro ⟨a, h4, b, h5, h6⟩
    obtain ⟨p2, h7, rfl⟩ := (cells_shifts keep fuel part pre hk _ _).1 h4
    refine ⟨p1, h1, p2, h7, b, ?_, h6⟩
    unfold probCell at h5 ⊢
    simp only [bind_ok_iff, List.foldlM_append] at h5 ⊢
    obtain ⟨x, h8, h9⟩ := h5
    exact ⟨x, ⟨_, (updates_ok_iff _ _ _ _).2 ⟨fun l hl => ((cells_same h7).has l).1 (h3 l hl), rfl⟩, h8⟩, h9⟩
  · rintro ⟨a, h4, p2, h7, b, h5, h6⟩
    rw [h1] at h4
    cases h4
    refine ⟨_, (cells_shifts keep fuel part pre hk _ _).2 ⟨p2, h7, rfl⟩, b, ?_, h6⟩
    unfold probCell at h5 ⊢
    simp only [bind_ok_iff, List.foldlM_append] at h5 ⊢
    obtain ⟨x, ⟨y, h8, h10⟩, h9⟩ := h5
    obtain ⟨-, rfl⟩ := (updates_ok_iff _ _ _ _).1 h8
    exact ⟨x, h10, h9⟩

/-! ### C92 -/

/-- **C92** (`assemble`: an exception, then the call again).  Whatever form on whatever cell raises, and
whatever happened before: repeating the call leaves the assembler in exactly the state in which one
undisturbed call would leave it that goes over the cells before the exception twice, and uses the
forms already evaluated on the cell of the exception twice. -/
theorem C92_assemble_retry (ord : List ℕ → List ℕ) (fuel : ℕ) (keep : Bool) {ps pc : List (Prob κ R)} {cs : List (CellIn κ R)}
    {n j m : ℕ} (hn : (cs.map (·.1)).Nodup) (hlt : n < cs.length) (hc : crashed fuel keep ps cs n j m = .ok pc) (ps' : List (Prob κ R)) :
    assemble ord fuel keep pc cs = .ok ps' ↔ assemble ord fuel keep ps (counted cs n j m) = .ok ps' := by
  unfold crashed at hc
  obtain ⟨ps1, h1, h2⟩ := (bind_ok_iff _ _ _).1 hc
  have hget : cs[n]? = some cs[n] := by simp [hlt]
  rw [hget] at h2
  simp only at h2
  obtain ⟨l1, e1⟩ := (foldCells_iff _ _ _ _ _).1 h1
  obtain ⟨l2, e2⟩ := (mapM_ok_iff _ _ _).1 h2
  rw [List.length_zipIdx] at l2
  have hsplit : cs = cs.take n ++ cs[n] :: cs.drop (n + 1) := by
    conv_lhs => rw [← List.take_append_drop n cs]
    rw [List.drop_eq_getElem_cons hlt]
  have hk : ∀ i, ∀ c ∈ (cs.take n).map (fun c => (c.1, c.2 i)), cs[n].1 ≠ c.1 := by
    intro i c hc he
    obtain ⟨d, hd, rfl⟩ := List.mem_map.1 hc
    rw [hsplit, List.map_append, List.map_cons] at hn
    have := (List.nodup_append.1 hn).2.2 d.1 (List.mem_map_of_mem hd) cs[n].1 (by simp)
    exact this he.symm
  rw [assemble_iff, assemble_iff]
  have l3 : ps'.length = pc.length ↔ ps'.length = ps.length := by rw [l2, l1]
  refine and_congr l3 ?_
  refine forall_congr' fun i => ?_
  have key : ∀ (h : i < ps.length) (hp1 : i < ps1.length) (hpc : i < pc.length) (p' : Prob κ R),
      probAssemble ord fuel keep pc[i] (cs.map fun c => (c.1, c.2 i)) = .ok p' ↔
      probAssemble ord fuel keep ps[i] ((counted cs n j m).map fun c => (c.1, c.2 i)) = .ok p' := by
    intro h hp1 hpc p'
    have a1 := e1 i h hp1
    have a2 := e2 i (by simpa using hp1) hpc
    simp only [List.getElem_zipIdx, zero_add] at a2
    have := prob_retry keep fuel _ ((cs.drop (n + 1)).map fun c => (c.1, c.2 i)) cs[n].1 _ (cs[n].2 i) (hk i) _ _ _ a1 a2
    unfold probAssemble
    simp only [bind_ok_iff]
    refine exists_congr fun q => and_congr_left fun _ => ?_
    unfold counted
    rw [hget]
    simp only [List.map_append, List.map_cons]
    rw [← this q]
    conv_lhs => rw [hsplit]
    rw [List.map_append, List.map_cons]
  constructor
  · intro hA h h'
    exact (key h (by omega) (by omega) _).1 (hA (by omega) h')
  · intro hA h h'
    exact (key (by omega) (by omega) h _).2 (hA (by omega) h')

/-- **C92** (`assemble`: exception on the first evaluation).  If the very first evaluation raises, nothing
has changed, and repeating the call does what it would have done. -/
theorem C92_assemble_first_partial (fuel : ℕ) (keep : Bool) {ps pc : List (Prob κ R)} {cs : List (CellIn κ R)}
    (hc : crashed fuel keep ps cs 0 0 0 = .ok pc) : pc = ps := by
  unfold crashed at hc
  simp only [List.take_zero, List.foldlM_nil, pure, Except.pure, bind, Except.bind] at hc
  cases h : cs[0]? with
  | none => simp only [h, Except.ok.injEq] at hc; exact hc.symm
  | some c =>
    simp only [h] at hc
    obtain ⟨l, e⟩ := (mapM_ok_iff _ _ _).1 hc
    rw [List.length_zipIdx] at l
    refine List.ext_getElem l fun i hi hi' => ?_
    have := e i (by simpa using hi') hi
    have hz : evaluated c.2 0 0 i = [] := by
      unfold evaluated
      simp
    simp only [List.getElem_zipIdx, zero_add, hz, List.foldlM_nil, pure, Except.pure, Except.ok.injEq] at this
    exact this.symm

lemma total2_append (a b : List (κ × List (Loc2 R))) (v x : ℕ → R) : total2 (a ++ b) v x = total2 a v x + total2 b v x := by
  simp [total2]

open Classical in
/-- **C92** (`assemble`: an exception, then the call again: the matrix).  New assembler, any constraints,
then `assemble` raises at form `m` of problem `j` on the cell at position `n`, then `assemble` again:
every entry of the matrix of problem `i` is the right one plus, a second time, the contributions of the
cells before the exception and of the forms evaluated on its cell. -/
theorem C92_assemble_matrix {ord : List ℕ → List ℕ} (ho : SetOrder ord) {fuel : ℕ} {keep : Bool} {dss : List (List Dim)}
    {setup : List (Op κ R)} (hset : ∀ keep cs, Op.assemble keep cs ∉ setup) {cs : List (CellIn κ R)} {n j m : ℕ}
    (hn : (cs.map (·.1)).Nodup) (hlt : n < cs.length) {i : ℕ} (hi : i < dss.length) (hd : Dim.d2 ∈ dss[i])
    (hne : ∀ c ∈ cs, (Dim.d2 ∈ dss[i] → bils (c.2 i) ≠ []) ∧ (Dim.d1 ∈ dss[i] → lins (c.2 i) ≠ []))
    {ps pc ps' : List (Prob κ R)} (h0 : run ord fuel (dss.map Prob.new) setup = .ok ps)
    (hc : crashed fuel keep ps cs n j m = .ok pc) (h1 : assemble ord fuel keep pc cs = .ok ps')
    {s : Sys2 R} (hs : getMatrix ps' i = some s) {C : Cons R}
    (hC : callsOf i [] [] (setup ++ [.assemble keep cs]) = [callOf C i cs])
    {P : ℕ → ℕ → R} (hP : IsProlongation C.hng C.dir P) {a b : ℕ} (ha : a < s.urow.length) (hb : b < s.ucol.length) :
    s.entry a b = if Free C.hng C.dir s.urow[a] ∧ Free C.hng C.dir s.ucol[b] then
      total2 (callOf C i cs).bil (P s.urow[a]) (P s.ucol[b]) + (total2 (callOf C i (cs.take n)).bil (P s.urow[a]) (P s.ucol[b])
        + total2 [(cs[n].1, bils (evaluated cs[n].2 j m i))] (P s.urow[a]) (P s.ucol[b])) else 0 := by
  have hr : run ord fuel (dss.map Prob.new) (setup ++ [.assemble keep (counted cs n j m)]) = .ok ps' := by
    unfold run at h0 ⊢
    rw [List.foldlM_append, bind_ok_iff]
    refine ⟨ps, h0, ?_⟩
    simp only [List.foldlM_cons, List.foldlM_nil, bind_pure]
    exact (C92_assemble_retry ord fuel keep hn hlt hc ps').1 h1
  have hget : cs[n]? = some cs[n] := by simp [hlt]
  have hev : Evaluates i dss[i] (setup ++ [.assemble keep (counted cs n j m)]) := by
    intro keep' cs' hm c hc
    rcases List.mem_append.1 hm with hm | hm
    · exact absurd hm (hset keep' cs')
    · simp only [List.mem_singleton, Op.assemble.injEq] at hm
      obtain ⟨rfl, rfl⟩ := hm
      unfold counted at hc
      rw [hget] at hc
      simp only [List.mem_append, List.mem_cons] at hc
      rcases hc with h | h | rfl | h
      · exact hne c (List.mem_of_mem_take h)
      · exact hne c (List.mem_of_mem_take h)
      · have := hne cs[n] (List.getElem_mem hlt)
        refine ⟨fun hd => ?_, fun hd => ?_⟩
        · simp [bils, List.filterMap_append] at this ⊢
          intro _ 
          exact this.1 hd
        · simp [lins, List.filterMap_append] at this ⊢
          intro _
          exact this.2 hd
      · exact hne c (List.mem_of_mem_drop h)
  have hC2 : callsOf i [] [] (setup ++ [.assemble keep (counted cs n j m)]) = [callOf C i (counted cs n j m)] := by
    have gen : ∀ (ops : List (Op κ R)) d h, (∀ keep cs, Op.assemble keep cs ∉ ops) → ∃ D : Cons R, ∀ cs' : List (CellIn κ R),
        callsOf i d h (ops ++ [.assemble keep cs']) = [callOf D i cs'] := by
      intro ops
      induction ops with
      | nil => intro d h _; exact ⟨_, fun cs' => rfl⟩
      | cons op ops ih =>
        intro d h hno
        have hno' : ∀ keep cs, Op.assemble keep cs ∉ ops := fun k c hm => hno k c (List.mem_cons_of_mem _ hm)
        cases op with
        | dirichlet j vals => exact ih _ _ hno'
        | hanging j hng => exact ih _ _ hno'
        | assemble k c => exact absurd (List.mem_cons_self ..) (hno k c)
    obtain ⟨D, hD⟩ := gen setup [] [] hset
    rw [hD] at hC ⊢
    have : D = C := by
      have := congrArg (fun l : List (Call κ R) => l.map (·.cons)) hC
      simpa [callOf] using this
    rw [this]
  rw [C91_matrix ho hi hd hev hr hs (P := fun _ => P) (by rw [hC2]; simpa [callOf] using hP) ha hb, hC2]
  simp only [List.map_cons, List.map_nil, List.sum_cons, List.sum_nil, add_zero]
  have hcons : (callOf C i (counted cs n j m)).cons = C := rfl
  rw [hcons]
  refine if_congr Iff.rfl ?_ rfl
  have hsplit : (callOf C i cs).bil = (callOf C i (cs.take n)).bil ++ ([(cs[n].1, bils (cs[n].2 i))] ++ (callOf C i (cs.drop (n + 1))).bil) := by
    unfold callOf
    simp only
    have hx : cs = cs.take n ++ cs[n] :: cs.drop (n + 1) := by
      conv_lhs => rw [← List.take_append_drop n cs]
      rw [List.drop_eq_getElem_cons hlt]
    conv_lhs => rw [hx]
    rw [List.map_append, List.map_cons, List.singleton_append]
  have hcount : (callOf C i (counted cs n j m)).bil = (callOf C i (cs.take n)).bil ++ ((callOf C i (cs.take n)).bil ++
      ([(cs[n].1, bils (evaluated cs[n].2 j m i ++ cs[n].2 i))] ++ (callOf C i (cs.drop (n + 1))).bil)) := by
    unfold callOf counted
    rw [hget]
    simp
  rw [hsplit, hcount]
  simp only [total2_append]
  have : ∀ v x : ℕ → R, total2 [(cs[n].1, bils (evaluated cs[n].2 j m i ++ cs[n].2 i))] v x
      = total2 [(cs[n].1, bils (evaluated cs[n].2 j m i))] v x + total2 [(cs[n].1, bils (cs[n].2 i))] v x := by
    intro v x
    simp [total2, bils, List.filterMap_append]
  rw [this]
  ring

/-! ### what goes wrong -/

/-- Two elements with dofs `0,1` and `1,2`, stiffness matrices, load `1` at every node of an element. -/
def rod : List (CellIn ℕ ℚ) :=
  [(0, fun _ => [.b ⟨[0, 1], [0, 1], stiff⟩, .l ⟨[0, 1], fun _ => 1⟩]),
   (1, fun _ => [.b ⟨[1, 2], [1, 2], stiff⟩, .l ⟨[1, 2], fun _ => 1⟩])]

/-- A run with an exception at form `m` of problem `0` on cell `n` of `rod`, and the call again. -/
def retry (n m : ℕ) : Except Err (List (Prob ℕ ℚ)) := do
  let ps ← run sortedSet 100 ([[.d2, .d1]].map Prob.new) [.dirichlet 0 [(0, 0)]]
  let pc ← crashed 100 false ps rod n 0 m
  assemble sortedSet 100 false pc rod

/-- Non-vacuity of `C92_assemble_matrix`: without exception; exception before anything happened;
on the first cell, when the load is evaluated; on the second cell; on the second cell, when the load is
evaluated. -/
example : ((retry 2 0).toOption.bind fun ps => do
      let s ← getMatrix ps 0
      some (s.urow, (List.range 2).map fun a => (List.range 2).map (s.entry a)))
    = some ([1, 2], [[4, -2], [-2, 2]]) ∧
    ((retry 0 0).toOption.bind fun ps => do
      let s ← getMatrix ps 0
      some (s.urow, (List.range 2).map fun a => (List.range 2).map (s.entry a)))
    = some ([1, 2], [[2, -1], [-1, 1]]) ∧
    ((retry 0 1).toOption.bind fun ps => do
      let s ← getMatrix ps 0
      some (s.urow, (List.range 2).map fun a => (List.range 2).map (s.entry a)))
    = some ([1, 2], [[3, -1], [-1, 1]]) ∧
    ((retry 1 0).toOption.bind fun ps => do
      let s ← getMatrix ps 0
      some (s.urow, (List.range 2).map fun a => (List.range 2).map (s.entry a)))
    = some ([1, 2], [[3, -1], [-1, 1]]) ∧
    ((retry 1 1).toOption.bind fun ps => do
      let s ← getMatrix ps 0
      some (s.urow, (List.range 2).map fun a => (List.range 2).map (s.entry a)))
    = some ([1, 2], [[4, -2], [-2, 2]]) := by decide +kernel

/-- **C92** (`assemble`: an exception, then the call again) fails to give the solution.  The bar `-u'' = f`
with two elements, `u_0 = 0`: a form raises on the second cell, the call is repeated and succeeds; `solve`
then returns `[0, 2, 3]`.  The only solution is `[0, 3, 4]`. -/
theorem C92_assemble_violated : ∃ (ps pc ps' : List (Prob ℕ ℚ)) (hi : 0 < ps'.length) (y u : List ℚ),
    run sortedSet 100 ([[.d2, .d1]].map Prob.new) [.dirichlet 0 [(0, 0)]] = .ok ps ∧
    crashed 100 false ps rod 1 0 0 = .ok pc ∧ assemble sortedSet 100 false pc rod = .ok ps' ∧
    (∀ s b x0, getMatrix ps' 0 = some s → getVector ps' 0 = some b → s.x0 = some x0 → Solves s b.2 x0 y) ∧
    solve 3 ps' 0 y = .ok u ∧ u = [0, 2, 3] ∧
    ¬ SolvesVariational ps'[0].cons.hng ps'[0].cons.dir (total2 (callOf ps'[0].cons 0 rod).bil)
      (total1 (callOf ps'[0].cons 0 rod).lin) (fun d => u.getD d 0) := by
  have key : ((retry 1 0).toOption.map fun ps =>
      decide (solvesB ps 0 [2, 3] = true ∧ (solve 3 ps 0 [2, 3]).toOption = some [0, 2, 3] ∧ ps.map (·.dirD) = [[(0, 0)]] ∧
        ps.map (·.hngD) = [[]])) = some true := by decide +kernel
  cases hr : retry 1 0 with
  | error e => rw [hr] at key; simp [Except.toOption] at key
  | ok ps' =>
  rw [hr] at key
  unfold retry at hr
  obtain ⟨ps, h0, hr⟩ := (bind_ok_iff _ _ _).1 hr
  obtain ⟨pc, h1, h2⟩ := (bind_ok_iff _ _ _).1 hr
  obtain ⟨k1, k2, k3, k4⟩ := of_decide_eq_true (Option.some.inj key)
  have hlen : ps'.length = 1 := by
    have := congrArg List.length k3
    simpa using this
  have hi : 0 < ps'.length := by omega
  have hps : ps' = [ps'[0]] := by
    obtain ⟨p, rfl⟩ := List.length_eq_one_iff.1 hlen
    rfl
  have hd : ps'[0].dirD = [(0, 0)] := by rw [hps] at k3; simpa using k3
  have hh : ps'[0].hngD = [] := by rw [hps] at k4; simpa using k4
  have hsol : solve 3 ps' 0 [2, 3] = .ok [0, 2, 3] := by
    cases hx : solve 3 ps' 0 [2, 3] with
    | error e => simp [hx, Except.toOption] at k2
    | ok u => simpa [hx, Except.toOption] using k2
  refine ⟨ps, pc, ps', hi, [2, 3], [0, 2, 3], h0, h1, h2, solvesB_ok k1, hsol, rfl, ?_⟩
  rintro ⟨-, hv⟩
  have := hv (fun d => if d = 1 then 1 else 0) (by
    refine ⟨fun h S hS => ?_, fun d _ g hg => ?_⟩
    · simp [Prob.cons, hh, dictGet] at hS
    · simp only [Prob.cons, hd, dictGet, List.find?_cons, List.find?_nil] at hg
      by_cases h0 : (0 : ℕ) = d
      · subst h0; simp
      · simp [h0] at hg)
  revert this
  simp only [total2, total1, callOf, rod, bils, lins]
  decide +kernel

/-- The right solution of the bar is the one named above. -/
example : SolvesVariational (fun _ => none) (fun d => if d = 0 then some (0 : ℚ) else none)
    (total2 (callOf (⟨fun _ => none, fun _ => none⟩ : Cons ℚ) 0 rod).bil) (total1 (callOf (⟨fun _ => none, fun _ => none⟩ : Cons ℚ) 0 rod).lin)
    (fun d => [0, 3, 4].getD d 0) := by
  refine ⟨⟨fun h S hS => by simp at hS, fun d _ g hg => ?_⟩, fun v hv => ?_⟩
  · by_cases h0 : d = 0
    · subst h0; simp at hg; simp [← hg]
    · simp [h0] at hg
  · have h0 : v 0 = 0 := by simpa using hv.2 0 0 rfl (by simp)
    simp [total2, total1, callOf, rod, bils, lins, localBilin, localLin, stiff, h0, Fin.sum_univ_two]
    ring

end Verif.Hist
