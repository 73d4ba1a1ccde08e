import Verif.Hist.Model
import Verif.Asm.Solve

/-! # Lemmas about histories of an assembler -/

set_option linter.unusedSectionVars false

namespace Verif.Hist

open Verif.Asm

variable {R : Type} [CommRing R] {κ : Type} [DecidableEq κ]

/-! ### lists in `Except` -/

lemma mapM_ok_iff {ε α β : Type} (f : α → Except ε β) : ∀ (l : List α) (r : List β),
    l.mapM f = .ok r ↔ r.length = l.length ∧
      ∀ i (h : i < l.length) (h' : i < r.length), f l[i] = .ok r[i] := by
  intro l
  induction l with
  | nil =>
    intro r
    simp only [List.mapM_nil, pure, Except.pure, Except.ok.injEq]
    constructor
    · rintro rfl; simp
    · rintro ⟨h, _⟩; exact (List.length_eq_zero_iff.1 h).symm
  | cons a l ih =>
    intro r
    rw [List.mapM_cons]
    simp only [bind, Except.bind, pure, Except.pure]
    cases ha : f a with
    | error e =>
      simp only [reduceCtorEq, false_iff]
      rintro ⟨h, h'⟩
      have := h' 0 (by simp) (by rw [h]; simp)
      simp [ha] at this
    | ok b =>
      simp only
      constructor
      · intro h
        cases hm : l.mapM f with
        | error e => simp [hm] at h
        | ok r' =>
          simp only [hm, Except.ok.injEq] at h
          subst h
          obtain ⟨h1, h2⟩ := (ih r').1 hm
          refine ⟨by simp [h1], fun i h h' => ?_⟩
          cases i with
          | zero => simpa using ha
          | succ i => simpa using h2 i (by simpa using h) (by simpa using h')
      · rintro ⟨h1, h2⟩
        cases r with
        | nil => simp at h1
        | cons b' r =>
          have h0 := h2 0 (by simp) (by simp)
          simp only [List.getElem_cons_zero, ha, Except.ok.injEq] at h0
          have : l.mapM f = .ok r := (ih r).2 ⟨by simpa using h1, fun i h h' =>
            h2 (i + 1) (Nat.succ_lt_succ h) (Nat.succ_lt_succ h')⟩
          simp [this, h0]

lemma bind_ok_iff {ε α β : Type} (x : Except ε α) (f : α → Except ε β) (b : β) :
    (x >>= f) = .ok b ↔ ∃ a, x = .ok a ∧ f a = .ok b := by
  cases x <;> simp [bind, Except.bind]

/-! ### one problem at a time -/

/-- One cell, one problem. -/
def probCell (keep : Bool) (fuel : ℕ) (p : Prob κ R) (c : κ × List (Loc R)) :
    Except Err (Prob κ R) := c.2.foldlM (Prob.update c.1) p >>= Prob.distribute keep fuel c.1

lemma cellStep_iff (keep : Bool) (fuel : ℕ) (ps ps' : List (Prob κ R)) (c : CellIn κ R) :
    cellStep keep fuel ps c = .ok ps' ↔ ps'.length = ps.length ∧
      ∀ i (h : i < ps.length) (h' : i < ps'.length), probCell keep fuel ps[i] (c.1, c.2 i) = .ok ps'[i] := by
  unfold cellStep
  rw [bind_ok_iff]
  constructor
  · rintro ⟨ps1, h1, h2⟩
    obtain ⟨l1, e1⟩ := (mapM_ok_iff _ _ _).1 h1
    obtain ⟨l2, e2⟩ := (mapM_ok_iff _ _ _).1 h2
    rw [List.length_zipIdx] at l1
    refine ⟨by omega, fun i h h' => ?_⟩
    have a := e1 i (by simpa using h) (by omega)
    have b := e2 i (by omega) h'
    simp only [List.getElem_zipIdx, zero_add] at a
    exact (bind_ok_iff _ _ _).2 ⟨_, a, b⟩
  · rintro ⟨hl, h⟩
    have : ∀ i : Fin ps.length, ∃ q, (c.2 i).foldlM (Prob.update c.1) ps[i] = .ok q ∧
        Prob.distribute keep fuel c.1 q = .ok (ps'[(i : ℕ)]'(by rw [hl]; exact i.2)) := fun i =>
      (bind_ok_iff _ _ _).1 (h i i.2 (by rw [hl]; exact i.2))
    choose q h1 h2 using this
    refine ⟨List.ofFn q, (mapM_ok_iff _ _ _).2 ⟨by simp, fun i hi hi' => ?_⟩,
      (mapM_ok_iff _ _ _).2 ⟨by simp [hl], fun i hi hi' => ?_⟩⟩
    · simpa using h1 ⟨i, by simpa using hi⟩
    · simpa using h2 ⟨i, by simpa using hi⟩

lemma foldCells_iff (keep : Bool) (fuel : ℕ) : ∀ (cs : List (CellIn κ R)) (ps ps' : List (Prob κ R)),
    cs.foldlM (cellStep keep fuel) ps = .ok ps' ↔ ps'.length = ps.length ∧
      ∀ i (h : i < ps.length) (h' : i < ps'.length),
        (cs.map fun c => (c.1, c.2 i)).foldlM (probCell keep fuel) ps[i] = .ok ps'[i] := by
  intro cs
  induction cs with
  | nil =>
    intro ps ps'
    simp only [List.foldlM_nil, List.map_nil, pure, Except.pure, Except.ok.injEq]
    constructor
    · rintro rfl; simp
    · rintro ⟨h, h'⟩
      exact List.ext_getElem h.symm fun i hi hi' => h' i hi hi'
  | cons c cs ih =>
    intro ps ps'
    simp only [List.map_cons, List.foldlM_cons, bind_ok_iff]
    constructor
    · rintro ⟨ps1, h1, h2⟩
      obtain ⟨l1, e1⟩ := (cellStep_iff _ _ _ _ _).1 h1
      obtain ⟨l2, e2⟩ := (ih _ _).1 h2
      exact ⟨by omega, fun i h h' => ⟨_, e1 i h (by omega), e2 i (by omega) h'⟩⟩
    · rintro ⟨hl, h⟩
      have h := fun i : Fin ps.length => h i i.2 (by rw [hl]; exact i.2)
      choose q h1 h2 using h
      refine ⟨List.ofFn q, (cellStep_iff _ _ _ _ _).2 ⟨by simp, fun i hi hi' => ?_⟩,
        (ih _ _).2 ⟨by simp [hl], fun i hi hi' => ?_⟩⟩
      · simpa using h1 ⟨i, by simpa using hi⟩
      · simpa using h2 ⟨i, by simpa using hi⟩

/-- `assemble` for one problem. -/
def probAssemble (ord : List ℕ → List ℕ) (fuel : ℕ) (keep : Bool) (p : Prob κ R)
    (cs : List (κ × List (Loc R))) : Except Err (Prob κ R) :=
  cs.foldlM (probCell keep fuel) p >>= Prob.consolidate ord

lemma assemble_iff (ord : List ℕ → List ℕ) (fuel : ℕ) (keep : Bool) (ps ps' : List (Prob κ R))
    (cs : List (CellIn κ R)) :
    assemble ord fuel keep ps cs = .ok ps' ↔ ps'.length = ps.length ∧
      ∀ i (h : i < ps.length) (h' : i < ps'.length),
        probAssemble ord fuel keep ps[i] (cs.map fun c => (c.1, c.2 i)) = .ok ps'[i] := by
  unfold assemble probAssemble
  simp only [bind_ok_iff]
  constructor
  · rintro ⟨ps1, h1, h2⟩
    obtain ⟨l1, e1⟩ := (foldCells_iff _ _ _ _ _).1 h1
    obtain ⟨l2, e2⟩ := (mapM_ok_iff _ _ _).1 h2
    exact ⟨by omega, fun i h h' => ⟨_, e1 i h (by omega), e2 i (by omega) h'⟩⟩
  · rintro ⟨hl, h⟩
    have h := fun i : Fin ps.length => h i i.2 (by rw [hl]; exact i.2)
    choose q h1 h2 using h
    refine ⟨List.ofFn q, (foldCells_iff _ _ _ _ _).2 ⟨by simp, fun i hi hi' => ?_⟩,
      (mapM_ok_iff _ _ _).2 ⟨by simp [hl], fun i hi hi' => ?_⟩⟩
    · simpa using h1 ⟨i, by simpa using hi⟩
    · simpa using h2 ⟨i, by simpa using hi⟩

/-! ### the three dimensions of a problem -/

/-- The constant contributions. -/
def consts : List (Loc R) → List (List R) := List.filterMap fun | .c v => some v | _ => none
/-- The linear contributions. -/
def lins : List (Loc R) → List (Loc1 R) := List.filterMap fun | .l v => some v | _ => none
/-- The bilinear contributions. -/
def bils : List (Loc R) → List (Loc2 R) := List.filterMap fun | .b v => some v | _ => none

lemma updates_ok (k : κ) : ∀ (ls : List (Loc R)) (p p' : Prob κ R),
    ls.foldlM (Prob.update k) p = .ok p' →
    p' = { p with
      a0 := p.a0.map fun a => (consts ls).foldl (fun a l => a.update k l) a
      a1 := p.a1.map fun a => (lins ls).foldl (fun a l => a.update k l.tst l.vec) a
      a2 := p.a2.map fun a => (bils ls).foldl (fun a l => a.update k l.tst l.trl l.mat) a } := by
  intro ls
  induction ls with
  | nil =>
    intro p p' h
    simp only [List.foldlM_nil, pure, Except.pure, Except.ok.injEq] at h
    subst h
    cases p
    simp [consts, lins, bils]
  | cons l ls ih =>
    intro p p' h
    simp only [List.foldlM_cons, bind_ok_iff] at h
    obtain ⟨q, h1, h2⟩ := h
    rw [ih _ _ h2]
    cases l with
    | c vs =>
      cases ha : p.a0 with
      | none => simp [Prob.update, ha] at h1
      | some a =>
        simp only [Prob.update, ha, Except.ok.injEq] at h1
        subst h1
        simp [consts, lins, bils]
    | l v =>
      cases ha : p.a1 with
      | none => simp [Prob.update, ha] at h1
      | some a =>
        simp only [Prob.update, ha, Except.ok.injEq] at h1
        subst h1
        simp [consts, lins, bils]
    | b m =>
      cases ha : p.a2 with
      | none => simp [Prob.update, ha] at h1
      | some a =>
        simp only [Prob.update, ha, Except.ok.injEq] at h1
        subst h1
        simp [consts, lins, bils]

lemma onSome_ok {α : Type} {f : α → Except Asm.Err α} {o o' : Option α} (h : onSome f o = .ok o') :
    (o = none ∧ o' = none) ∨ ∃ a a', o = some a ∧ f a = .ok a' ∧ o' = some a' := by
  cases o with
  | none => simp only [onSome, Except.ok.injEq] at h; exact .inl ⟨rfl, h.symm⟩
  | some a =>
    simp only [onSome] at h
    cases hf : f a with
    | error e => simp [hf, lift, Except.map] at h
    | ok a' =>
      simp only [hf, lift, Except.map, Except.ok.injEq] at h
      exact .inr ⟨a, a', rfl, hf, h.symm⟩

/-- Both are missing, or both are there and related. -/
def Rel {α : Type} (r : α → α → Prop) (o o' : Option α) : Prop :=
  (o = none ∧ o' = none) ∨ ∃ a a', o = some a ∧ o' = some a' ∧ r a a'

/-- What does not change during a call. -/
structure SameFrame (p p' : Prob κ R) : Prop where
  dirD : p'.dirD = p.dirD
  hngD : p'.hngD = p.hngD

lemma SameFrame.cons {p p' : Prob κ R} (h : SameFrame p p') : p'.cons = p.cons := by
  simp [Prob.cons, h.dirD, h.hngD]

lemma probCell_ok {keep : Bool} {fuel : ℕ} {p p' : Prob κ R} {c : κ × List (Loc R)}
    (h : probCell keep fuel p c = .ok p') : SameFrame p p' ∧
      Rel (fun a a' => cell0 keep a (c.1, consts c.2) = .ok a') p.a0 p'.a0 ∧
      Rel (fun a a' => cell1 p.cons keep fuel a (c.1, lins c.2) = .ok a') p.a1 p'.a1 ∧
      Rel (fun a a' => cell2 p.cons keep fuel a (c.1, bils c.2) = .ok a') p.a2 p'.a2 := by
  unfold probCell at h
  obtain ⟨q, h1, h2⟩ := (bind_ok_iff _ _ _).1 h
  have hq := updates_ok _ _ _ _ h1
  unfold Prob.distribute at h2
  simp only [bind_ok_iff] at h2
  obtain ⟨b0, g0, b1, g1, b2, g2, h3⟩ := h2
  simp only [Except.ok.injEq] at h3
  have hc : q.cons = p.cons := by rw [hq]; rfl
  subst h3
  refine ⟨⟨by rw [hq], by rw [hq]⟩, ?_, ?_, ?_⟩
  · rcases onSome_ok g0 with ⟨e, e'⟩ | ⟨a, a', e, e', e''⟩
    · rw [hq] at e
      exact .inl ⟨by simpa using e, e'⟩
    · rw [hq] at e
      simp only [Option.map_eq_some_iff] at e
      obtain ⟨a0, e1, rfl⟩ := e
      exact .inr ⟨a0, a', e1, e'', e'⟩
  · rw [hc] at g1
    rcases onSome_ok g1 with ⟨e, e'⟩ | ⟨a, a', e, e', e''⟩
    · rw [hq] at e
      exact .inl ⟨by simpa using e, e'⟩
    · rw [hq] at e
      simp only [Option.map_eq_some_iff] at e
      obtain ⟨a0, e1, rfl⟩ := e
      exact .inr ⟨a0, a', e1, e'', e'⟩
  · rw [hc] at g2
    rcases onSome_ok g2 with ⟨e, e'⟩ | ⟨a, a', e, e', e''⟩
    · rw [hq] at e
      exact .inl ⟨by simpa using e, e'⟩
    · rw [hq] at e
      simp only [Option.map_eq_some_iff] at e
      obtain ⟨a0, e1, rfl⟩ := e
      exact .inr ⟨a0, a', e1, e'', e'⟩

lemma Rel.comp {α : Type} {r s t : α → α → Prop} (hst : ∀ a b c, r a b → s b c → t a c)
    {o o' o'' : Option α} (h : Rel r o o') (h' : Rel s o' o'') : Rel t o o'' := by
  rcases h with ⟨e, e'⟩ | ⟨a, a', e, e', e1⟩
  · rcases h' with ⟨f, f'⟩ | ⟨a, a', f, f', f1⟩
    · exact .inl ⟨e, f'⟩
    · rw [e'] at f; cases f
  · rcases h' with ⟨f, f'⟩ | ⟨b, b', f, f', f1⟩
    · rw [e'] at f; cases f
    · rw [e'] at f; cases f
      exact .inr ⟨a, b', e, f', hst _ _ _ e1 f1⟩

lemma probCells_ok {keep : Bool} {fuel : ℕ} : ∀ {cs : List (κ × List (Loc R))} {p p' : Prob κ R},
    cs.foldlM (probCell keep fuel) p = .ok p' → SameFrame p p' ∧
      Rel (fun a a' => (cs.map fun c => (c.1, consts c.2)).foldlM (cell0 keep) a = .ok a') p.a0 p'.a0 ∧
      Rel (fun a a' => (cs.map fun c => (c.1, lins c.2)).foldlM (cell1 p.cons keep fuel) a = .ok a') p.a1 p'.a1 ∧
      Rel (fun a a' => (cs.map fun c => (c.1, bils c.2)).foldlM (cell2 p.cons keep fuel) a = .ok a') p.a2 p'.a2 := by
  intro cs
  induction cs with
  | nil =>
    intro p p' h
    simp only [List.foldlM_nil, pure, Except.pure, Except.ok.injEq] at h
    subst h
    refine ⟨⟨rfl, rfl⟩, ?_, ?_, ?_⟩
    · cases h : p.a0 with
      | none => exact .inl ⟨rfl, rfl⟩
      | some a => exact .inr ⟨a, a, rfl, rfl, rfl⟩
    · cases h : p.a1 with
      | none => exact .inl ⟨rfl, rfl⟩
      | some a => exact .inr ⟨a, a, rfl, rfl, rfl⟩
    · cases h : p.a2 with
      | none => exact .inl ⟨rfl, rfl⟩
      | some a => exact .inr ⟨a, a, rfl, rfl, rfl⟩
  | cons c cs ih =>
    intro p p' h
    simp only [List.foldlM_cons, bind_ok_iff] at h
    obtain ⟨q, h1, h2⟩ := h
    obtain ⟨f1, x0, x1, x2⟩ := probCell_ok h1
    obtain ⟨f2, y0, y1, y2⟩ := ih h2
    rw [f1.cons] at y1 y2
    refine ⟨⟨f2.dirD.trans f1.dirD, f2.hngD.trans f1.hngD⟩, x0.comp ?_ y0, x1.comp ?_ y1, x2.comp ?_ y2⟩
    all_goals
      intro a b d hab hbd
      simp only [List.map_cons, List.foldlM_cons, bind_ok_iff]
      exact ⟨b, hab, hbd⟩

lemma lift_ok {α : Type} {x : Except Asm.Err α} {a : α} (h : lift x = .ok a) : x = .ok a := by
  cases x with
  | error e => simp [lift] at h
  | ok b => simpa [lift] using h

lemma consolidate_ok {ord : List ℕ → List ℕ} {p p' : Prob κ R} (h : p.consolidate ord = .ok p') :
    SameFrame p p' ∧ p'.a0 = p.a0 ∧ p'.a1 = p.a1 ∧ p'.a2 = p.a2 ∧
    (∀ a, p.a0 = some a → p'.c0 = some a.consolidate) ∧
    (∀ a, p.a1 = some a → ∃ u, a.consolidate ord = .ok u ∧ p'.c1 = some u) ∧
    (∀ a, p.a2 = some a → ∃ s, a.consolidate ord = .ok s ∧ p'.c2 = some s) := by
  unfold Prob.consolidate at h
  simp only [bind_ok_iff] at h
  obtain ⟨c1, h1, c2, h2, h3⟩ := h
  simp only [Except.ok.injEq] at h3
  subst h3
  refine ⟨⟨rfl, rfl⟩, rfl, rfl, rfl, fun a ha => by simp [ha], fun a ha => ?_, fun a ha => ?_⟩
  · rw [ha] at h1
    cases hc : a.consolidate ord with
    | error e => simp [onArr, hc, lift, Except.map] at h1
    | ok u =>
      simp only [onArr, hc, lift, Except.map, Except.ok.injEq] at h1
      exact ⟨u, rfl, h1.symm⟩
  · rw [ha] at h2
    cases hc : a.consolidate ord with
    | error e => simp [onArr, hc, lift, Except.map] at h2
    | ok u =>
      simp only [onArr, hc, lift, Except.map, Except.ok.injEq] at h2
      exact ⟨u, rfl, h2.symm⟩

/-! ### the aggregate only grows -/

lemma loop2_frame {C : Cons R} : ∀ (n : ℕ) (stk agg0 agg : List (Ent R)) (bnd0 bnd : List (ℕ × R)),
    loop2 C n ⟨stk, agg0 ++ agg, bnd0 ++ bnd⟩ =
      (loop2 C n ⟨stk, agg, bnd⟩).map fun s => ⟨s.stack, agg0 ++ s.agg, bnd0 ++ s.bnd⟩ := by
  intro n
  induction n with
  | zero => intro stk agg0 agg bnd0 bnd; cases stk <;> simp [loop2]
  | succ n ih =>
    intro stk agg0 agg bnd0 bnd
    cases stk with
    | nil => simp [loop2]
    | cons e rest =>
      simp only [loop2]
      unfold step2
      split
      · exact ih ..
      · split
        · exact ih ..
        · split
          · exact ih ..
          · split
            · rw [List.append_assoc]; exact ih ..
            · rw [List.append_assoc]; exact ih ..

lemma loop1_frame {C : Cons R} : ∀ (n : ℕ) (stk agg0 agg : List (Ent1 R)),
    loop1 C n ⟨stk, agg0 ++ agg⟩ = (loop1 C n ⟨stk, agg⟩).map fun s => ⟨s.stack, agg0 ++ s.agg⟩ := by
  intro n
  induction n with
  | zero => intro stk agg0 agg; cases stk <;> simp [loop1]
  | succ n ih =>
    intro stk agg0 agg
    cases stk with
    | nil => simp [loop1]
    | cons e rest =>
      simp only [loop1]
      unfold step1
      split
      · exact ih ..
      · split
        · exact ih ..
        · rw [List.append_assoc]; exact ih ..

/-- The stack after the updates depends only on what was there. -/
lemma upd2_cells (k : κ) : ∀ (ls : List (Loc2 R)) (a a' : AF2 κ R),
    (a.cells k).getD [] = (a'.cells k).getD [] → ls ≠ [] →
    (ls.foldl (fun a l => a.update k l.tst l.trl l.mat) a).cells k =
      (ls.foldl (fun a l => a.update k l.tst l.trl l.mat) a').cells k := by
  intro ls
  induction ls with
  | nil => intro _ _ _ h; exact absurd rfl h
  | cons l ls ih =>
    intro a a' h _
    have h1 : (a.update k l.tst l.trl l.mat).cells k = (a'.update k l.tst l.trl l.mat).cells k := by
      simp [AF2.update, h]
    by_cases hl : ls = []
    · subst hl; simpa using h1
    · exact ih _ _ (by rw [h1]) hl

lemma upd1_cells (k : κ) : ∀ (ls : List (Loc1 R)) (a a' : AF1 κ R),
    (a.cells k).getD [] = (a'.cells k).getD [] → ls ≠ [] →
    (ls.foldl (fun a l => a.update k l.tst l.vec) a).cells k =
      (ls.foldl (fun a l => a.update k l.tst l.vec) a').cells k := by
  intro ls
  induction ls with
  | nil => intro _ _ _ h; exact absurd rfl h
  | cons l ls ih =>
    intro a a' h _
    have h1 : (a.update k l.tst l.vec).cells k = (a'.update k l.tst l.vec).cells k := by
      simp [AF1.update, h]
    by_cases hl : ls = []
    · subst hl; simpa using h1
    · exact ih _ _ (by rw [h1]) hl

lemma cell2_frame {C : Cons R} {keep : Bool} (keep' : Bool) {fuel : ℕ} {af af' b : AF2 κ R} {c : κ × List (Loc2 R)}
    {g : List (Ent R)} {gb : List (ℕ × R)}
    (hE : Empty2 af) (hEb : Empty2 b) (hg : af.agg = g ++ b.agg) (hgb : af.bnd = gb ++ b.bnd) (hne : c.2 ≠ [])
    (h : cell2 C keep fuel af c = .ok af') :
    ∃ b', cell2 C keep' fuel b c = .ok b' ∧ Empty2 b' ∧ Empty2 af' ∧ af'.agg = g ++ b'.agg ∧ af'.bnd = gb ++ b'.bnd := by
  have hE' : Empty2 af' := (cell2_ok hE h).choose_spec.choose_spec.2.2.2.1
  obtain ⟨u1, u2, -⟩ := fold_update2 c.1 c.2 af
  obtain ⟨v1, v2, -⟩ := fold_update2 c.1 c.2 b
  have hcell := upd2_cells c.1 c.2 af b (by rw [hE, hEb]) hne
  unfold cell2 at h
  obtain ⟨a2, h1, h2⟩ := (bind_ok_iff _ _ _).1 h
  unfold AF2.distribute at h1
  rw [hcell, u1, u2, hg, hgb] at h1
  cases hs : (c.2.foldl (fun a l => a.update c.1 l.tst l.trl l.mat) b).cells c.1 with
  | none => rw [hs] at h1; simp at h1
  | some stk =>
    rw [hs] at h1
    simp only at h1
    rw [loop2_frame] at h1
    cases hl : loop2 C fuel ⟨stk, b.agg, b.bnd⟩ with
    | none => rw [hl] at h1; simp at h1
    | some s =>
      rw [hl] at h1
      simp only [Option.map_some, Except.ok.injEq] at h1
      have hb : ∃ b', cell2 C keep' fuel b c = .ok b' ∧ b'.agg = s.agg ∧ b'.bnd = s.bnd := by
        unfold cell2
        simp only [bind, Except.bind]
        unfold AF2.distribute
        rw [hs, v1, v2]
        simp only [hl, Except.ok.injEq, exists_eq_left']
        cases keep' <;> exact ⟨rfl, rfl⟩
      obtain ⟨b', e, e1, e2⟩ := hb
      refine ⟨b', e, (cell2_ok hEb e).choose_spec.choose_spec.2.2.2.1, hE', ?_, ?_⟩
      · simp only [Except.ok.injEq] at h2
        rw [← h2, e1, ← h1]; cases keep <;> rfl
      · simp only [Except.ok.injEq] at h2
        rw [← h2, e2, ← h1]; cases keep <;> rfl

lemma fold2_frame {C : Cons R} {keep : Bool} (keep' : Bool) {fuel : ℕ} : ∀ {cs : List (κ × List (Loc2 R))} {af af' b : AF2 κ R}
    {g : List (Ent R)} {gb : List (ℕ × R)},
    Empty2 af → Empty2 b → af.agg = g ++ b.agg → af.bnd = gb ++ b.bnd → (∀ c ∈ cs, c.2 ≠ []) →
    cs.foldlM (cell2 C keep fuel) af = .ok af' →
    ∃ b', cs.foldlM (cell2 C keep' fuel) b = .ok b' ∧ Empty2 b' ∧ Empty2 af' ∧ af'.agg = g ++ b'.agg ∧ af'.bnd = gb ++ b'.bnd := by
  intro cs
  induction cs with
  | nil =>
    intro af af' b g gb hE hEb hg hgb _ h
    simp only [List.foldlM_nil, pure, Except.pure, Except.ok.injEq] at h
    subst h
    exact ⟨b, rfl, hEb, hE, hg, hgb⟩
  | cons c cs ih =>
    intro af af' b g gb hE hEb hg hgb hne h
    simp only [List.foldlM_cons, bind_ok_iff] at h
    obtain ⟨a1, h1, h2⟩ := h
    obtain ⟨b1, e1, e2, e3, e4, e5⟩ := cell2_frame keep' hE hEb hg hgb (hne c (by simp)) h1
    obtain ⟨b2, f1, f2⟩ := ih e3 e2 e4 e5 (fun c hc => hne c (by simp [hc])) h2
    exact ⟨b2, by simp only [List.foldlM_cons, bind_ok_iff]; exact ⟨b1, e1, f1⟩, f2⟩

lemma cell1_frame {C : Cons R} {keep : Bool} (keep' : Bool) {fuel : ℕ} {af af' b : AF1 κ R} {c : κ × List (Loc1 R)}
    {g : List (Ent1 R)}
    (hE : Empty1 af) (hEb : Empty1 b) (hg : af.agg = g ++ b.agg) (hne : c.2 ≠ [])
    (h : cell1 C keep fuel af c = .ok af') :
    ∃ b', cell1 C keep' fuel b c = .ok b' ∧ Empty1 b' ∧ Empty1 af' ∧ af'.agg = g ++ b'.agg := by
  have hE' : Empty1 af' := (cell1_ok hE h).choose_spec.choose_spec.2.2.1
  obtain ⟨u1, -⟩ := fold_update1 c.1 c.2 af
  obtain ⟨v1, -⟩ := fold_update1 c.1 c.2 b
  have hcell := upd1_cells c.1 c.2 af b (by rw [hE, hEb]) hne
  unfold cell1 at h
  obtain ⟨a2, h1, h2⟩ := (bind_ok_iff _ _ _).1 h
  unfold AF1.distribute at h1
  rw [hcell, u1, hg] at h1
  cases hs : (c.2.foldl (fun a l => a.update c.1 l.tst l.vec) b).cells c.1 with
  | none => rw [hs] at h1; simp at h1
  | some stk =>
    rw [hs] at h1
    simp only at h1
    rw [loop1_frame] at h1
    cases hl : loop1 C fuel ⟨stk, b.agg⟩ with
    | none => rw [hl] at h1; simp at h1
    | some s =>
      rw [hl] at h1
      simp only [Option.map_some, Except.ok.injEq] at h1
      have hb : ∃ b', cell1 C keep' fuel b c = .ok b' ∧ b'.agg = s.agg := by
        unfold cell1
        simp only [bind, Except.bind]
        unfold AF1.distribute
        rw [hs, v1]
        simp only [hl, Except.ok.injEq, exists_eq_left']
        cases keep' <;> rfl
      obtain ⟨b', e, e1⟩ := hb
      refine ⟨b', e, (cell1_ok hEb e).choose_spec.choose_spec.2.2.1, hE', ?_⟩
      simp only [Except.ok.injEq] at h2
      rw [← h2, e1, ← h1]; cases keep <;> rfl

lemma fold1_frame {C : Cons R} {keep : Bool} (keep' : Bool) {fuel : ℕ} : ∀ {cs : List (κ × List (Loc1 R))} {af af' b : AF1 κ R}
    {g : List (Ent1 R)},
    Empty1 af → Empty1 b → af.agg = g ++ b.agg → (∀ c ∈ cs, c.2 ≠ []) →
    cs.foldlM (cell1 C keep fuel) af = .ok af' →
    ∃ b', cs.foldlM (cell1 C keep' fuel) b = .ok b' ∧ Empty1 b' ∧ Empty1 af' ∧ af'.agg = g ++ b'.agg := by
  intro cs
  induction cs with
  | nil =>
    intro af af' b g hE hEb hg _ h
    simp only [List.foldlM_nil, pure, Except.pure, Except.ok.injEq] at h
    subst h
    exact ⟨b, rfl, hEb, hE, hg⟩
  | cons c cs ih =>
    intro af af' b g hE hEb hg hne h
    simp only [List.foldlM_cons, bind_ok_iff] at h
    obtain ⟨a1, h1, h2⟩ := h
    obtain ⟨b1, e1, e2, e3, e4⟩ := cell1_frame keep' hE hEb hg (hne c (by simp)) h1
    obtain ⟨b2, f1, f2⟩ := ih e3 e2 e4 (fun c hc => hne c (by simp [hc])) h2
    exact ⟨b2, by simp only [List.foldlM_cons, bind_ok_iff]; exact ⟨b1, e1, f1⟩, f2⟩

/-! ### constants -/

/-- All cellwise lists are empty. -/
def Empty0 (a : AF0 κ R) : Prop := ∀ k, (a.cells k).getD [] = []

lemma upd0 (k : κ) : ∀ (ls : List (List R)) (a : AF0 κ R),
    (ls.foldl (fun a l => a.update k l) a).agg = a.agg ∧
    (∀ k', k' ≠ k → (ls.foldl (fun a l => a.update k l) a).cells k' = a.cells k') ∧
    ((ls.foldl (fun a l => a.update k l) a).cells k).getD [] = (a.cells k).getD [] ++ ls.flatten := by
  intro ls
  induction ls with
  | nil => intro a; simp
  | cons l ls ih =>
    intro a
    obtain ⟨h1, h2, h3⟩ := ih (a.update k l)
    refine ⟨by rw [List.foldl_cons, h1]; rfl, ?_, ?_⟩
    · intro k' hk'
      rw [List.foldl_cons, h2 k' hk']; simp [AF0.update, hk']
    · rw [List.foldl_cons, h3]; simp [AF0.update]

lemma cells0_ok : ∀ {cs : List (κ × List (List R))} {a a' : AF0 κ R}, Empty0 a →
    cs.foldlM (cell0 false) a = .ok a' →
    Empty0 a' ∧ a'.agg.sum = a.agg.sum + (cs.map fun c => (c.2.map List.sum).sum).sum := by
  intro cs
  induction cs with
  | nil =>
    intro a a' hE h
    simp only [List.foldlM_nil, pure, Except.pure, Except.ok.injEq] at h
    subst h
    exact ⟨hE, by simp⟩
  | cons c cs ih =>
    intro a a' hE h
    simp only [List.foldlM_cons, bind_ok_iff] at h
    obtain ⟨a1, h1, h2⟩ := h
    obtain ⟨u1, u2, u3⟩ := upd0 c.1 c.2 a
    unfold cell0 at h1
    obtain ⟨a2, h3, h4⟩ := (bind_ok_iff _ _ _).1 h1
    unfold AF0.distribute at h3
    cases hs : (c.2.foldl (fun a l => a.update c.1 l) a).cells c.1 with
    | none => rw [hs] at h3; simp at h3
    | some vs =>
      rw [hs] at h3 u3
      simp only [Except.ok.injEq] at h3 h4
      rw [hE, Option.getD_some, List.nil_append] at u3
      subst h3
      have hE1 : Empty0 a1 := by
        intro k
        rw [← h4]
        by_cases hk : k = c.1
        · subst hk; simp [AF0.clear]
        · simp only [Bool.false_eq_true, if_false, AF0.clear, Function.update_of_ne hk]
          rw [u2 k hk, hE]
      obtain ⟨e1, e2⟩ := ih hE1 h2
      refine ⟨e1, ?_⟩
      rw [e2, ← h4]
      simp [AF0.clear, u1, u3, List.sum_flatten, add_assoc]

end Verif.Hist
