import Verif.Asm.Model
import Verif.Asm.Spec
import Mathlib.Algebra.BigOperators.Fin
import Mathlib.Algebra.BigOperators.Ring.List
import Mathlib.Algebra.Order.BigOperators.Group.List
import Mathlib.Tactic.Ring
import Mathlib.Tactic.Linarith
import Mathlib.Logic.Relation
import Mathlib.Order.WellFounded
import Mathlib.Logic.Equiv.Fin.Basic
import Mathlib.Data.List.FinRange

/-! # Lemmas about the loops of `distribute` -/

set_option linter.unusedSectionVars false

namespace Verif.Asm

variable {R : Type} [CommRing R] {κ : Type} [DecidableEq κ]

/-- The bilinear form given by a list of entries. -/
def val2 (v x : ℕ → R) (es : List (Ent R)) : R := (es.map fun e => v e.row * e.val * x e.col).sum
/-- The linear form given by a list of entries. -/
def val1 (v : ℕ → R) (es : List (Ent1 R)) : R := (es.map fun e => v e.row * e.val).sum
/-- The linear form given by the Dirichlet correction. -/
def valb (v : ℕ → R) (bs : List (ℕ × R)) : R := (bs.map fun p => v p.1 * p.2).sum

@[simp] lemma val2_nil (v x : ℕ → R) : val2 v x [] = 0 := rfl
@[simp] lemma val2_cons (v x : ℕ → R) (e es) :
    val2 v x (e :: es) = v e.row * e.val * x e.col + val2 v x es := by simp [val2]
@[simp] lemma val2_append (v x : ℕ → R) (es fs) :
    val2 v x (es ++ fs) = val2 v x es + val2 v x fs := by simp [val2]
@[simp] lemma val2_reverse (v x : ℕ → R) (es) : val2 v x es.reverse = val2 v x es := by
  simp [val2, List.sum_reverse]
@[simp] lemma val1_nil (v : ℕ → R) : val1 v [] = 0 := rfl
@[simp] lemma val1_cons (v : ℕ → R) (e es) :
    val1 v (e :: es) = v e.row * e.val + val1 v es := by simp [val1]
@[simp] lemma val1_append (v : ℕ → R) (es fs) :
    val1 v (es ++ fs) = val1 v es + val1 v fs := by simp [val1]
@[simp] lemma val1_reverse (v : ℕ → R) (es) : val1 v es.reverse = val1 v es := by
  simp [val1, List.sum_reverse]
@[simp] lemma valb_nil (v : ℕ → R) : valb v [] = 0 := rfl
@[simp] lemma valb_append (v : ℕ → R) (es fs) :
    valb v (es ++ fs) = valb v es + valb v fs := by simp [valb]
@[simp] lemma valb_single (v : ℕ → R) (p) : valb v [p] = v p.1 * p.2 := by simp [valb]

lemma val2_rowpush (v x : ℕ → R) (ps : List (ℕ × R)) (c : ℕ) (a : R) :
    val2 v x (ps.map fun p => (⟨p.1, c, a * p.2⟩ : Ent R))
      = (ps.map fun p => p.2 * v p.1).sum * a * x c := by
  induction ps with
  | nil => simp
  | cons p ps ih => simp [ih]; ring

lemma val2_colpush (v x : ℕ → R) (ps : List (ℕ × R)) (r : ℕ) (a : R) :
    val2 v x (ps.map fun p => (⟨r, p.1, a * p.2⟩ : Ent R))
      = v r * a * (ps.map fun p => p.2 * x p.1).sum := by
  induction ps with
  | nil => simp
  | cons p ps ih => simp [ih]; ring

lemma val1_push (v : ℕ → R) (ps : List (ℕ × R)) (a : R) :
    val1 v (ps.map fun p => (⟨p.1, p.2 * a⟩ : Ent1 R))
      = (ps.map fun p => p.2 * v p.1).sum * a := by
  induction ps with
  | nil => simp
  | cons p ps ih => simp [ih]; ring

lemma step2_val {C : Cons R} {v x : ℕ → R} {t : R} (hv : Test C.hng C.dir v)
    (hx : Conforms C.hng x) (hxd : OnDirichlet C.hng C.dir t x) (e rest agg bnd) :
    val2 v x (step2 C e rest agg bnd).stack + val2 v x (step2 C e rest agg bnd).agg
        + t * valb v (step2 C e rest agg bnd).bnd
      = v e.row * e.val * x e.col + val2 v x rest + val2 v x agg + t * valb v bnd := by
  unfold step2
  split
  · rename_i h hh
    rw [val2_append, val2_reverse, val2_rowpush, hv.1 _ _ hh, combo]
  · rename_i hr
    split
    · rename_i g hg
      rw [hv.2 _ _ hr hg]; ring
    · split
      · rename_i h hh
        simp only
        rw [val2_append, val2_reverse, val2_colpush, hx _ _ hh, combo]
      · rename_i hc
        split
        · rename_i g hg
          simp only [valb_append, valb_single]
          rw [hxd _ _ hc hg]; ring
        · simp only [val2_append, val2_cons, val2_nil]; ring

lemma loop2_stack {C : Cons R} : ∀ (n : ℕ) (s s' : St2 R), loop2 C n s = some s' → s'.stack = []
  | _, ⟨[], _, _⟩, s', h => by
    rw [loop2] at h; cases h; rfl
  | 0, ⟨_ :: _, _, _⟩, s', h => by simp [loop2] at h
  | n + 1, ⟨e :: rest, agg, bnd⟩, s', h => loop2_stack n _ s' (by rw [loop2] at h; exact h)

/-- An invariant of the loop body is an invariant of the loop. -/
lemma loop2_inv {C : Cons R} (I : St2 R → Prop)
    (hI : ∀ e rest agg bnd, I ⟨e :: rest, agg, bnd⟩ → I (step2 C e rest agg bnd)) :
    ∀ (n : ℕ) (s s' : St2 R), loop2 C n s = some s' → I s → I s'
  | _, ⟨[], _, _⟩, s', h, hs => by rw [loop2] at h; cases h; exact hs
  | 0, ⟨_ :: _, _, _⟩, s', h, _ => by simp [loop2] at h
  | n + 1, ⟨e :: rest, agg, bnd⟩, s', h, hs =>
    loop2_inv I hI n _ s' (by rw [loop2] at h; exact h) (hI _ _ _ _ hs)

lemma loop2_val {C : Cons R} {v x : ℕ → R} {t : R} (hv : Test C.hng C.dir v)
    (hx : Conforms C.hng x) (hxd : OnDirichlet C.hng C.dir t x) {n : ℕ} {s s' : St2 R}
    (h : loop2 C n s = some s') :
    val2 v x s'.agg + t * valb v s'.bnd = val2 v x s.stack + val2 v x s.agg + t * valb v s.bnd := by
  have := loop2_inv (C := C)
    (fun q => val2 v x q.stack + val2 v x q.agg + t * valb v q.bnd
      = val2 v x s.stack + val2 v x s.agg + t * valb v s.bnd)
    (by
      intro e rest agg bnd hq
      rw [step2_val hv hx hxd, ← hq]; simp) n s s' h rfl
  rw [loop2_stack _ _ _ h] at this
  rw [← this]; simp

/-! ### linear forms -/

lemma step1_val {C : Cons R} {v : ℕ → R} (hv : Test C.hng C.dir v) (e rest agg) :
    val1 v (step1 C e rest agg).stack + val1 v (step1 C e rest agg).agg
      = v e.row * e.val + val1 v rest + val1 v agg := by
  unfold step1
  split
  · rename_i h hh
    rw [val1_append, val1_reverse, val1_push, hv.1 _ _ hh, combo]
  · rename_i hr
    split
    · rename_i g hg
      rw [hv.2 _ _ hr hg]; ring
    · simp only [val1_append, val1_cons, val1_nil]; ring

lemma loop1_stack {C : Cons R} : ∀ (n : ℕ) (s s' : St1 R), loop1 C n s = some s' → s'.stack = []
  | _, ⟨[], _⟩, s', h => by rw [loop1] at h; cases h; rfl
  | 0, ⟨_ :: _, _⟩, s', h => by simp [loop1] at h
  | n + 1, ⟨e :: rest, agg⟩, s', h => loop1_stack n _ s' (by rw [loop1] at h; exact h)

lemma loop1_inv {C : Cons R} (I : St1 R → Prop)
    (hI : ∀ e rest agg, I ⟨e :: rest, agg⟩ → I (step1 C e rest agg)) :
    ∀ (n : ℕ) (s s' : St1 R), loop1 C n s = some s' → I s → I s'
  | _, ⟨[], _⟩, s', h, hs => by rw [loop1] at h; cases h; exact hs
  | 0, ⟨_ :: _, _⟩, s', h, _ => by simp [loop1] at h
  | n + 1, ⟨e :: rest, agg⟩, s', h, hs =>
    loop1_inv I hI n _ s' (by rw [loop1] at h; exact h) (hI _ _ _ hs)

lemma loop1_val {C : Cons R} {v : ℕ → R} (hv : Test C.hng C.dir v) {n : ℕ} {s s' : St1 R}
    (h : loop1 C n s = some s') :
    val1 v s'.agg = val1 v s.stack + val1 v s.agg := by
  have := loop1_inv (C := C)
    (fun q => val1 v q.stack + val1 v q.agg = val1 v s.stack + val1 v s.agg)
    (by
      intro e rest agg hq
      rw [step1_val hv, ← hq]; simp) n s s' h rfl
  rw [loop1_stack _ _ _ h] at this
  rw [← this]; simp

/-! ### recursion along the rank -/

lemma exists_fix {α : Type} [Inhabited α] (rank : ℕ → ℕ) (F : (ℕ → α) → ℕ → α)
    (hF : ∀ f g r, (∀ s, rank s < rank r → f s = g s) → F f r = F g r) :
    ∃ f : ℕ → α, ∀ r, f r = F f r := by
  classical
  let wf := (measure rank).wf
  let G : (r : ℕ) → ((s : ℕ) → rank s < rank r → α) → α := fun r rec =>
    F (fun s => if h : rank s < rank r then rec s h else default) r
  refine ⟨wf.fix G, fun r => ?_⟩
  rw [wf.fix_eq]
  apply hF
  intro s hs
  simp [hs]

lemma combo_congr {S : List ℕ × List R} {f g : ℕ → R} (h : ∀ s ∈ S.1, f s = g s) :
    combo S f = combo S g := by
  unfold combo
  congr 1
  apply List.map_congr_left
  intro p hp
  rw [h _ (List.of_mem_zip (a := p.1) (b := p.2) hp).1]

/-- Values on the free dofs and a multiple of the Dirichlet values extend to a conforming function. -/
lemma exists_conforming {hng : ℕ → Option (List ℕ × List R)} {dir : ℕ → Option R}
    (hac : Acyclic hng) (a : ℕ → R) (t : R) :
    ∃ v, Conforms hng v ∧ OnDirichlet hng dir t v ∧ ∀ f, Free hng dir f → v f = a f := by
  obtain ⟨rank, hr⟩ := hac
  haveI : Inhabited R := ⟨0⟩
  obtain ⟨v, hv⟩ := exists_fix (α := R) rank
    (fun f r => match hng r with
      | some S => combo S f
      | none => match dir r with
        | some g => t * g
        | none => a r)
    (by
      intro f g r h
      split
      · rename_i S hS
        exact combo_congr fun s hs => h s (hr _ _ hS s hs)
      · rfl)
  refine ⟨v, ?_, ?_, ?_⟩
  · intro h S hS
    have := hv h
    rw [hS] at this; exact this
  · intro d g h0 hg
    have := hv d
    simp only [h0, hg] at this; exact this
  · intro f hf
    have := hv f
    simp only [hf.1, hf.2] at this; exact this

/-- Two conforming functions that agree on free and Dirichlet dofs are equal. -/
lemma conforming_unique {hng : ℕ → Option (List ℕ × List R)} {dir : ℕ → Option R}
    (hac : Acyclic hng) {v w : ℕ → R} (hv : Conforms hng v) (hw : Conforms hng w) {t : R}
    (hv' : OnDirichlet hng dir t v) (hw' : OnDirichlet hng dir t w)
    (h : ∀ f, Free hng dir f → v f = w f) : v = w := by
  obtain ⟨rank, hr⟩ := hac
  have : ∀ n r, rank r = n → v r = w r := by
    intro n
    induction n using Nat.strong_induction_on with
    | _ n ih =>
      intro r hn
      cases hh : hng r with
      | some S =>
        rw [hv _ _ hh, hw _ _ hh]
        exact combo_congr fun s hs => ih _ (hn ▸ hr _ _ hh s hs) s rfl
      | none =>
        cases hd : dir r with
        | some g => rw [hv' _ _ hh hd, hw' _ _ hh hd]
        | none => exact h r ⟨hh, hd⟩
  funext r
  exact this _ r rfl

lemma exists_weight {hng : ℕ → Option (List ℕ × List R)} (hac : Acyclic hng) :
    ∃ W : ℕ → ℕ, (∀ r, 1 ≤ W r) ∧
      ∀ h S, hng h = some S → W h = 1 + ((S.1.zip S.2).map fun p => W p.1).sum := by
  obtain ⟨rank, hr⟩ := hac
  obtain ⟨W, hW⟩ := exists_fix (α := ℕ) rank
    (fun f r => match hng r with
      | some S => 1 + ((S.1.zip S.2).map fun p => f p.1).sum
      | none => 1)
    (by
      intro f g r h
      split
      · rename_i S hS
        congr 2
        apply List.map_congr_left
        intro p hp
        exact h _ (hr _ _ hS _ (List.of_mem_zip (a := p.1) (b := p.2) hp).1)
      · rfl)
  refine ⟨W, fun r => ?_, fun h S hS => ?_⟩
  · rw [hW r]; split <;> omega
  · have := hW h
    rw [hS] at this; exact this

/-! ### termination -/

lemma sum_rowpush (W : ℕ → ℕ) (ps : List (ℕ × R)) (c : ℕ) (a : R) :
    ((ps.map fun p => (⟨p.1, c, a * p.2⟩ : Ent R)).map fun e => W e.row * W e.col).sum
      = (ps.map fun p => W p.1).sum * W c := by
  induction ps with
  | nil => simp
  | cons p ps ih => simp only [List.map_cons, List.sum_cons, ih]; ring

lemma sum_colpush (W : ℕ → ℕ) (ps : List (ℕ × R)) (r : ℕ) (a : R) :
    ((ps.map fun p => (⟨r, p.1, a * p.2⟩ : Ent R)).map fun e => W e.row * W e.col).sum
      = W r * (ps.map fun p => W p.1).sum := by
  induction ps with
  | nil => simp
  | cons p ps ih => simp only [List.map_cons, List.sum_cons, ih]; ring

lemma step2_weight {C : Cons R} {W : ℕ → ℕ} (h1 : ∀ r, 1 ≤ W r)
    (h2 : ∀ h S, C.hng h = some S → W h = 1 + ((S.1.zip S.2).map fun p => W p.1).sum)
    (e rest agg bnd) :
    ((step2 C e rest agg bnd).stack.map fun e => W e.row * W e.col).sum + 1
      ≤ W e.row * W e.col + (rest.map fun e => W e.row * W e.col).sum := by
  have hp : 1 ≤ W e.row * W e.col := Nat.mul_pos (h1 _) (h1 _)
  unfold step2
  split
  · rename_i h hh
    simp only [List.map_append, List.map_reverse, List.sum_append, List.sum_reverse]
    rw [sum_rowpush, h2 _ _ hh]
    have := h1 e.col
    nlinarith
  · split
    · simp only; omega
    · split
      · rename_i h hh
        simp only [List.map_append, List.map_reverse, List.sum_append, List.sum_reverse]
        rw [sum_colpush, h2 _ _ hh]
        have := h1 e.row
        nlinarith
      · split <;> (simp only; omega)

lemma loop2_terminates {C : Cons R} {W : ℕ → ℕ} (h1 : ∀ r, 1 ≤ W r)
    (h2 : ∀ h S, C.hng h = some S → W h = 1 + ((S.1.zip S.2).map fun p => W p.1).sum) :
    ∀ (n : ℕ) (s : St2 R), (s.stack.map fun e => W e.row * W e.col).sum ≤ n →
      ∃ s', loop2 C n s = some s'
  | n, ⟨[], agg, bnd⟩, _ => by cases n <;> exact ⟨_, rfl⟩
  | 0, ⟨e :: rest, agg, bnd⟩, h => by
    have := Nat.mul_pos (h1 e.row) (h1 e.col)
    simp only [List.map_cons, List.sum_cons] at h; omega
  | n + 1, ⟨e :: rest, agg, bnd⟩, h => by
    have := step2_weight h1 h2 e rest agg bnd
    simp only [List.map_cons, List.sum_cons] at h
    exact loop2_terminates h1 h2 n (step2 C e rest agg bnd) (by omega)

lemma loop2_mono {C : Cons R} : ∀ (n m : ℕ) (s s' : St2 R), n ≤ m → loop2 C n s = some s' →
    loop2 C m s = some s'
  | n, m, ⟨[], agg, bnd⟩, s', _, h => by
    rw [loop2] at h ⊢; exact h
  | 0, m, ⟨e :: rest, agg, bnd⟩, s', _, h => by simp [loop2] at h
  | n + 1, 0, ⟨e :: rest, agg, bnd⟩, s', hm, h => by omega
  | n + 1, m + 1, ⟨e :: rest, agg, bnd⟩, s', hm, h => by
    rw [loop2] at h ⊢
    exact loop2_mono n m _ s' (by omega) h

lemma sum_push1 (W : ℕ → ℕ) (ps : List (ℕ × R)) (a : R) :
    ((ps.map fun p => (⟨p.1, p.2 * a⟩ : Ent1 R)).map fun e => W e.row).sum
      = (ps.map fun p => W p.1).sum := by
  induction ps with
  | nil => simp
  | cons p ps ih => simp only [List.map_cons, List.sum_cons, ih]

lemma loop1_terminates {C : Cons R} {W : ℕ → ℕ} (h1 : ∀ r, 1 ≤ W r)
    (h2 : ∀ h S, C.hng h = some S → W h = 1 + ((S.1.zip S.2).map fun p => W p.1).sum) :
    ∀ (n : ℕ) (s : St1 R), (s.stack.map fun e => W e.row).sum ≤ n → ∃ s', loop1 C n s = some s'
  | n, ⟨[], agg⟩, _ => by cases n <;> exact ⟨_, rfl⟩
  | 0, ⟨e :: rest, agg⟩, h => by
    have := h1 e.row
    simp only [List.map_cons, List.sum_cons] at h; omega
  | n + 1, ⟨e :: rest, agg⟩, h => by
    have : ((step1 C e rest agg).stack.map fun e => W e.row).sum + 1
        ≤ W e.row + (rest.map fun e => W e.row).sum := by
      have := h1 e.row
      unfold step1
      split
      · rename_i h hh
        simp only [List.map_append, List.map_reverse, List.sum_append, List.sum_reverse]
        rw [sum_push1, h2 _ _ hh]; omega
      · split <;> (simp only; omega)
    simp only [List.map_cons, List.sum_cons] at h
    exact loop1_terminates h1 h2 n (step1 C e rest agg) (by omega)

lemma loop1_mono {C : Cons R} : ∀ (n m : ℕ) (s s' : St1 R), n ≤ m → loop1 C n s = some s' →
    loop1 C m s = some s'
  | n, m, ⟨[], agg⟩, s', _, h => by
    rw [loop1] at h ⊢; exact h
  | 0, m, ⟨e :: rest, agg⟩, s', _, h => by simp [loop1] at h
  | n + 1, 0, ⟨e :: rest, agg⟩, s', hm, h => by omega
  | n + 1, m + 1, ⟨e :: rest, agg⟩, s', hm, h => by
    rw [loop1] at h ⊢
    exact loop1_mono n m _ s' (by omega) h

/-! ### which dofs occur -/

/-- The free dofs reached from a pair. -/
def FreePair (C : Cons R) (r c f f' : ℕ) : Prop :=
  Free C.hng C.dir f ∧ Free C.hng C.dir f' ∧ Reach C.hng r f ∧ Reach C.hng c f'

/-- A free row and a Dirichlet column reached from a pair. -/
def BndPair (C : Cons R) (r c f : ℕ) : Prop :=
  Free C.hng C.dir f ∧ Reach C.hng r f ∧ ∃ d, C.hng d = none ∧ (C.dir d).isSome ∧ Reach C.hng c d

lemma reach_none {hng : ℕ → Option (List ℕ × List R)} {r f : ℕ} (h : hng r = none) :
    Reach hng r f ↔ f = r := by
  constructor
  · intro hr
    rcases Relation.ReflTransGen.cases_head hr with h1 | ⟨c, ⟨S, hS, _⟩, _⟩
    · exact h1.symm
    · rw [h] at hS; cases hS
  · rintro rfl; exact Relation.ReflTransGen.refl

lemma reach_some {hng : ℕ → Option (List ℕ × List R)} {r f : ℕ} {S} (h : hng r = some S)
    (hf : hng f = none) : Reach hng r f ↔ ∃ p ∈ S.1.zip S.2, Reach hng p.1 f := by
  constructor
  · intro hr
    rcases Relation.ReflTransGen.cases_head hr with h1 | ⟨c, ⟨S', hS, k, hk⟩, h2⟩
    · subst h1; rw [h] at hf; cases hf
    · rw [h] at hS; cases hS
      exact ⟨_, hk, h2⟩
  · rintro ⟨p, hp, h2⟩
    exact Relation.ReflTransGen.head ⟨S, h, p.2, hp⟩ h2

/-- The pairs of dofs an entry list leads to in the aggregate. -/
def Pairs (C : Cons R) (st : List (Ent R)) (f f' : ℕ) : Prop :=
  ∃ e ∈ st, FreePair C e.row e.col f f'
/-- The rows an entry list leads to in the Dirichlet correction. -/
def BRows (C : Cons R) (st : List (Ent R)) (f : ℕ) : Prop := ∃ e ∈ st, BndPair C e.row e.col f

lemma pairs_cons (C : Cons R) (e st f f') :
    Pairs C (e :: st) f f' ↔ FreePair C e.row e.col f f' ∨ Pairs C st f f' := by
  simp [Pairs]
lemma pairs_append (C : Cons R) (st st' f f') :
    Pairs C (st ++ st') f f' ↔ Pairs C st f f' ∨ Pairs C st' f f' := by
  simp [Pairs, or_and_right, exists_or]
lemma brows_cons (C : Cons R) (e st f) :
    BRows C (e :: st) f ↔ BndPair C e.row e.col f ∨ BRows C st f := by
  simp [BRows]
lemma brows_append (C : Cons R) (st st' f) :
    BRows C (st ++ st') f ↔ BRows C st f ∨ BRows C st' f := by
  simp [BRows, or_and_right, exists_or]

lemma step2_pairs (C : Cons R) (e rest agg bnd f f') :
    ((∃ a ∈ (step2 C e rest agg bnd).agg, a.row = f ∧ a.col = f')
        ∨ Pairs C (step2 C e rest agg bnd).stack f f')
      ↔ ((∃ a ∈ agg, a.row = f ∧ a.col = f') ∨ Pairs C (e :: rest) f f') := by
  rw [pairs_cons]
  unfold step2
  split
  · rename_i h hh
    simp only [pairs_append]
    have : Pairs C ((h.1.zip h.2).map fun p => (⟨p.1, e.col, e.val * p.2⟩ : Ent R)).reverse f f'
        ↔ FreePair C e.row e.col f f' := by
      simp only [Pairs, List.mem_reverse, List.mem_map, FreePair]
      constructor
      · rintro ⟨_, ⟨p, hp, rfl⟩, h1, h2, h3, h4⟩
        exact ⟨h1, h2, (reach_some hh h1.1).2 ⟨p, hp, h3⟩, h4⟩
      · rintro ⟨h1, h2, h3, h4⟩
        obtain ⟨p, hp, h3⟩ := (reach_some hh h1.1).1 h3
        exact ⟨_, ⟨p, hp, rfl⟩, h1, h2, h3, h4⟩
    rw [this]
  · rename_i hr
    split
    · rename_i g hg
      have : ¬ FreePair C e.row e.col f f' := by
        rintro ⟨h1, _, h3, _⟩
        rw [reach_none hr] at h3; subst h3
        rw [h1.2] at hg; cases hg
      simp [this]
    · rename_i hd
      split
      · rename_i h hh
        simp only [pairs_append]
        have : Pairs C ((h.1.zip h.2).map fun p => (⟨e.row, p.1, e.val * p.2⟩ : Ent R)).reverse f f'
            ↔ FreePair C e.row e.col f f' := by
          simp only [Pairs, List.mem_reverse, List.mem_map, FreePair]
          constructor
          · rintro ⟨_, ⟨p, hp, rfl⟩, h1, h2, h3, h4⟩
            exact ⟨h1, h2, h3, (reach_some hh h2.1).2 ⟨p, hp, h4⟩⟩
          · rintro ⟨h1, h2, h3, h4⟩
            obtain ⟨p, hp, h4⟩ := (reach_some hh h2.1).1 h4
            exact ⟨_, ⟨p, hp, rfl⟩, h1, h2, h3, h4⟩
        rw [this]
      · rename_i hc
        split
        · rename_i g hg
          have : ¬ FreePair C e.row e.col f f' := by
            rintro ⟨_, h2, _, h4⟩
            rw [reach_none hc] at h4; subst h4
            rw [h2.2] at hg; cases hg
          simp [this]
        · rename_i hcd
          have : FreePair C e.row e.col f f' ↔ e.row = f ∧ e.col = f' := by
            constructor
            · rintro ⟨_, _, h3, h4⟩
              rw [reach_none hr] at h3; rw [reach_none hc] at h4
              exact ⟨h3.symm, h4.symm⟩
            · rintro ⟨rfl, rfl⟩
              exact ⟨⟨hr, hd⟩, ⟨hc, hcd⟩, .refl, .refl⟩
          rw [this]
          simp only [List.mem_append, List.mem_singleton]
          constructor
          · rintro (⟨a, ha | rfl, h⟩ | h)
            · exact .inl ⟨a, ha, h⟩
            · exact .inr (.inl h)
            · exact .inr (.inr h)
          · rintro (⟨a, ha, h⟩ | h | h)
            · exact .inl ⟨a, .inl ha, h⟩
            · exact .inl ⟨e, .inr rfl, h⟩
            · exact .inr h

lemma step2_brows (C : Cons R) (e rest agg bnd f) :
    (f ∈ (step2 C e rest agg bnd).bnd.map (·.1) ∨ BRows C (step2 C e rest agg bnd).stack f)
      ↔ (f ∈ bnd.map (·.1) ∨ BRows C (e :: rest) f) := by
  rw [brows_cons]
  unfold step2
  split
  · rename_i h hh
    simp only [brows_append]
    have : BRows C ((h.1.zip h.2).map fun p => (⟨p.1, e.col, e.val * p.2⟩ : Ent R)).reverse f
        ↔ BndPair C e.row e.col f := by
      simp only [BRows, List.mem_reverse, List.mem_map, BndPair]
      constructor
      · rintro ⟨_, ⟨p, hp, rfl⟩, h1, h3, h4⟩
        exact ⟨h1, (reach_some hh h1.1).2 ⟨p, hp, h3⟩, h4⟩
      · rintro ⟨h1, h3, h4⟩
        obtain ⟨p, hp, h3⟩ := (reach_some hh h1.1).1 h3
        exact ⟨_, ⟨p, hp, rfl⟩, h1, h3, h4⟩
    rw [this]
  · rename_i hr
    split
    · rename_i g hg
      have : ¬ BndPair C e.row e.col f := by
        rintro ⟨h1, h3, _⟩
        rw [reach_none hr] at h3; subst h3
        rw [h1.2] at hg; cases hg
      simp [this]
    · rename_i hd
      split
      · rename_i h hh
        simp only [brows_append]
        have : BRows C ((h.1.zip h.2).map fun p => (⟨e.row, p.1, e.val * p.2⟩ : Ent R)).reverse f
            ↔ BndPair C e.row e.col f := by
          simp only [BRows, List.mem_reverse, List.mem_map, BndPair]
          constructor
          · rintro ⟨_, ⟨p, hp, rfl⟩, h1, h3, d, h5, h6, h4⟩
            exact ⟨h1, h3, d, h5, h6, (reach_some hh h5).2 ⟨p, hp, h4⟩⟩
          · rintro ⟨h1, h3, d, h5, h6, h4⟩
            obtain ⟨p, hp, h4⟩ := (reach_some hh h5).1 h4
            exact ⟨_, ⟨p, hp, rfl⟩, h1, h3, d, h5, h6, h4⟩
        rw [this]
      · rename_i hc
        split
        · rename_i g hg
          have : BndPair C e.row e.col f ↔ f = e.row := by
            constructor
            · rintro ⟨_, h3, _⟩
              exact (reach_none hr).1 h3
            · rintro rfl
              exact ⟨⟨hr, hd⟩, .refl, e.col, hc, by simp [hg], .refl⟩
          rw [this]
          simp [or_assoc]
        · rename_i hcd
          have : ¬ BndPair C e.row e.col f := by
            rintro ⟨_, _, d, h5, h6, h4⟩
            rw [reach_none hc] at h4; subst h4
            rw [hcd] at h6; cases h6
          simp [this]

lemma loop2_pairs {C : Cons R} {n : ℕ} {s s' : St2 R} (h : loop2 C n s = some s') (f f') :
    (∃ a ∈ s'.agg, a.row = f ∧ a.col = f')
      ↔ ((∃ a ∈ s.agg, a.row = f ∧ a.col = f') ∨ Pairs C s.stack f f') := by
  have := loop2_inv (C := C)
    (fun q => ((∃ a ∈ q.agg, a.row = f ∧ a.col = f') ∨ Pairs C q.stack f f')
      ↔ ((∃ a ∈ s.agg, a.row = f ∧ a.col = f') ∨ Pairs C s.stack f f'))
    (by
      intro e rest agg bnd hq
      rw [step2_pairs]; exact hq) n s s' h Iff.rfl
  rw [loop2_stack _ _ _ h] at this
  rw [← this]; simp [Pairs]

lemma loop2_brows {C : Cons R} {n : ℕ} {s s' : St2 R} (h : loop2 C n s = some s') (f) :
    f ∈ s'.bnd.map (·.1) ↔ (f ∈ s.bnd.map (·.1) ∨ BRows C s.stack f) := by
  have := loop2_inv (C := C)
    (fun q => (f ∈ q.bnd.map (·.1) ∨ BRows C q.stack f)
      ↔ (f ∈ s.bnd.map (·.1) ∨ BRows C s.stack f))
    (by
      intro e rest agg bnd hq
      rw [step2_brows]; exact hq) n s s' h Iff.rfl
  rw [loop2_stack _ _ _ h] at this
  rw [← this]; simp [BRows]

/-- The rows an entry list of a linear form leads to. -/
def Rows1 (C : Cons R) (st : List (Ent1 R)) (f : ℕ) : Prop :=
  ∃ e ∈ st, Free C.hng C.dir f ∧ Reach C.hng e.row f

lemma step1_rows (C : Cons R) (e rest agg f) :
    (f ∈ (step1 C e rest agg).agg.map (·.row) ∨ Rows1 C (step1 C e rest agg).stack f)
      ↔ (f ∈ agg.map (·.row) ∨ Rows1 C (e :: rest) f) := by
  have hcons : Rows1 C (e :: rest) f
      ↔ (Free C.hng C.dir f ∧ Reach C.hng e.row f) ∨ Rows1 C rest f := by simp [Rows1]
  rw [hcons]
  unfold step1
  split
  · rename_i h hh
    have happ : ∀ st st', Rows1 C (st ++ st') f ↔ Rows1 C st f ∨ Rows1 C st' f := by
      intro st st'; simp [Rows1, or_and_right, exists_or]
    simp only [happ]
    have : Rows1 C ((h.1.zip h.2).map fun p => (⟨p.1, p.2 * e.val⟩ : Ent1 R)).reverse f
        ↔ Free C.hng C.dir f ∧ Reach C.hng e.row f := by
      simp only [Rows1, List.mem_reverse, List.mem_map]
      constructor
      · rintro ⟨_, ⟨p, hp, rfl⟩, h1, h3⟩
        exact ⟨h1, (reach_some hh h1.1).2 ⟨p, hp, h3⟩⟩
      · rintro ⟨h1, h3⟩
        obtain ⟨p, hp, h3⟩ := (reach_some hh h1.1).1 h3
        exact ⟨_, ⟨p, hp, rfl⟩, h1, h3⟩
    rw [this]
  · rename_i hr
    split
    · rename_i g hg
      have : ¬ (Free C.hng C.dir f ∧ Reach C.hng e.row f) := by
        rintro ⟨h1, h3⟩
        rw [reach_none hr] at h3; subst h3
        rw [h1.2] at hg; cases hg
      simp [this]
    · rename_i hd
      have : (Free C.hng C.dir f ∧ Reach C.hng e.row f) ↔ f = e.row := by
        constructor
        · rintro ⟨_, h3⟩
          exact (reach_none hr).1 h3
        · rintro rfl
          exact ⟨⟨hr, hd⟩, .refl⟩
      rw [this]
      simp [or_assoc]

lemma loop1_rows {C : Cons R} {n : ℕ} {s s' : St1 R} (h : loop1 C n s = some s') (f) :
    f ∈ s'.agg.map (·.row) ↔ (f ∈ s.agg.map (·.row) ∨ Rows1 C s.stack f) := by
  have := loop1_inv (C := C)
    (fun q => (f ∈ q.agg.map (·.row) ∨ Rows1 C q.stack f)
      ↔ (f ∈ s.agg.map (·.row) ∨ Rows1 C s.stack f))
    (by
      intro e rest agg hq
      rw [step1_rows]; exact hq) n s s' h Iff.rfl
  rw [loop1_stack _ _ _ h] at this
  rw [← this]; simp [Rows1]

/-! ### the entries of a local matrix -/

lemma mod_div_lt {k a b : ℕ} (hk : k < a * b) : k % b < b ∧ k / b < a := by
  have h0 : 0 < b := by
    rcases Nat.eq_zero_or_pos b with h | h
    · rw [h] at hk; simp at hk
    · exact h
  exact ⟨Nat.mod_lt _ h0, Nat.div_lt_of_lt_mul (by rwa [Nat.mul_comm])⟩

lemma val2_grid (v x : ℕ → R) (tst trl : List ℕ) (M : ℕ → ℕ → R) :
    val2 v x (gridEntries tst trl M) = localBilin tst trl M v x := by
  unfold val2 gridEntries localBilin
  rw [List.map_map, Finset.sum_comm, ← Fintype.sum_prod_type', ← Equiv.sum_comp finProdFinEquiv.symm]
  rw [← List.sum_ofFn, List.ofFn_eq_map, ← List.map_coe_finRange_eq_range, List.map_map]
  congr 1
  apply List.map_congr_left
  intro k _
  simp only [Function.comp, finProdFinEquiv_symm_apply, Fin.coe_modNat, Fin.coe_divNat]
  have hk : k.1 < trl.length * tst.length := k.2
  obtain ⟨h1, h2⟩ := mod_div_lt hk
  simp [h1, h2]

lemma val1_vec (v : ℕ → R) (tst : List ℕ) (m : ℕ → R) :
    val1 v (vecEntries tst m) = localLin tst m v := by
  unfold val1 vecEntries localLin
  rw [List.map_map, ← List.sum_ofFn, List.ofFn_eq_map, ← List.map_coe_finRange_eq_range, List.map_map]
  congr 1
  apply List.map_congr_left
  intro k _
  simp

/-- The positions of the entries of a local matrix. -/
lemma mem_grid {tst trl : List ℕ} {M : ℕ → ℕ → R} {r c : ℕ} :
    (∃ e ∈ gridEntries tst trl M, e.row = r ∧ e.col = c) ↔ r ∈ tst ∧ c ∈ trl := by
  constructor
  · rintro ⟨e, he, rfl, rfl⟩
    obtain ⟨k, hk, rfl⟩ := List.mem_map.1 he
    rw [List.mem_range] at hk
    obtain ⟨h1, h2⟩ := mod_div_lt hk
    simp [h1, h2]
  · rintro ⟨hr, hc⟩
    obtain ⟨j, hj, rfl⟩ := List.mem_iff_getElem.1 hr
    obtain ⟨i, hi, rfl⟩ := List.mem_iff_getElem.1 hc
    have h1 : (j + tst.length * i) % tst.length = j := by
      rw [Nat.add_mul_mod_self_left, Nat.mod_eq_of_lt hj]
    have h2 : (j + tst.length * i) / tst.length = i := by
      rw [Nat.add_mul_div_left _ _ (by omega), Nat.div_eq_of_lt hj, Nat.zero_add]
    refine ⟨_, List.mem_map.2 ⟨j + tst.length * i, List.mem_range.2 ?_, rfl⟩, ?_, ?_⟩
    · calc j + tst.length * i < tst.length + tst.length * i := by omega
        _ = tst.length * (i + 1) := by ring
        _ ≤ tst.length * trl.length := Nat.mul_le_mul_left _ hi
        _ = _ := Nat.mul_comm _ _
    · simp [h1, hj]
    · simp [h2, hi]

lemma mem_vec {tst : List ℕ} {m : ℕ → R} {r : ℕ} :
    (∃ e ∈ vecEntries tst m, e.row = r) ↔ r ∈ tst := by
  constructor
  · rintro ⟨e, he, rfl⟩
    obtain ⟨k, hk, rfl⟩ := List.mem_map.1 he
    rw [List.mem_range] at hk
    simp [hk]
  · intro hr
    obtain ⟨j, hj, rfl⟩ := List.mem_iff_getElem.1 hr
    exact ⟨_, List.mem_map.2 ⟨j, List.mem_range.2 hj, rfl⟩, by simp [hj]⟩

end Verif.Asm
