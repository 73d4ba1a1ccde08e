import Mathlib.Logic.Relation
import Mathlib.Tactic.Linarith

/-!
# Numbering the classes of places: the argument behind `distribute_dofs`, without meshes

Places `L` belong to cells `C`.  A place may be a place of the parent cell (`up`), and it may be the same as
places of neighbouring cells of the same level (`nb`).  Cells are treated parents first; a cell numbers its
places that have no number, passes the numbers to its neighbours, and passes them to its children.
-/

namespace Verif.Dof

/-- Places. -/
structure Sys (L C : Type) where
  cell : L → C
  lev : L → Nat
  up : L → Option L
  nb : L → L → Prop
  eqv : Equivalence nb
  up_lev : ∀ l m, up l = some m → lev m < lev l
  nb_up : ∀ l l', nb l l' → (up l = none ∧ up l' = none) ∨ ∃ m m', up l = some m ∧ up l' = some m' ∧ nb m m'
  self : ∀ l l', nb l l' → cell l = cell l' → l = l'

variable {L C : Type} {S : Sys L C}

/-- The highest place in the hierarchy. -/
inductive Top (S : Sys L C) : L → L → Prop
  | top (l : L) : S.up l = none → Top S l l
  | up (l m t : L) : S.up l = some m → Top S m t → Top S l t

/-- The places to be identified. -/
def Same (S : Sys L C) (l l' : L) : Prop := ∃ t t', Top S l t ∧ Top S l' t' ∧ S.nb t t'

theorem Top.total (l : L) : ∃ t, Top S l t := by
  induction h : S.lev l using Nat.strong_induction_on generalizing l with
  | _ n ih =>
    rcases hu : S.up l with _ | m
    · exact ⟨l, .top l hu⟩
    · obtain ⟨t, ht⟩ := ih (S.lev m) (by rw [← h]; exact S.up_lev l m hu) m rfl
      exact ⟨t, .up l m t hu ht⟩

theorem Top.none {l t : L} (h : Top S l t) : S.up t = none := by
  induction h with
  | top l h => exact h
  | up l m t _ _ ih => exact ih

theorem Top.fun {l t : L} (h : Top S l t) : ∀ t', Top S l t' → t = t' := by
  induction h with
  | top l h =>
    intro t' h'
    cases h' with
    | top _ _ => rfl
    | up _ m _ h1 _ => rw [h] at h1; cases h1
  | up l m t h1 _ ih =>
    intro t' h'
    cases h' with
    | top _ h2 => rw [h1] at h2; cases h2
    | up _ m' _ h2 h3 => rw [h1] at h2; cases h2; exact ih t' h3

theorem Same.refl (l : L) : Same S l l := by
  obtain ⟨t, ht⟩ := Top.total (S := S) l
  exact ⟨t, t, ht, ht, S.eqv.refl t⟩

theorem Same.symm {l l' : L} (h : Same S l l') : Same S l' l := by
  obtain ⟨t, t', h1, h2, h3⟩ := h
  exact ⟨t', t, h2, h1, S.eqv.symm h3⟩

theorem Same.trans {l l' l'' : L} (h : Same S l l') (h' : Same S l' l'') : Same S l l'' := by
  obtain ⟨t, t', h1, h2, h3⟩ := h
  obtain ⟨u, u', g1, g2, g3⟩ := h'
  have := h2.fun u g1
  subst this
  exact ⟨t, u', h1, g2, S.eqv.trans h3 g3⟩

theorem Same.up {l m : L} (h : S.up l = some m) : Same S l m := by
  obtain ⟨t, ht⟩ := Top.total (S := S) m
  exact ⟨t, t, .up l m t h ht, ht, S.eqv.refl t⟩

theorem Same.nb {l l' : L} (h : S.nb l l') : Same S l l' := by
  induction hn : S.lev l using Nat.strong_induction_on generalizing l l' with
  | _ n ih =>
    rcases S.nb_up l l' h with ⟨h1, h2⟩ | ⟨m, m', h1, h2, h3⟩
    · exact ⟨l, l', .top l h1, .top l' h2, h⟩
    · have := ih (S.lev m) (by rw [← hn]; exact S.up_lev l m h1) h3 rfl
      exact (Same.up h1).trans (this.trans (Same.up h2).symm)

/-- What the treatment of cell `c` does; `b`: the numbers are passed to the children. -/
structure Eff (S : Sys L C) (c : C) (b : Bool) (v v' : L → Option Nat) (n n' : Nat) : Prop where
  mono : ∀ l a, v l = some a → v' l = some a
  own : ∀ l, S.cell l = c → ∃ a, v' l = some a ∧ (v l = some a ∨ (v l = none ∧ n ≤ a ∧ a < n'))
  inj : ∀ l l', S.cell l = c → S.cell l' = c → v l = none → v l' = none → v' l = v' l' → l = l'
  le : n ≤ n'
  onto : ∀ a, n ≤ a → a < n' → ∃ l, S.cell l = c ∧ v l = none ∧ v' l = some a
  nbs : ∀ l l', S.cell l = c → S.up l = none → S.nb l l' → v' l' ≠ none
  kids : b = true → ∀ l l', S.cell l = c → S.up l' = some l → v' l' ≠ none
  new : ∀ l' a, v l' = none → v' l' = some a → S.cell l' ≠ c →
    ∃ l, S.cell l = c ∧ v' l = some a ∧ (S.nb l l' ∨ (b = true ∧ S.up l' = some l))

/-- The numbers given so far are `0, ..., n-1`, and equal numbers mean the same place. -/
structure NumInv (S : Sys L C) (v : L → Option Nat) (n : Nat) : Prop where
  lt : ∀ l a, v l = some a → a < n
  iff : ∀ l l' a a', v l = some a → v l' = some a' → (a = a' ↔ Same S l l')
  tops : ∀ l t, v l ≠ none → Top S l t → v t ≠ none
  nb : ∀ l l', v l ≠ none → S.up l = none → S.nb l l' → v l' ≠ none
  all : ∀ a < n, ∃ l, v l = some a

/-- Cell `c` has been treated. -/
def Done (S : Sys L C) (v : L → Option Nat) (c : C) : Prop :=
  ∀ l, S.cell l = c → v l ≠ none

/-- Cell `c` has passed its numbers to its children. -/
def Shared (S : Sys L C) (v : L → Option Nat) (c : C) : Prop :=
  ∀ l l', S.cell l = c → S.up l' = some l → v l' ≠ none

theorem Eff.keep {c : C} {b : Bool} {v v' : L → Option Nat} {n n' : Nat} (h : Eff S c b v v' n n') {l : L}
    (hl : v l ≠ none) : v' l ≠ none := by
  obtain ⟨a, ha⟩ := Option.ne_none_iff_exists'.1 hl
  rw [h.mono l a ha]; simp

theorem NumInv.top {v : L → Option Nat} {n : Nat} (h : NumInv S v n) {l t : L} (ht : Top S l t) (hl : v l ≠ none) :
    v t ≠ none := h.tops l t hl ht

/-- The highest places of neighbours are neighbours. -/
theorem Top.nb {l t : L} (ht : Top S l t) : ∀ l', S.nb l l' → ∃ t', Top S l' t' ∧ S.nb t t' := by
  induction ht with
  | top l h =>
    intro l' hn
    rcases S.nb_up l l' hn with ⟨_, h2⟩ | ⟨m, m', h1, _⟩
    · exact ⟨l', .top l' h2, hn⟩
    · rw [h] at h1; cases h1
  | up l m t h _ ih =>
    intro l' hn
    rcases S.nb_up l l' hn with ⟨h1, _⟩ | ⟨m1, m', h1, h2, h3⟩
    · rw [h] at h1; cases h1
    · rw [h] at h1; cases h1
      obtain ⟨t', g1, g2⟩ := ih m' h3
      exact ⟨t', .up l' m' t' h2 g1, g2⟩

theorem NumInv.step {c : C} {b : Bool} {v v' : L → Option Nat} {n n' : Nat} (hi : NumInv S v n)
    (hc : ∀ l m, S.cell l = c → S.up l = some m → v l ≠ none)
    (h : Eff S c b v v' n n') : NumInv S v' n' ∧ Done S v' c ∧ (b = true → Shared S v' c) := by
  have hown : ∀ l, S.cell l = c → v' l ≠ none := by
    intro l hl
    obtain ⟨a, ha, _⟩ := h.own l hl
    rw [ha]; simp
  -- a place without number
  have hfresh : ∀ l, S.cell l = c → v l = none → S.up l = none := by
    intro l hl hv
    rcases hu : S.up l with _ | m
    · rfl
    · exact absurd hv (hc l m hl hu)
  refine ⟨⟨?_, ?_, ?_, ?_, ?_⟩, hown, fun hb => h.kids hb⟩
  · -- bound
    have hc' : ∀ l a, S.cell l = c → v' l = some a → a < n' := by
      intro l a hl ha
      obtain ⟨a', ha', h1⟩ := h.own l hl
      rw [ha] at ha'; cases ha'
      rcases h1 with h1 | ⟨_, _, h1⟩
      · exact lt_of_lt_of_le (hi.lt l a h1) h.le
      · exact h1
    intro l a ha
    rcases hv : v l with _ | a'
    · by_cases hl : S.cell l = c
      · exact hc' l a hl ha
      · obtain ⟨l0, h0, h1, _⟩ := h.new l a hv ha hl
        exact hc' l0 a h0 h1
    · have := h.mono l a' hv
      rw [ha] at this; cases this
      exact lt_of_lt_of_le (hi.lt l a hv) h.le
  · -- equal numbers
    have rep : ∀ l a, v' l = some a → ∃ ρ, Same S l ρ ∧ v' ρ = some a ∧ (v ρ = some a ∨
        (S.cell ρ = c ∧ v ρ = none ∧ n ≤ a)) := by
      intro l a ha
      have own : ∀ l, S.cell l = c → v' l = some a → (v l = some a ∨ (S.cell l = c ∧ v l = none ∧ n ≤ a)) := by
        intro l hl ha
        obtain ⟨a', ha', h1⟩ := h.own l hl
        rw [ha] at ha'; cases ha'
        rcases h1 with h1 | ⟨h1, h2, _⟩
        · exact .inl h1
        · exact .inr ⟨hl, h1, h2⟩
      by_cases hl : S.cell l = c
      · exact ⟨l, Same.refl l, ha, own l hl ha⟩
      · rcases hv : v l with _ | a'
        · obtain ⟨l0, h0, h1, h2⟩ := h.new l a hv ha hl
          refine ⟨l0, ?_, h1, own l0 h0 h1⟩
          rcases h2 with h2 | ⟨_, h2⟩
          · exact (Same.nb h2).symm
          · exact Same.up h2
        · have := h.mono l a' hv
          rw [ha] at this; cases this
          exact ⟨l, Same.refl l, ha, .inl hv⟩
    -- an old and a new number
    have mixed : ∀ ρ ρ' a, v ρ = some a → S.cell ρ' = c → v ρ' = none → ¬ Same S ρ ρ' := by
      rintro ρ ρ' a h1 h2 h3 ⟨t, t', g1, g2, g3⟩
      have := g2.fun ρ' (.top ρ' (hfresh ρ' h2 h3))
      subst this
      exact hi.nb t t' (hi.top g1 (by rw [h1]; simp)) g1.none g3 h3
    intro l l' a a' ha ha'
    obtain ⟨ρ, s1, r1, o1⟩ := rep l a ha
    obtain ⟨ρ', s2, r2, o2⟩ := rep l' a' ha'
    have : Same S l l' ↔ Same S ρ ρ' :=
      ⟨fun x => s1.symm.trans (x.trans s2), fun x => s1.trans (x.trans s2.symm)⟩
    rw [this]
    rcases o1 with o1 | ⟨c1, o1, n1⟩ <;> rcases o2 with o2 | ⟨c2, o2, n2⟩
    · exact hi.iff ρ ρ' a a' o1 o2
    · have hlt := hi.lt ρ a o1
      exact ⟨fun e => by omega, fun x => absurd x (mixed ρ ρ' a o1 c2 o2)⟩
    · have hlt := hi.lt ρ' a' o2
      exact ⟨fun e => by omega, fun x => absurd x.symm (mixed ρ' ρ a' o2 c1 o1)⟩
    · constructor
      · intro e
        rw [h.inj ρ ρ' c1 c2 o1 o2 (by rw [r1, r2, e])]
        exact Same.refl _
      · rintro ⟨t, t', g1, g2, g3⟩
        have e1 := g1.fun ρ (.top ρ (hfresh ρ c1 o1))
        have e2 := g2.fun ρ' (.top ρ' (hfresh ρ' c2 o2))
        subst e1 e2
        have := S.self t t' g3 (c1.trans c2.symm)
        subst this
        rw [r1] at r2
        exact Option.some.inj r2
  · -- numbers of the highest places
    have down : ∀ l0 t0, S.cell l0 = c → Top S l0 t0 → ∀ t, S.nb t0 t → v' t ≠ none := by
      intro l0 t0 h0 ht0 t hn
      rcases hu0 : S.up l0 with _ | m0
      · have := ht0.fun l0 (.top l0 hu0)
        subst this
        exact h.nbs t0 t h0 hu0 hn
      · exact h.keep (hi.nb t0 t (hi.top ht0 (hc l0 m0 h0 hu0)) ht0.none hn)
    intro l t hl ht
    rcases hv : v l with _ | a
    · by_cases hlc : S.cell l = c
      · exact down l t hlc ht t (S.eqv.refl t)
      · obtain ⟨a, ha⟩ := Option.ne_none_iff_exists'.1 hl
        obtain ⟨l0, h0, h1, h2 | ⟨_, h2⟩⟩ := h.new l a hv ha hlc
        · obtain ⟨t0, g1, g2⟩ := ht.nb l0 (S.eqv.symm h2)
          exact down l0 t0 h0 g1 t (S.eqv.symm g2)
        · cases ht with
          | top _ h3 => rw [h2] at h3; cases h3
          | up _ m _ h3 h4 =>
            rw [h2] at h3; cases h3
            exact down l0 t h0 h4 t (S.eqv.refl t)
    · exact h.keep (hi.top ht (by rw [hv]; simp))
  · intro l l' hl hu hn
    rcases hv : v l with _ | a
    · by_cases hlc : S.cell l = c
      · exact h.nbs l l' hlc hu hn
      · obtain ⟨a, ha⟩ := Option.ne_none_iff_exists'.1 hl
        obtain ⟨l0, h0, h1, h2 | ⟨_, h2⟩⟩ := h.new l a hv ha hlc
        · have hu0 : S.up l0 = none := by
            rcases S.nb_up l0 l h2 with ⟨h3, _⟩ | ⟨_, _, _, h3, _⟩
            · exact h3
            · rw [hu] at h3; cases h3
          exact h.nbs l0 l' h0 hu0 (S.eqv.trans h2 hn)
        · rw [hu] at h2; cases h2
    · exact h.keep (hi.nb l l' (by rw [hv]; simp) hu hn)
  · intro a ha
    by_cases hn : a < n
    · obtain ⟨l, hl⟩ := hi.all a hn
      exact ⟨l, h.mono l a hl⟩
    · obtain ⟨l, _, _, hl⟩ := h.onto a (by omega) ha
      exact ⟨l, hl⟩

theorem NumInv.empty : NumInv S (fun _ => none) 0 :=
  ⟨fun _ _ h => (by cases h), fun _ _ _ _ h => (by cases h), fun _ _ h => absurd rfl h,
    fun _ _ h => absurd rfl h, fun _ h => (by omega)⟩

theorem Done.mono {c c' : C} {b : Bool} {v v' : L → Option Nat} {n n' : Nat} (h : Eff S c' b v v' n n')
    (hd : Done S v c) : Done S v' c :=
  fun l hl => h.keep (hd l hl)

theorem Shared.mono {c c' : C} {b : Bool} {v v' : L → Option Nat} {n n' : Nat} (h : Eff S c' b v v' n n')
    (hd : Shared S v c) : Shared S v' c :=
  fun l l' hl hu => h.keep (hd l l' hl hu)

end Verif.Dof
