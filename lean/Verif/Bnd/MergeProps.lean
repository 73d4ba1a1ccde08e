import Verif.Bnd.Merge
import Mathlib.Data.List.Perm.Basic
import Mathlib.Data.List.Nodup
import Mathlib.Tactic.Linarith

/-! # The merge loops: no half-edge is invented, one loop is found -/

namespace Verif.Bnd
open Verif.Dcel (MS popFirst setAt shift)

section
variable {V : Type} [DecidableEq V] {C : Nat → V × V} {bnd : List Nat}

/-! ### Positions -/

theorem pop_spec {L : List (List Nat)} (hn : L.Nodup) {j : Nat} {g : List Nat} (h : L[j]? = some g) :
    L.findIdx (· = g) = j ∧ popFirst L g = L.eraseIdx j := by
  unfold popFirst
  induction L generalizing j with
  | nil => simp at h
  | cons a L ih =>
    cases j with
    | zero =>
      simp only [List.getElem?_cons_zero, Option.some.injEq] at h
      subst h
      simp [List.findIdx_cons]
    | succ j =>
      simp only [List.getElem?_cons_succ] at h
      have hne : a ≠ g := by
        rintro rfl
        exact (List.nodup_cons.1 hn).1 (List.mem_of_getElem? h)
      obtain ⟨h1, h2⟩ := ih (List.nodup_cons.1 hn).2 h
      refine ⟨?_, ?_⟩
      · rw [List.findIdx_cons]; simp [hne, h1]
      · rw [List.erase_cons_tail (by simpa using hne), h2]; rfl

/-- What is in the list. -/
structure Good (C : Nat → V × V) (bnd : List Nat) (L : List (List Nat)) : Prop where
  ne : ∀ g ∈ L, g ≠ []
  path : ∀ g ∈ L, Path C g
  sub : L.flatten.Subperm bnd

theorem nodup_of_flat {L : List (List Nat)} (h : L.flatten.Nodup) (hne : ∀ g ∈ L, g ≠ []) : L.Nodup := by
  induction L with
  | nil => exact List.nodup_nil
  | cons a L ih =>
    rw [List.flatten_cons, List.nodup_append'] at h
    refine List.nodup_cons.2 ⟨fun ha => ?_, ih h.2.1 (fun g hg => hne g (by simp [hg]))⟩
    obtain ⟨x, hx⟩ := List.exists_mem_of_ne_nil a (hne a (by simp))
    exact h.2.2 hx (List.mem_flatten.2 ⟨a, ha, hx⟩)

theorem Good.nodup {L : List (List Nat)} (h : Good C bnd L) (hb : bnd.Nodup) : L.flatten.Nodup := by
  obtain ⟨l, hl, hs⟩ := h.sub
  exact hl.nodup_iff.1 (hs.nodup hb)

theorem Path.append {α : Type} {C : α → V × V} {g g' : List α} (h : Path C g) (h' : Path C g') (hj : ∀ a b, g.getLast? = some a → g'.head? = some b →
    (C a).2 = (C b).1) : Path C (g ++ g') := by
  induction g with
  | nil => exact h'
  | cons a g ih =>
    cases g with
    | nil =>
      cases g' with
      | nil => trivial
      | cons b g' => exact ⟨hj a b rfl rfl, h'⟩
    | cons b g =>
      refine ⟨h.1, ih h.2 (fun x y hx hy => hj x y ?_ hy)⟩
      rw [List.getLast?_cons_cons]; exact hx

/-- The result of popping `g2` (position `j`) when `g1` is in the list at another position `i` and becomes `g`. -/
theorem pop_other {L : List (List Nat)} {i j : Nat} {g1 g2 g : List Nat} (hn : L.Nodup) (hi : L[i]? = some g1) (hj : L[j]? = some g2)
    (hij : i ≠ j) : ∃ i' rest, shift (some i) (L.findIdx (· = g2)) = some i' ∧
      (setAt (popFirst L g2) (some i') g)[i']? = some g ∧ L.Perm (g1 :: g2 :: rest) ∧
      (setAt (popFirst L g2) (some i') g).Perm (g :: rest) := by
  obtain ⟨p1, p2⟩ := pop_spec hn hj
  rw [p1, p2]
  have hil := (List.getElem?_eq_some_iff.1 hi)
  have hjl := (List.getElem?_eq_some_iff.1 hj)
  obtain ⟨hi1, hi2⟩ := hil
  obtain ⟨hj1, hj2⟩ := hjl
  obtain ⟨i', h1, h2⟩ : ∃ i', shift (some i) j = some i' ∧ (L.eraseIdx j)[i']? = some g1 := by
    unfold shift
    by_cases h : j < i
    · refine ⟨i - 1, by simp [h], ?_⟩
      rw [List.getElem?_eraseIdx, if_neg (by omega), show i - 1 + 1 = i by omega, hi]
    · refine ⟨i, by simp only [h, if_false, Ne.symm hij], ?_⟩
      rw [List.getElem?_eraseIdx, if_pos (by omega), hi]
  obtain ⟨h3, h4⟩ := List.getElem?_eq_some_iff.1 h2
  refine ⟨i', (L.eraseIdx j).eraseIdx i', h1, ?_, ?_, ?_⟩
  · simp only [setAt]
    rw [List.getElem?_set_self h3]
  · have e1 := List.getElem_cons_eraseIdx_perm (l := L) hj1
    have e2 := List.getElem_cons_eraseIdx_perm (l := L.eraseIdx j) h3
    rw [hj2] at e1
    rw [h4] at e2
    exact e1.symm.trans ((List.Perm.cons g2 e2.symm).trans (List.Perm.swap _ _ _))
  · simp only [setAt]
    exact List.set_perm_cons_eraseIdx h3 g

/-! ### Every run -/

/-- Invariant of the inner loop. -/
structure Inn (C : Nat → V × V) (bnd : List Nat) (s : MS) : Prop where
  good : Good C bnd s.L
  at_ : ∀ i, s.i = some i → s.L[i]? = some s.g1

theorem Good.sub_of {L L' : List (List Nat)} (h : Good C bnd L) (h1 : ∀ g ∈ L', g ≠ [] ∧ Path C g) (h2 : L'.flatten.Subperm L.flatten) :
    Good C bnd L' := ⟨fun g hg => (h1 g hg).1, fun g hg => (h1 g hg).2, h2.trans h.sub⟩

theorem sublist_flatten {L L' : List (List Nat)} (h : L.Sublist L') : L.flatten.Sublist L'.flatten := by
  induction h with
  | slnil => exact List.Sublist.refl _
  | cons a _ ih => exact ih.trans (List.sublist_append_right _ _)
  | cons_cons a _ ih => exact (List.Sublist.refl a).append ih

theorem merge_step (hb : bnd.Nodup) {s : MS} (h : Inn C bnd s) {j : Nat} {g2 : List Nat} (hj : s.L[j]? = some g2) (g : List Nat)
    (hg : s.g1 ≠ [] → g2 ≠ [] → g ≠ [] ) (hp : ∀ i, s.i = some i → i ≠ j → Path C g) (hperm : g.Perm (s.g1 ++ g2)) (act : Bool) :
    Inn C bnd ⟨setAt (popFirst s.L g2) (shift s.i (s.L.findIdx (· = g2))) g, shift s.i (s.L.findIdx (· = g2)), g, act⟩ ∧
    (setAt (popFirst s.L g2) (shift s.i (s.L.findIdx (· = g2))) g).length + 1 = s.L.length := by
  have hn := nodup_of_flat (h.good.nodup hb) h.good.ne
  obtain ⟨p1, p2⟩ := pop_spec hn hj
  obtain ⟨hj1, hj2⟩ := List.getElem?_eq_some_iff.1 hj
  have herase : Good C bnd (s.L.eraseIdx j) ∧ (s.L.eraseIdx j).length + 1 = s.L.length := by
    refine ⟨h.good.sub_of (fun g hg => ?_) ?_, ?_⟩
    · have := List.eraseIdx_subset hg
      exact ⟨h.good.ne g this, h.good.path g this⟩
    · exact (sublist_flatten (List.eraseIdx_sublist _ _)).subperm
    · rw [List.length_eraseIdx_of_lt hj1]; omega
  cases hs : s.i with
  | none =>
    simp only [shift, setAt]
    rw [p2]
    exact ⟨⟨herase.1, by simp⟩, herase.2⟩
  | some i =>
    by_cases hij : i = j
    · subst hij
      have : shift (some i) (s.L.findIdx (· = g2)) = none := by rw [p1]; simp [shift]
      rw [this]
      simp only [setAt]
      rw [p2]
      exact ⟨⟨herase.1, by simp⟩, herase.2⟩
    · obtain ⟨i', rest, q1, q2, q3, q4⟩ := pop_other (g := g) hn (h.at_ i hs) hj hij
      rw [q1]
      refine ⟨⟨h.good.sub_of (fun x hx => ?_) ?_, fun k hk => ?_⟩, ?_⟩
      · have hm := q4.mem_iff.1 hx
        rcases List.mem_cons.1 hm with rfl | hm
        · have e1 : s.g1 ∈ s.L := List.mem_of_getElem? (h.at_ i hs)
          exact ⟨hg (h.good.ne _ e1) (h.good.ne _ (List.mem_of_getElem? hj)), hp i hs hij⟩
        · have : x ∈ s.L := q3.mem_iff.2 (by simp [hm])
          exact ⟨h.good.ne x this, h.good.path x this⟩
      · refine (List.Perm.trans q4.flatten (List.Perm.trans ?_ q3.flatten.symm)).subperm
        simp only [List.flatten_cons]
        rw [← List.append_assoc]
        exact List.Perm.append_right _ hperm
      · simp only [Option.some.injEq] at hk
        subst hk
        exact q2
      · have := q4.length_eq
        have h2 := q3.length_eq
        simp only [List.length_cons] at this h2
        omega

theorem mergeBody_inn (hb : bnd.Nodup) {s : MS} (h : Inn C bnd s) {j : Nat} {g2 : List Nat} (hj : s.L[j]? = some g2) :
    Inn C bnd (mergeBody C s g2) ∧ (mergeBody C s g2 = s ∨ ((mergeBody C s g2).act = true ∧ (mergeBody C s g2).L.length + 1 = s.L.length)) := by
  unfold mergeBody
  split
  · rename_i a b c d ha hbl hc hd
    have hg1 : ∀ i, s.i = some i → Path C s.g1 := fun i hi => h.good.path _ (List.mem_of_getElem? (h.at_ i hi))
    have hg2 : Path C g2 := h.good.path _ (List.mem_of_getElem? hj)
    split_ifs with h1 h2
    · obtain ⟨q1, q2⟩ := merge_step hb h hj (s.g1 ++ g2) (fun h _ => by simp [h]) (fun i hi _ => by
        refine (hg1 i hi).append hg2 (fun x y hx hy => ?_)
        rw [hbl] at hx
        rw [hc] at hy
        cases hx
        cases hy
        exact h1) (List.Perm.refl _) true
      exact ⟨q1, .inr ⟨rfl, q2⟩⟩
    · obtain ⟨q1, q2⟩ := merge_step hb h hj (g2 ++ s.g1) (fun h _ => by simp [h]) (fun i hi _ => by
        refine hg2.append (hg1 i hi) (fun x y hx hy => ?_)
        rw [hd] at hx
        rw [ha] at hy
        cases hx
        cases hy
        exact h2.symm) List.perm_append_comm true
      exact ⟨q1, .inr ⟨rfl, q2⟩⟩
    · exact ⟨h, .inl rfl⟩
  · exact ⟨h, .inl rfl⟩

theorem innerLoop_inn (hb : bnd.Nodup) : ∀ (fuel j : Nat) (s : MS), Inn C bnd s → Inn C bnd (innerLoop C fuel j s) ∧
    (innerLoop C fuel j s).L.length ≤ s.L.length ∧ ((innerLoop C fuel j s).act = true → s.act = true ∨
      (innerLoop C fuel j s).L.length < s.L.length) := by
  intro fuel
  induction fuel with
  | zero => exact fun j s h => ⟨h, le_refl _, fun h => .inl h⟩
  | succ fuel ih =>
    intro j s h
    unfold innerLoop
    cases hj : s.L[j]? with
    | none => exact ⟨h, le_refl _, fun h => .inl h⟩
    | some g2 =>
      obtain ⟨m1, m2⟩ := mergeBody_inn hb h hj
      obtain ⟨r1, r2, r3⟩ := ih (j + 1) _ m1
      simp only
      refine ⟨r1, ?_, fun ha => ?_⟩
      · rcases m2 with m2 | ⟨_, m2⟩
        · rw [m2] at r2 ⊢; exact r2
        · show (innerLoop C fuel (j + 1) (mergeBody C s g2)).L.length ≤ _
          omega
      · rcases m2 with m2 | ⟨_, m2⟩
        · rw [m2] at r3 ha ⊢; exact r3 ha
        · right
          show (innerLoop C fuel (j + 1) (mergeBody C s g2)).L.length < _
          omega

theorem outerLoop_good (hb : bnd.Nodup) : ∀ (fuel i : Nat) (L : List (List Nat)) (a : Bool), Good C bnd L →
    Good C bnd (outerLoop C fuel i L a).1 ∧ (outerLoop C fuel i L a).1.length ≤ L.length ∧
      ((outerLoop C fuel i L a).2 = true → a = true ∨ (outerLoop C fuel i L a).1.length < L.length) := by
  intro fuel
  induction fuel with
  | zero => exact fun i L a h => ⟨h, le_refl _, fun h => .inl h⟩
  | succ fuel ih =>
    intro i L a h
    unfold outerLoop
    cases hi : L[i]? with
    | none => exact ⟨h, le_refl _, fun h => .inl h⟩
    | some g1 =>
      obtain ⟨n1, n2, n3⟩ := innerLoop_inn hb L.length 0 ⟨L, some i, g1, false⟩ ⟨h, fun k hk => by cases hk; exact hi⟩
      obtain ⟨r1, r2, r3⟩ := ih (i + 1) _ (innerLoop C L.length 0 ⟨L, some i, g1, false⟩).act n1.good
      refine ⟨r1, le_trans r2 n2, fun ha => .inr ?_⟩
      rcases r3 ha with r3 | r3
      · rcases n3 r3 with n3 | n3
        · cases n3
        · exact lt_of_le_of_lt r2 n3
      · exact lt_of_lt_of_le r3 n2

theorem whileLoop_good (hb : bnd.Nodup) : ∀ (fuel : Nat) (L : List (List Nat)), Good C bnd L → L.length < fuel →
    ∃ L', whileLoop C fuel L = some L' ∧ Good C bnd L' := by
  intro fuel
  induction fuel with
  | zero => intro L _ h; omega
  | succ fuel ih =>
    intro L h hl
    obtain ⟨o1, o2, o3⟩ := outerLoop_good hb L.length 0 L false h
    unfold whileLoop
    split_ifs with hc
    · exact ⟨_, rfl, o1⟩
    · refine ih _ o1 ?_
      push Not at hc
      rcases o3 (by simpa using hc.1) with h3 | h3
      · cases h3
      · omega

theorem start_good (bnd : List Nat) : Good C bnd (bnd.map (fun i => [i])) := by
  refine ⟨?_, ?_, ?_⟩
  · intro g hg
    obtain ⟨i, _, rfl⟩ := List.mem_map.1 hg
    simp
  · intro g hg
    obtain ⟨i, _, rfl⟩ := List.mem_map.1 hg
    trivial
  · have : (bnd.map (fun i => [i])).flatten = bnd := by
      induction bnd with
      | nil => rfl
      | cons a l ih => simp only [List.map_cons, List.flatten_cons, ih, List.singleton_append]
    rw [this]

/-- The loops terminate; the groups are paths of boundary half-edges, none of which occurs twice. -/
theorem groups_good (hb : bnd.Nodup) : ∃ L, groups C bnd = some L ∧ Good C bnd L :=
  whileLoop_good hb _ _ (start_good bnd) (by simp)

end
end Verif.Bnd
