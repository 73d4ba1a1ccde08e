import Verif.Dof.Walk
import Verif.Dof.Classes

/-!
# What the treatment of one cell does to the dictionary of dofs
-/

namespace Verif.Dof
open Verif.Fem Verif.Mesh

/-- The dof at a place. -/
def vOf {e : ET} (D : Dict) (l : Loc e) : Option Nat := (D l.1).bind (fun row => row.getD l.2 none)

/-- All entries of the dictionary have the length `n_dofs`. -/
def Len (e : ET) (D : Dict) : Prop := ∀ c row, D c = some row → row.length = nd2 e

/-- `D'` is `D` with the places of `W` filled where they were empty. -/
structure Ext (e : ET) (W : Loc e → Nat → Prop) (D D' : Dict) : Prop where
  len : Len e D → Len e D'
  mono : ∀ (l : Loc e) a, vOf D l = some a → vOf D' l = some a
  new : ∀ (l : Loc e) a, vOf D l = none → vOf D' l = some a → W l a
  set : Len e D → ∀ (l : Loc e) a, W l a → vOf D' l ≠ none

variable {e : ET}

theorem Ext.trans {W W' : Loc e → Nat → Prop} {D D' D'' : Dict} (h : Ext e W D D') (h' : Ext e W' D' D'') :
    Ext e (fun l a => W l a ∨ W' l a) D D'' := by
  refine ⟨fun x => h'.len (h.len x), fun l a x => h'.mono l a (h.mono l a x), ?_, ?_⟩
  · intro l a h1 h2
    rcases hm : vOf D' l with _ | b
    · exact .inr (h'.new l a hm h2)
    · have := h'.mono l b hm
      rw [h2] at this; cases this
      exact .inl (h.new l a h1 hm)
  · rintro hl l a (hw | hw)
    · obtain ⟨b, hb⟩ := Option.ne_none_iff_exists'.1 (h.set hl l a hw)
      rw [h'.mono l b hb]; simp
    · exact h'.set (h.len hl) l a hw

theorem Ext.congr {W W' : Loc e → Nat → Prop} {D D' : Dict} (h : Ext e W D D') (hW : ∀ l a, W l a ↔ W' l a) :
    Ext e W' D D' :=
  ⟨h.len, h.mono, fun l a h1 h2 => (hW l a).1 (h.new l a h1 h2), fun hl l a hw => h.set hl l a ((hW l a).2 hw)⟩

theorem Ext.refl (D : Dict) : Ext e (fun _ _ => False) D D :=
  ⟨id, fun _ _ h => h, fun l a h1 h2 => (by rw [h1] at h2; cases h2), fun _ _ _ h => h.elim⟩

theorem touch_ext (D : Dict) (c : CN) : Ext e (fun _ _ => False) D (touch (nd2 e) D c) := by
  have hv : ∀ l : Loc e, vOf (touch (nd2 e) D c) l = vOf D l := by
    rintro ⟨x, p⟩
    simp only [vOf, touch]
    split_ifs with hx
    · subst hx
      rcases D x with _ | row
      · simp [List.getD_eq_getElem?_getD]
      · rfl
    · rfl
  refine ⟨?_, fun l a h => (hv l).trans h, fun l a h1 h2 => ?_, fun _ _ _ h => h.elim⟩
  · intro hl x row hx
    simp only [touch] at hx
    split_ifs at hx with h
    · cases hx
      rcases hd : D c with _ | row
      · simp
      · exact hl c row hd
    · exact hl x row hx
  · rw [hv, h1] at h2; cases h2

theorem touch_dom (n : Nat) (D : Dict) (c : CN) : (touch n D c c).isSome := by simp [touch]

theorem put_dom (D : Dict) (c : CN) (p : Nat) (v : Option Nat) (x : CN) : (put D c p v x).isSome = (D x).isSome := by
  simp only [put]
  split_ifs with h
  · subst h
    cases D x <;> rfl
  · rfl

theorem put_ext (D : Dict) (c : CN) (hc : (D c).isSome) (p : Fin (nd2 e)) (a : Nat) :
    Ext e (fun l b => l = (c, p) ∧ b = a) D (put D c p (some a)) := by
  obtain ⟨row, hr⟩ := Option.isSome_iff_exists.1 hc
  have hother : ∀ l : Loc e, l ≠ (c, p) → vOf (put D c p (some a)) l = vOf D l := by
    rintro ⟨x, q⟩ hne
    simp only [vOf, put]
    split_ifs with hx
    · subst hx
      have hq : p.1 ≠ q.1 := fun h => hne (by rw [Fin.ext h])
      rw [hr]
      simp only [Option.map_some, Option.bind_some]
      split_ifs
      · simp [List.getD_eq_getElem?_getD, List.getElem?_set, hq]
      · rfl
    · rfl
  have hrow : put D c p (some a) c = some (if row[p.1]? = some none then row.set p (some a) else row) := by
    simp [put, hr]
  refine ⟨?_, ?_, ?_, ?_⟩
  · intro hl x row' hx
    by_cases h : x = c
    · subst h
      rw [hrow] at hx
      cases hx
      split_ifs
      · rw [List.length_set]; exact hl x row hr
      · exact hl x row hr
    · simp only [put, if_neg h] at hx
      exact hl x row' hx
  · intro l b hb
    by_cases hl : l = (c, p)
    · subst hl
      simp only [vOf, hr, hrow, Option.bind_some, List.getD_eq_getElem?_getD] at hb ⊢
      rw [if_neg]
      · exact hb
      · intro h; rw [h] at hb; cases hb
    · rw [hother l hl]; exact hb
  · intro l b h1 h2
    by_cases hl : l = (c, p)
    · subst hl
      refine ⟨rfl, ?_⟩
      simp only [vOf, hr, hrow, Option.bind_some, List.getD_eq_getElem?_getD] at h1 h2
      split_ifs at h2 with h
      · have hlt : p.1 < row.length := (List.getElem?_eq_some_iff.1 h).1
        rw [List.getElem?_set_self hlt] at h2
        cases h2; rfl
      · rw [h1] at h2; cases h2
    · rw [hother l hl, h1] at h2; cases h2
  · rintro hlen l b ⟨rfl, rfl⟩
    have hlt : p.1 < row.length := by rw [hlen c row hr]; exact p.2
    simp only [vOf, hrow, Option.bind_some, List.getD_eq_getElem?_getD]
    split_ifs with h
    · rw [List.getElem?_set_self hlt]; simp
    · intro h'
      apply h
      rw [List.getElem?_eq_getElem hlt] at h' ⊢
      simpa using h'

theorem puts_ext (c : CN) : ∀ (ps : List (Nat × Option Nat)) (D : Dict), (D c).isSome →
    (∀ x ∈ ps, x.1 < nd2 e ∧ ∃ a, x.2 = some a) →
    Ext e (fun l b => l.1 = c ∧ (l.2.1, some b) ∈ ps) D (ps.foldl (fun D a => put D c a.1 a.2) D) ∧
    ∀ x, (ps.foldl (fun D a => put D c a.1 a.2) D x).isSome = (D x).isSome := by
  intro ps
  induction ps with
  | nil => intro D _ _; exact ⟨(Ext.refl D).congr (by simp), fun _ => rfl⟩
  | cons y ps ih =>
    intro D hc hps
    obtain ⟨⟨hy, a, ha⟩, hps'⟩ := List.forall_mem_cons.1 hps
    obtain ⟨y1, y2⟩ := y
    simp only at hy ha
    subst ha
    have h1 := put_ext D c hc ⟨y1, hy⟩ a
    obtain ⟨h2, h3⟩ := ih (put D c y1 (some a)) (by rw [put_dom]; exact hc) hps'
    refine ⟨(h1.trans h2).congr ?_, fun x => ?_⟩
    · rintro ⟨x, q⟩ b
      simp only [Prod.mk.injEq, List.mem_cons, Option.some.injEq, Fin.ext_iff]
      tauto
    · simp only [List.foldl_cons]
      rw [h3, put_dom]

theorem assignAt_ext (D : Dict) (c : CN) (ps : List (Nat × Option Nat)) (hps : ∀ x ∈ ps, x.1 < nd2 e ∧ ∃ a, x.2 = some a) :
    Ext e (fun l b => l.1 = c ∧ (l.2.1, some b) ∈ ps) D (assignAt (nd2 e) D c ps) := by
  unfold assignAt
  exact ((touch_ext D c).trans (puts_ext c ps _ (touch_dom _ D c) hps).1).congr (by simp)

/-! ### The numbering loop -/

theorem fillRow_spec : ∀ (row : List (Option Nat)) (n : Nat),
    (fillRow row n).1.length = row.length ∧ n ≤ (fillRow row n).2 ∧
    (∀ (i a : Nat), row[i]? = some (some a) → (fillRow row n).1[i]? = some (some a)) ∧
    (∀ i : Nat, row[i]? = some none → ∃ a, (fillRow row n).1[i]? = some (some a) ∧ n ≤ a ∧ a < (fillRow row n).2) ∧
    (∀ i j : Nat, row[i]? = some none → row[j]? = some none → (fillRow row n).1[i]? = (fillRow row n).1[j]? → i = j) ∧
    (∀ a, n ≤ a → a < (fillRow row n).2 → ∃ i : Nat, row[i]? = some none ∧ (fillRow row n).1[i]? = some (some a)) := by
  intro row
  induction row with
  | nil => intro n; simp [fillRow]
  | cons x row ih =>
    intro n
    cases x with
    | some d =>
      obtain ⟨h1, h2, h3, h4, h5, h6⟩ := ih n
      simp only [fillRow]
      refine ⟨by simp [h1], h2, ?_, ?_, ?_, ?_⟩
      · rintro (_ | i) a h
        · simpa using h
        · exact h3 i a (by simpa using h)
      · rintro (_ | i) h
        · simp at h
        · exact h4 i (by simpa using h)
      · rintro (_ | i) (_ | j) h h' hh
        · rfl
        · simp at h
        · simp at h'
        · rw [h5 i j (by simpa using h) (by simpa using h') (by simpa using hh)]
      · intro a ha ha'
        obtain ⟨i, hi, hi'⟩ := h6 a ha ha'
        exact ⟨i + 1, by simpa using hi, by simpa using hi'⟩
    | none =>
      obtain ⟨h1, h2, h3, h4, h5, h6⟩ := ih (n + 1)
      simp only [fillRow]
      refine ⟨by simp [h1], by omega, ?_, ?_, ?_, ?_⟩
      · rintro (_ | i) a h
        · simp at h
        · exact h3 i a (by simpa using h)
      · rintro (_ | i) h
        · exact ⟨n, by simp, le_refl _, by omega⟩
        · obtain ⟨a, g1, g2, g3⟩ := h4 i (by simpa using h)
          exact ⟨a, by simpa using g1, by omega, g3⟩
      · rintro (_ | i) (_ | j) h h' hh
        · rfl
        · obtain ⟨a, g1, g2, _⟩ := h4 j (by simpa using h')
          simp only [List.getElem?_cons_zero, List.getElem?_cons_succ, g1, Option.some.injEq] at hh
          omega
        · obtain ⟨a, g1, g2, _⟩ := h4 i (by simpa using h)
          simp only [List.getElem?_cons_zero, List.getElem?_cons_succ, g1, Option.some.injEq] at hh
          omega
        · rw [h5 i j (by simpa using h) (by simpa using h') (by simpa using hh)]
      · intro a ha ha'
        rcases Nat.eq_or_lt_of_le ha with rfl | ha
        · exact ⟨0, by simp, by simp⟩
        · obtain ⟨i, hi, hi'⟩ := h6 a (by omega) ha'
          exact ⟨i + 1, by simpa using hi, by simpa using hi'⟩

/-- What `fill_dofs` does. -/
theorem fill_spec (D : DH) (c : CN) (hl : Len e D.dofs) :
    Len e (fill e D c).dofs ∧ D.count ≤ (fill e D c).count ∧ ((fill e D c).dofs c).isSome ∧
    (∀ l : Loc e, l.1 ≠ c → vOf (fill e D c).dofs l = vOf D.dofs l) ∧
    (∀ (p : Fin (nd2 e)) a, vOf D.dofs (c, p) = some a → vOf (fill e D c).dofs (c, p) = some a) ∧
    (∀ p : Fin (nd2 e), vOf D.dofs (c, p) = none → ∃ a, vOf (fill e D c).dofs (c, p) = some a ∧ D.count ≤ a ∧
      a < (fill e D c).count) ∧
    (∀ p q : Fin (nd2 e), vOf D.dofs (c, p) = none → vOf D.dofs (c, q) = none →
      vOf (fill e D c).dofs (c, p) = vOf (fill e D c).dofs (c, q) → p = q) ∧
    (∀ a, D.count ≤ a → a < (fill e D c).count → ∃ p : Fin (nd2 e), vOf D.dofs (c, p) = none ∧
      vOf (fill e D c).dofs (c, p) = some a) := by
  obtain ⟨row, hrow⟩ : ∃ row, row = (D.dofs c).getD (List.replicate (nd2 e) none) := ⟨_, rfl⟩
  have hlen : row.length = nd2 e := by
    rw [hrow]
    rcases h : D.dofs c with _ | r
    · simp
    · exact hl c r h
  have hv : ∀ p : Fin (nd2 e), vOf D.dofs (c, p) = row.getD p none := by
    intro p
    rw [hrow]
    simp only [vOf]
    rcases D.dofs c with _ | r
    · simp [List.getD_eq_getElem?_getD]
    · rfl
  have hnone : ∀ p : Fin (nd2 e), vOf D.dofs (c, p) = none ↔ row[p.1]? = some none := by
    intro p
    have hp : p.1 < row.length := by rw [hlen]; exact p.2
    rw [hv, List.getD_eq_getElem?_getD, List.getElem?_eq_getElem hp]
    simp
  have hsome : ∀ (p : Fin (nd2 e)) a, vOf D.dofs (c, p) = some a ↔ row[p.1]? = some (some a) := by
    intro p a
    have hp : p.1 < row.length := by rw [hlen]; exact p.2
    rw [hv, List.getD_eq_getElem?_getD, List.getElem?_eq_getElem hp]
    simp
  unfold fill
  simp only [← hrow]
  by_cases hn : none ∈ row
  · rw [if_pos hn]
    obtain ⟨h1, h2, h3, h4, h5, h6⟩ := fillRow_spec row D.count
    have hv' : ∀ p : Fin (nd2 e), vOf (Function.update D.dofs c (some (fillRow row D.count).1)) (c, p) =
        (fillRow row D.count).1[p.1]?.getD none := by
      intro p
      simp [vOf, List.getD_eq_getElem?_getD]
    have hlt : ∀ i : Nat, row[i]? = some none → i < nd2 e := by
      intro i hi
      rw [← hlen]
      exact (List.getElem?_eq_some_iff.1 hi).1
    refine ⟨?_, h2, ?_, ?_, ?_, ?_, ?_, ?_⟩
    · intro x r hx
      by_cases hxc : x = c
      · subst hxc
        simp only [Function.update_self, Option.some.injEq] at hx
        rw [← hx, h1, hlen]
      · simp only [Function.update_of_ne hxc] at hx
        exact hl x r hx
    · simp
    · rintro ⟨x, p⟩ hx
      simp only at hx
      simp [vOf, Function.update_of_ne hx]
    · intro p a hp
      rw [hv', h3 p a ((hsome p a).1 hp)]; rfl
    · intro p hp
      obtain ⟨a, g1, g2, g3⟩ := h4 p ((hnone p).1 hp)
      exact ⟨a, by rw [hv', g1]; rfl, g2, g3⟩
    · intro p q hp hq h
      rw [hv', hv'] at h
      obtain ⟨a, g1, _⟩ := h4 p ((hnone p).1 hp)
      obtain ⟨b, g2, _⟩ := h4 q ((hnone q).1 hq)
      rw [g1, g2] at h
      refine Fin.ext (h5 p q ((hnone p).1 hp) ((hnone q).1 hq) ?_)
      rw [g1, g2]
      simpa using h
    · intro a ha ha'
      obtain ⟨i, g1, g2⟩ := h6 a ha ha'
      exact ⟨⟨i, hlt i g1⟩, (hnone _).2 g1, by rw [hv', g2]; rfl⟩
  · rw [if_neg hn]
    have hne : ∀ p : Fin (nd2 e), vOf D.dofs (c, p) ≠ none := by
      intro p h
      exact hn (List.mem_of_getElem? ((hnone p).1 h))
    have ht := touch_ext (e := e) D.dofs c
    refine ⟨ht.len hl, le_refl _, touch_dom _ _ _, ?_, fun p a h => ht.mono _ a h, ?_, ?_, ?_⟩
    · rintro ⟨x, p⟩ hx
      simp only at hx
      simp [vOf, touch, hx]
    · intro p hp; exact absurd hp (hne p)
    · intro p q hp; exact absurd hp (hne p)
    · intro a ha ha'; simp only at ha'; omega

end Verif.Dof
