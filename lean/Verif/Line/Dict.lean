import Verif.Line.Model
import Verif.Dof.Concrete

/-!
# What the treatment of one cell does to the dictionary of dofs, in one dimension
-/

namespace Verif.Line
open Verif.Fem Verif.OneD Verif.Geom

/-- A place: a cell and the number of one of its nodes. -/
abbrev Loc (e : ET) := IN × Fin (nd1 e)

/-- The dof at a place. -/
def vOf {e : ET} (D : Dict) (l : Loc e) : Option Nat := (D l.1).bind (fun row => row.getD l.2 none)

/-- All entries of the dictionary have the length `n_dofs`. -/
def Len (e : ET) (D : Dict) : Prop := ∀ c row, D c = some row → row.length = nd1 e

/-- `D'` is `D` with the places of `W` filled where they were empty. -/
structure Ext (e : ET) (W : Loc e → Nat → Prop) (D D' : Dict) : Prop where
  len : Len e D → Len e D'
  mono : ∀ (l : Loc e) a, vOf D l = some a → vOf D' l = some a
  new : ∀ (l : Loc e) a, vOf D l = none → vOf D' l = some a → W l a
  set : Len e D → ∀ (l : Loc e) a, W l a → vOf D' l ≠ none

variable {e : ET}

theorem Ext.trans {W W' : Loc e → Nat → Prop} {D D' D'' : Dict} (h : Ext e W D D') (h' : Ext e W' D' D'') :
    Ext e (fun l a => W l a ∨ W' l a) D D'' := by
  refine ⟨fun x => h'.len (h.len x), fun l a x => h'.mono l a (h.mono l a x), ?_, ?_⟩
  · intro l a h1 h2
    rcases hm : vOf D' l with _ | b
    · exact .inr (h'.new l a hm h2)
    · have := h'.mono l b hm
      rw [h2] at this; cases this
      exact .inl (h.new l a h1 hm)
  · rintro hl l a (hw | hw)
    · obtain ⟨b, hb⟩ := Option.ne_none_iff_exists'.1 (h.set hl l a hw)
      rw [h'.mono l b hb]; simp
    · exact h'.set (h.len hl) l a hw

theorem Ext.congr {W W' : Loc e → Nat → Prop} {D D' : Dict} (h : Ext e W D D') (hW : ∀ l a, W l a ↔ W' l a) :
    Ext e W' D D' :=
  ⟨h.len, h.mono, fun l a h1 h2 => (hW l a).1 (h.new l a h1 h2), fun hl l a hw => h.set hl l a ((hW l a).2 hw)⟩

theorem Ext.refl (D : Dict) : Ext e (fun _ _ => False) D D :=
  ⟨id, fun _ _ h => h, fun l a h1 h2 => (by rw [h1] at h2; cases h2), fun _ _ _ h => h.elim⟩

theorem touch_ext (D : Dict) (c : IN) : Ext e (fun _ _ => False) D (touch (nd1 e) D c) := by
  have hv : ∀ l : Loc e, vOf (touch (nd1 e) D c) l = vOf D l := by
    rintro ⟨x, p⟩
    simp only [vOf, touch]
    split_ifs with hx
    · subst hx
      rcases D x with _ | row
      · simp [List.getD_eq_getElem?_getD]
      · rfl
    · rfl
  refine ⟨?_, fun l a h => (hv l).trans h, fun l a h1 h2 => ?_, fun _ _ _ h => h.elim⟩
  · intro hl x row hx
    simp only [touch] at hx
    split_ifs at hx with h
    · cases hx
      rcases hd : D c with _ | row
      · simp
      · exact hl c row hd
    · exact hl x row hx
  · rw [hv, h1] at h2; cases h2

theorem touch_dom (n : Nat) (D : Dict) (c : IN) : (touch n D c c).isSome := by simp [touch]

theorem put_dom (D : Dict) (c : IN) (p : Nat) (v : Option Nat) (x : IN) : (put D c p v x).isSome = (D x).isSome := by
  simp only [put, putRow]
  split_ifs with h
  · subst h
    cases D x <;> rfl
  · rfl

theorem put_ext (D : Dict) (c : IN) (hc : (D c).isSome) (p : Fin (nd1 e)) (a : Nat) :
    Ext e (fun l b => l = (c, p) ∧ b = a) D (put D c p (some a)) := by
  obtain ⟨row, hr⟩ := Option.isSome_iff_exists.1 hc
  have hother : ∀ l : Loc e, l ≠ (c, p) → vOf (put D c p (some a)) l = vOf D l := by
    rintro ⟨x, q⟩ hne
    simp only [vOf, put, putRow]
    split_ifs with hx
    · subst hx
      have hq : p.1 ≠ q.1 := fun h => hne (by rw [Fin.ext h])
      rw [hr]
      simp only [Option.map_some, Option.bind_some]
      split_ifs
      · simp [List.getD_eq_getElem?_getD, List.getElem?_set, hq]
      · rfl
    · rfl
  have hrow : put D c p (some a) c = some (if row[p.1]? = some none then row.set p (some a) else row) := by
    simp [put, putRow, hr]
  refine ⟨?_, ?_, ?_, ?_⟩
  · intro hl x row' hx
    by_cases h : x = c
    · subst h
      rw [hrow] at hx
      cases hx
      split_ifs
      · rw [List.length_set]; exact hl x row hr
      · exact hl x row hr
    · simp only [put, if_neg h] at hx
      exact hl x row' hx
  · intro l b hb
    by_cases hl : l = (c, p)
    · subst hl
      simp only [vOf, hr, hrow, Option.bind_some, List.getD_eq_getElem?_getD] at hb ⊢
      rw [if_neg]
      · exact hb
      · intro h; rw [h] at hb; cases hb
    · rw [hother l hl]; exact hb
  · intro l b h1 h2
    by_cases hl : l = (c, p)
    · subst hl
      refine ⟨rfl, ?_⟩
      simp only [vOf, hr, hrow, Option.bind_some, List.getD_eq_getElem?_getD] at h1 h2
      split_ifs at h2 with h
      · have hlt : p.1 < row.length := (List.getElem?_eq_some_iff.1 h).1
        rw [List.getElem?_set_self hlt] at h2
        cases h2; rfl
      · rw [h1] at h2; cases h2
    · rw [hother l hl, h1] at h2; cases h2
  · rintro hlen l b ⟨rfl, rfl⟩
    have hlt : p.1 < row.length := by rw [hlen c row hr]; exact p.2
    simp only [vOf, hrow, Option.bind_some, List.getD_eq_getElem?_getD]
    split_ifs with h
    · rw [List.getElem?_set_self hlt]; simp
    · intro h'
      apply h
      rw [List.getElem?_eq_getElem hlt] at h' ⊢
      simpa using h'

theorem puts_ext (c : IN) : ∀ (ps : List (Nat × Option Nat)) (D : Dict), (D c).isSome →
    (∀ x ∈ ps, x.1 < nd1 e ∧ ∃ a, x.2 = some a) →
    Ext e (fun l b => l.1 = c ∧ (l.2.1, some b) ∈ ps) D (ps.foldl (fun D a => put D c a.1 a.2) D) ∧
    ∀ x, (ps.foldl (fun D a => put D c a.1 a.2) D x).isSome = (D x).isSome := by
  intro ps
  induction ps with
  | nil => intro D _ _; exact ⟨(Ext.refl D).congr (by simp), fun _ => rfl⟩
  | cons y ps ih =>
    intro D hc hps
    obtain ⟨⟨hy, a, ha⟩, hps'⟩ := List.forall_mem_cons.1 hps
    obtain ⟨y1, y2⟩ := y
    simp only at hy ha
    subst ha
    have h1 := put_ext D c hc ⟨y1, hy⟩ a
    obtain ⟨h2, h3⟩ := ih (put D c y1 (some a)) (by rw [put_dom]; exact hc) hps'
    refine ⟨(h1.trans h2).congr ?_, fun x => ?_⟩
    · rintro ⟨x, q⟩ b
      simp only [Prod.mk.injEq, List.mem_cons, Option.some.injEq, Fin.ext_iff]
      tauto
    · simp only [List.foldl_cons]
      rw [h3, put_dom]

theorem assignAt_ext (D : Dict) (c : IN) (ps : List (Nat × Option Nat)) (hps : ∀ x ∈ ps, x.1 < nd1 e ∧ ∃ a, x.2 = some a) :
    Ext e (fun l b => l.1 = c ∧ (l.2.1, some b) ∈ ps) D (assignAt (nd1 e) D c ps) := by
  unfold assignAt
  exact ((touch_ext D c).trans (puts_ext c ps _ (touch_dom _ D c) hps).1).congr (by simp)

/-- What `fill_dofs` does. -/
theorem fill_spec {K : Type} [Field K] [LinearOrder K] {per : Bool} {F : List (Cell K)} (D : DH) (c : IN) (ho : ownNb per e F c = false)
    (hl : Len e D.dofs) :
    Len e (fill per e F D c).dofs ∧ D.count ≤ (fill per e F D c).count ∧ ((fill per e F D c).dofs c).isSome ∧
    (∀ l : Loc e, l.1 ≠ c → vOf (fill per e F D c).dofs l = vOf D.dofs l) ∧
    (∀ (p : Fin (nd1 e)) a, vOf D.dofs (c, p) = some a → vOf (fill per e F D c).dofs (c, p) = some a) ∧
    (∀ p : Fin (nd1 e), vOf D.dofs (c, p) = none → ∃ a, vOf (fill per e F D c).dofs (c, p) = some a ∧ D.count ≤ a ∧
      a < (fill per e F D c).count) ∧
    (∀ p q : Fin (nd1 e), vOf D.dofs (c, p) = none → vOf D.dofs (c, q) = none →
      vOf (fill per e F D c).dofs (c, p) = vOf (fill per e F D c).dofs (c, q) → p = q) ∧
    (∀ a, D.count ≤ a → a < (fill per e F D c).count → ∃ p : Fin (nd1 e), vOf D.dofs (c, p) = none ∧
      vOf (fill per e F D c).dofs (c, p) = some a) := by
  obtain ⟨row, hrow⟩ : ∃ row, row = (D.dofs c).getD (List.replicate (nd1 e) none) := ⟨_, rfl⟩
  have hlen : row.length = nd1 e := by
    rw [hrow]
    rcases h : D.dofs c with _ | r
    · simp
    · exact hl c r h
  have hv : ∀ p : Fin (nd1 e), vOf D.dofs (c, p) = row.getD p none := by
    intro p
    rw [hrow]
    simp only [vOf]
    rcases D.dofs c with _ | r
    · simp [List.getD_eq_getElem?_getD]
    · rfl
  have hnone : ∀ p : Fin (nd1 e), vOf D.dofs (c, p) = none ↔ row[p.1]? = some none := by
    intro p
    have hp : p.1 < row.length := by rw [hlen]; exact p.2
    rw [hv, List.getD_eq_getElem?_getD, List.getElem?_eq_getElem hp]
    simp
  have hsome : ∀ (p : Fin (nd1 e)) a, vOf D.dofs (c, p) = some a ↔ row[p.1]? = some (some a) := by
    intro p a
    have hp : p.1 < row.length := by rw [hlen]; exact p.2
    rw [hv, List.getD_eq_getElem?_getD, List.getElem?_eq_getElem hp]
    simp
  unfold fill
  simp only [← hrow, ho, Bool.false_eq_true, if_false]
  by_cases hn : none ∈ row
  · rw [if_pos hn]
    obtain ⟨h1, h2, h3, h4, h5, h6⟩ := Dof.fillRow_spec row D.count
    have hv' : ∀ p : Fin (nd1 e), vOf (Function.update D.dofs c (some (Dof.fillRow row D.count).1)) (c, p) =
        (Dof.fillRow row D.count).1[p.1]?.getD none := by
      intro p
      simp [vOf, List.getD_eq_getElem?_getD]
    have hlt : ∀ i : Nat, row[i]? = some none → i < nd1 e := by
      intro i hi
      rw [← hlen]
      exact (List.getElem?_eq_some_iff.1 hi).1
    refine ⟨?_, h2, ?_, ?_, ?_, ?_, ?_, ?_⟩
    · intro x r hx
      by_cases hxc : x = c
      · subst hxc
        simp only [Function.update_self, Option.some.injEq] at hx
        rw [← hx, h1, hlen]
      · simp only [Function.update_of_ne hxc] at hx
        exact hl x r hx
    · simp
    · rintro ⟨x, p⟩ hx
      simp only at hx
      simp [vOf, Function.update_of_ne hx]
    · intro p a hp
      rw [hv', h3 p a ((hsome p a).1 hp)]; rfl
    · intro p hp
      obtain ⟨a, g1, g2, g3⟩ := h4 p ((hnone p).1 hp)
      exact ⟨a, by rw [hv', g1]; rfl, g2, g3⟩
    · intro p q hp hq h
      rw [hv', hv'] at h
      obtain ⟨a, g1, _⟩ := h4 p ((hnone p).1 hp)
      obtain ⟨b, g2, _⟩ := h4 q ((hnone q).1 hq)
      rw [g1, g2] at h
      refine Fin.ext (h5 p q ((hnone p).1 hp) ((hnone q).1 hq) ?_)
      rw [g1, g2]
      simpa using h
    · intro a ha ha'
      obtain ⟨i, g1, g2⟩ := h6 a ha ha'
      exact ⟨⟨i, hlt i g1⟩, (hnone _).2 g1, by rw [hv', g2]; rfl⟩
  · rw [if_neg hn]
    have hne : ∀ p : Fin (nd1 e), vOf D.dofs (c, p) ≠ none := by
      intro p h
      exact hn (List.mem_of_getElem? ((hnone p).1 h))
    have ht := touch_ext (e := e) D.dofs c
    refine ⟨ht.len hl, le_refl _, touch_dom _ _ _, ?_, fun p a h => ht.mono _ a h, ?_, ?_, ?_⟩
    · rintro ⟨x, p⟩ hx
      simp only at hx
      simp [vOf, touch, hx]
    · intro p hp; exact absurd hp (hne p)
    · intro p q hp; exact absurd hp (hne p)
    · intro a ha ha'; simp only at ha'; omega



/-- The cell `c` has the dofs `w`. -/
def Row (e : ET) (c : IN) (w : Fin (nd1 e) → Nat) (D : Dict) : Prop :=
  Len e D ∧ ∀ p : Fin (nd1 e), vOf D (c, p) = some (w p)


theorem Row.ext {c : IN} {w : Fin (nd1 e) → Nat} {D D' : Dict} {W : Loc e → Nat → Prop} (h : Row e c w D) (hx : Ext e W D D') :
    Row e c w D' := ⟨hx.len h.1, fun p => hx.mono _ _ (h.2 p)⟩

theorem foldlM_ext {α : Type} {c : IN} {w : Fin (nd1 e) → Nat} (f : Dict → α → Option Dict) (W : α → Loc e → Nat → Prop) :
    ∀ (xs : List α), (∀ i ∈ xs, ∀ D, Row e c w D → ∃ D', f D i = some D' ∧ Ext e (W i) D D') →
    ∀ D, Row e c w D → ∃ D', xs.foldlM f D = some D' ∧ Ext e (fun l a => ∃ i ∈ xs, W i l a) D D' := by
  intro xs
  induction xs with
  | nil =>
    intro _ D _
    exact ⟨D, rfl, (Ext.refl D).congr (by simp)⟩
  | cons x xs ih =>
    intro hf D hD
    obtain ⟨D1, h1, h2⟩ := hf x (by simp) D hD
    obtain ⟨D2, h3, h4⟩ := ih (fun i hi => hf i (by simp [hi])) D1 (hD.ext h2)
    refine ⟨D2, by simp only [List.foldlM_cons, h1]; exact h3, (h2.trans h4).congr ?_⟩
    simp

theorem foldl_ext {α : Type} {c : IN} {w : Fin (nd1 e) → Nat} (f : Dict → α → Dict) (W : α → Loc e → Nat → Prop)
    (xs : List α) (hf : ∀ i ∈ xs, ∀ D, Row e c w D → Ext e (W i) D (f D i)) (D : Dict) (hD : Row e c w D) :
    Ext e (fun l a => ∃ i ∈ xs, W i l a) D (xs.foldl f D) := by
  induction xs generalizing D with
  | nil => exact (Ext.refl D).congr (by simp)
  | cons x xs ih =>
    have h2 := hf x (by simp) D hD
    have h4 := ih (fun i hi => hf i (by simp [hi])) (f D x) (hD.ext h2)
    exact (h2.trans h4).congr (by simp)

theorem Row.row {c : IN} {w : Fin (nd1 e) → Nat} {D : Dict} (h : Row e c w D) :
    ∃ row, D c = some row ∧ row.length = nd1 e ∧ ∀ p : Fin (nd1 e), row[p.1]? = some (some (w p)) := by
  rcases hd : D c with _ | row
  · exfalso
    have hpos : 0 < nd1 e := by cases e <;> decide
    have := h.2 ⟨0, hpos⟩
    simp [vOf, hd] at this
  · refine ⟨row, rfl, h.1 c row hd, fun p => ?_⟩
    have := h.2 p
    simp only [vOf, hd, Option.bind_some, List.getD_eq_getElem?_getD] at this
    have hp : p.1 < row.length := by rw [h.1 c row hd]; exact p.2
    rw [List.getElem?_eq_getElem hp] at this ⊢
    simpa using this


end Verif.Line
