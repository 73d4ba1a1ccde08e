import Verif.Dof.Verts
import Mathlib.Logic.Relation
import Mathlib.Tactic.FinCases
import Mathlib.Tactic.LinearCombination

/-!
# When are two points of cells the same point?

The specification: the domain is made of the initial cells, each a unit square, glued along the edges that are
twins of each other (`SamePt`).  A point of a refined cell is a point of its initial cell (`rootPt`).
-/

namespace Verif.Dof
open Verif.Fem Verif.Mesh

/-! Coordinates are in an ordered field `R`: `ℚ` for the nodes, `ℝ` for arbitrary points. -/
variable {R : Type} [Field R]

/-- A point in the unit square, and the point of side `i` at the fraction `r` of the way from its base to its
head. -/
def E (i : Fin 4) (r : R) : R × R :=
  match i with
  | 0 => (r, 0)
  | 1 => (1, r)
  | 2 => (1 - r, 1)
  | 3 => (0, 1 - r)

section spec
variable {K : Type} [LE R]

/-- Points of two initial cells that are glued along a common edge: `T` pairs half-edge `4*f + i` (side `i` of cell
`f`) with half-edge `4*f' + i'`, which runs in the opposite direction. -/
def Glued (B : Base K) (x y : Nat × (R × R)) : Prop :=
  ∃ (i i' : Fin 4) (r : R), 0 ≤ r ∧ r ≤ 1 ∧ x.1 < B.n ∧ y.1 < B.n ∧ B.T (4 * x.1 + i) = some (4 * y.1 + i') ∧
    x.2 = E i r ∧ y.2 = E i' (1 - r)

/-- The same point of the domain. -/
def SamePt (B : Base K) : Nat × (R × R) → Nat × (R × R) → Prop := Relation.EqvGen (Glued B)

/-- Where a point of a descendant is in the unit square of the ancestor: positions innermost first. -/
def climb : List (Fin 4) → R × R → R × R
  | [], z => z
  | k :: p, z => climb p (emb k z)

/-- The point of the initial cell. -/
def rootPt (c : CN) (z : R × R) : Nat × (R × R) := (c.1, climb c.2 z)

end spec

variable [LinearOrder R]

/-- In the closed unit square. -/
def InSq (z : R × R) : Prop := 0 ≤ z.1 ∧ z.1 ≤ 1 ∧ 0 ≤ z.2 ∧ z.2 ≤ 1

/-- A corner of the unit square. -/
def Corner (z : R × R) : Prop := (z.1 = 0 ∨ z.1 = 1) ∧ (z.2 = 0 ∨ z.2 = 1)

variable [IsStrictOrderedRing R]

theorem Corner.insq {z : R × R} (h : Corner z) : InSq z := by
  obtain ⟨h1, h2⟩ := h
  rcases h1 with h1 | h1 <;> rcases h2 with h2 | h2 <;> simp [InSq, h1, h2]

theorem emb_insq (k : Fin 4) {z : R × R} (h : InSq z) : InSq (emb k z) := by
  obtain ⟨h1, h2, h3, h4⟩ := h
  fin_cases k <;> simp only [emb, InSq] <;> refine ⟨?_, ?_, ?_, ?_⟩ <;> linarith

theorem climb_insq (p : List (Fin 4)) {z : R × R} (h : InSq z) : InSq (climb p z) := by
  induction p generalizing z with
  | nil => exact h
  | cons k p ih => exact ih (emb_insq k h)

theorem E_insq (i : Fin 4) {r : R} (h0 : 0 ≤ r) (h1 : r ≤ 1) : InSq (E i r) := by
  fin_cases i <;> simp only [E, InSq] <;> refine ⟨?_, ?_, ?_, ?_⟩ <;> linarith

theorem E_corner (i : Fin 4) (r : R) : Corner (E i r) ↔ r = 0 ∨ r = 1 := by
  fin_cases i <;> simp only [E, Corner] <;> constructor
  · rintro ⟨h, _⟩; exact h
  · intro h; exact ⟨h, .inl trivial⟩
  · rintro ⟨_, h⟩; exact h
  · intro h; exact ⟨.inr trivial, h⟩
  · rintro ⟨h | h, _⟩
    · right; linarith
    · left; linarith
  · rintro (h | h)
    · exact ⟨.inr (by linarith), .inr trivial⟩
    · exact ⟨.inl (by linarith), .inr trivial⟩
  · rintro ⟨_, h | h⟩
    · right; linarith
    · left; linarith
  · rintro (h | h)
    · exact ⟨.inl trivial, .inr (by linarith)⟩
    · exact ⟨.inl trivial, .inl (by linarith)⟩

theorem E_inj (i : Fin 4) {r r' : R} (h : E i r = E i r') : r = r' := by
  fin_cases i <;> simp only [E, Prod.mk.injEq] at h <;> rcases h with ⟨h1, h2⟩ <;> linarith

/-- A point on two sides is a corner. -/
theorem E_two (i j : Fin 4) {r r' : R} (hr0 : 0 ≤ r) (hr1 : r ≤ 1) (h : E i r = E j r') (hc : ¬ (r = 0 ∨ r = 1)) :
    i = j := by
  have : r ≠ 0 ∧ r ≠ 1 := by tauto
  fin_cases i <;> fin_cases j <;> simp only [E, Prod.mk.injEq] at h <;> first
    | rfl
    | (exfalso; obtain ⟨h1, h2⟩ := h; obtain ⟨t1, t2⟩ := this; first
        | exact t1 (by linarith)
        | exact t2 (by linarith))

theorem fin4_g (k : Fin 4) : k + 1 + 2 = k + 3 := by revert k; decide
theorem fin4_h (k : Fin 4) : k + 1 + 3 = k := by revert k; decide

theorem E_next (i : Fin 4) : E i (1 : R) = E (i + 1) 0 := by
  fin_cases i <;> simp [E]

/-! ### Sides of children -/

theorem emb_k (k : Fin 4) (r : R) : emb k (E k r) = E k (r / 2) := by
  fin_cases k <;> simp [E, emb] <;> ring

theorem emb_k3 (k : Fin 4) (r : R) : emb (k + 1) (E k r) = E k ((1 + r) / 2) := by
  fin_cases k <;> simp [E, emb] <;> ring

theorem emb_inner (k : Fin 4) (r : R) : emb k (E (k + 1) r) = emb (k + 1) (E (k + 3) (1 - r)) := by
  fin_cases k <;> simp [E, emb]

/-- A point of child `k` on side `i` of the parent. -/
theorem emb_on_side (k i : Fin 4) {z : R × R} {r : R} (hz : InSq z) (h : emb k z = E i r) :
    (k = i ∧ z = E i (2 * r) ∧ r ≤ 1 / 2) ∨ (k = i + 1 ∧ z = E i (2 * r - 1) ∧ 1 / 2 ≤ r) := by
  obtain ⟨z1, z2⟩ := z
  obtain ⟨h1, h2, h3, h4⟩ := hz
  simp only at h1 h2 h3 h4
  fin_cases k <;> fin_cases i <;> simp only [E, emb, Prod.mk.injEq] at h ⊢ <;> obtain ⟨e1, e2⟩ := h <;> first
    | (exfalso; linarith)
    | (left; refine ⟨(by first | rfl | trivial), ⟨?_, ?_⟩, ?_⟩ <;> linarith)
    | (right; refine ⟨rfl, ⟨?_, ?_⟩, ?_⟩ <;> linarith)

theorem emb_corner (k : Fin 4) {z : R × R} (hz : InSq z) (h : Corner (emb k z)) : Corner z := by
  obtain ⟨z1, z2⟩ := z
  obtain ⟨h1, h2, h3, h4⟩ := hz
  simp only at h1 h2 h3 h4
  fin_cases k <;> simp only [Corner, emb] at h ⊢ <;> obtain ⟨a | a, b | b⟩ := h <;>
    constructor <;> first
    | (left; linarith)
    | (right; linarith)

/-- A point of two children of the same cell. -/
theorem emb_eq (k k' : Fin 4) {z w : R × R} (hz : InSq z) (hw : InSq w) (h : emb k z = emb k' w) :
    (k = k' ∧ z = w) ∨ (k' = k + 1 ∧ ∃ r, 0 ≤ r ∧ r ≤ 1 ∧ z = E (k + 1) r ∧ w = E (k + 3) (1 - r)) ∨
    (k = k' + 1 ∧ ∃ r, 0 ≤ r ∧ r ≤ 1 ∧ w = E (k' + 1) r ∧ z = E (k' + 3) (1 - r)) ∨
    (k' = k + 2 ∧ z = E (k + 1) 1 ∧ w = E (k' + 1) 1) := by
  obtain ⟨z1, z2⟩ := z
  obtain ⟨w1, w2⟩ := w
  obtain ⟨h1, h2, h3, h4⟩ := hz
  obtain ⟨g1, g2, g3, g4⟩ := hw
  simp only at h1 h2 h3 h4 g1 g2 g3 g4
  fin_cases k <;> fin_cases k' <;> simp only [emb, Prod.mk.injEq] at h ⊢ <;> obtain ⟨e1, e2⟩ := h
  · left; refine ⟨trivial, ?_, ?_⟩ <;> linarith
  · right; left; refine ⟨rfl, z2, h3, h4, ?_⟩; simp [E]; refine ⟨?_, ?_, ?_⟩ <;> linarith
  · right; right; right; refine ⟨rfl, ?_⟩; simp [E]; refine ⟨⟨?_, ?_⟩, ?_, ?_⟩ <;> linarith
  · right; right; left; refine ⟨rfl, w1, g1, g2, ?_⟩; simp [E]; refine ⟨?_, ?_, ?_⟩ <;> linarith
  · right; right; left; refine ⟨rfl, w2, g3, g4, ?_⟩; simp [E]; refine ⟨?_, ?_, ?_⟩ <;> linarith
  · left; refine ⟨trivial, ?_, ?_⟩ <;> linarith
  · right; left; refine ⟨rfl, 1 - z1, ?_, ?_, ?_⟩ <;> [linarith; linarith; skip]; simp [E]; refine ⟨?_, ?_, ?_⟩ <;> linarith
  · right; right; right; refine ⟨rfl, ?_⟩; simp [E]; refine ⟨⟨?_, ?_⟩, ?_, ?_⟩ <;> linarith
  · right; right; right; refine ⟨rfl, ?_⟩; simp [E]; refine ⟨⟨?_, ?_⟩, ?_, ?_⟩ <;> linarith
  · right; right; left; refine ⟨rfl, 1 - w1, ?_, ?_, ?_⟩ <;> [linarith; linarith; skip]; simp [E]; refine ⟨?_, ?_, ?_⟩ <;> linarith
  · left; refine ⟨trivial, ?_, ?_⟩ <;> linarith
  · right; left; refine ⟨rfl, 1 - z2, ?_, ?_, ?_⟩ <;> [linarith; linarith; skip]; simp [E]; refine ⟨?_, ?_, ?_⟩ <;> linarith
  · right; left; refine ⟨rfl, z1, h1, h2, ?_⟩; simp [E]; refine ⟨?_, ?_, ?_⟩ <;> linarith
  · right; right; right; refine ⟨rfl, ?_⟩; simp [E]; refine ⟨⟨?_, ?_⟩, ?_, ?_⟩ <;> linarith
  · right; right; left; refine ⟨rfl, 1 - w2, ?_, ?_, ?_⟩ <;> [linarith; linarith; skip]; simp [E]; refine ⟨?_, ?_, ?_⟩ <;> linarith
  · left; refine ⟨trivial, ?_, ?_⟩ <;> linarith

/-! ### Gluing cells of one level -/

/-- Points of two cells that are glued along facing half-edges. -/
def PGlue (T : Nat → Option Nat) (x y : CN × (R × R)) : Prop :=
  ∃ (i j : Fin 4) (r : R), 0 ≤ r ∧ r ≤ 1 ∧ vt T (side x.1 i) = some (side y.1 j) ∧ x.2 = E i r ∧ y.2 = E j (1 - r)

theorem PGlue.symm {T : Nat → Option Nat} (hT : ∀ k j, T k = some j → T j = some k) {x y : CN × (R × R)}
    (h : PGlue T x y) : PGlue T y x := by
  obtain ⟨i, j, r, h0, h1, hv, e1, e2⟩ := h
  exact ⟨j, i, 1 - r, by linarith, by linarith, vt_inv hT _ _ hv, e2, by rw [e1]; exact congrArg (E _) (by ring)⟩

theorem PGlue.corner {T : Nat → Option Nat} {x y : CN × (R × R)} (h : PGlue T x y) : Corner x.2 ↔ Corner y.2 := by
  obtain ⟨i, j, r, h0, h1, hv, e1, e2⟩ := h
  rw [e1, e2, E_corner, E_corner]
  constructor
  · rintro (h | h)
    · right; linarith
    · left; linarith
  · rintro (h | h)
    · right; linarith
    · left; linarith

theorem PGlue.insq {T : Nat → Option Nat} {x y : CN × (R × R)} (h : PGlue T x y) : InSq x.2 ∧ InSq y.2 := by
  obtain ⟨i, j, r, h0, h1, hv, e1, e2⟩ := h
  rw [e1, e2]
  exact ⟨E_insq i h0 h1, E_insq j (by linarith) (by linarith)⟩

/-- A point that is not a corner is glued to at most one point. -/
theorem PGlue.unique {T : Nat → Option Nat} {x y y' : CN × (R × R)} (h : PGlue T x y) (h' : PGlue T x y')
    (hc : ¬ Corner x.2) : y = y' := by
  obtain ⟨i, j, r, h0, h1, hv, e1, e2⟩ := h
  obtain ⟨i', j', r', h0', h1', hv', e1', e2'⟩ := h'
  have hr : ¬ (r = 0 ∨ r = 1) := by rw [e1, E_corner] at hc; exact hc
  have hii := E_two i i' h0 h1 (e1.symm.trans e1') hr
  subst hii
  have := E_inj i (e1.symm.trans e1')
  subst this
  rw [hv] at hv'
  injection hv' with hv'
  obtain ⟨h3, h4⟩ := side_inj hv'
  subst h4
  exact Prod.ext h3 (by rw [e2, e2'])

/-- Glued points of children are the same point of the parent, or glued points of the parents. -/
theorem PGlue.up {T : Nat → Option Nat} {P P' : CN} {k k' : Fin 4} {z w : R × R}
    (h : PGlue T (child P k, z) (child P' k', w)) :
    (P = P' ∧ emb k z = emb k' w) ∨ PGlue T (P, emb k z) (P', emb k' w) := by
  obtain ⟨i, j, r, h0, h1, hv, e1, e2⟩ := h
  simp only at hv e1 e2
  -- the side of the second cell from the facing half-edge
  have hown := fun t (ht : side (child P' k') j = t) => (congrArg owner ht).symm.trans (owner_side _ _)
  rcases fin4_cases k i with hi | hi | hi | hi <;> rw [hi] at hv e1
  · rw [side_k] at hv
    simp only [vt, Option.map_eq_some_iff] at hv
    obtain ⟨t, ht, e⟩ := hv
    have := hown _ e.symm
    simp only [owner, Bool.not_false] at this
    obtain ⟨h2, h3⟩ := Prod.mk.inj this
    obtain ⟨h4, h5⟩ := child_inj h2
    right
    refine ⟨k, (owner t).2, r / 2, by linarith, by linarith, ?_, ?_, ?_⟩
    · simp only; rw [ht, ← h4, side_owner]
    · simp only; rw [e1, emb_k]
    · simp only; rw [e2, ← h5, ← h3, emb_k3]; congr 1; ring
  · rw [side_k1] at hv
    simp only [vt, Option.some.injEq, Bool.not_false] at hv
    have := hown _ hv.symm
    simp only [owner] at this
    obtain ⟨h2, h3⟩ := Prod.mk.inj this
    obtain ⟨h4, h5⟩ := child_inj h2
    left
    refine ⟨h4, ?_⟩
    rw [e1, e2, ← h5, ← h3, emb_inner]
  · rw [side_k2] at hv
    simp only [vt, Option.some.injEq, Bool.not_true] at hv
    have := hown _ hv.symm
    simp only [owner] at this
    obtain ⟨h2, h3⟩ := Prod.mk.inj this
    obtain ⟨h4, h5⟩ := child_inj h2
    left
    refine ⟨h4, ?_⟩
    rw [e1, e2, ← h5, ← h3, emb_inner, fin4_a, fin4_b]
    congr 2; ring
  · rw [side_k3] at hv
    simp only [vt, Option.map_eq_some_iff] at hv
    obtain ⟨t, ht, e⟩ := hv
    have := hown _ e.symm
    simp only [owner, Bool.not_true] at this
    obtain ⟨h2, h3⟩ := Prod.mk.inj this
    obtain ⟨h4, h5⟩ := child_inj h2
    right
    refine ⟨k - 1, (owner t).2, (1 + r) / 2, by linarith, by linarith, ?_, ?_, ?_⟩
    · simp only; rw [ht, ← h4, side_owner]
    · simp only
      have := emb_k3 (k - 1) r
      rw [fin4_a] at this
      rw [e1, ← fin4_c, this]
    · simp only; rw [e2, ← h5, ← h3, emb_k]; congr 1; ring

section
variable {K : Type}

theorem glued_iff {B : Base K} (f g : Nat) (z w : R × R) (hf : f < B.n) (hg : g < B.n) :
    Glued B (f, z) (g, w) ↔ PGlue B.T ((f, []), z) ((g, []), w) := by
  unfold Glued PGlue
  simp only [side, sideL, vt, Option.map_eq_some_iff, HN.root.injEq, exists_eq_right, hf, hg, true_and]

/-- Glued points of any level are the same point of the domain. -/
theorem PGlue.same {B : Base K} : ∀ (p q : List (Fin 4)) (f g : Nat) (z w : R × R), f < B.n → g < B.n →
    PGlue B.T ((f, p), z) ((g, q), w) → SamePt B (rootPt (f, p) z) (rootPt (g, q) w) := by
  intro p
  induction p with
  | nil =>
    intro q f g z w hf hg h
    cases q with
    | nil => exact .rel _ _ ((glued_iff f g z w hf hg).2 h)
    | cons k q =>
      obtain ⟨i, j, r, _, _, hv, _⟩ := h
      have := vt_level _ _ hv
      rw [owner_side, owner_side] at this
      simp [level] at this
  | cons k p ih =>
    intro q f g z w hf hg h
    cases q with
    | nil =>
      obtain ⟨i, j, r, _, _, hv, _⟩ := h
      have := vt_level _ _ hv
      rw [owner_side, owner_side] at this
      simp [level] at this
    | cons k' q =>
      rcases PGlue.up (P := (f, p)) (P' := (g, q)) h with ⟨h1, h2⟩ | h1
      · simp only [rootPt, climb]
        rw [h2]
        cases h1
        exact .refl _
      · exact ih q f g _ _ hf hg h1

/-- Points other than corners are the same point of the domain only if they are the same point of the same cell or
glued along an edge. -/
theorem same_noncorner {B : Base K} (hT : ∀ k j, B.T k = some j → B.T j = some k) :
    ∀ (p q : List (Fin 4)) (f g : Nat) (z w : R × R), p.length = q.length → InSq z → InSq w →
      SamePt B (rootPt (f, p) z) (rootPt (g, q) w) → ¬ Corner z →
      (g, q) = (f, p) ∧ w = z ∨ PGlue B.T ((f, p), z) ((g, q), w) := by
  -- the initial cells
  have base : ∀ x y : Nat × (R × R), SamePt B x y → x = y ∨ (Corner x.2 ∧ Corner y.2) ∨ (¬ Corner x.2 ∧ ¬ Corner y.2 ∧
      PGlue B.T ((x.1, []), x.2) ((y.1, []), y.2)) := by
    intro x y h
    induction h with
    | rel x y h =>
      have h' := h
      obtain ⟨_, _, _, _, _, hx, hy, _⟩ := h
      have h1 := (glued_iff x.1 y.1 x.2 y.2 hx hy).1 h'
      by_cases hc : Corner x.2
      · exact .inr (.inl ⟨hc, h1.corner.1 hc⟩)
      · exact .inr (.inr ⟨hc, fun h => hc (h1.corner.2 h), h1⟩)
    | refl x => exact .inl rfl
    | symm x y _ ih =>
      rcases ih with h | ⟨h1, h2⟩ | ⟨h1, h2, h3⟩
      · exact .inl h.symm
      · exact .inr (.inl ⟨h2, h1⟩)
      · exact .inr (.inr ⟨h2, h1, h3.symm hT⟩)
    | trans x y z _ _ ih1 ih2 =>
      rcases ih1 with rfl | ⟨h1, h2⟩ | ⟨h1, h2, h3⟩
      · exact ih2
      · rcases ih2 with rfl | ⟨g1, g2⟩ | ⟨g1, g2, g3⟩
        · exact .inr (.inl ⟨h1, h2⟩)
        · exact .inr (.inl ⟨h1, g2⟩)
        · exact absurd h2 g1
      · rcases ih2 with rfl | ⟨g1, g2⟩ | ⟨g1, g2, g3⟩
        · exact .inr (.inr ⟨h1, h2, h3⟩)
        · exact absurd g1 h2
        · left
          have := PGlue.unique (h3.symm hT) g3 h2
          simp only [Prod.mk.injEq, and_true] at this
          exact Prod.ext this.1 this.2
  intro p
  induction p with
  | nil =>
    intro q f g z w hl hz hw h hc
    cases q with
    | cons k q => simp at hl
    | nil =>
      rcases base _ _ h with h1 | ⟨h1, _⟩ | ⟨_, _, h1⟩
      · simp only [rootPt, climb, Prod.mk.injEq] at h1
        exact .inl ⟨by rw [h1.1], h1.2.symm⟩
      · exact absurd h1 hc
      · exact .inr h1
  | cons k p ih =>
    intro q f g z w hl hz hw h hc
    cases q with
    | nil => simp at hl
    | cons k' q =>
      simp only [List.length_cons, Nat.add_right_cancel_iff] at hl
      have hZ : ¬ Corner (emb k z) := fun h => hc (emb_corner k hz h)
      rcases ih q f g (emb k z) (emb k' w) hl (emb_insq k hz) (emb_insq k' hw) h hZ with ⟨h1, h2⟩ | h1
      · -- the same parent
        cases h1
        rcases emb_eq k k' hz hw h2.symm with ⟨rfl, rfl⟩ | ⟨rfl, r, r0, r1, e1, e2⟩ | ⟨rfl, r, r0, r1, e1, e2⟩ | ⟨_, h3, _⟩
        · exact .inl ⟨rfl, rfl⟩
        · right
          refine ⟨k + 1, k + 3, r, r0, r1, ?_, e1, e2⟩
          have h1 := side_k1 (f, p) k
          have h2 := side_k2 (f, p) (k + 1)
          have e3 : k + 1 + 2 = k + 3 := fin4_g k
          rw [fin4_succ_pred, e3] at h2
          simp only [child] at h1 h2
          simp only
          rw [h1, h2]
          rfl
        · right
          refine ⟨k' + 3, k' + 1, 1 - r, by linarith, by linarith, ?_, e2, by rw [e1]; exact congrArg (E _) (by ring)⟩
          have h1 := side_k1 (f, p) k'
          have h2 := side_k2 (f, p) (k' + 1)
          have e3 : k' + 1 + 2 = k' + 3 := fin4_g k'
          rw [fin4_succ_pred, e3] at h2
          simp only [child] at h1 h2
          simp only
          rw [h1, h2]
          rfl
        · exact absurd (by rw [h3, E_corner]; exact .inr rfl) hc
      · -- glued parents
        obtain ⟨i, j, r, r0, r1, hv, e1, e2⟩ := h1
        simp only at hv e1 e2
        rcases emb_on_side k i hz e1 with ⟨rfl, hz', hr⟩ | ⟨rfl, hz', hr⟩
        · rcases emb_on_side k' j hw e2 with ⟨rfl, hw', hr'⟩ | ⟨rfl, hw', hr'⟩
          · exfalso
            have : r = 1 / 2 := by linarith
            apply hc
            rw [hz', E_corner]; right; linarith
          · right
            refine ⟨k, j, 2 * r, by linarith, by linarith, ?_, hz', by rw [hw']; exact congrArg (E _) (by ring)⟩
            have h1 := side_k (f, p) k
            have h2 := side_k3 (g, q) (j + 1)
            have e3 : j + 1 + 3 = j := fin4_h j
            rw [fin4_succ_pred, e3] at h2
            simp only [child] at h1 h2
            simp only
            rw [h1, h2, vt, hv]
            rfl
        · rcases emb_on_side k' j hw e2 with ⟨rfl, hw', hr'⟩ | ⟨rfl, hw', hr'⟩
          · right
            refine ⟨i, k', 2 * r - 1, by linarith, by linarith, ?_, hz', by rw [hw']; exact congrArg (E _) (by ring)⟩
            have h1 := side_k (g, q) k'
            have h2 := side_k3 (f, p) (i + 1)
            have e3 : i + 1 + 3 = i := fin4_h i
            rw [fin4_succ_pred, e3] at h2
            simp only [child] at h1 h2
            simp only
            rw [h1, h2, vt, hv]
            rfl
          · exfalso
            apply hc
            rw [hz', E_corner]; left; linarith

end

end Verif.Dof
