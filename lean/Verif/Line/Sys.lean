import Verif.Line.Dict
import Verif.Dof.Number
import Mathlib.Data.Rat.Cast.CharZero
import Mathlib.Data.Rat.Cast.Order
import Mathlib.Tactic.Positivity

/-!
# The places of a one-dimensional mesh and their coordinates
-/

namespace Verif.Line
open Verif.Fem Verif.OneD Verif.Geom
open Verif.Dof (Sys Same Top)

/-! ### What the children inherit -/

/-- The table of inherited dof vertices. -/
def inhTab : ET → List (List (Nat × Nat))
  | .DQ0 => [[], []]
  | .Q1 | .DQ1 => [[(0, 0)], [(1, 1)]]
  | .Q2 => [[(0, 0), (1, 2)], [(0, 2), (1, 1)]]
  | .DQ2 => [[(0, 0), (1, 2)], [(1, 1)]]
  | .Q3 | .DQ3 => [[(0, 0), (3, 2)], [(1, 1), (2, 3)]]

theorem inherit_tab (e : ET) (k : Fin 2) : inherit e k = (inhTab e).getD k [] := by
  revert e k
  decide +kernel

/-- The nodes of the reference interval. -/
def nodeTab : ET → List ℚ
  | .DQ0 => [1 / 2]
  | .Q1 | .DQ1 => [0, 1]
  | .Q2 | .DQ2 => [0, 1, 1 / 2]
  | .Q3 | .DQ3 => [0, 1, 1 / 3, 2 / 3]

theorem nodes_tab {K : Type} [Field K] [CharZero K] (e : ET) : (nodes1 e : List K) = (nodeTab e).map (fun x : ℚ => (x : K)) := by
  cases e <;> simp [nodes1, nodeTab, dpv, dpe1, intDofs, List.range_succ]
  · norm_num
  · norm_num
  · norm_num
  · norm_num
  · norm_num

/-- Node `p` of the reference interval. -/
def node (e : ET) (p : Nat) : ℚ := (nodeTab e).getD p 0

/-- The map of the reference interval to its child `k`. -/
def emb (k : Fin 2) (z : ℚ) : ℚ := (k.1 + z) / 2

theorem inherit_sound (e : ET) (k : Fin 2) (a : Nat × Nat) (ha : a ∈ inherit e k) :
    a.1 < nd1 e ∧ a.2 < nd1 e ∧ node e a.2 = emb k (node e a.1) := by
  rw [inherit_tab] at ha
  revert a
  revert e k
  decide +kernel

theorem inherit_complete (e : ET) (he : torn e = false) (k : Fin 2) : ∀ p < nd1 e, ∀ q < nd1 e,
    node e q = emb k (node e p) → (p, q) ∈ inherit e k := by
  have key : ∀ e : ET, torn e = false → ∀ k : Fin 2, ∀ p < nd1 e, ∀ q < nd1 e, node e q = emb k (node e p) →
      ∃ a ∈ inherit e k, a.1 = p ∧ a.2 = q := by decide +kernel
  intro p hp q hq h
  obtain ⟨⟨p', q'⟩, ha, rfl, rfl⟩ := key e he k p hp q hq h
  exact ha

theorem inherit_fun (e : ET) (k : Fin 2) (p q q' : Nat) (h : (p, q) ∈ inherit e k) (h' : (p, q') ∈ inherit e k) : q = q' := by
  have key : ∀ e : ET, ∀ k : Fin 2, ∀ a ∈ inherit e k, ∀ b ∈ inherit e k, a.1 = b.1 → a.2 = b.2 := by decide +kernel
  exact key e k _ h _ h' rfl

theorem inherit_once (e : ET) (he : torn e = true) (k k' : Fin 2) (p p' q : Nat) (h : (p, q) ∈ inherit e k)
    (h' : (p', q) ∈ inherit e k') : k = k' ∧ p = p' := by
  have key : ∀ e : ET, torn e = true → ∀ k k' : Fin 2, ∀ a ∈ inherit e k, ∀ b ∈ inherit e k', a.2 = b.2 → k = k' ∧ a.1 = b.1 := by
    decide +kernel
  exact key e he k k' _ h _ h' rfl

theorem node_inj (e : ET) : ∀ p < nd1 e, ∀ q < nd1 e, node e p = node e q → p = q := by
  revert e
  decide +kernel

theorem node_range (e : ET) : ∀ p < nd1 e, 0 ≤ node e p ∧ node e p ≤ 1 := by
  revert e
  decide +kernel

theorem node_ends (e : ET) (he : torn e = false) : 1 < nd1 e ∧ node e 0 = 0 ∧ node e 1 = 1 := by
  cases e <;> first | exact absurd he (by decide) | decide +kernel

/-- A node of a cell that lies in a child is a node of the child. -/
theorem node_nest (e : ET) (he : torn e = false) (k : Fin 2) : ∀ q < nd1 e, (k.1 : ℚ) / 2 ≤ node e q → node e q ≤ ((k.1 : ℚ) + 1) / 2 →
    ∃ p < nd1 e, node e q = emb k (node e p) := by
  cases e <;> first | exact absurd he (by decide) | (revert k; decide +kernel)

/-! ### Places -/

/-- The place in the parent at the same point, if the dof is inherited. -/
def upL (e : ET) (l : Loc e) : Option (Loc e) :=
  match l with
  | ((_, []), _) => none
  | ((f, k :: c), p) => ((List.finRange (nd1 e)).find? (fun q => decide ((p.1, q.1) ∈ inherit e k))).map (fun q => ((f, c), q))

theorem upL_iff (e : ET) (c : IN) (k : Fin 2) (p : Fin (nd1 e)) (m : Loc e) :
    upL e (child c k, p) = some m ↔ m.1 = c ∧ (p.1, m.2.1) ∈ inherit e k := by
  obtain ⟨f, c⟩ := c
  obtain ⟨d, q⟩ := m
  simp only [upL, child, Option.map_eq_some_iff]
  constructor
  · rintro ⟨q', h1, h2⟩
    have := List.find?_some h1
    cases h2
    exact ⟨rfl, by simpa using this⟩
  · rintro ⟨rfl, h⟩
    rcases hf : (List.finRange (nd1 e)).find? (fun q => decide ((p.1, q.1) ∈ inherit e k)) with _ | q'
    · rw [List.find?_eq_none] at hf
      exact absurd h (by simpa using hf q (List.mem_finRange q))
    · have := List.find?_some hf
      refine ⟨q', hf, ?_⟩
      rw [Fin.ext (inherit_fun e k p q' q (by simpa using this) h)]

theorem upL_some (e : ET) (l m : Loc e) (h : upL e l = some m) : ∃ k, l.1 = child m.1 k ∧ (l.2.1, m.2.1) ∈ inherit e k := by
  obtain ⟨⟨f, _ | ⟨k, c⟩⟩, p⟩ := l
  · cases h
  · have := (upL_iff e (f, c) k p m).1 h
    exact ⟨k, by rw [this.1]; rfl, this.2⟩

theorem upL_lev (e : ET) (l m : Loc e) (h : upL e l = some m) : m.1.2.length < l.1.2.length := by
  obtain ⟨k, hk, _⟩ := upL_some e l m h
  rw [hk]; simp [child]

/-- `d` is the cell to the right of `c` on the same level: sibling, next root, or across the ends of a periodic mesh. -/
def Rt (N : Nat) (per : Bool) (c d : IN) : Prop := next N c = some d ∨ (per = true ∧ c = (N - 1, []) ∧ d = (0, []))

theorem next_ne (N : Nat) (c : IN) : next N c ≠ some c := by
  obtain ⟨f, _ | ⟨k, p⟩⟩ := c
  · simp only [next]; split_ifs <;> simp
  · simp only [next]
    split_ifs with h
    · subst h; simp
    · simp

theorem next_last {N : Nat} {d : IN} (h : next N (N - 1, []) = some d) : False := by
  simp only [next] at h
  split_ifs at h
  omega

theorem next_zero {N : Nat} {c : IN} (h : next N c = some (0, [])) : False := by
  obtain ⟨f, _ | ⟨k, p⟩⟩ := c <;> · simp only [next] at h; split_ifs at h <;> simp at h

theorem next_inj {N : Nat} {c c' d : IN} (h : next N c = some d) (h' : next N c' = some d) : c = c' := by
  obtain ⟨f, _ | ⟨k, p⟩⟩ := c <;> obtain ⟨f', _ | ⟨k', p'⟩⟩ := c' <;> simp only [next] at h h' <;> split_ifs at h h'
  · cases h; simp at h'; rw [h']
  · cases h; simp at h'
  · cases h; simp at h'
  · cases h; simp at h'; subst_vars; simp [h']

variable {N : Nat} {per : Bool}

theorem Rt.right {c d d' : IN} (h : Rt N per c d) (h' : Rt N per c d') : d = d' := by
  rcases h with h | ⟨_, rfl, rfl⟩ <;> rcases h' with h' | ⟨_, h1, h2⟩
  · rw [h] at h'; exact Option.some.inj h'
  · subst h1; exact (next_last h).elim
  · exact (next_last h').elim
  · exact h2.symm

theorem Rt.left {c c' d : IN} (h : Rt N per c d) (h' : Rt N per c' d) : c = c' := by
  rcases h with h | ⟨_, rfl, rfl⟩ <;> rcases h' with h' | ⟨_, h1, h2⟩
  · exact next_inj h h'
  · subst h2; exact (next_zero h).elim
  · exact (next_zero h').elim
  · exact h1.symm

theorem Rt.ne (hN : per = true → 2 ≤ N) {c d : IN} (h : Rt N per c d) : c ≠ d := by
  rintro rfl
  rcases h with h | ⟨hp, h1, h2⟩
  · exact next_ne N c h
  · rw [h2] at h1
    have := hN hp
    simp at h1
    omega

/-- The right end of a cell and the left end of the cell to the right. -/
def Jn (N : Nat) (per : Bool) {e : ET} (l l' : Loc e) : Prop := Rt N per l.1 l'.1 ∧ l.2.1 = 1 ∧ l'.2.1 = 0

/-- Continuous elements: places that are shared on one level. -/
def NbL (N : Nat) (per : Bool) {e : ET} (l l' : Loc e) : Prop := l = l' ∨ Jn N per l l' ∨ Jn N per l' l

theorem jn_right {e : ET} {l m m' : Loc e} (h : Jn N per l m) (h' : Jn N per l m') : m = m' :=
  Prod.ext (h.1.right h'.1) (Fin.ext (h.2.2.trans h'.2.2.symm))

theorem jn_left {e : ET} {l l' m : Loc e} (h : Jn N per l m) (h' : Jn N per l' m) : l = l' :=
  Prod.ext (h.1.left h'.1) (Fin.ext (h.2.1.trans h'.2.1.symm))

theorem jn_mid {e : ET} {l l' m : Loc e} (h : Jn N per l m) (h' : Jn N per m l') : False := by
  have h1 := h.2.2
  have h2 := h'.2.1
  omega

theorem nb_eqv {e : ET} : Equivalence (NbL N per (e := e)) := by
  refine ⟨fun l => .inl rfl, ?_, ?_⟩
  · rintro l l' (h | h | h)
    · exact .inl h.symm
    · exact .inr (.inr h)
    · exact .inr (.inl h)
  · rintro l l' l'' (rfl | h | h) (rfl | h' | h')
    · exact .inl rfl
    · exact .inr (.inl h')
    · exact .inr (.inr h')
    · exact .inr (.inl h)
    · exact (jn_mid h h').elim
    · exact .inl (jn_left h h')
    · exact .inr (.inr h)
    · exact .inl (jn_right h h')
    · exact (jn_mid h' h).elim

/-- The midpoint is inherited by both children or by none. -/
theorem inherit_mid (e : ET) (he : torn e = false) (q : Nat) : (1, q) ∈ inherit e 0 ↔ (0, q) ∈ inherit e 1 := by
  rw [inherit_tab, inherit_tab]
  cases e <;> simp [inhTab] <;> exact absurd he (by decide)

theorem jn_up {e : ET} (he : torn e = false) {l l' : Loc e} (h : Jn N per l l') :
    (upL e l = none ∧ upL e l' = none) ∨ ∃ m, upL e l = some m ∧ upL e l' = some m := by
  obtain ⟨c, p⟩ := l
  obtain ⟨d, q⟩ := l'
  obtain ⟨h1, h2, h3⟩ := h
  simp only at h1 h2 h3
  rcases h1 with h1 | ⟨_, rfl, rfl⟩
  · obtain ⟨f, _ | ⟨k, c⟩⟩ := c
    · simp only [next] at h1
      split_ifs at h1
      cases h1
      exact .inl ⟨rfl, rfl⟩
    · simp only [next] at h1
      split_ifs at h1 with hk
      cases h1
      subst hk
      rcases hu : upL e ((f, 0 :: c), p) with _ | m
      · left
        refine ⟨rfl, ?_⟩
        rcases hu' : upL e ((f, 1 :: c), q) with _ | m'
        · rfl
        · have h4 := (upL_iff e (f, c) 1 q m').1 hu'
          have h5 : (1, m'.2.1) ∈ inherit e 0 := (inherit_mid e he _).2 (by rw [← h3]; exact h4.2)
          have := (upL_iff e (f, c) 0 p m').2 ⟨h4.1, by rw [h2]; exact h5⟩
          rw [show child (f, c) 0 = (f, 0 :: c) from rfl, hu] at this
          cases this
      · right
        refine ⟨m, rfl, ?_⟩
        have h4 := (upL_iff e (f, c) 0 p m).1 hu
        have h5 : (0, m.2.1) ∈ inherit e 1 := (inherit_mid e he _).1 (by have h6 := h4.2; simp only [h2] at h6; exact h6)
        exact (upL_iff e (f, c) 1 q m).2 ⟨h4.1, by rw [h3]; exact h5⟩
  · exact .inl ⟨rfl, rfl⟩

/-- Continuous elements. -/
def contSys (hN : per = true → 2 ≤ N) (e : ET) (he : torn e = false) : Sys (Loc e) IN where
  cell := fun l => l.1
  lev := fun l => l.1.2.length
  up := upL e
  nb := NbL N per
  eqv := nb_eqv
  up_lev := upL_lev e
  nb_up := by
    have key : ∀ l l' : Loc e, Jn N per l l' → (upL e l = none ∧ upL e l' = none) ∨ ∃ m m', upL e l = some m ∧ upL e l' = some m' ∧ m = m' := by
      intro l l' h
      rcases jn_up he h with h | ⟨m, h1, h2⟩
      · exact .inl h
      · exact .inr ⟨m, m, h1, h2, rfl⟩
    rintro l l' (rfl | h | h)
    · rcases upL e l with _ | m
      · exact .inl ⟨rfl, rfl⟩
      · exact .inr ⟨m, m, rfl, rfl, .inl rfl⟩
    · rcases key l l' h with h | ⟨m, m', h1, h2, h3⟩
      · exact .inl h
      · exact .inr ⟨m, m', h1, h2, .inl h3⟩
    · rcases key l' l h with h | ⟨m, m', h1, h2, h3⟩
      · exact .inl ⟨h.2, h.1⟩
      · exact .inr ⟨m', m, h2, h1, .inl h3.symm⟩
  self := by
    rintro l l' (h | h | h) hc
    · exact h
    · exact absurd hc (h.1.ne hN)
    · exact absurd hc.symm (h.1.ne hN)

/-- Torn elements share dofs with parents and children only. -/
def tornSys (e : ET) : Sys (Loc e) IN where
  cell := fun l => l.1
  lev := fun l => l.1.2.length
  up := upL e
  nb := fun l l' => l = l'
  eqv := eq_equivalence
  up_lev := upL_lev e
  nb_up := by
    rintro l l' rfl
    rcases upL e l with _ | m
    · exact .inl ⟨rfl, rfl⟩
    · exact .inr ⟨m, m, rfl, rfl, rfl⟩
  self := fun _ _ h _ => h

/-! ### Coordinates -/

section
set_option linter.unusedSectionVars false
variable {K : Type} [Field K] [LinearOrder K] [IsStrictOrderedRing K]

/-- The end points of a cell of the mesh with initial vertices `X 0 < X 1 < ...`. -/
def box (X : Nat → K) (f : Nat) : List (Fin 2) → K × K
  | [] => (X f, X (f + 1))
  | k :: p => if k = 0 then ((box X f p).1, ((box X f p).1 + (box X f p).2) / 2) else (((box X f p).1 + (box X f p).2) / 2, (box X f p).2)

/-- The point with reference coordinate `z`. -/
def pos (X : Nat → K) (c : IN) (z : ℚ) : K := (box X c.1 c.2).1 + ((box X c.1 c.2).2 - (box X c.1 c.2).1) * (z : K)

/-- The point of a place. -/
def place (X : Nat → K) {e : ET} (l : Loc e) : K := pos X l.1 (node e l.2)

variable {X : Nat → K}

theorem pos_emb (X : Nat → K) (c : IN) (k : Fin 2) (z : ℚ) : pos X (child c k) z = pos X c (emb k z) := by
  have h2 : (2 : K) ≠ 0 := two_ne_zero
  fin_cases k
  · simp [pos, child, box, emb]
    ring
  · simp [pos, child, box, emb]
    ring

/-- The initial vertices increase. -/
def Inc (N : Nat) (X : Nat → K) : Prop := ∀ f < N, X f < X (f + 1)

theorem box_pos (hX : Inc N X) {f : Nat} (hf : f < N) (p : List (Fin 2)) : (box X f p).1 < (box X f p).2 := by
  induction p with
  | nil => exact hX f hf
  | cons k p ih =>
    simp only [box]
    split_ifs
    · show (box X f p).1 < ((box X f p).1 + (box X f p).2) / 2
      linarith
    · show ((box X f p).1 + (box X f p).2) / 2 < (box X f p).2
      linarith

theorem pos_inj (hX : Inc N X) {c : IN} (hc : c.1 < N) {z w : ℚ} (h : pos X c z = pos X c w) : z = w := by
  have h1 := box_pos hX hc c.2
  unfold pos at h
  have h2 : ((box X c.1 c.2).2 - (box X c.1 c.2).1) ≠ 0 := sub_ne_zero.2 h1.ne'
  have h3 := mul_left_cancel₀ h2 (add_left_cancel h)
  exact_mod_cast h3

theorem pos_le (hX : Inc N X) {c : IN} (hc : c.1 < N) {z w : ℚ} : pos X c z ≤ pos X c w ↔ z ≤ w := by
  have h1 := box_pos hX hc c.2
  unfold pos
  rw [add_le_add_iff_left, mul_le_mul_iff_right₀ (sub_pos.2 h1)]
  exact Rat.cast_le

theorem pos_zero (X : Nat → K) (c : IN) : pos X c 0 = (box X c.1 c.2).1 := by simp [pos]
theorem pos_one (X : Nat → K) (c : IN) : pos X c 1 = (box X c.1 c.2).2 := by simp [pos]

theorem up_place {e : ET} {l m : Loc e} (h : upL e l = some m) : place X l = place X m := by
  obtain ⟨k, h1, h2⟩ := upL_some e l m h
  unfold place
  rw [h1, pos_emb, (inherit_sound e k _ h2).2.2]

theorem box_next {c d : IN} (h : next N c = some d) : (box X c.1 c.2).2 = (box X d.1 d.2).1 := by
  obtain ⟨f, _ | ⟨k, p⟩⟩ := c
  · simp only [next] at h
    split_ifs at h
    cases h
    rfl
  · simp only [next] at h
    split_ifs at h with hk
    cases h
    simp [box, hk]

/-- The same point of the line, or of the circle if the mesh is periodic. -/
def PtEq (N : Nat) (per : Bool) (X : Nat → K) (x y : K) : Prop :=
  x = y ∨ (per = true ∧ ((x = X 0 ∧ y = X N) ∨ (x = X N ∧ y = X 0)))

theorem ptEq_eqv (hX : Inc N X) (hN : per = true → 2 ≤ N) : Equivalence (PtEq N per X) := by
  have hne : per = true → X 0 ≠ X N := by
    intro hp
    have h0 := hN hp
    have : ∀ n, n + 1 ≤ N → X 0 < X (n + 1) := by
      intro n
      induction n with
      | zero => intro h; exact hX 0 (by omega)
      | succ n ih => intro h; exact (ih (by omega)).trans (hX (n + 1) (by omega))
    have := this (N - 1) (by omega)
    rw [Nat.sub_add_cancel (by omega)] at this
    exact this.ne
  refine ⟨fun x => .inl rfl, ?_, ?_⟩
  · rintro x y (rfl | ⟨hp, ⟨h1, h2⟩ | ⟨h1, h2⟩⟩)
    · exact .inl rfl
    · exact .inr ⟨hp, .inr ⟨h2, h1⟩⟩
    · exact .inr ⟨hp, .inl ⟨h2, h1⟩⟩
  · rintro x y z (rfl | ⟨hp, ⟨h1, h2⟩ | ⟨h1, h2⟩⟩) (rfl | ⟨hq, ⟨h3, h4⟩ | ⟨h3, h4⟩⟩)
    · exact .inl rfl
    · exact .inr ⟨hq, .inl ⟨h3, h4⟩⟩
    · exact .inr ⟨hq, .inr ⟨h3, h4⟩⟩
    · exact .inr ⟨hp, .inl ⟨h1, h2⟩⟩
    · exact absurd (h3.symm.trans h2) (hne hp)
    · exact .inl (h1.trans h4.symm)
    · exact .inr ⟨hp, .inr ⟨h1, h2⟩⟩
    · exact .inl (h1.trans h4.symm)
    · exact absurd (h2.symm.trans h3) (hne hp)

theorem jn_place {e : ET} (he : torn e = false) (hN : per = true → 2 ≤ N) {l l' : Loc e} (h : Jn N per l l') :
    PtEq N per X (place X l) (place X l') := by
  obtain ⟨_, h0, h1⟩ := node_ends e he
  obtain ⟨g1, g2, g3⟩ := h
  unfold place
  rw [g2, g3, h0, h1, pos_zero, pos_one]
  rcases g1 with g1 | ⟨hp, c1, c2⟩
  · exact .inl (box_next g1)
  · refine .inr ⟨hp, .inr ⟨?_, ?_⟩⟩
    · have := hN hp
      rw [c1]
      simp only [box]
      rw [Nat.sub_add_cancel (by omega)]
    · rw [c2]; rfl

/-- Places with the same dof are at the same point. -/
theorem same_sound {e : ET} (he : torn e = false) (hX : Inc N X) (hN : per = true → 2 ≤ N) {l l' : Loc e}
    (h : Same (contSys hN e he) l l') : PtEq N per X (place X l) (place X l') := by
  have htop : ∀ {l t : Loc e}, Top (contSys hN e he) l t → place X l = place X t := by
    intro l t ht
    induction ht with
    | top l h => rfl
    | up l m t h _ ih => exact (up_place h).trans ih
  obtain ⟨t, t', h1, h2, h3⟩ := h
  rw [htop h1, htop h2]
  rcases h3 with rfl | h3 | h3
  · exact .inl rfl
  · exact jn_place he hN h3
  · exact (ptEq_eqv hX hN).symm (jn_place he hN h3)

/-- Below a cell, every cell at a node of the cell has a node there, which is the same place. -/
theorem same_desc {e : ET} (he : torn e = false) (hX : Inc N X) (hN : per = true → 2 ≤ N) {f : Nat} (hf : f < N) (p : List (Fin 2))
    (a : Fin (nd1 e)) : ∀ q : List (Fin 2), (box X f (q ++ p)).1 ≤ place X ((f, p), a) → place X ((f, p), a) ≤ (box X f (q ++ p)).2 →
    ∃ b : Fin (nd1 e), place X ((f, q ++ p), b) = place X ((f, p), a) ∧ Same (contSys hN e he) ((f, q ++ p), b) ((f, p), a) := by
  intro q
  induction q with
  | nil => intro _ _; exact ⟨a, rfl, Same.refl _⟩
  | cons k q ih =>
    intro h1 h2
    have hb := box_pos hX hf (q ++ p)
    obtain ⟨b, hb1, hb2⟩ := ih (by
      refine le_trans ?_ h1
      simp only [List.cons_append, box]
      split_ifs
      · exact le_rfl
      · show (box X f (q ++ p)).1 ≤ ((box X f (q ++ p)).1 + (box X f (q ++ p)).2) / 2
        linarith) (by
      refine le_trans h2 ?_
      simp only [List.cons_append, box]
      split_ifs
      · show ((box X f (q ++ p)).1 + (box X f (q ++ p)).2) / 2 ≤ (box X f (q ++ p)).2
        linarith
      · exact le_rfl)
    have hc0 := pos_zero X (child (f, q ++ p) k)
    have hc1 := pos_one X (child (f, q ++ p) k)
    rw [pos_emb] at hc0 hc1
    have e1 : pos X (f, q ++ p) (emb k 0) ≤ pos X (f, q ++ p) (node e b) := by rw [hc0]; exact h1.trans hb1.symm.le
    have e2 : pos X (f, q ++ p) (node e b) ≤ pos X (f, q ++ p) (emb k 1) := by rw [hc1]; exact hb1.le.trans h2
    rw [pos_le hX (c := (f, q ++ p)) hf] at e1 e2
    obtain ⟨r, hr, hr'⟩ := node_nest e he k b b.2 (by simpa [emb] using e1) (by simpa [emb] using e2)
    have hu : upL e ((child (f, q ++ p) k), ⟨r, hr⟩) = some ((f, q ++ p), b) :=
      (upL_iff e _ k _ _).2 ⟨rfl, inherit_complete e he k r hr b b.2 hr'⟩
    exact ⟨⟨r, hr⟩, (up_place hu).trans hb1, (Same.up (S := contSys hN e he) (l := (child (f, q ++ p) k, ⟨r, hr⟩)) (m := ((f, q ++ p), b)) hu).trans hb2⟩

/-- Two lists: one is a tail of the other, or they differ above a common tail. -/
theorem tails (p q : List (Fin 2)) : (∃ r, p = r ++ q) ∨ (∃ r, q = r ++ p) ∨
    ∃ s k j r r', k ≠ j ∧ p = r ++ k :: s ∧ q = r' ++ j :: s := by
  induction p with
  | nil => exact .inr (.inl ⟨q, by simp⟩)
  | cons k p ih =>
    rcases ih with ⟨r, rfl⟩ | ⟨r, rfl⟩ | ⟨s, i, j, r, r', h, rfl, rfl⟩
    · exact .inl ⟨k :: r, by simp⟩
    · rcases List.eq_nil_or_concat r with rfl | ⟨r, j, rfl⟩
      · exact .inl ⟨[k], by simp⟩
      · by_cases hkj : k = j
        · subst hkj
          exact .inr (.inl ⟨r, by simp⟩)
        · exact .inr (.inr ⟨p, k, j, [], r, hkj, by simp, by simp⟩)
    · exact .inr (.inr ⟨s, i, j, k :: r, r', h, by simp, rfl⟩)

theorem box_mem (hX : Inc N X) {e : ET} {c : IN} (hc : c.1 < N) (a : Fin (nd1 e)) :
    (box X c.1 c.2).1 ≤ place X (c, a) ∧ place X (c, a) ≤ (box X c.1 c.2).2 := by
  obtain ⟨h1, h2⟩ := node_range e a a.2
  rw [← pos_zero, ← pos_one]
  exact ⟨(pos_le hX hc).2 h1, (pos_le hX hc).2 h2⟩

theorem box_sub (hX : Inc N X) {f : Nat} (hf : f < N) (q p : List (Fin 2)) :
    (box X f p).1 ≤ (box X f (q ++ p)).1 ∧ (box X f (q ++ p)).2 ≤ (box X f p).2 := by
  induction q with
  | nil => exact ⟨le_rfl, le_rfl⟩
  | cons k q ih =>
    have hb := box_pos hX hf (q ++ p)
    simp only [List.cons_append, box]
    split_ifs
    · exact ⟨ih.1, le_trans (by show ((box X f (q ++ p)).1 + (box X f (q ++ p)).2) / 2 ≤ (box X f (q ++ p)).2; linarith) ih.2⟩
    · exact ⟨ih.1.trans (by show (box X f (q ++ p)).1 ≤ ((box X f (q ++ p)).1 + (box X f (q ++ p)).2) / 2; linarith), ih.2⟩

theorem place_inj (hX : Inc N X) {e : ET} {c : IN} (hc : c.1 < N) {a b : Fin (nd1 e)} (h : place X (c, a) = place X (c, b)) : a = b :=
  Fin.ext (node_inj e a a.2 b b.2 (pos_inj hX hc h))

/-- The end of a cell below `c` at an end of `c`. -/
theorem same_end {e : ET} (he : torn e = false) (hX : Inc N X) (hN : per = true → 2 ≤ N) {f : Nat} (hf : f < N) (p q : List (Fin 2))
    (a b : Fin (nd1 e)) (h : place X ((f, q ++ p), b) = place X ((f, p), a)) : Same (contSys hN e he) ((f, q ++ p), b) ((f, p), a) := by
  have hm := box_mem hX (c := (f, q ++ p)) hf b
  rw [h] at hm
  obtain ⟨b', h1, h2⟩ := same_desc he hX hN hf p a q hm.1 hm.2
  have := place_inj hX (c := (f, q ++ p)) hf (h1.trans h.symm)
  subst this
  exact h2

/-- Places at the same point of one tree. -/
theorem same_tree {e : ET} (he : torn e = false) (hX : Inc N X) (hN : per = true → 2 ≤ N) {f : Nat} (hf : f < N) (p q : List (Fin 2))
    (a b : Fin (nd1 e)) (h : place X ((f, p), a) = place X ((f, q), b)) : Same (contSys hN e he) ((f, p), a) ((f, q), b) := by
  obtain ⟨hn, h0, h1⟩ := node_ends e he
  have key : ∀ (s r r' : List (Fin 2)) (a b : Fin (nd1 e)), place X ((f, r ++ 0 :: s), a) = place X ((f, r' ++ 1 :: s), b) →
      Same (contSys hN e he) ((f, r ++ 0 :: s), a) ((f, r' ++ 1 :: s), b) := by
    intro s r r' a b h
    have hm := box_mem hX (c := (f, r ++ 0 :: s)) hf a
    have hm' := box_mem hX (c := (f, r' ++ 1 :: s)) hf b
    have hs := box_sub hX hf r (0 :: s)
    have hs' := box_sub hX hf r' (1 :: s)
    simp only at hm hm'
    have e1 : place X ((f, r ++ 0 :: s), a) = (box X f (0 :: s)).2 := by
      refine le_antisymm (hm.2.trans hs.2) ?_
      rw [h]
      refine le_trans (le_of_eq ?_) (hs'.1.trans hm'.1)
      simp [box]
    have e2 : place X ((f, r' ++ 1 :: s), b) = (box X f (1 :: s)).1 := by
      rw [← h, e1]
      simp [box]
    refine (same_end he hX hN hf (0 :: s) r ⟨1, hn⟩ a ?_).trans
      ((Same.nb (S := contSys hN e he) (l := ((f, 0 :: s), ⟨1, hn⟩)) (l' := ((f, 1 :: s), ⟨0, by omega⟩)) ?_).trans
        (same_end he hX hN hf (1 :: s) r' ⟨0, by omega⟩ b ?_).symm)
    · rw [e1]
      show _ = pos X (f, 0 :: s) (node e 1)
      rw [h1, pos_one]
    · exact .inr (.inl ⟨.inl rfl, rfl, rfl⟩)
    · rw [e2]
      show _ = pos X (f, 1 :: s) (node e 0)
      rw [h0, pos_zero]
  rcases tails p q with ⟨r, rfl⟩ | ⟨r, rfl⟩ | ⟨s, k, j, r, r', hkj, rfl, rfl⟩
  · exact same_end he hX hN hf q r b a h
  · exact (same_end he hX hN hf p r a b h.symm).symm
  · have : (k = 0 ∧ j = 1) ∨ (k = 1 ∧ j = 0) := by
      exact (by decide : ∀ k j : Fin 2, k ≠ j → (k = 0 ∧ j = 1) ∨ (k = 1 ∧ j = 0)) k j hkj
    rcases this with ⟨rfl, rfl⟩ | ⟨rfl, rfl⟩
    · exact key s r r' a b h
    · exact (key s r' r b a h.symm).symm

theorem inc_le (hX : Inc N X) : ∀ {f g : Nat}, f ≤ g → g ≤ N → X f ≤ X g := by
  intro f g h
  induction g, h using Nat.le_induction with
  | base => intro _; exact le_rfl
  | succ g _ ih => intro hg; exact (ih (by omega)).trans (hX g (by omega)).le

theorem inc_lt (hX : Inc N X) {f g : Nat} (h : f < g) (hg : g ≤ N) : X f < X g :=
  (hX f (by omega)).trans_le (inc_le hX h hg)

/-- Places at the same point. -/
theorem same_complete {e : ET} (he : torn e = false) (hX : Inc N X) (hN : per = true → 2 ≤ N) {l l' : Loc e} (hl : l.1.1 < N)
    (hl' : l'.1.1 < N) (h : PtEq N per X (place X l) (place X l')) : Same (contSys hN e he) l l' := by
  obtain ⟨hn, h0, h1⟩ := node_ends e he
  have hleft : ∀ (f : Nat) (p : List (Fin 2)) (b : Fin (nd1 e)), f < N → place X ((f, p), b) = X f →
      Same (contSys hN e he) ((f, p), b) ((f, []), ⟨0, by omega⟩) := by
    intro f p b hf h
    have := same_end he hX hN hf [] p ⟨0, by omega⟩ b (by
      rw [List.append_nil, h]
      show _ = pos X (f, []) (node e 0)
      rw [h0, pos_zero]; rfl)
    rwa [List.append_nil] at this
  have hright : ∀ (f : Nat) (p : List (Fin 2)) (b : Fin (nd1 e)), f < N → place X ((f, p), b) = X (f + 1) →
      Same (contSys hN e he) ((f, p), b) ((f, []), ⟨1, hn⟩) := by
    intro f p b hf h
    have := same_end he hX hN hf [] p ⟨1, hn⟩ b (by
      rw [List.append_nil, h]
      show _ = pos X (f, []) (node e 1)
      rw [h1, pos_one]; rfl)
    rwa [List.append_nil] at this
  have hrange : ∀ (f : Nat) (p : List (Fin 2)) (b : Fin (nd1 e)), f < N → X f ≤ place X ((f, p), b) ∧ place X ((f, p), b) ≤ X (f + 1) := by
    intro f p b hf
    have hs := box_sub hX hf p []
    rw [List.append_nil] at hs
    have hm := box_mem hX (c := (f, p)) hf b
    exact ⟨hs.1.trans hm.1, hm.2.trans hs.2⟩
  have hlt : ∀ (f g : Nat) (p q : List (Fin 2)) (a b : Fin (nd1 e)), f < g → g < N → place X ((f, p), a) = place X ((g, q), b) →
      Same (contSys hN e he) ((f, p), a) ((g, q), b) := by
    intro f g p q a b hfg hg h
    have r1 := hrange f p a (by omega)
    have r2 := hrange g q b hg
    have r3 := inc_le hX (f := f + 1) (g := g) (by omega) (by omega)
    have e1 : place X ((f, p), a) = X (f + 1) := le_antisymm r1.2 (by rw [h]; exact r3.trans r2.1)
    have e2 : X g = X (f + 1) := le_antisymm (by rw [← e1, h]; exact r2.1) r3
    have : g = f + 1 := by
      by_contra hne
      exact absurd e2 (inc_lt hX (f := f + 1) (g := g) (by omega) (by omega)).ne'
    subst this
    refine (hright f p a (by omega) e1).trans ((Same.nb (S := contSys hN e he) ?_).trans (hleft (f + 1) q b hg (h.symm.trans e1)).symm)
    exact .inr (.inl ⟨.inl (by simp [next, hg]), rfl, rfl⟩)
  obtain ⟨⟨f, p⟩, a⟩ := l
  obtain ⟨⟨g, q⟩, b⟩ := l'
  simp only at hl hl'
  have hper : ∀ (f g : Nat) (p q : List (Fin 2)) (a b : Fin (nd1 e)), f < N → g < N → per = true →
      place X ((f, p), a) = X 0 → place X ((g, q), b) = X N → Same (contSys hN e he) ((f, p), a) ((g, q), b) := by
    intro f g p q a b hf hg hp h2 h3
    have hf0 : f = 0 := by
      by_contra hne
      have := inc_lt hX (f := 0) (g := f) (by omega) (by omega)
      exact absurd h2 (this.trans_le (hrange f p a hf).1).ne'
    have hg0 : g + 1 = N := by
      by_contra hne
      have := inc_lt hX (f := g + 1) (g := N) (by omega) le_rfl
      exact absurd h3 ((hrange g q b hg).2.trans_lt this).ne
    subst hf0
    refine (hleft 0 p a hf h2).trans ((Same.nb (S := contSys hN e he) ?_).trans (hright g q b hg (by rw [hg0]; exact h3)).symm)
    exact .inr (.inr ⟨.inr ⟨hp, by simp [← hg0], rfl⟩, rfl, rfl⟩)
  rcases h with h | ⟨hp, ⟨h2, h3⟩ | ⟨h2, h3⟩⟩
  · rcases lt_trichotomy f g with hfg | rfl | hfg
    · exact hlt f g p q a b hfg hl' h
    · exact same_tree he hX hN hl p q a b h
    · exact (hlt g f q p b a hfg hl h.symm).symm
  · exact hper f g p q a b hl hl' hp h2 h3
  · exact (hper g f q p b a hl' hl hp h3 h2).symm

end
end Verif.Line
