import Verif.Reg.Region

/-! # C65: the dofs of an entity are the dofs with nodes on it -/

namespace Verif.Reg
open Verif.Mesh Verif.Dof Verif.Fem Verif.Bnd Verif.Quad

section
set_option linter.unusedSectionVars false
variable {K : Type} [Field K] {B : Base K} {s : St K} {sf : Bool} {e : ET}

theorem slice_eq (row : List (Option Nat)) (a k : Nat) (h : a + k ≤ row.length) :
    (row.drop a).take k = (List.range k).map (fun j => row.getD (a + j) none) := by
  apply List.ext_getElem?
  intro j
  by_cases hj : j < k
  · rw [List.getElem?_take_of_lt hj, List.getElem?_drop, List.getElem?_map, List.getElem?_range hj]
    simp only [Option.map_some]
    rw [List.getD_eq_getElem?_getD, List.getElem?_eq_getElem (by omega)]
    rfl
  · rw [List.getElem?_eq_none (by simp; omega), List.getElem?_eq_none (by simp; omega)]

/-- The positions of the dofs of an entity: vertex `i`, side `i`, or the cell. -/
def posV (i : Fin 4) : List Nat := [i]
def posIn (e : ET) (i : Fin 4) : List Nat := (List.range (dpe2 e)).map (fun j => 4 * dpv e + i * dpe2 e + j)
def posEnd (i : Fin 4) : List Nat := (four.filter (fun j => decide (j = i ∨ j = i + 1))).map (fun j => (j : Nat))
def posC (e : ET) : List Nat := (List.range (dpc2 e)).map (fun j => 4 * dpv e + 4 * dpe2 e + j)

/-- The lines that carry the sides of the unit square. -/
def onS (i : Fin 4) (z : ℚ × ℚ) : Prop :=
  (i = 0 ∧ z.2 = 0) ∨ (i = 1 ∧ z.1 = 1) ∨ (i = 2 ∧ z.2 = 1) ∨ (i = 3 ∧ z.1 = 0)

instance (i : Fin 4) (z : ℚ × ℚ) : Decidable (onS i z) := by unfold onS; infer_instance

theorem onS_iff (i : Fin 4) {z : ℚ × ℚ} (hz : InSq z) : onS i z ↔ ∃ t, 0 ≤ t ∧ t ≤ 1 ∧ z = E i t := by
  obtain ⟨x, y⟩ := z
  obtain ⟨h1, h2, h3, h4⟩ := hz
  simp only at h1 h2 h3 h4
  have e3 : i = 0 ∨ i = 1 ∨ i = 2 ∨ i = 3 := by revert i; decide
  rcases e3 with rfl | rfl | rfl | rfl <;> simp only [onS, E, Prod.mk.injEq] <;> constructor
  · rintro (h | h | h | h) <;> simp at h
    exact ⟨x, h1, h2, rfl, h⟩
  · rintro ⟨t, _, _, rfl, rfl⟩; simp
  · rintro (h | h | h | h) <;> simp at h
    exact ⟨y, h3, h4, h, rfl⟩
  · rintro ⟨t, _, _, rfl, rfl⟩; simp
  · rintro (h | h | h | h) <;> simp at h
    exact ⟨1 - x, by linarith, by linarith, by ring, h⟩
  · rintro ⟨t, _, _, rfl, rfl⟩; simp
  · rintro (h | h | h | h) <;> simp at h
    exact ⟨1 - y, by linarith, by linarith, h, by ring⟩
  · rintro ⟨t, _, _, rfl, rfl⟩; simp

theorem onS_in_iff (i : Fin 4) {z : ℚ × ℚ} (hz : InSq z) : (onS i z ∧ ¬ Corner z) ↔ ∃ t, 0 < t ∧ t < 1 ∧ z = E i t := by
  rw [onS_iff i hz]
  constructor
  · rintro ⟨⟨t, h0, h1, rfl⟩, hc⟩
    rw [E_corner] at hc
    refine ⟨t, lt_of_le_of_ne h0 (fun h => hc (.inl h.symm)), lt_of_le_of_ne h1 (fun h => hc (.inr h)), rfl⟩
  · rintro ⟨t, h0, h1, rfl⟩
    refine ⟨⟨t, h0.le, h1.le, rfl⟩, ?_⟩
    rw [E_corner]
    rintro (h | h)
    · exact h0.ne' h
    · exact h1.ne h

instance (z : ℚ × ℚ) : Decidable (Corner z) := by unfold Corner; infer_instance

theorem tabV : ∀ e : ET, e ≠ .DQ0 → ∀ i : Fin 4, ∀ p < nd2 e, p ∈ posV i ↔ node e p = E i 0 := by decide +kernel
theorem tabIn : ∀ e : ET, ∀ i : Fin 4, ∀ p < nd2 e, p ∈ posIn e i ↔ (onS i (node e p) ∧ ¬ Corner (node e p)) := by decide +kernel
theorem tabH : ∀ e : ET, e ≠ .DQ0 → ∀ i : Fin 4, ∀ p < nd2 e, p ∈ posEnd i ++ posIn e i ↔ onS i (node e p) := by decide +kernel
theorem tabC : ∀ e : ET, ∀ p < nd2 e, p ∈ posC e ↔ (0 < (node e p).1 ∧ (node e p).1 < 1 ∧ 0 < (node e p).2 ∧ (node e p).2 < 1) := by
  decide +kernel
theorem lenIn : ∀ e : ET, ∀ i : Fin 4, (∀ p ∈ posIn e i, p < nd2 e) ∧ 4 * dpv e + i * dpe2 e + dpe2 e ≤ nd2 e := by decide +kernel
theorem lenC : ∀ e : ET, (∀ p ∈ posC e, p < nd2 e) ∧ 4 * dpv e + 4 * dpe2 e + dpc2 e ≤ nd2 e := by decide +kernel
theorem lenV : ∀ e : ET, e ≠ .DQ0 → ∀ i : Fin 4, (∀ p ∈ posV i, p < nd2 e) ∧ (∀ p ∈ posEnd i, p < nd2 e) ∧ i * dpv e + dpv e ≤ nd2 e := by
  decide +kernel
theorem dpv_one : ∀ e : ET, e ≠ .DQ0 → dpv e = 1 := by decide

theorem find_four (P : Fin 4 → Bool) (i : Fin 4) (h : ∀ j, P j = true ↔ j = i) : four.find? P = some i := by
  have hP : P = fun j => decide (j = i) := by
    funext j
    have := h j
    by_cases hj : j = i
    · rw [this.2 hj]; simp [hj]
    · have : P j = false := by
        cases hp : P j
        · rfl
        · exact absurd (this.1 hp) hj
      rw [this]; simp [hj]
  rw [hP]
  clear * -
  revert i
  decide

theorem baseOf_side (hi : CInv B s) {c : CN} (hc : CEx B.n s.kids c) (i : Fin 4) : baseOf s (s.sides c i) = some (vert s c i) ∧
    headOf s (s.sides c i) = some (vert s c (i + 1)) := by
  obtain ⟨r, h1, h2, h3⟩ := vert_eq hi hc i
  rw [hi.sides c hc]
  simp [baseOf, headOf, h1, h2, h3]

theorem vIdx_eq (hi : CInv B s) (hG : Geo B (CEx B.n s.kids) (vert s)) {c : CN} (hc : CEx B.n s.kids c) (i : Fin 4) :
    vIdx s c (ends s (s.sides c i)).1 = some i := by
  rw [ends_side hi hc]
  apply find_four
  intro j
  rw [(baseOf_side hi hc j).1]
  simp only [Option.some.injEq, decide_eq_true_eq]
  exact ⟨hG.inj c j i hc, fun h => by rw [h]⟩

theorem hIdx_eq (hi : CInv B s) {c : CN} (hc : CEx B.n s.kids c) (i : Fin 4) : hIdx s c (s.sides c i) = some i := by
  apply find_four
  intro j
  simp only [decide_eq_true_eq]
  rw [hi.sides c hc]
  exact ⟨fun h => (side_inj h).2, fun h => by rw [h]⟩

theorem endDofs_eq (hi : CInv B s) (hG : Geo B (CEx B.n s.kids) (vert s)) (he : e ≠ .DQ0) {c : CN} (hc : CEx B.n s.kids c) (i : Fin 4)
    (row : List (Option Nat)) : endDofs s e c row (s.sides c i) = (posEnd i).map (fun p => row.getD p none) := by
  unfold endDofs posEnd
  rw [List.map_map, dpv_one e he]
  have : four.filter (fun j => decide (baseOf s (s.sides c j) = baseOf s (s.sides c i) ∨ baseOf s (s.sides c j) = headOf s (s.sides c i))) =
      four.filter (fun j => decide (j = i ∨ j = i + 1)) := by
    apply List.filter_congr
    intro j _
    rw [decide_eq_decide, (baseOf_side hi hc j).1, (baseOf_side hi hc i).1, (baseOf_side hi hc i).2, Option.some.injEq, Option.some.injEq]
    exact or_congr ⟨hG.inj c j i hc, fun h => by rw [h]⟩ ⟨hG.inj c j _ hc, fun h => by rw [h]⟩
  rw [this]
  apply List.map_congr_left
  intro j _
  simp

theorem insideDofs_eq (hi : CInv B s) {c : CN} (hc : CEx B.n s.kids c) (i : Fin 4)
    {row : List (Option Nat)} (hl : row.length = nd2 e) : insideDofs s e c row (s.sides c i) = (posIn e i).map (fun p => row.getD p none) := by
  unfold insideDofs
  rw [hIdx_eq hi hc]
  simp only
  unfold edgeDofsIn posIn
  rw [slice_eq _ _ _ (by rw [hl]; exact (lenIn e i).2), List.map_map]
  rfl

/-- The dofs of an entity of a cell: those with nodes on the entity. -/
theorem entDofs_iff (hi : CInv B s) (hG : Geo B (CEx B.n s.kids) (vert s)) {c : CN} (hc : CEx B.n s.kids c) {row : List (Option Nat)}
    (hl : row.length = nd2 e) {ty : EType} {x : Ent} (hx : IsEnt s c ty x) (interior : Bool) (he : e ≠ .DQ0 ∨ ty = .cell) :
    ∃ l, entDofs s e c row x interior = some l ∧ ∀ o, o ∈ l ↔ ∃ p < nd2 e, row.getD p none = o ∧ OnEnt s c (node e p) x interior := by
  have key : ∀ (P : List Nat) (Q : Nat → Prop), (∀ p ∈ P, p < nd2 e) → (∀ p < nd2 e, p ∈ P ↔ Q p) →
      ∀ o, o ∈ P.map (fun p => row.getD p none) ↔ ∃ p < nd2 e, row.getD p none = o ∧ Q p := by
    intro P Q h1 h2 o
    rw [List.mem_map]
    constructor
    · rintro ⟨p, hp, rfl⟩
      exact ⟨p, h1 p hp, rfl, (h2 p (h1 p hp)).1 hp⟩
    · rintro ⟨p, hp, rfl, hq⟩
      exact ⟨p, (h2 p hp).2 hq, rfl⟩
  have hsq : ∀ p < nd2 e, InSq (node e p) := fun p hp => node_insq e ⟨p, hp⟩
  cases ty with
  | cell =>
    subst hx
    cases interior
    · refine ⟨row, rfl, fun o => ?_⟩
      rw [List.mem_iff_getElem?]
      constructor
      · rintro ⟨p, hp⟩
        have hlt := (List.getElem?_eq_some_iff.1 hp).1
        rw [hl] at hlt
        exact ⟨p, hlt, by rw [List.getD_eq_getElem?_getD, hp]; rfl, rfl, hsq p hlt⟩
      · rintro ⟨p, hp, rfl, _⟩
        exact ⟨p, by rw [List.getD_eq_getElem?_getD, List.getElem?_eq_getElem (by omega)]; rfl⟩
    · refine ⟨_, rfl, fun o => ?_⟩
      rw [slice_eq _ _ _ (by rw [hl]; exact (lenC e).2)]
      have := key (posC e) (fun p => OnEnt s c (node e p) (.cell c) true) (lenC e).1 (fun p hp => by
        rw [tabC e p hp]
        exact ⟨fun h => ⟨rfl, h⟩, fun h => h.2⟩) o
      rw [← this]
      unfold posC
      rw [List.map_map]
      rfl
  | vertex =>
    have he' : e ≠ .DQ0 := he.resolve_right (by simp)
    obtain ⟨i, rfl⟩ := hx
    refine ⟨vertexDofs e row i, by show (vIdx s c _).map _ = _; rw [vIdx_eq hi hG hc]; rfl, fun o => ?_⟩
    have hv : vertexDofs e row i = (posV i).map (fun p => row.getD p none) := by
      unfold vertexDofs
      rw [slice_eq _ _ _ (by rw [hl]; exact (lenV e he' i).2.2), dpv_one e he']
      simp [posV]
    rw [hv]
    refine key (posV i) _ (lenV e he' i).1 (fun p hp => ?_) o
    rw [tabV e he' i p hp]
    show _ ↔ ∃ j : Fin 4, _ ∧ _
    constructor
    · intro h; exact ⟨i, rfl, h⟩
    · rintro ⟨j, h1, h2⟩
      rw [ends_side hi hc, ends_side hi hc] at h1
      rw [hG.inj c i j hc h1]
      exact h2
  | half =>
    have he' : e ≠ .DQ0 := he.resolve_right (by simp)
    obtain ⟨i, rfl⟩ := hx
    have hj : ∀ j, s.sides c i = s.sides c j → i = j := fun j h => by
      rw [hi.sides c hc] at h
      exact (side_inj h).2
    cases interior
    · refine ⟨_, rfl, fun o => ?_⟩
      rw [endDofs_eq hi hG he' hc, insideDofs_eq hi hc i hl, ← List.map_append]
      refine key (posEnd i ++ posIn e i) _ (fun p hp => ?_) (fun p hp => ?_) o
      · rcases List.mem_append.1 hp with hp | hp
        · exact (lenV e he' i).2.1 p hp
        · exact (lenIn e i).1 p hp
      · rw [tabH e he' i p hp, onS_iff i (hsq p hp)]
        show _ ↔ ∃ (j : Fin 4) (t : ℚ), _
        constructor
        · rintro ⟨t, h⟩; exact ⟨i, t, rfl, h⟩
        · rintro ⟨j, t, h1, h⟩
          rw [hj j h1]
          exact ⟨t, h⟩
    · refine ⟨_, rfl, fun o => ?_⟩
      rw [insideDofs_eq hi hc i hl]
      refine key (posIn e i) _ (fun p hp => (lenIn e i).1 p hp) (fun p hp => ?_) o
      rw [tabIn e i p hp, onS_in_iff i (hsq p hp)]
      show _ ↔ ∃ (j : Fin 4) (t : ℚ), _
      constructor
      · rintro ⟨t, h⟩; exact ⟨i, t, rfl, h⟩
      · rintro ⟨j, t, h1, h⟩
        rw [hj j h1]
        exact ⟨t, h⟩

end
end Verif.Reg
