import Verif.PySet.Probe

/-!
# The set holds every element once; when it is iterated in ascending order
-/

namespace Verif.PySet

/-- Every element is where the search for it ends; the length is a power of two. -/
structure WF (t : Table) : Prop where
  pow : ∃ k, t.length = 2 ^ (k + 3)
  slot : ∀ (j y : ℕ), t[j]? = some (some y) → slot t y = some j

/-- If all elements are smaller than the length of the table, each has its own entry. -/
def Direct (t : Table) : Prop := (∀ y, some y ∈ t → y < t.length) → ∀ (j y : ℕ), t[j]? = some (some y) → j = y

theorem WF.len {t : Table} (h : WF t) : 8 ≤ t.length := by
  obtain ⟨k, hk⟩ := h.pow
  rw [hk, pow_add]
  have := Nat.one_le_two_pow (n := k)
  omega

theorem getD_of {t : Table} {j : ℕ} {o : Option ℕ} (h : t[j]? = some o) : t.getD j none = o := by
  rw [List.getD_eq_getElem?_getD, h]; rfl

theorem get_of {t : Table} {j : ℕ} (h : j < t.length) : t[j]? = some (t.getD j none) := by
  rw [List.getD_eq_getElem?_getD, List.getElem?_eq_getElem h]; rfl

theorem used_eq (t : Table) : used t = (t.filterMap id).length := by
  unfold used
  induction t with
  | nil => rfl
  | cons a t ih => cases a <;> simp [ih]

theorem mem_elems {t : Table} {x : ℕ} : x ∈ t.filterMap id ↔ some x ∈ t := by simp

/-- No element twice. -/
theorem WF.nodup {t : Table} (h : WF t) : (t.filterMap id).Nodup := by
  unfold List.Nodup
  rw [List.pairwise_filterMap, List.pairwise_iff_getElem]
  intro i j hi hj hij a ha b hb he
  subst he
  have h1 := h.slot i a (by rw [List.getElem?_eq_getElem hi]; exact congrArg some ha)
  have h2 := h.slot j a (by rw [List.getElem?_eq_getElem hj]; exact congrArg some hb)
  rw [h1] at h2
  cases h2
  omega

theorem free_entry {t : Table} (h : used t < t.length) : ∃ j < t.length, t.getD j none = none := by
  by_contra hn
  push Not at hn
  have : t.filter Option.isSome = t := by
    rw [List.filter_eq_self]
    intro a ha
    obtain ⟨j, hj, rfl⟩ := List.mem_iff_getElem.1 ha
    have := hn j hj
    rw [List.getD_eq_getElem?_getD, List.getElem?_eq_getElem hj] at this
    exact Option.ne_none_iff_isSome.1 this
  unfold used at h
  rw [this] at h
  omega

theorem used_set {t : Table} {j x : ℕ} (hj : j < t.length) (h : t.getD j none = none) : used (t.set j (some x)) = used t + 1 := by
  unfold used
  induction t generalizing j with
  | nil => simp at hj
  | cons a t ih =>
    cases j with
    | zero =>
      have : a = none := h
      subst this
      simp
    | succ j =>
      have := ih (j := j) (by simpa using hj) (by simpa using h)
      cases a <;> simp [this]

theorem mem_set_iff {t : Table} {j x y : ℕ} (hj : j < t.length) (h : t.getD j none = none) : some y ∈ t.set j (some x) ↔ y = x ∨ some y ∈ t := by
  constructor
  · intro hm
    rcases List.mem_or_eq_of_mem_set hm with h1 | h1
    · exact .inr h1
    · exact .inl (Option.some.inj h1)
  · rintro (rfl | h1)
    · exact List.mem_set hj _
    · obtain ⟨i, hi, he⟩ := List.mem_iff_getElem.1 h1
      have hij : i ≠ j := by
        rintro rfl
        rw [List.getD_eq_getElem?_getD, List.getElem?_eq_getElem hi, he] at h
        cases h
      rw [List.mem_iff_getElem?]
      exact ⟨i, by rw [List.getElem?_set_ne (Ne.symm hij), List.getElem?_eq_getElem hi, he]⟩

/-- Storing a new element. -/
theorem WF.set {t : Table} (h : WF t) (hd : Direct t) (hf : used t < t.length) {x : ℕ} (hx : some x ∉ t) :
    ∃ j, PySet.slot t x = some j ∧ j < t.length ∧ t.getD j none = none ∧ WF (t.set j (some x)) ∧ Direct (t.set j (some x)) := by
  obtain ⟨k, hk⟩ := h.pow
  obtain ⟨j0, hj0, he⟩ := free_entry hf
  obtain ⟨j, hj⟩ := slot_some hk hj0 he x
  have h0 : 0 < t.length := by omega
  obtain ⟨hjl, hjv⟩ := slot_ok h0 hj
  have hjn : t.getD j none = none := by
    rcases hjv with h1 | h1
    · exact h1
    · exact absurd (List.mem_of_getElem? ((get_of hjl).trans (congrArg some h1))) hx
  refine ⟨j, hj, hjl, hjn, ⟨⟨k, by rw [List.length_set]; exact hk⟩, ?_⟩, ?_⟩
  · intro i y hi
    by_cases hij : i = j
    · subst hij
      rw [List.getElem?_set_self hjl] at hi
      cases hi
      rw [slot_set hjn (.inr ⟨rfl, hjl⟩)]
      exact hj
    · rw [List.getElem?_set_ne (Ne.symm hij)] at hi
      have h1 := h.slot i y hi
      rw [slot_set hjn (.inl (by rw [h1]; intro e; exact hij (Option.some.inj e)))]
      exact h1
  · intro hall i y hi
    rw [List.length_set] at hall
    have hd' := hd (fun y hy => hall y ((mem_set_iff hjl hjn).2 (.inr hy)))
    by_cases hij : i = j
    · subst hij
      rw [List.getElem?_set_self hjl] at hi
      cases hi
      have hxl := hall x ((mem_set_iff hjl hjn).2 (.inl rfl))
      have hfit : fits t x x = true := by
        have : t.getD x none = none := by
          cases hv : t.getD x none with
          | none => rfl
          | some y =>
            have hg := (get_of hxl).trans (congrArg some hv)
            have := hd' x y hg
            subst this
            exact absurd (List.mem_of_getElem? hg) hx
        unfold fits
        rw [this]
        rfl
      have : PySet.slot t x = some x := by
        unfold PySet.slot find
        rw [Nat.mod_eq_of_lt hxl, scan_fits hfit]
      rw [this] at hj
      exact (Option.some.inj hj).symm
    · rw [List.getElem?_set_ne (Ne.symm hij)] at hi
      exact hd' i y hi

theorem WF.empty (k : ℕ) : WF (List.replicate (2 ^ (k + 3)) none) ∧ Direct (List.replicate (2 ^ (k + 3)) none) ∧
    used (List.replicate (2 ^ (k + 3)) none) = 0 := by
  have : ∀ (j y : ℕ), (List.replicate (2 ^ (k + 3)) (none : Option ℕ))[j]? ≠ some (some y) := by
    intro j y h
    have := List.mem_of_getElem? h
    rw [List.mem_replicate] at this
    cases this.2
  refine ⟨⟨⟨k, by simp⟩, fun j y h => absurd h (this j y)⟩, fun _ j y h => absurd h (this j y), ?_⟩
  simp [used]

theorem newSize_pow (m : ℕ) : ∀ (f k : ℕ), ∃ k', newSize m f (2 ^ (k + 3)) = 2 ^ (k' + 3)
  | 0, k => ⟨k, rfl⟩
  | f + 1, k => by
    unfold newSize
    split_ifs
    · rw [← pow_succ]
      exact newSize_pow m f (k + 1)
    · exact ⟨k, rfl⟩

theorem newSize_lt (m : ℕ) : ∀ (f n : ℕ), m < n * 2 ^ f → m < newSize m f n
  | 0, n, h => by simpa [newSize] using h
  | f + 1, n, h => by
    unfold newSize
    split_ifs with h1
    · exact newSize_lt m f (n * 2) (by rw [pow_succ] at h; rw [mul_assoc, mul_comm 2]; exact h)
    · omega

/-- Storing distinct elements in a table with enough room. -/
theorem stores : ∀ (es : List ℕ) (t : Table), WF t → Direct t → used t + es.length < t.length → es.Nodup → (∀ x ∈ es, some x ∉ t) →
    WF (es.foldl store t) ∧ Direct (es.foldl store t) ∧ (es.foldl store t).length = t.length ∧ used (es.foldl store t) = used t + es.length ∧
    ∀ y, some y ∈ es.foldl store t ↔ y ∈ es ∨ some y ∈ t
  | [], t, h, hd, _, _, _ => ⟨h, hd, rfl, rfl, by simp⟩
  | x :: es, t, h, hd, hl, hn, hx => by
    rw [List.length_cons] at hl
    obtain ⟨j, h1, h2, h3, h4, h5⟩ := h.set hd (by omega) (hx x List.mem_cons_self)
    have hs : store t x = t.set j (some x) := by unfold store; rw [h1]
    rw [List.nodup_cons] at hn
    have hm := fun y => mem_set_iff (x := x) (y := y) h2 h3
    have hu := used_set (x := x) h2 h3
    rw [List.foldl_cons, hs]
    obtain ⟨g1, g2, g3, g4, g5⟩ := stores es _ h4 h5 (by rw [hu, List.length_set]; omega) hn.2 (fun y hy hy' => by
      rcases (hm y).1 hy' with rfl | h6
      · exact hn.1 hy
      · exact hx y (List.mem_cons_of_mem _ hy) h6)
    refine ⟨g1, g2, by rw [g3, List.length_set], by rw [g4, hu, List.length_cons]; omega, fun y => ?_⟩
    rw [g5, hm, List.mem_cons]
    tauto

/-- The invariant of the set: the table is at most three fifths full. -/
structure Ok (t : Table) : Prop where
  wf : WF t
  direct : Direct t
  room : used t * 5 < (t.length - 1) * 3

theorem Ok.new : Ok (List.replicate 8 none) := by
  obtain ⟨h1, h2, h3⟩ := WF.empty 0
  exact ⟨h1, h2, by decide⟩

theorem Ok.add {t : Table} (h : Ok t) (x : ℕ) : Ok (add t x) ∧ ∀ y, some y ∈ PySet.add t x ↔ y = x ∨ some y ∈ t := by
  have hlen := h.wf.len
  have hroom := h.room
  obtain ⟨k, hk⟩ := h.wf.pow
  by_cases hx : some x ∈ t
  · obtain ⟨j, hj⟩ := List.mem_iff_getElem?.1 hx
    have he : PySet.add t x = t := by
      unfold PySet.add
      rw [h.wf.slot j x hj]
      simp only
      rw [if_pos (getD_of hj)]
    rw [he]
    refine ⟨h, fun y => ⟨.inr, ?_⟩⟩
    rintro (rfl | h1)
    · exact hx
    · exact h1
  · obtain ⟨j, h1, h2, h3, h4, h5⟩ := h.wf.set h.direct (by omega) hx
    have hm := fun y => mem_set_iff (x := x) (y := y) h2 h3
    have hu := used_set (x := x) h2 h3
    unfold PySet.add
    rw [h1]
    simp only
    rw [if_neg (by rw [h3]; simp)]
    by_cases hc : used (t.set j (some x)) * 5 < (t.length - 1) * 3
    · rw [if_pos hc]
      exact ⟨⟨h4, h5, by rw [List.length_set]; exact hc⟩, hm⟩
    · rw [if_neg hc]
      generalize hm' : (if 50000 < used (t.set j (some x)) then used (t.set j (some x)) * 2 else used (t.set j (some x)) * 4) = m
      have hmu : used (t.set j (some x)) * 2 ≤ m := by
        rw [← hm']
        split_ifs <;> omega
      unfold resize
      obtain ⟨k', hk'⟩ := newSize_pow m m 0
      have hk' : newSize m m 8 = 2 ^ (k' + 3) := hk'
      have hlt : m < newSize m m 8 := newSize_lt m m 8 (by
        have := Nat.lt_two_pow_self (n := m)
        omega)
      rw [hk'] at hlt ⊢
      obtain ⟨e1, e2, e3⟩ := WF.empty k'
      have hl : (List.replicate (2 ^ (k' + 3)) (none : Option ℕ)).length = 2 ^ (k' + 3) := by simp
      rw [used_eq] at hmu hu
      obtain ⟨g1, g2, g3, g4, g5⟩ := stores ((t.set j (some x)).filterMap id) _ e1 e2 (by rw [e3, hl]; omega) h4.nodup (fun y _ hy => by
        rw [List.mem_replicate] at hy
        cases hy.2)
      refine ⟨⟨g1, g2, ?_⟩, fun y => ?_⟩
      · rw [g4, g3, e3, hl]
        omega
      · rw [g5, mem_elems, hm]
        constructor
        · rintro (h6 | h6)
          · exact h6
          · rw [List.mem_replicate] at h6
            cases h6.2
        · exact .inl

theorem Ok.foldl : ∀ (l : List ℕ) (t : Table), Ok t → Ok (l.foldl PySet.add t) ∧ ∀ y, some y ∈ l.foldl PySet.add t ↔ y ∈ l ∨ some y ∈ t
  | [], t, h => ⟨h, by simp⟩
  | x :: l, t, h => by
    obtain ⟨h1, h2⟩ := h.add x
    obtain ⟨h3, h4⟩ := Ok.foldl l _ h1
    refine ⟨h3, fun y => ?_⟩
    rw [List.foldl_cons, h4, h2, List.mem_cons]
    tauto

theorem ok_ofList (l : List ℕ) : Ok (ofList l) ∧ ∀ y, some y ∈ ofList l ↔ y ∈ l := by
  obtain ⟨h1, h2⟩ := Ok.foldl l _ Ok.new
  refine ⟨h1, fun y => ?_⟩
  unfold ofList
  rw [h2]
  constructor
  · rintro (h | h)
    · exact h
    · rw [List.mem_replicate] at h
      cases h.2
  · exact .inl

/-- The set has as many elements as there are different ones in the list. -/
theorem used_ofList (l : List ℕ) : used (ofList l) = l.toFinset.card := by
  obtain ⟨h1, h2⟩ := ok_ofList l
  rw [used_eq, ← List.toFinset_card_of_nodup h1.wf.nodup]
  congr 1
  ext y
  rw [List.mem_toFinset, List.mem_toFinset, mem_elems, h2]

theorem direct_sorted {t : Table} (h : ∀ (j y : ℕ), t[j]? = some (some y) → j = y) : (t.filterMap id).Pairwise (· < ·) := by
  rw [List.pairwise_filterMap, List.pairwise_iff_getElem]
  intro i j hi hj hij a ha b hb
  have h1 := h i a (by rw [List.getElem?_eq_getElem hi]; exact congrArg some ha)
  have h2 := h j b (by rw [List.getElem?_eq_getElem hj]; exact congrArg some hb)
  omega

end Verif.PySet
