import Verif.Dof.Classes

/-!
# `cell.get_neighbors(vertex)` finds all cells around the vertex
-/

namespace Verif.Dof
open Verif.Fem Verif.Mesh

/-! ### Walking along a partial injective map -/

section run
variable {α : Type} [DecidableEq α]

/-- Walk along `φ` until it is not defined or returns to `x`. -/
def run (φ : α → Option α) (x : α) : Nat → α → Option (List α × Bool)
  | 0, _ => none
  | n + 1, y =>
    match φ y with
    | none => some ([], false)
    | some z => if z = x then some ([], true) else (run φ x n z).map (fun r => (z :: r.1, r.2))

theorem run_ends {φ : α → Option α} (hinj : ∀ u u' z, φ u = some z → φ u' = some z → u = u') {x : α} (S : Finset α)
    (hS : ∀ u z, u ∈ S → φ u = some z → z ∈ S) : ∀ (n : Nat) (Vis : Finset α) (y : α), Vis ⊆ S → x ∈ Vis → y ∈ Vis →
    (∀ u ∈ Vis, u ≠ x → ∃ u' ∈ Vis, u' ≠ y ∧ φ u' = some u) → (S \ Vis).card < n → (run φ x n y).isSome := by
  intro n
  induction n with
  | zero => intro Vis y _ _ _ _ h; omega
  | succ n ih =>
    intro Vis y hV hx hy hp hn
    unfold run
    rcases hz : φ y with _ | z
    · simp
    · simp only
      split_ifs with hzx
      · simp
      · have hzV : z ∉ Vis := by
          intro h
          obtain ⟨u', _, h2, h3⟩ := hp z h hzx
          exact h2 (hinj u' y z h3 hz)
        have hzS : z ∈ S := hS y z (hV hy) hz
        have := ih (insert z Vis) z (by
            intro u hu
            rcases Finset.mem_insert.1 hu with rfl | hu
            · exact hzS
            · exact hV hu) (Finset.mem_insert_of_mem hx) (Finset.mem_insert_self _ _) (by
            intro u hu hux
            rcases Finset.mem_insert.1 hu with rfl | hu
            · exact ⟨y, Finset.mem_insert_of_mem hy, fun h => hzV (h ▸ hy), hz⟩
            · obtain ⟨u', h1, h2, h3⟩ := hp u hu hux
              exact ⟨u', Finset.mem_insert_of_mem h1, fun h => hzV (h ▸ h1), h3⟩) (by
            have h1 : S \ insert z Vis = (S \ Vis).erase z := by
              ext u; simp [Finset.mem_sdiff]; tauto
            have h2 : z ∈ S \ Vis := Finset.mem_sdiff.2 ⟨hzS, hzV⟩
            rw [h1, Finset.card_erase_of_mem h2]
            have := Finset.card_pos.2 ⟨z, h2⟩
            omega)
        obtain ⟨r, hr⟩ := Option.isSome_iff_exists.1 this
        rw [hr]; rfl

/-- What the walk finds. -/
theorem run_spec {φ : α → Option α} {x : α} : ∀ (n : Nat) (y : α) (l : List α) (b : Bool),
    run φ x n y = some (l, b) →
    (∀ u ∈ y :: l, ∀ z, φ u = some z → z ∈ l ∨ z = x) ∧ (∀ z ∈ l, z ≠ x ∧ ∃ u ∈ y :: l, φ u = some z) ∧
    (b = true → ∃ u ∈ y :: l, φ u = some x) ∧ (b = false → ∃ u ∈ y :: l, φ u = none) := by
  intro n
  induction n with
  | zero => intro y l b h; cases h
  | succ n ih =>
    intro y l b h
    unfold run at h
    rcases hz : φ y with _ | z
    · rw [hz] at h
      cases h
      refine ⟨?_, by simp, by simp, fun _ => ⟨y, by simp, hz⟩⟩
      intro u hu z' hz'
      rw [List.mem_singleton.1 hu, hz] at hz'; cases hz'
    · rw [hz] at h
      simp only at h
      split_ifs at h with hzx
      · cases h
        refine ⟨?_, by simp, fun _ => ⟨y, by simp, by rw [hz, hzx]⟩, by simp⟩
        intro u hu z' hz'
        rw [List.mem_singleton.1 hu, hz] at hz'
        cases hz'
        exact .inr hzx
      · obtain ⟨⟨l', b'⟩, hr, e⟩ := Option.map_eq_some_iff.1 h
        simp only [Prod.mk.injEq] at e
        obtain ⟨rfl, rfl⟩ := e
        obtain ⟨h1, h2, h3, h4⟩ := ih z l' b' hr
        refine ⟨?_, ?_, ?_, ?_⟩
        · intro u hu w hw
          rcases List.mem_cons.1 hu with rfl | hu
          · rw [hz] at hw; cases hw; exact .inl (by simp)
          · rcases h1 u hu w hw with h | h
            · exact .inl (List.mem_cons_of_mem _ h)
            · exact .inr h
        · intro w hw
          rcases List.mem_cons.1 hw with rfl | hw
          · exact ⟨hzx, y, by simp, hz⟩
          · obtain ⟨g1, u, g2, g3⟩ := h2 w hw
            exact ⟨g1, u, List.mem_cons_of_mem _ g2, g3⟩
        · intro hb
          obtain ⟨u, g2, g3⟩ := h3 hb
          exact ⟨u, List.mem_cons_of_mem _ g2, g3⟩
        · intro hb
          obtain ⟨u, g2, g3⟩ := h4 hb
          exact ⟨u, List.mem_cons_of_mem _ g2, g3⟩

/-- Walking forwards, and backwards if the walk did not return: the list of places found. -/
def orbit (φ ψ : α → Option α) (n : Nat) (x : α) : Option (List α) :=
  match run φ x n x with
  | none => none
  | some (l, true) => some l
  | some (l, false) =>
    match run ψ x n x with
    | none => none
    | some (_, true) => some l
    | some (l', false) => some (l ++ l'.reverse)

/-- Together with the start, the list is closed under both maps and reached by them. -/
theorem orbit_spec {φ ψ : α → Option α} (hi : ∀ u z, φ u = some z ↔ ψ z = some u) {n : Nat} {x : α} {l : List α}
    (h : orbit φ ψ n x = some l) :
    x ∉ l ∧ (∀ u ∈ x :: l, ∀ z, φ u = some z ∨ ψ u = some z → z ∈ x :: l) ∧
    (∀ z ∈ l, Relation.EqvGen (fun a b => φ a = some b) x z) := by
  have hφ : ∀ u u' z, φ u = some z → φ u' = some z → u = u' := by
    intro u u' z h1 h2
    have := ((hi u z).1 h1).symm.trans ((hi u' z).1 h2)
    exact Option.some.inj this
  have hψ : ∀ u u' z, ψ u = some z → ψ u' = some z → u = u' := by
    intro u u' z h1 h2
    have := ((hi z u).2 h1).symm.trans ((hi z u').2 h2)
    exact Option.some.inj this
  -- everything found is reached
  have reach : ∀ (χ : α → Option α) (n : Nat) (y : α) (l : List α) (b : Bool), run χ x n y = some (l, b) →
      (∀ a z, χ a = some z → Relation.EqvGen (fun a b => φ a = some b) a z) →
      ∀ z ∈ l, Relation.EqvGen (fun a b => φ a = some b) y z := by
    intro χ n
    induction n with
    | zero => intro y l b h; cases h
    | succ n ih =>
      intro y l b h hχ
      unfold run at h
      rcases hz : χ y with _ | z
      · rw [hz] at h; cases h; simp
      · rw [hz] at h
        simp only at h
        split_ifs at h with hzx
        · cases h; simp
        · obtain ⟨⟨l', b'⟩, hr, e⟩ := Option.map_eq_some_iff.1 h
          simp only [Prod.mk.injEq] at e
          obtain ⟨rfl, rfl⟩ := e
          intro w hw
          rcases List.mem_cons.1 hw with rfl | hw
          · exact hχ y w hz
          · exact (hχ y z hz).trans _ _ _ (ih z l' b' hr hχ w hw)
  have rφ : ∀ a z, φ a = some z → Relation.EqvGen (fun a b => φ a = some b) a z := fun a z h => .rel _ _ h
  have rψ : ∀ a z, ψ a = some z → Relation.EqvGen (fun a b => φ a = some b) a z :=
    fun a z h => .symm _ _ (.rel _ _ ((hi z a).2 h))
  unfold orbit at h
  rcases h1 : run φ x n x with _ | ⟨l1, b1⟩
  · rw [h1] at h; cases h
  rw [h1] at h
  obtain ⟨s1, s2, s3, s4⟩ := run_spec n x l1 b1 h1
  have nx : x ∉ l1 := fun hx => (s2 x hx).1 rfl
  cases b1 with
  | true =>
    cases h
    obtain ⟨w, hw1, hw2⟩ := s3 rfl
    refine ⟨nx, ?_, reach φ n x l true h1 rφ⟩
    rintro u hu z (hz | hz)
    · rcases s1 u hu z hz with h | h
      · exact List.mem_cons_of_mem _ h
      · simp [h]
    · have hz' := (hi z u).2 hz
      rcases List.mem_cons.1 hu with rfl | hu
      · exact hφ w z u hw2 hz' ▸ hw1
      · obtain ⟨_, u', g1, g2⟩ := s2 u hu
        exact hφ u' z u g2 hz' ▸ g1
  | false =>
    simp only at h
    obtain ⟨w, hw1, hw2⟩ := s4 rfl
    rcases h2 : run ψ x n x with _ | ⟨l2, b2⟩
    · rw [h2] at h; cases h
    rw [h2] at h
    obtain ⟨t1, t2, t3, t4⟩ := run_spec n x l2 b2 h2
    have nx2 : x ∉ l2 := fun hx => (t2 x hx).1 rfl
    cases b2 with
    | true =>
      -- impossible: the walk backwards would have returned, the walk forwards not
      exfalso
      obtain ⟨w', hw1', hw2'⟩ := t3 rfl
      -- `φ` is defined on `x :: l2` and stays there
      have cl : ∀ u ∈ x :: l2, ∃ z ∈ x :: l2, φ u = some z := by
        intro u hu
        rcases List.mem_cons.1 hu with rfl | hu
        · exact ⟨w', hw1', (hi _ _).2 hw2'⟩
        · obtain ⟨_, u', g1, g2⟩ := t2 u hu
          exact ⟨u', g1, (hi _ _).2 g2⟩
      have sub : ∀ (n : Nat) (y : α) (l : List α) (b : Bool), run φ x n y = some (l, b) → y ∈ x :: l2 →
          ∀ u ∈ y :: l, u ∈ x :: l2 := by
        intro n
        induction n with
        | zero => intro y l b h; cases h
        | succ n ih =>
          intro y l b h hy
          obtain ⟨z, hz1, hz2⟩ := cl y hy
          unfold run at h
          rw [hz2] at h
          simp only at h
          split_ifs at h with hzx
          · cases h
            intro u hu
            rw [List.mem_singleton.1 hu]; exact hy
          · obtain ⟨⟨l', b'⟩, hr, e⟩ := Option.map_eq_some_iff.1 h
            simp only [Prod.mk.injEq] at e
            obtain ⟨rfl, rfl⟩ := e
            intro u hu
            rcases List.mem_cons.1 hu with rfl | hu
            · exact hy
            · exact ih z l' b' hr hz1 u hu
      obtain ⟨z, _, hz⟩ := cl w (sub n x l1 false h1 (by simp) w hw1)
      rw [hw2] at hz; cases hz
    | false =>
      cases h
      have mem : ∀ z, z ∈ x :: (l1 ++ l2.reverse) ↔ z = x ∨ z ∈ l1 ∨ z ∈ l2 := by
        intro z; simp
      refine ⟨by simp [nx, nx2], ?_, ?_⟩
      · intro u hu z hz
        rw [mem] at hu ⊢
        have e1 : ∀ u, u = x ∨ u ∈ l1 → φ u = some z → z = x ∨ z ∈ l1 ∨ z ∈ l2 := by
          intro u hu hz
          rcases s1 u (by simpa using hu) z hz with h | h
          · exact .inr (.inl h)
          · exact .inl h
        have e2 : ∀ u, u = x ∨ u ∈ l2 → ψ u = some z → z = x ∨ z ∈ l1 ∨ z ∈ l2 := by
          intro u hu hz
          rcases t1 u (by simpa using hu) z hz with h | h
          · exact .inr (.inr h)
          · exact .inl h
        rcases hz with hz | hz
        · rcases hu with hu | hu | hu
          · exact e1 u (.inl hu) hz
          · exact e1 u (.inr hu) hz
          · obtain ⟨_, u', g1, g2⟩ := t2 u hu
            have := (hi u u').2 g2
            rw [hz] at this
            cases this
            rcases List.mem_cons.1 g1 with h | h
            · exact .inl h
            · exact .inr (.inr h)
        · rcases hu with hu | hu | hu
          · exact e2 u (.inl hu) hz
          · obtain ⟨_, u', g1, g2⟩ := s2 u hu
            have := (hi u' u).1 g2
            rw [hz] at this
            cases this
            rcases List.mem_cons.1 g1 with h | h
            · exact .inl h
            · exact .inr (.inl h)
          · exact e2 u (.inr hu) hz
      · intro z hz
        rcases List.mem_append.1 hz with h | h
        · exact reach φ n x l1 false h1 rφ z h
        · exact reach ψ n x l2 false h2 rψ z (by simpa using h)

theorem orbit_some {φ ψ : α → Option α} (hi : ∀ u z, φ u = some z ↔ ψ z = some u) {n : Nat} {x : α} (S : Finset α)
    (hx : x ∈ S) (hS : ∀ u z, u ∈ S → φ u = some z ∨ ψ u = some z → z ∈ S) (hn : S.card ≤ n) :
    (orbit φ ψ n x).isSome := by
  have hφ : ∀ u u' z, φ u = some z → φ u' = some z → u = u' := by
    intro u u' z h1 h2
    have := ((hi u z).1 h1).symm.trans ((hi u' z).1 h2)
    exact Option.some.inj this
  have hψ : ∀ u u' z, ψ u = some z → ψ u' = some z → u = u' := by
    intro u u' z h1 h2
    have := ((hi z u).2 h1).symm.trans ((hi z u').2 h2)
    exact Option.some.inj this
  have hc : (S \ {x}).card < n := by
    have := Finset.card_sdiff_of_subset (Finset.singleton_subset_iff.2 hx)
    have h2 := Finset.card_pos.2 ⟨x, hx⟩
    rw [this, Finset.card_singleton]; omega
  have a1 := run_ends hφ (x := x) S (fun u z hu hz => hS u z hu (.inl hz)) n {x} x (Finset.singleton_subset_iff.2 hx)
    (by simp) (by simp) (by intro u hu h; exact absurd (Finset.mem_singleton.1 hu) h) hc
  have a2 := run_ends hψ (x := x) S (fun u z hu hz => hS u z hu (.inr hz)) n {x} x (Finset.singleton_subset_iff.2 hx)
    (by simp) (by simp) (by intro u hu h; exact absurd (Finset.mem_singleton.1 hu) h) hc
  obtain ⟨⟨l1, b1⟩, h1⟩ := Option.isSome_iff_exists.1 a1
  obtain ⟨⟨l2, b2⟩, h2⟩ := Option.isSome_iff_exists.1 a2
  unfold orbit
  rw [h1]
  cases b1
  · simp only [h2]
    cases b2 <;> rfl
  · rfl

end run

/-! ### Corners around a vertex -/

section
set_option linter.unusedSectionVars false
variable {K : Type} [Field K]

/-- The vertices of a cell. -/
def vert (s : St K) (c : CN) (i : Fin 4) : VN := (baseOf s (side c i)).getD (.root 0)

theorem CEx_par {B : Base K} {s : St K} (hi : CInv B s) (f : Nat) (q p : List (Fin 4)) (h : CEx B.n s.kids (f, q ++ p)) :
    CEx B.n s.kids (f, p) := by
  induction q with
  | nil => exact h
  | cons k q ih => exact ih (hi.pref _ h)

theorem vert_eq {B : Base K} {s : St K} (hi : CInv B s) {c : CN} (hc : CEx B.n s.kids c) (i : Fin 4) :
    ∃ r, s.he (side c i) = some r ∧ vert s c i = r.base ∧ vert s c (i + 1) = r.head := by
  obtain ⟨r, hr⟩ := side_ex hi hc i
  obtain ⟨r', hr'⟩ := side_ex hi hc (i + 1)
  refine ⟨r, hr, ?_, ?_⟩
  · simp [vert, baseOf, hr]
  · rw [hi.chain c i r r' hr hr']
    simp [vert, baseOf, hr']

theorem geo {B : Base K} (hB : B.WF) (hP : Plain B) {s : St K} (hs : MReach B s) :
    Geo B (CEx B.n s.kids) (vert s) := by
  have hi := hs.inv hB
  have hn := reach_ninv hB hs
  refine ⟨hB.inv, fun c k h => hi.pref c h, fun c k k' h => h, ?_, fun f hf => hf, ?_, ?_⟩
  · rintro ⟨f, p⟩ h
    have := CEx_par hi f p [] (by simpa using h)
    exact this
  · intro c d i j hc hd hv
    obtain ⟨r, h1, h2, h3⟩ := vert_eq hi hc i
    obtain ⟨q, g1, g2, g3⟩ := vert_eq hi hd j
    have ht : r.twin = some (side d j) := (hi.hinv.tw _ r h1 _).2 ⟨hv, by rw [g1]; rfl⟩
    obtain ⟨sw1, sw2⟩ := (hi.hinv.swap _ r _ q h1 ht g1).2 ((hn.per _ r h1).trans (perH_plain hB hP _))
    rw [h2, h3, g2, g3]
    exact ⟨sw1, sw2⟩
  · intro c i j hc h
    obtain ⟨r, h1, h2, _⟩ := vert_eq hi hc i
    obtain ⟨q, g1, g2, _⟩ := vert_eq hi hc j
    rw [h2, g2] at h
    exact verts_distinct hB hP hs c.2 c.1 hc i j r q h1 g1 h

variable {B : Base K} {s : St K}

open Classical in
/-- The corner of the next cell across the half-edge that ends in the vertex. -/
noncomputable def fwd (B : Base K) (s : St K) (x : CN × Fin 4) : Option (CN × Fin 4) :=
  if CEx B.n s.kids x.1 then
    (vt B.T (side x.1 (x.2 + 3))).bind (fun t => if CEx B.n s.kids (owner t).1 then some (owner t) else none)
  else none

open Classical in
/-- The corner of the next cell across the half-edge that starts in the vertex. -/
noncomputable def bwd (B : Base K) (s : St K) (x : CN × Fin 4) : Option (CN × Fin 4) :=
  if CEx B.n s.kids x.1 then
    (vt B.T (side x.1 x.2)).bind
      (fun t => if CEx B.n s.kids (owner t).1 then some ((owner t).1, (owner t).2 + 1) else none)
  else none

theorem fwd_iff (x y : CN × Fin 4) : fwd B s x = some y ↔ CEx B.n s.kids x.1 ∧ CEx B.n s.kids y.1 ∧
    vt B.T (side x.1 (x.2 + 3)) = some (side y.1 y.2) := by
  unfold fwd
  by_cases hx : CEx B.n s.kids x.1
  · simp only [hx, if_true, true_and]
    rw [Option.bind_eq_some_iff]
    constructor
    · rintro ⟨t, h1, h2⟩
      split_ifs at h2 with h3
      cases h2
      exact ⟨h3, by rw [side_owner]; exact h1⟩
    · rintro ⟨h1, h2⟩
      exact ⟨_, h2, by rw [owner_side]; simp [h1]⟩
  · simp [hx]

theorem bwd_iff (x y : CN × Fin 4) : bwd B s x = some y ↔ CEx B.n s.kids x.1 ∧ CEx B.n s.kids y.1 ∧
    vt B.T (side x.1 x.2) = some (side y.1 (y.2 + 3)) := by
  unfold bwd
  by_cases hx : CEx B.n s.kids x.1
  · simp only [hx, if_true, true_and]
    rw [Option.bind_eq_some_iff]
    constructor
    · rintro ⟨t, h1, h2⟩
      split_ifs at h2 with h3
      cases h2
      refine ⟨h3, ?_⟩
      simp only [fin4_h]
      rw [side_owner]; exact h1
    · rintro ⟨h1, h2⟩
      refine ⟨_, h2, ?_⟩
      rw [owner_side]
      simp only [h1, if_true, Option.some.injEq]
      refine Prod.ext rfl ?_
      simp only
      generalize y.2 = k
      revert k; decide
  · simp [hx]

theorem fwd_bwd (hB : B.WF) (x y : CN × Fin 4) : fwd B s x = some y ↔ bwd B s y = some x := by
  rw [fwd_iff, bwd_iff]
  constructor
  · rintro ⟨h1, h2, h3⟩; exact ⟨h2, h1, vt_inv hB.inv _ _ h3⟩
  · rintro ⟨h1, h2, h3⟩; exact ⟨h2, h1, vt_inv hB.inv _ _ h3⟩

theorem fin4_l (k : Fin 4) : k + 3 + 1 = k := by revert k; decide

theorem step_vert (hG : Geo B (CEx B.n s.kids) (vert s)) {x y : CN × Fin 4} (h : fwd B s x = some y ∨ bwd B s x = some y) :
    vert s y.1 y.2 = vert s x.1 x.2 := by
  rcases h with h | h
  · obtain ⟨h1, h2, h3⟩ := (fwd_iff x y).1 h
    have := (hG.swap _ _ _ _ h1 h2 h3).2
    rw [fin4_l] at this
    exact this.symm
  · obtain ⟨h1, h2, h3⟩ := (bwd_iff x y).1 h
    have := (hG.swap _ _ _ _ h1 h2 h3).1
    rw [fin4_l] at this
    exact this.symm

theorem find_four (f : Fin 4 → Bool) (i : Fin 4) (h : ∀ j, f j = true ↔ j = i) : four.find? f = some i := by
  have hd : ∀ j, f j = decide (j = i) := by
    intro j
    rw [Bool.eq_iff_iff, h]; simp
  have : f = fun j => decide (j = i) := funext hd
  rw [this]
  clear * -
  revert i
  decide

theorem find_four_map {α : Type} (g : Fin 4 → α) (f : α → Bool) (i : Fin 4) (h : ∀ j, f (g j) = true ↔ j = i) :
    (four.map g).find? f = some (g i) := by
  rw [List.find?_map]
  have := find_four (f ∘ g) i h
  rw [this]; rfl

theorem incident_eq (hi : CInv B s) (hG : Geo B (CEx B.n s.kids) (vert s)) {c : CN} (hc : CEx B.n s.kids c) (i : Fin 4)
    (rev : Bool) : incident s c (vert s c i) rev = some (side c (if rev then i else i + 3)) := by
  unfold incident
  rw [hi.sides c hc]
  refine find_four_map (side c) _ _ ?_
  intro j
  obtain ⟨r, h1, h2, h3⟩ := vert_eq hi hc j
  cases rev
  · simp only [Bool.false_eq_true, if_false, headOf, h1, Option.map_some, decide_eq_true_eq, Option.some.injEq]
    rw [← h3]
    constructor
    · intro h
      have := hG.inj c _ _ hc h
      rw [← this]
      clear * -; revert j; decide
    · rintro rfl
      rw [fin4_l]
  · simp only [if_true, baseOf, h1, Option.map_some, decide_eq_true_eq, Option.some.injEq]
    rw [← h2]
    constructor
    · intro h; exact hG.inj c _ _ hc h
    · rintro rfl; rfl

/-- The loops of `get_neighbors(vertex)`. -/
theorem walk_eq (hi : CInv B s) (hG : Geo B (CEx B.n s.kids) (vert s)) (x : CN × Fin 4) (hx : CEx B.n s.kids x.1) (rev : Bool) :
    ∀ (n : Nat) (y : CN × Fin 4), CEx B.n s.kids y.1 → vert s y.1 y.2 = vert s x.1 x.2 →
      walk s x.1 (vert s x.1 x.2) rev n y.1 =
        (run (if rev then bwd B s else fwd B s) x n y).map (fun r => (r.1.map Prod.fst, r.2)) := by
  intro n
  induction n with
  | zero => intro y _ _; rfl
  | succ n ih =>
    intro y hy hv
    unfold walk run
    rw [← hv, incident_eq hi hG hy, hv]
    simp only [Option.bind_some]
    have hex : (s.he (side y.1 (if rev then y.2 else y.2 + 3))).isSome := by rw [hi.ex, owner_side]; exact hy
    have hstep : ∀ d, getNb false s (side y.1 (if rev then y.2 else y.2 + 3)) = some d ↔
        ∃ j, (if rev then bwd B s else fwd B s) y = some (d, j) := by
      intro d
      rw [getNb_iff hi false hex]
      cases rev
      · simp only [Bool.false_eq_true, if_false, fwd_iff]
        constructor
        · rintro ⟨t, h1, rfl, h3, _⟩
          exact ⟨(owner t).2, hy, h3, by rw [side_owner]; exact h1⟩
        · rintro ⟨j, _, h2, h3⟩
          exact ⟨_, h3, by rw [owner_side], h2, .inl trivial⟩
      · simp only [if_true, bwd_iff]
        constructor
        · rintro ⟨t, h1, rfl, h3, _⟩
          refine ⟨(owner t).2 + 1, hy, h3, ?_⟩
          rw [fin4_h, side_owner]; exact h1
        · rintro ⟨j, _, h2, h3⟩
          exact ⟨_, h3, by rw [owner_side], h2, .inl trivial⟩
    rcases hφ : (if rev then bwd B s else fwd B s) y with _ | z
    · have : getNb false s (side y.1 (if rev then y.2 else y.2 + 3)) = none := by
        rw [Option.eq_none_iff_forall_ne_some]
        intro d hd
        obtain ⟨j, hj⟩ := (hstep d).1 hd
        rw [hφ] at hj; cases hj
      rw [this]; rfl
    · have hd : getNb false s (side y.1 (if rev then y.2 else y.2 + 3)) = some z.1 := (hstep z.1).2 ⟨z.2, hφ⟩
      rw [hd]
      have hstep2 : fwd B s y = some z ∨ bwd B s y = some z := by
        cases rev
        · exact .inl hφ
        · exact .inr hφ
      have hzx : CEx B.n s.kids z.1 := by
        rcases hstep2 with h | h
        · exact ((fwd_iff y z).1 h).2.1
        · exact ((bwd_iff y z).1 h).2.1
      have hzv : vert s z.1 z.2 = vert s x.1 x.2 := (step_vert hG hstep2).trans hv
      have heq : z.1 = x.1 ↔ z = x := by
        constructor
        · intro h
          refine Prod.ext h ?_
          rw [h] at hzv
          exact hG.inj _ _ _ hx hzv
        · intro h; rw [h]
      simp only
      by_cases hz : z = x
      · rw [if_pos hz, if_pos (heq.2 hz)]; rfl
      · rw [if_neg hz, if_neg (fun h => hz (heq.1 h)), ih z hzx hzv]
        simp only [Option.map_map]
        rfl

theorem nbsV_eq (hi : CInv B s) (hG : Geo B (CEx B.n s.kids) (vert s)) (x : CN × Fin 4) (hx : CEx B.n s.kids x.1) (n : Nat) :
    nbsV s n x.1 (vert s x.1 x.2) = (orbit (fwd B s) (bwd B s) n x).map (List.map Prod.fst) := by
  unfold nbsV orbit
  have h1 := walk_eq hi hG x hx false n x hx rfl
  have h2 := walk_eq hi hG x hx true n x hx rfl
  simp only [Bool.false_eq_true, if_false, if_true] at h1 h2
  rw [h1]
  rcases run (fwd B s) x n x with _ | ⟨l, b⟩
  · rfl
  · cases b
    · simp only [Option.map_some, h2]
      rcases run (bwd B s) x n x with _ | ⟨l', b'⟩
      · rfl
      · cases b'
        · simp
        · rfl
    · rfl

/-- `get_neighbors(vertex)` returns: a list without the cell itself that contains exactly the other cells around the
vertex, found across facing half-edges. -/
theorem nbsV_spec (hB : B.WF) (hi : CInv B s) (hG : Geo B (CEx B.n s.kids) (vert s)) (c : CN) (i : Fin 4)
    (hc : CEx B.n s.kids c) (n : Nat) (hn : 4 * s.cells.length ≤ n) :
    ∃ l : List (CN × Fin 4), nbsV s n c (vert s c i) = some (l.map Prod.fst) ∧ (c, i) ∉ l ∧
      (∀ u ∈ (c, i) :: l, ∀ z, fwd B s u = some z ∨ bwd B s u = some z → z ∈ (c, i) :: l) ∧
      (∀ z ∈ l, Relation.EqvGen (fun a b => fwd B s a = some b) (c, i) z) ∧
      ∀ z ∈ l, CEx B.n s.kids z.1 ∧ vert s z.1 z.2 = vert s c i := by
  rw [nbsV_eq hi hG (c, i) hc n]
  have hsome : (orbit (fwd B s) (bwd B s) n (c, i)).isSome := by
    refine orbit_some (fwd_bwd hB) (s.cells.toFinset ×ˢ Finset.univ) ?_ ?_ ?_
    · simp [(hi.mem c).2 hc]
    · intro u z _ h
      simp only [Finset.mem_product, List.mem_toFinset, Finset.mem_univ, and_true]
      rcases h with h | h
      · exact (hi.mem _).2 ((fwd_iff u z).1 h).2.1
      · exact (hi.mem _).2 ((bwd_iff u z).1 h).2.1
    · rw [Finset.card_product, Finset.card_univ, Fintype.card_fin]
      have := List.toFinset_card_le s.cells
      omega
  obtain ⟨l, hl⟩ := Option.isSome_iff_exists.1 hsome
  obtain ⟨h1, h2, h3⟩ := orbit_spec (fwd_bwd hB) hl
  refine ⟨l, by rw [hl]; rfl, h1, h2, h3, ?_⟩
  intro z hz
  have key : ∀ a b, Relation.EqvGen (fun a b => fwd B s a = some b) a b →
      (CEx B.n s.kids a.1 ↔ CEx B.n s.kids b.1) ∧ vert s b.1 b.2 = vert s a.1 a.2 := by
    intro a b h
    induction h with
    | rel a b h =>
      obtain ⟨g1, g2, _⟩ := (fwd_iff a b).1 h
      exact ⟨⟨fun _ => g2, fun _ => g1⟩, step_vert hG (.inl h)⟩
    | refl a => exact ⟨Iff.rfl, rfl⟩
    | symm a b _ ih => exact ⟨ih.1.symm, ih.2.symm⟩
    | trans a b c _ _ ih1 ih2 => exact ⟨ih1.1.trans ih2.1, ih2.2.trans ih1.2⟩
  obtain ⟨g1, g2⟩ := key _ _ (h3 z hz)
  exact ⟨g1.1 hc, g2⟩

end

end Verif.Dof
