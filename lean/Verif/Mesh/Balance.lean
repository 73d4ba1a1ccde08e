import Verif.Mesh.Cells
import Mathlib.Data.Set.Card
import Mathlib.Data.Set.Finite.List
import Mathlib.Data.Set.Finite.Lattice
import Mathlib.Data.Fintype.Basic
import Mathlib.Order.WellFounded

/-!
# Refined meshes and `QuadMesh.balance` (C27, C52)
-/

namespace Verif.Mesh
open Verif.Geom Verif.Quad

section
set_option linter.unusedSectionVars false
variable {K : Type} [Field K]

theorem mem_four (i : Fin 4) : i ∈ four := by revert i; decide

/-- The level of a cell (`get_depth()`): number of splits above it. -/
def level (c : CN) : Nat := c.2.length

/-- The meshes that are reached from the initial mesh by splitting unsplit cells of the mesh
(with or without a flag) and marking cells. -/
inductive MReach (B : Base K) : St K → Prop
  | init : MReach B (init B)
  | split (s s' : St K) (c : CN) (sf : Bool) : MReach B s → c ∈ s.cells → s.kids c = false →
      cellSplit sf s c = .ok s' → MReach B s'
  | mark (s : St K) (m : CN → Bool) : MReach B s → MReach B { s with mkd := m }

theorem CInv.mark {B : Base K} {s : St K} (hi : CInv B s) (m : CN → Bool) : CInv B { s with mkd := m } := by
  refine ⟨?_, hi.ex, hi.cell, hi.mem, hi.pref, hi.sides, hi.chain⟩
  have h := hi.hinv
  exact ⟨h.tw, h.kids, h.par, h.ends, h.swap⟩

theorem init_cinv {B : Base K} (hB : B.WF) : CInv B (init B) := by
  have hroot : ∀ x q, (init B).he x = some q → ∃ k, x = .root k ∧ k < 4 * B.n ∧
      q = ⟨.root (B.b k), .root (B.hd k), (B.T k).map .root, some (k / 4, []), false, B.per k⟩ := by
    intro x q hq
    cases x with
    | root k =>
      rw [init_he] at hq
      split_ifs at hq with hk
      exact ⟨k, rfl, hk, by cases hq; rfl⟩
    | kid h b => cases hq
    | inner c i d => cases hq
  have hks : ∀ c, (init B).kids c = false := fun c => rfl
  refine ⟨init_inv hB, ?_, ?_, ?_, ?_, ?_, ?_⟩
  · intro h
    cases h with
    | root k =>
      rw [init_he]
      simp only [owner, CEx]
      split_ifs with hk
      · simp; omega
      · simp; omega
    | kid h b =>
      have h1 : (init B).he (.kid h b) = none := rfl
      rw [h1]
      cases b <;> simp [owner, CEx_child, hks]
    | inner c i d =>
      have h1 : (init B).he (.inner c i d) = none := rfl
      rw [h1]
      cases d <;> simp [owner, CEx_child, hks]
  · intro h r hr
    obtain ⟨k, rfl, _, rfl⟩ := hroot h r hr
    simp [owner]
  · rintro ⟨r, _ | ⟨k, p⟩⟩
    · simp [init, CEx]
    · have h2 : CEx B.n (init B).kids (r, k :: p) ↔ (init B).kids (r, p) = true := Iff.rfl
      rw [h2, hks]
      simp [init]
  · intro c hc
    rw [hks] at hc; cases hc
  · rintro ⟨r, _ | ⟨k, p⟩⟩ hc
    · funext i
      rfl
    · cases hc
  · intro c i r r' hr hr'
    obtain ⟨k, h1, hk, rfl⟩ := hroot _ _ hr
    obtain ⟨k', h1', hk', rfl⟩ := hroot _ _ hr'
    have hc : c.2 = [] := by
      rcases c with ⟨f, _ | ⟨j, p⟩⟩
      · rfl
      · have hex : ((init B).he (side (f, j :: p) i)).isSome := by rw [hr]; rfl
        have ho := owner_side (f, j :: p) i
        rw [h1] at ho
        simp [owner] at ho
    obtain ⟨f, p⟩ := c
    simp only at hc
    subst hc
    simp only [side, sideL, HN.root.injEq] at h1 h1'
    have hf : f < B.n := by omega
    simp only
    rw [← h1, ← h1', hB.chain f hf i]

theorem MReach.inv {B : Base K} (hB : B.WF) {s : St K} (h : MReach B s) : CInv B s := by
  induction h with
  | init => exact init_cinv hB
  | split s s' c sf _ hc hk hs ih =>
    obtain ⟨s'', h1, h2, _⟩ := cellSplit_spec hB ih ((ih.mem c).1 hc) hk sf
    rw [hs] at h1
    cases h1
    exact h2
  | mark s m _ ih => exact ih.mark m

/-! ### Levels and neighbours -/

theorem level_child (c : CN) (k : Fin 4) : level (child c k) = level c + 1 := rfl

theorem level_kid (h : HN) (b : Bool) : level (owner (.kid h b)).1 = level (owner h).1 + 1 := by
  cases b <;> rfl

theorem vt_level {T : Nat → Option Nat} (x : HN) : ∀ y, vt T x = some y →
    level (owner x).1 = level (owner y).1 := by
  induction x with
  | root k =>
    intro y h
    simp only [vt, Option.map_eq_some_iff] at h
    obtain ⟨j, _, rfl⟩ := h
    rfl
  | kid h b ih =>
    intro y h
    simp only [vt, Option.map_eq_some_iff] at h
    obtain ⟨j, hj, rfl⟩ := h
    rw [level_kid, level_kid, ih j hj]
  | inner c i d =>
    intro y h
    simp only [vt, Option.some.injEq] at h
    subst h
    cases d <;> rfl

theorem kids_owner_kid {s : St K} {B : Base K} (hi : CInv B s) (t : HN) (b : Bool) :
    (s.he (.kid t b)).isSome ↔ s.kids (owner t).1 = true := by
  rw [hi.ex]
  cases b <;> exact Iff.rfl

/-- `get_neighbors(half_edge)` in terms of the facing half-edge. -/
theorem getNb_iff {B : Base K} {s : St K} (hi : CInv B s) (sf : Bool) {h : HN} (hh : (s.he h).isSome) (d : CN) :
    getNb sf s h = some d ↔ ∃ t, vt B.T h = some t ∧ (owner t).1 = d ∧ CEx B.n s.kids d ∧
      (sf = false ∨ s.mkd d = true) := by
  obtain ⟨r, hr⟩ := Option.isSome_iff_exists.1 hh
  unfold getNb
  rw [hr]
  simp only
  rcases ht : r.twin with _ | t
  · simp only [reduceCtorEq, false_iff, not_exists, not_and]
    intro t hv ho hd
    have hx : (s.he t).isSome := by rw [hi.ex, ho]; exact hd
    have := (hi.hinv.tw h r hr t).2 ⟨hv, hx⟩
    rw [ht] at this; cases this
  · simp only
    obtain ⟨hv, hx⟩ := (hi.hinv.tw h r hr t).1 ht
    obtain ⟨q, hq⟩ := Option.isSome_iff_exists.1 hx
    rw [hq]
    simp only [hi.cell t q hq]
    have hd := (hi.ex t).1 hx
    constructor
    · intro e
      split_ifs at e with hm
      cases e
      exact ⟨t, hv, rfl, hd, by simpa using hm⟩
    · rintro ⟨t', hv', rfl, _, hm⟩
      rw [hv] at hv'
      cases hv'
      rw [if_pos (by simpa using hm)]

theorem twinKidSplit_iff {B : Base K} {s : St K} (hi : CInv B s) (sf : Bool) {h : HN} (hh : (s.he h).isSome) :
    twinKidSplit sf s h = true ↔ ∃ t b, vt B.T h = some t ∧ s.kids (owner t).1 = true ∧
      hasCh sf s (owner (.kid t b)).1 = true := by
  obtain ⟨r, hr⟩ := Option.isSome_iff_exists.1 hh
  unfold twinKidSplit
  rw [hr]
  simp only
  have key : ∀ t b, (match s.he (.kid t b) with
      | none => false
      | some q => match q.cell with
        | none => false
        | some d => hasCh sf s d) = true ↔ s.kids (owner t).1 = true ∧ hasCh sf s (owner (.kid t b)).1 = true := by
    intro t b
    rw [← kids_owner_kid hi t b]
    rcases hk : s.he (.kid t b) with _ | q
    · simp
    · simp [hi.cell _ q hk]
  rcases ht : r.twin with _ | t
  · simp only [Bool.false_eq_true, false_iff, not_exists, not_and]
    intro t b hv hkt
    have hx : (s.he t).isSome := by rw [hi.ex]; exact hi.pref _ hkt
    have := (hi.hinv.tw h r hr t).2 ⟨hv, hx⟩
    rw [ht] at this; cases this
  · simp only [List.any_cons, List.any_nil, Bool.or_false, Bool.or_eq_true]
    have hv := ((hi.hinv.tw h r hr t).1 ht).1
    constructor
    · rintro (h1 | h1)
      · exact ⟨t, false, hv, (key t false).1 h1⟩
      · exact ⟨t, true, hv, (key t true).1 h1⟩
    · rintro ⟨t', b, hv', h1⟩
      rw [hv] at hv'
      cases hv'
      cases b
      · exact .inl ((key t false).2 h1)
      · exact .inr ((key t true).2 h1)

/-! ### C52: refined meshes are conforming -/

/-- Splitting any unsplit cell of any refined mesh succeeds, adds exactly its four children and
keeps all other cells. -/
theorem C52_split_ok {B : Base K} (hB : B.WF) {s : St K} (hs : MReach B s) (c : CN) (hc : c ∈ s.cells)
    (hk : s.kids c = false) (sf : Bool) : ∃ s', cellSplit sf s c = .ok s' ∧ MReach B s' ∧
      (∀ d, d ∈ s'.cells ↔ d ∈ s.cells ∨ ∃ k, d = child c k) ∧
      (∀ d, s'.kids d = true ↔ s.kids d = true ∨ d = c) := by
  have hi := hs.inv hB
  obtain ⟨s', h1, h2, h3, _⟩ := cellSplit_spec hB hi ((hi.mem c).1 hc) hk sf
  refine ⟨s', h1, .split s s' c sf hs hc hk h1, ?_, ?_⟩
  · rintro ⟨r, _ | ⟨k, p⟩⟩
    · rw [h2.mem, hi.mem]
      simp [CEx, child]
    · rw [h2.mem, hi.mem]
      have e : ((r, k :: p) : CN) = child (r, p) k := rfl
      rw [e, CEx_child, CEx_child, h3]
      by_cases hrc : ((r, p) : CN) = c
      · rw [hrc]; simp
      · rw [Function.update_of_ne hrc]
        constructor
        · exact .inl
        · rintro (h | ⟨k', h⟩)
          · exact h
          · exact absurd (child_inj h).1 hrc
  · intro d
    rw [h3]
    by_cases hd : d = c
    · simp [hd]
    · simp [Function.update_of_ne hd, hd]

/-- The four half-edges of a cell form a closed loop and belong to the cell. -/
theorem C52_loop {B : Base K} (hB : B.WF) {s : St K} (hs : MReach B s) (c : CN) (hc : c ∈ s.cells) (i : Fin 4) :
    ∃ r r', s.he (s.sides c i) = some r ∧ s.he (s.sides c (i + 1)) = some r' ∧ r.head = r'.base ∧
      r.cell = some c ∧ (r.kids = true ↔ s.kids c = true) := by
  have hi := hs.inv hB
  have hx := (hi.mem c).1 hc
  rw [hi.sides c hx]
  have e1 : ∀ i, (s.he (side c i)).isSome := fun i => by rw [hi.ex, owner_side]; exact hx
  obtain ⟨r, hr⟩ := Option.isSome_iff_exists.1 (e1 i)
  obtain ⟨r', hr'⟩ := Option.isSome_iff_exists.1 (e1 (i + 1))
  refine ⟨r, r', hr, hr', hi.chain c i r r' hr hr', by rw [hi.cell _ r hr, owner_side], ?_⟩
  have := hi.kids_iff hr
  rwa [owner_side] at this

/-- The neighbour across a half-edge is a cell of the mesh, of the same level, whose neighbour
across the twin is the cell itself; the twins have the same two vertices (unless periodic). -/
theorem C52_neighbor {B : Base K} (hB : B.WF) {s : St K} (hs : MReach B s) (c d : CN) (hc : c ∈ s.cells)
    (i : Fin 4) (h : getNb false s (s.sides c i) = some d) :
    d ∈ s.cells ∧ level d = level c ∧ ∃ j r q, getNb false s (s.sides d j) = some c ∧
      s.he (s.sides c i) = some r ∧ r.twin = some (s.sides d j) ∧ s.he (s.sides d j) = some q ∧
      q.twin = some (s.sides c i) ∧ (r.per = false → r.base = q.head ∧ r.head = q.base) := by
  have hi := hs.inv hB
  have hx := (hi.mem c).1 hc
  rw [hi.sides c hx] at h ⊢
  have e1 : (s.he (side c i)).isSome := by rw [hi.ex, owner_side]; exact hx
  obtain ⟨t, hv, ho, hd, _⟩ := (getNb_iff hi false e1 d).1 h
  refine ⟨(hi.mem d).2 hd, ?_, (owner t).2, ?_⟩
  · have := vt_level _ _ hv
    rw [owner_side, ho] at this
    exact this.symm
  · rw [hi.sides d hd]
    have hst : side d (owner t).2 = t := by rw [← ho, side_owner]
    rw [hst]
    have e2 : (s.he t).isSome := by rw [hi.ex, ho]; exact hd
    obtain ⟨r, hr⟩ := Option.isSome_iff_exists.1 e1
    obtain ⟨q, hq⟩ := Option.isSome_iff_exists.1 e2
    have hv' := vt_inv hB.inv _ _ hv
    have ht : r.twin = some t := (hi.hinv.tw _ r hr t).2 ⟨hv, e2⟩
    refine ⟨r, q, ?_, hr, ht, hq, (hi.hinv.tw t q hq _).2 ⟨hv', e1⟩, (hi.hinv.swap _ r t q hr ht hq).2⟩
    exact (getNb_iff hi false e2 c).2 ⟨_, hv', by rw [owner_side], hx, .inl rfl⟩

/-! ### The 2:1 rule -/

/-- Either no flag is given, or all cells of the mesh carry it. -/
def Full (sf : Bool) (s : St K) : Prop := sf = false ∨ ∀ c ∈ s.cells, s.mkd c = true

theorem hasCh_full {B : Base K} {s : St K} (hi : CInv B s) {sf : Bool} (hf : Full sf s) (c : CN) :
    hasCh sf s c = s.kids c := by
  unfold hasCh
  rcases hf with rfl | hf
  · simp
  · cases hk : s.kids c
    · simp
    · have : s.mkd (child c 0) = true := hf _ ((hi.mem _).2 ((CEx_child c 0).2 hk))
      simp [four, this]

/-- `c` has a neighbour across a side that is split, and a child of it at that side is split. -/
def Bad (T : Nat → Option Nat) (kids : CN → Bool) (c : CN) : Prop :=
  ∃ i t b, vt T (side c i) = some t ∧ kids (owner t).1 = true ∧ kids (owner (.kid t b)).1 = true

theorem sideBad_iff {B : Base K} {s : St K} (hi : CInv B s) {sf : Bool} (hf : Full sf s) {c : CN}
    (hc : CEx B.n s.kids c) (i : Fin 4) :
    sideBad sf s c i = true ↔ ∃ t b, vt B.T (side c i) = some t ∧ s.kids (owner t).1 = true ∧
      s.kids (owner (.kid t b)).1 = true := by
  have e1 : (s.he (side c i)).isSome := by rw [hi.ex, owner_side]; exact hc
  unfold sideBad
  rw [hi.sides c hc]
  rcases hn : getNb sf s (side c i) with _ | d
  · simp only [Bool.false_eq_true, false_iff, not_exists, not_and]
    intro t b hv hk _
    have hm : sf = false ∨ s.mkd (owner t).1 = true := by
      rcases hf with h | h
      · exact .inl h
      · exact .inr (h _ ((hi.mem _).2 (hi.pref _ hk)))
    have := (getNb_iff hi sf e1 _).2 ⟨t, hv, rfl, hi.pref _ hk, hm⟩
    rw [hn] at this; cases this
  · simp only [Bool.and_eq_true, hasCh_full hi hf]
    rw [twinKidSplit_iff hi sf e1]
    simp only [hasCh_full hi hf]
    obtain ⟨t, hv, ho, _⟩ := (getNb_iff hi sf e1 d).1 hn
    constructor
    · exact fun h => h.2
    · rintro ⟨t', b, hv', h1, h2⟩
      rw [hv] at hv'
      cases hv'
      exact ⟨ho ▸ h1, t, b, hv, h1, h2⟩

theorem any_sideBad_iff {B : Base K} {s : St K} (hi : CInv B s) {sf : Bool} (hf : Full sf s) {c : CN}
    (hc : CEx B.n s.kids c) : four.any (sideBad sf s c) = true ↔ Bad B.T s.kids c := by
  rw [List.any_eq_true]
  constructor
  · rintro ⟨i, _, h⟩
    obtain ⟨t, b, h⟩ := (sideBad_iff hi hf hc i).1 h
    exact ⟨i, t, b, h⟩
  · rintro ⟨i, t, b, h⟩
    exact ⟨i, mem_four i, (sideBad_iff hi hf hc i).2 ⟨t, b, h⟩⟩

theorem mem_leaves {B : Base K} {s : St K} (hi : CInv B s) {sf : Bool} (hf : Full sf s) (c : CN) :
    c ∈ leaves sf s ↔ CEx B.n s.kids c ∧ s.kids c = false := by
  unfold leaves
  rw [List.mem_filter, hi.mem, hasCh_full hi hf]
  simp only [Bool.and_eq_true, Bool.or_eq_true, Bool.not_eq_true']
  constructor
  · rintro ⟨h1, _, h2⟩; exact ⟨h1, h2⟩
  · rintro ⟨h1, h2⟩
    refine ⟨h1, ?_, h2⟩
    rcases hf with h | h
    · exact .inl h
    · exact .inr (h c ((hi.mem c).2 h1))

theorem isBalanced_iff {B : Base K} {s : St K} (hi : CInv B s) {sf : Bool} (hf : Full sf s) :
    isBalanced sf s = true ↔ ∀ c, CEx B.n s.kids c → s.kids c = false → ¬ Bad B.T s.kids c := by
  unfold isBalanced
  rw [List.all_eq_true]
  constructor
  · intro h c hc hk hb
    have := h c ((mem_leaves hi hf c).2 ⟨hc, hk⟩)
    have h2 := (any_sideBad_iff hi hf hc).2 hb
    obtain ⟨i, hi', hb'⟩ := List.any_eq_true.1 h2
    have h3 := List.all_eq_true.1 this i hi'
    rw [hb'] at h3
    cases h3
  · intro h c hc
    obtain ⟨h1, h2⟩ := (mem_leaves hi hf c).1 hc
    rw [List.all_eq_true]
    intro i hi'
    rcases hb : sideBad sf s c i with _ | _
    · rfl
    · exact absurd ((any_sideBad_iff hi hf h1).1 (List.any_eq_true.2 ⟨i, hi', hb⟩)) (h c h1 h2)

/-! Specification of the 2:1 rule in terms of the half-edges. -/

/-- `h` is `t` or a part of `t` (a descendant in the tree of half-edges). -/
inductive PartOf (t : HN) : HN → Prop
  | refl : PartOf t t
  | kid (h : HN) (b : Bool) : PartOf t h → PartOf t (.kid h b)

/-- Cell `c'` touches cell `c` from outside along a side of `c'` that is part of the twin of a side of
`c` (so `c'` is as fine as `c` or finer). -/
def TouchesFrom (s : St K) (c c' : CN) : Prop :=
  ∃ i i' r t, s.he (s.sides c i) = some r ∧ r.twin = some t ∧ PartOf t (s.sides c' i')

/-- Neighbouring leaves differ by at most one level. -/
def Balanced21 (s : St K) : Prop := ∀ c c', c ∈ s.cells → s.kids c = false → c' ∈ s.cells → s.kids c' = false →
  TouchesFrom s c c' → level c' ≤ level c + 1

theorem PartOf.par {T} {s : St K} (hi : HInv T s) {t h : HN} (hp : PartOf t h) (hh : (s.he h).isSome) :
    (s.he t).isSome := by
  induction hp with
  | refl => exact hh
  | kid h b _ ih => exact ih (hi.par h b hh)

theorem PartOf.lev {t h : HN} (hp : PartOf t h) : level (owner t).1 ≤ level (owner h).1 := by
  induction hp with
  | refl => exact le_refl _
  | kid h b _ ih => rw [level_kid]; omega

theorem PartOf.step {t h : HN} (hp : PartOf t h) (hl : level (owner t).1 < level (owner h).1) :
    ∃ b, PartOf (.kid t b) h := by
  induction hp with
  | refl => omega
  | kid h b hp ih =>
    rcases Nat.lt_or_ge (level (owner t).1) (level (owner h).1) with h1 | h1
    · obtain ⟨b', hb'⟩ := ih h1
      exact ⟨b', .kid h b hb'⟩
    · have h2 := hp.lev
      -- equal levels: `h = t`
      have : h = t := by
        cases hp with
        | refl => rfl
        | kid h' b' hp' =>
          have := hp'.lev
          rw [level_kid] at h1
          omega
      subst this
      exact ⟨b, .refl⟩

theorem PartOf.trans {a b c : HN} (h1 : PartOf a b) (h2 : PartOf b c) : PartOf a c := by
  induction h2 with
  | refl => exact h1
  | kid h b' _ ih => exact .kid h b' ih

theorem exists_bound {B : Base K} {s : St K} (hi : CInv B s) : ∃ D, ∀ c, CEx B.n s.kids c → level c ≤ D := by
  refine ⟨(s.cells.map level).foldr max 0, ?_⟩
  intro c hc
  have hm := (hi.mem c).2 hc
  clear hc
  generalize s.cells = l at hm
  induction l with
  | nil => cases hm
  | cons a l ih =>
    simp only [List.map_cons, List.foldr_cons]
    rcases List.mem_cons.1 hm with rfl | hm
    · exact le_max_left _ _
    · exact (ih hm).trans (le_max_right _ _)

theorem exists_leaf_below {B : Base K} {s : St K} (hi : CInv B s) (t : HN) (ht : (s.he t).isSome) :
    ∃ c i, CEx B.n s.kids c ∧ s.kids c = false ∧ PartOf t (side c i) := by
  obtain ⟨D, hD⟩ := exists_bound hi
  have : ∀ n t, (s.he t).isSome → D ≤ level (owner t).1 + n →
      ∃ c i, CEx B.n s.kids c ∧ s.kids c = false ∧ PartOf t (side c i) := by
    intro n
    induction n with
    | zero =>
      intro t ht hl
      have hx := (hi.ex t).1 ht
      cases hk : s.kids (owner t).1
      · exact ⟨_, _, hx, hk, by rw [side_owner]; exact .refl⟩
      · have h1 := (kids_owner_kid hi t false).2 hk
        have h2 := hD _ ((hi.ex _).1 h1)
        rw [level_kid] at h2
        omega
    | succ n ih =>
      intro t ht hl
      have hx := (hi.ex t).1 ht
      cases hk : s.kids (owner t).1
      · exact ⟨_, _, hx, hk, by rw [side_owner]; exact .refl⟩
      · have h1 := (kids_owner_kid hi t false).2 hk
        obtain ⟨c, i, a1, a2, a3⟩ := ih _ h1 (by rw [level_kid]; omega)
        exact ⟨c, i, a1, a2, PartOf.trans (.kid t false .refl) a3⟩
  exact this D t ht (by omega)

theorem balanced21_iff {B : Base K} {s : St K} (hi : CInv B s) :
    Balanced21 s ↔ ∀ c, CEx B.n s.kids c → s.kids c = false → ¬ Bad B.T s.kids c := by
  constructor
  · rintro h c hc hk ⟨i, t, b, hv, h1, h2⟩
    have e0 : (s.he (side c i)).isSome := by rw [hi.ex, owner_side]; exact hc
    obtain ⟨r, hr⟩ := Option.isSome_iff_exists.1 e0
    have et : (s.he t).isSome := (hi.ex t).2 (hi.pref _ h1)
    have e2 := (kids_owner_kid hi (.kid t b) false).2 h2
    obtain ⟨c', i', a1, a2, a3⟩ := exists_leaf_below hi _ e2
    have h3 := h c c' ((hi.mem c).2 hc) hk ((hi.mem c').2 a1) a2
      ⟨i, i', r, t, by rw [hi.sides c hc]; exact hr, (hi.hinv.tw _ r hr t).2 ⟨hv, et⟩, by
        rw [hi.sides c' a1]
        exact PartOf.trans (.kid _ _ (.kid _ _ .refl)) a3⟩
    have h4 := a3.lev
    rw [level_kid, level_kid, owner_side] at h4
    have h5 := vt_level _ _ hv
    rw [owner_side] at h5
    simp only at h4 h5
    omega
  · rintro h c c' hc hk hc' hk' ⟨i, i', r, t, hr, ht, hp⟩
    have hx := (hi.mem c).1 hc
    have hx' := (hi.mem c').1 hc'
    rw [hi.sides c hx] at hr
    rw [hi.sides c' hx'] at hp
    by_contra hl
    obtain ⟨hv, het⟩ := (hi.hinv.tw _ r hr t).1 ht
    have h5 := vt_level _ _ hv
    rw [owner_side] at h5
    have e' : (s.he (side c' i')).isSome := by rw [hi.ex, owner_side]; exact hx'
    obtain ⟨b, hb⟩ := hp.step (by rw [owner_side, ← h5]; simp only; omega)
    obtain ⟨b', hb'⟩ := hb.step (by rw [owner_side, level_kid, ← h5]; simp only; omega)
    have e1 := hb.par hi.hinv e'
    have e2 := hb'.par hi.hinv e'
    exact h c hx hk ⟨i, t, b, hv, (kids_owner_kid hi t b).1 e1, (kids_owner_kid hi _ b').1 e2⟩

/-- `is_balanced()` decides the 2:1 rule (for the whole mesh, or a flag carried by all cells). -/
theorem C27_is_balanced {B : Base K} (hB : B.WF) {s : St K} (hs : MReach B s) (sf : Bool) (hf : Full sf s) :
    isBalanced sf s = true ↔ Balanced21 s := by
  rw [isBalanced_iff (hs.inv hB) hf, balanced21_iff (hs.inv hB)]

/-! ### The loop of `balance` -/

/-- Loop invariant: the mesh is consistent, the worklist consists of cells of the mesh and contains
every leaf that breaks the rule; only forced splits were made (`P` any property of meshes' split
sets such that balanced refinements of the start have it, see below). -/
structure BInv (B : Base K) (sf : Bool) (s0 : St K) (x : St K × Finset CN) : Prop where
  reach : MReach B x.1
  inv : CInv B x.1
  full : Full sf x.1
  sub : ∀ c ∈ x.2, CEx B.n x.1.kids c
  pend : ∀ c, CEx B.n x.1.kids c → x.1.kids c = false → Bad B.T x.1.kids c → c ∈ x.2
  mono : ∀ c, s0.kids c = true → x.1.kids c = true
  forced : ∀ k : CN → Bool, (∀ c, s0.kids c = true → k c = true) →
    (∀ c, CEx B.n k c → k c = false → ¬ Bad B.T k c) → ∀ c, x.1.kids c = true → k c = true

theorem CEx_mono {n : Nat} {k k' : CN → Bool} (h : ∀ c, k c = true → k' c = true) {c : CN} (hc : CEx n k c) :
    CEx n k' c := by
  rcases c with ⟨r, _ | ⟨j, p⟩⟩
  · exact hc
  · exact h _ hc

/-- What one round does. -/
theorem balBody_spec {B : Base K} (hB : B.WF) {sf : Bool} {s0 : St K} {s : St K} {W : Finset CN}
    (h : BInv B sf s0 (s, W)) {c : CN} (hc : c ∈ W) :
    ∃ s' l, balBody sf s c = .ok (s', l) ∧ BInv B sf s0 (s', W.erase c ∪ l.toFinset) ∧
      ((s' = s ∧ l = [] ∧ ¬ (s.kids c = false ∧ Bad B.T s.kids c)) ∨
       (s.kids c = false ∧ Bad B.T s.kids c ∧ s'.kids = Function.update s.kids c true)) := by
  obtain ⟨hre, hi, hf, hsub, hpend, hmono, hforced⟩ := h
  simp only at hre hi hf hsub hpend hmono hforced
  have hx := hsub c hc
  by_cases hb : Bad B.T s.kids c ∧ s.kids c = false
  · obtain ⟨hb, hk⟩ := hb
    obtain ⟨s', h1, h2, h3, h4⟩ := cellSplit_spec hB hi hx hk sf
    have hk' : ∀ d, s'.kids d = true ↔ s.kids d = true ∨ d = c := by
      intro d
      rw [h3]
      by_cases hd : d = c
      · simp [hd]
      · simp [Function.update_of_ne hd, hd]
    have hbody : balBody sf s c = .ok (s', added s' c) := by
      unfold balBody
      rw [if_pos ((any_sideBad_iff hi hf hx).2 hb), hasCh_full hi hf, hk]
      simp [h1]
    refine ⟨s', _, hbody, ?_, .inr ⟨hk, hb, h3⟩⟩
    have hx' : ∀ d, CEx B.n s.kids d → CEx B.n s'.kids d := fun d =>
      CEx_mono (fun c hc => (hk' c).2 (.inl hc))
    have hcx' := hx' c hx
    refine ⟨.split s s' c sf hre ((hi.mem c).2 hx) hk h1, h2, ?_, ?_, ?_, ?_, ?_⟩
    · rcases hf with hf | hf
      · exact .inl hf
      · cases sf
        · exact .inl rfl
        right
        intro d hd
        rw [h4]
        by_cases hdc : ∃ k, d = child c k
        · simp [hdc]
        · simp only [hdc, decide_false, Bool.and_false, Bool.false_eq_true, if_false]
          apply hf
          rw [hi.mem]
          have := (h2.mem d).1 hd
          rcases d with ⟨r, _ | ⟨j, p⟩⟩
          · exact this
          · rcases (hk' _).1 this with h | h
            · exact h
            · exact absurd ⟨j, by rw [← h]; rfl⟩ hdc
    · intro d hd
      simp only [Finset.mem_union, Finset.mem_erase, List.mem_toFinset] at hd
      rcases hd with ⟨_, hd⟩ | hd
      · exact hx' d (hsub d hd)
      · unfold added at hd
        rcases List.mem_append.1 hd with hd | hd
        · obtain ⟨k, _, rfl⟩ := List.mem_map.1 hd
          exact (CEx_child c k).2 ((hk' c).2 (.inr rfl))
        · obtain ⟨i, _, hd⟩ := List.mem_filterMap.1 hd
          split at hd
          · split at hd
            · split at hd
              · split at hd
                · rename_i q hq
                  rw [h2.cell _ q hq] at hd
                  cases hd
                  exact (h2.ex _).1 (by rw [hq]; rfl)
                · cases hd
              · cases hd
            · cases hd
          · cases hd
    · rintro x hxx hxk ⟨i, t, b, hv, k1, k2⟩
      simp only at hxx hxk k1 k2
      simp only [Finset.mem_union, Finset.mem_erase, List.mem_toFinset]
      by_cases hxc : ∃ k, x = child c k
      · right
        obtain ⟨k, rfl⟩ := hxc
        unfold added
        exact List.mem_append_left _ (List.mem_map.2 ⟨k, mem_four k, rfl⟩)
      have hxold : CEx B.n s.kids x := by
        rcases x with ⟨r, _ | ⟨j, p⟩⟩
        · exact hxx
        · rcases (hk' _).1 hxx with h | h
          · exact h
          · exact absurd ⟨j, by rw [← h]; rfl⟩ hxc
      have hxkold : s.kids x = false := by
        cases hkx : s.kids x
        · rfl
        · rw [(hk' x).2 (.inl hkx)] at hxk; cases hxk
      have hxne : x ≠ c := by
        rintro rfl
        rw [(hk' x).2 (.inr rfl)] at hxk; cases hxk
      rcases (hk' _).1 k2 with k2o | k2c
      · rcases (hk' _).1 k1 with k1o | k1c
        · left
          exact ⟨hxne, hpend x hxold hxkold ⟨i, t, b, hv, k1o, k2o⟩⟩
        · -- a child of `c` was split although `c` was not
          exfalso
          have h5 := hi.pref _ k2o
          have h6 : ∃ k, (owner (.kid t b)).1 = child c k := by
            cases b
            · exact ⟨_, by rw [← k1c]; rfl⟩
            · exact ⟨_, by rw [← k1c]; rfl⟩
          obtain ⟨k, h6⟩ := h6
          rw [h6, CEx_child, hk] at h5
          cases h5
      · -- `c` is the child of the neighbour
        right
        unfold added
        refine List.mem_append_right _ (List.mem_filterMap.2 ⟨(owner (.kid t b)).2, ?_, ?_⟩)
        · exact mem_four _
        · have hsd : s'.sides c (owner (.kid t b)).2 = .kid t b := by
            rw [h2.sides c hcx', ← k2c, side_owner]
          rw [hsd]
          simp only
          have het : (s'.he t).isSome := by
            rw [h2.ex]
            exact h2.pref _ k1
          obtain ⟨r, hr⟩ := Option.isSome_iff_exists.1 het
          have hv' := vt_inv hB.inv _ _ hv
          have hexx : (s'.he (side x i)).isSome := by rw [h2.ex, owner_side]; exact hxx
          obtain ⟨q, hq⟩ := Option.isSome_iff_exists.1 hexx
          have htw := (h2.hinv.tw t r hr _).2 ⟨hv', hexx⟩
          simp only [hr, htw, hq]
          rw [h2.cell _ q hq, owner_side]
    · intro d hd
      exact (hk' d).2 (.inl (hmono d hd))
    · intro k hk0 hbal d hd
      rcases (hk' d).1 hd with h | rfl
      · exact hforced k hk0 hbal d h
      · have hle := hforced k hk0 hbal
        cases hkd : k d
        · exfalso
          obtain ⟨i, t, b, hv, k1, k2⟩ := hb
          exact hbal d (CEx_mono hle hx) hkd ⟨i, t, b, hv, hle _ k1, hle _ k2⟩
        · rfl
  · refine ⟨s, [], ?_, ?_, .inl ⟨rfl, rfl, fun h => hb ⟨h.2, h.1⟩⟩⟩
    · unfold balBody
      by_cases hb' : Bad B.T s.kids c
      · have hk : s.kids c = true := by
          cases hkc : s.kids c
          · exact absurd ⟨hb', hkc⟩ hb
          · rfl
        rw [if_pos ((any_sideBad_iff hi hf hx).2 hb'), hasCh_full hi hf, hk]
        rfl
      · rw [if_neg (fun h => hb' ((any_sideBad_iff hi hf hx).1 h))]
    · refine ⟨hre, hi, hf, ?_, ?_, hmono, hforced⟩
      · intro d hd
        simp only [List.toFinset_nil, Finset.union_empty, Finset.mem_erase] at hd
        exact hsub d hd.2
      · intro d hd hdk hdb
        simp only [List.toFinset_nil, Finset.union_empty, Finset.mem_erase]
        refine ⟨?_, hpend d hd hdk hdb⟩
        rintro rfl
        exact hb ⟨hdb, hdk⟩


/-- The state `balance` starts from. -/
theorem binv_init {B : Base K} (hB : B.WF) {s : St K} (hs : MReach B s) {sf : Bool} (hf : Full sf s) :
    BInv B sf s (s, (leaves sf s).toFinset) := by
  have hi := hs.inv hB
  refine ⟨hs, hi, hf, ?_, ?_, fun _ h => h, fun k h _ => h⟩
  · intro c hc
    exact ((mem_leaves hi hf c).1 (List.mem_toFinset.1 hc)).1
  · intro c hc hk _
    exact List.mem_toFinset.2 ((mem_leaves hi hf c).2 ⟨hc, hk⟩)

theorem binv_step {B : Base K} (hB : B.WF) {sf : Bool} {s0 : St K} {x y : St K × Finset CN}
    (h : BInv B sf s0 x) (hs : BalStep sf x y) : BInv B sf s0 y := by
  obtain ⟨s, s', W, c, l, hc, hb⟩ := hs
  obtain ⟨s1, l1, h1, h2, _⟩ := balBody_spec hB h hc
  rw [hb] at h1
  cases h1
  exact h2

theorem binv_run {B : Base K} (hB : B.WF) {sf : Bool} {s0 : St K} {x y : St K × Finset CN}
    (h : BInv B sf s0 x) (hs : Relation.ReflTransGen (BalStep sf) x y) : BInv B sf s0 y := by
  induction hs with
  | refl => exact h
  | tail _ h2 ih => exact binv_step hB ih h2

theorem CEx_root {B : Base K} {s : St K} (hi : CInv B s) : ∀ (p : List (Fin 4)) (r : Nat),
    CEx B.n s.kids (r, p) → r < B.n := by
  intro p
  induction p with
  | nil => exact fun r h => h
  | cons k p ih => exact fun r h => ih r (hi.pref _ h)

/-- All cells of the roots `< n` up to level `D`. -/
def univ (n D : Nat) : Set CN := {c | c.1 < n ∧ c.2.length ≤ D}

theorem univ_finite (n D : Nat) : (univ n D).Finite := by
  have h1 : (Set.Iio n : Set Nat).Finite := Set.finite_lt_nat n
  have h2 : {l : List (Fin 4) | l.length ≤ D}.Finite := List.finite_length_le (Fin 4) D
  refine (h1.prod h2).subset ?_
  rintro ⟨r, p⟩ h
  exact h

/-- The number of unsplit cells of the finite universe. -/
noncomputable def unsplit (n D : Nat) (k : CN → Bool) : Nat := {c ∈ univ n D | k c = false}.ncard

theorem binv_acc {B : Base K} (hB : B.WF) {sf : Bool} {s0 : St K} (D : Nat) :
    ∀ (m n : Nat) (x : St K × Finset CN), BInv B sf s0 x → (∀ c, x.1.kids c = true → level c ≤ D) →
      unsplit B.n D x.1.kids = m → x.2.card = n → Acc (fun y x => BalStep sf x y) x := by
  intro m
  induction m using Nat.strong_induction_on with
  | _ m ihm =>
  intro n
  induction n using Nat.strong_induction_on with
  | _ n ihn =>
  intro x hx hD hm hn
  constructor
  intro y hy
  have hby := binv_step hB hx hy
  obtain ⟨s, s', W, c, l, hc, hb⟩ := hy
  obtain ⟨s1, l1, h1, h2, h3⟩ := balBody_spec hB hx hc
  rw [hb] at h1
  cases h1
  simp only at hD hm hn
  rcases h3 with ⟨rfl, rfl, _⟩ | ⟨hk, hbad, hkids⟩
  · refine ihn (W.erase c).card ?_ _ hby hD hm (by simp)
    rw [← hn]
    exact Finset.card_erase_lt_of_mem hc
  · obtain ⟨i, t, b, hv, k1, k2⟩ := hbad
    have hl : level c ≤ D := by
      have h4 := hD _ k2
      rw [level_kid] at h4
      have h5 := vt_level _ _ hv
      rw [owner_side] at h5
      simp only at h5
      omega
    have hcr : c.1 < B.n := CEx_root hx.inv c.2 c.1 (hx.sub c hc)
    have hlt : unsplit B.n D s'.kids < m := by
      rw [← hm]
      unfold unsplit
      apply Set.ncard_lt_ncard
      · refine ⟨?_, ?_⟩
        · rintro d ⟨hd, hd'⟩
          refine ⟨hd, ?_⟩
          rw [hkids] at hd'
          by_cases hdc : d = c
          · rw [hdc]; exact hk
          · rwa [Function.update_of_ne hdc] at hd'
        · intro hsub
          have := hsub (show c ∈ {c ∈ univ B.n D | s.kids c = false} from ⟨⟨hcr, hl⟩, hk⟩)
          have h7 := this.2
          rw [hkids, Function.update_self] at h7
          cases h7
      · exact (univ_finite B.n D).subset (fun d hd => hd.1)
    refine ihm _ hlt _ _ hby ?_ rfl rfl
    intro d hd
    simp only [hkids] at hd
    by_cases hdc : d = c
    · rw [hdc]; exact hl
    · rw [Function.update_of_ne hdc] at hd
      exact hD d hd

/-- `balance` terminates whatever order `set.pop` chooses: there is no infinite run of its loop. -/
theorem C27_terminates {B : Base K} (hB : B.WF) {s : St K} (hs : MReach B s) (sf : Bool) (hf : Full sf s) :
    Acc (fun y x => BalStep sf x y) (s, (leaves sf s).toFinset) := by
  have hi := hs.inv hB
  obtain ⟨D, hD⟩ := exists_bound hi
  exact binv_acc hB D _ _ _ (binv_init hB hs hf) (fun c hc => hD c (hi.pref c hc)) rfl rfl

/-- `balance` never fails: at every point of every run, whichever cell is popped, the body of the
loop succeeds. -/
theorem C27_no_error {B : Base K} (hB : B.WF) {s : St K} (hs : MReach B s) (sf : Bool) (hf : Full sf s)
    {s' : St K} {W : Finset CN}
    (hr : Relation.ReflTransGen (BalStep sf) (s, (leaves sf s).toFinset) (s', W)) (c : CN) (hc : c ∈ W) :
    ∃ r, balBody sf s' c = .ok r := by
  obtain ⟨s1, l1, h1, _⟩ := balBody_spec hB (binv_run hB (binv_init hB hs hf) hr) hc
  exact ⟨_, h1⟩

/-- A run to the end exists. -/
theorem C27_run_exists {B : Base K} (hB : B.WF) {s : St K} (hs : MReach B s) (sf : Bool) (hf : Full sf s) :
    ∃ s', BalRun sf s s' := by
  have hacc := C27_terminates hB hs sf hf
  have h0 := binv_init hB hs hf
  unfold BalRun
  generalize (s, (leaves sf s).toFinset) = x at hacc h0
  induction hacc with
  | intro x _ ih =>
    obtain ⟨s1, W⟩ := x
    rcases W.eq_empty_or_nonempty with rfl | ⟨c, hc⟩
    · exact ⟨s1, .refl⟩
    · obtain ⟨s2, l, h1, _⟩ := balBody_spec hB h0 hc
      have hst : BalStep sf (s1, W) (s2, W.erase c ∪ l.toFinset) := .step s1 s2 W c l hc h1
      obtain ⟨s', hs'⟩ := ih _ hst (binv_step hB h0 hst)
      exact ⟨s', .head hst hs'⟩

/-- The result of `balance` satisfies the 2:1 rule, refines the mesh it started from, and
`is_balanced` confirms it. -/
theorem C27_result {B : Base K} (hB : B.WF) {s s' : St K} (hs : MReach B s) (sf : Bool) (hf : Full sf s)
    (hr : BalRun sf s s') : MReach B s' ∧ Balanced21 s' ∧ isBalanced sf s' = true ∧
      (∀ c ∈ s.cells, c ∈ s'.cells) ∧ (∀ c, s.kids c = true → s'.kids c = true) := by
  have h := binv_run hB (binv_init hB hs hf) hr
  have hb : ∀ c, CEx B.n s'.kids c → s'.kids c = false → ¬ Bad B.T s'.kids c :=
    fun c hc hk hb => absurd (h.pend c hc hk hb) (Finset.notMem_empty c)
  refine ⟨h.reach, (balanced21_iff h.inv).2 hb, (isBalanced_iff h.inv h.full).2 hb, ?_, h.mono⟩
  intro c hc
  exact (h.inv.mem c).2 (CEx_mono h.mono (((hs.inv hB).mem c).1 hc))

/-- `balance` splits no more than necessary: every balanced refinement of the mesh has all the splits
of the result.  So the result does not depend on the order in which `set.pop` returns the cells. -/
theorem C27_minimal {B : Base K} (hB : B.WF) {s s' : St K} (hs : MReach B s) (sf : Bool) (hf : Full sf s)
    (hr : BalRun sf s s') {s2 : St K} (h2 : MReach B s2) (hle : ∀ c, s.kids c = true → s2.kids c = true)
    (hbal : Balanced21 s2) :
    (∀ c, s'.kids c = true → s2.kids c = true) ∧ (∀ c ∈ s'.cells, c ∈ s2.cells) := by
  have h := binv_run hB (binv_init hB hs hf) hr
  have h3 := h.forced s2.kids hle ((balanced21_iff (h2.inv hB)).1 hbal)
  refine ⟨h3, ?_⟩
  intro c hc
  exact ((h2.inv hB).mem c).2 (CEx_mono h3 ((h.inv.mem c).1 hc))

/-- The result is the same mesh for every order of the set. -/
theorem C27_order_independent {B : Base K} (hB : B.WF) {s s1 s2 : St K} (hs : MReach B s) (sf : Bool)
    (hf : Full sf s) (h1 : BalRun sf s s1) (h2 : BalRun sf s s2) :
    s1.kids = s2.kids ∧ ∀ c, c ∈ s1.cells ↔ c ∈ s2.cells := by
  obtain ⟨r1, b1, _, _, m1⟩ := C27_result hB hs sf hf h1
  obtain ⟨r2, b2, _, _, m2⟩ := C27_result hB hs sf hf h2
  have a := C27_minimal hB hs sf hf h1 r2 m2 b2
  have b := C27_minimal hB hs sf hf h2 r1 m1 b1
  refine ⟨?_, fun c => ⟨a.2 c, b.2 c⟩⟩
  funext c
  cases h3 : s1.kids c <;> cases h4 : s2.kids c
  · rfl
  · rw [b.1 c h4] at h3; cases h3
  · rw [a.1 c h3] at h4; cases h4
  · rfl

/-- Balancing a balanced mesh changes nothing. -/
theorem C27_idempotent {B : Base K} (hB : B.WF) {s s' : St K} (hs : MReach B s) (sf : Bool) (hf : Full sf s)
    (hb : Balanced21 s) (hr : BalRun sf s s') : s'.kids = s.kids ∧ ∀ c, c ∈ s'.cells ↔ c ∈ s.cells := by
  have h := C27_minimal hB hs sf hf hr hs (fun _ h => h) hb
  obtain ⟨_, _, _, h3, h4⟩ := C27_result hB hs sf hf hr
  refine ⟨?_, fun c => ⟨h.2 c, h3 c⟩⟩
  funext c
  cases h5 : s'.kids c <;> cases h6 : s.kids c
  · rfl
  · rw [h4 c h6] at h5; cases h5
  · rw [h.1 c h5] at h6; cases h6
  · rfl

end
end Verif.Mesh
