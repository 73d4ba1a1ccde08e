import Verif.Mesh.Twins

/-!
# Splitting cells: every split succeeds and keeps the mesh conforming
-/

namespace Verif.Mesh
open Verif.Geom Verif.Quad

/-! ### Half-edges and sides of cells -/

def sideL (r : Nat) : List (Fin 4) → Fin 4 → HN
  | [], i => .root (4 * r + i)
  | k :: p, i =>
    if i = k then .kid (sideL r p k) false
    else if i = k + 1 then .inner (r, p) k false
    else if i = k + 2 then .inner (r, p) (k - 1) true
    else .kid (sideL r p (k - 1)) true

/-- The name of side `i` of cell `c`. -/
def side (c : CN) (i : Fin 4) : HN := sideL c.1 c.2 i

/-- The cell and the side that a half-edge is. -/
def owner : HN → CN × Fin 4
  | .root n => ((n / 4, []), ⟨n % 4, by omega⟩)
  | .kid h false => (child (owner h).1 (owner h).2, (owner h).2)
  | .kid h true => (child (owner h).1 ((owner h).2 + 1), (owner h).2)
  | .inner c i false => (child c i, i + 1)
  | .inner c i true => (child c (i + 1), i + 3)

theorem fin4_a (k : Fin 4) : k - 1 + 1 = k := by revert k; decide
theorem fin4_b (k : Fin 4) : k - 1 + 3 = k + 2 := by revert k; decide
theorem fin4_c (k : Fin 4) : k - 1 = k + 3 := by revert k; decide

theorem fin4_cases (k i : Fin 4) : i = k ∨ i = k + 1 ∨ i = k + 2 ∨ i = k + 3 := by
  revert k i; decide

theorem side_k (c : CN) (k : Fin 4) : side (child c k) k = .kid (side c k) false := by
  simp [side, child, sideL]

theorem side_k1 (c : CN) (k : Fin 4) : side (child c k) (k + 1) = .inner c k false := by
  have : k + 1 ≠ k := by revert k; decide
  simp [side, child, sideL, this]

theorem side_k2 (c : CN) (k : Fin 4) : side (child c k) (k + 2) = .inner c (k - 1) true := by
  have h1 : k + 2 ≠ k := by revert k; decide
  have h2 : k + 2 ≠ k + 1 := by revert k; decide
  simp [side, child, sideL, h1, h2]

theorem side_k3 (c : CN) (k : Fin 4) : side (child c k) (k + 3) = .kid (side c (k - 1)) true := by
  have h1 : k + 3 ≠ k := by revert k; decide
  have h2 : k + 3 ≠ k + 1 := by revert k; decide
  have h3 : k + 3 ≠ k + 2 := by revert k; decide
  simp [side, child, sideL, h1, h2, h3]

theorem owner_side (c : CN) : ∀ i, owner (side c i) = (c, i) := by
  obtain ⟨r, p⟩ := c
  induction p with
  | nil =>
    intro i
    have hi := i.isLt
    simp only [side, sideL, owner]
    congr 1
    · congr 1; omega
    · apply Fin.ext; simp only []; omega
  | cons k p ih =>
    intro i
    have hc : ((r, k :: p) : CN) = child (r, p) k := rfl
    rw [hc]
    rcases fin4_cases k i with rfl | rfl | rfl | rfl
    · rw [side_k, owner, ih]
    · rw [side_k1, owner]
    · rw [side_k2, owner]
      rw [fin4_a, fin4_b]
    · rw [side_k3, owner, ih]
      simp only [fin4_a]
      rw [fin4_c]

theorem side_owner (h : HN) : side (owner h).1 (owner h).2 = h := by
  induction h with
  | root n =>
    simp only [owner, side, sideL]
    congr 1
    omega
  | kid h b ih =>
    cases b
    · simp only [owner]
      rw [side_k, ih]
    · simp only [owner]
      have h2 : (owner h).2 + 1 + 3 = (owner h).2 := by
        generalize (owner h).2 = k; revert k; decide
      have h3 := side_k3 (owner h).1 ((owner h).2 + 1)
      have h1 : (owner h).2 + 1 - 1 = (owner h).2 := by
        generalize (owner h).2 = k; revert k; decide
      rw [h1, h2, ih] at h3
      exact h3
  | inner c i d =>
    cases d
    · simp only [owner]
      exact side_k1 c i
    · simp only [owner]
      have h2 : i + 1 + 2 = i + 3 := by revert i; decide
      have h1 : i + 1 - 1 = i := by revert i; decide
      have h3 := side_k2 c (i + 1)
      rw [h1, h2] at h3
      exact h3

theorem side_inj {c c' : CN} {i i' : Fin 4} (h : side c i = side c' i') : c = c' ∧ i = i' := by
  have := congrArg owner h
  rw [owner_side, owner_side] at this
  simpa using this

section
set_option linter.unusedSectionVars false
variable {K : Type} [Field K]

theorem childSides_eq {s : St K} {c : CN} (h : s.sides c = side c) (k i : Fin 4) :
    childSides s c k i = side (child c k) i := by
  simp only [childSides, h, side, child, sideL]

/-- The cells that exist when the cells in `kids` have been split. -/
def CEx (n : Nat) (kids : CN → Bool) : CN → Prop
  | (r, []) => r < n
  | (r, _ :: p) => kids (r, p) = true

theorem CEx_child {n : Nat} {kids : CN → Bool} (c : CN) (k : Fin 4) : CEx n kids (child c k) ↔ kids c = true :=
  Iff.rfl

/-- Invariant of a mesh. -/
structure CInv (B : Base K) (s : St K) : Prop where
  hinv : HInv B.T s
  ex : ∀ h, (s.he h).isSome ↔ CEx B.n s.kids (owner h).1
  cell : ∀ h r, s.he h = some r → r.cell = some (owner h).1
  mem : ∀ c, c ∈ s.cells ↔ CEx B.n s.kids c
  pref : ∀ c, s.kids c = true → CEx B.n s.kids c
  sides : ∀ c, CEx B.n s.kids c → s.sides c = side c
  chain : ∀ c i r r', s.he (side c i) = some r → s.he (side c (i + 1)) = some r' → r.head = r'.base

theorem CInv.kids_iff {B : Base K} {s : St K} (hi : CInv B s) {h : HN} {r : HERec} (hr : s.he h = some r) :
    r.kids = true ↔ s.kids (owner h).1 = true := by
  rw [hi.hinv.kids h r hr false, hi.ex]
  exact Iff.rfl

/-! ### The first loop of `QuadCell.split` -/

theorem addInner_hinv {T} {s : St K} (hi : HInv T s) (c : CN) (i : Fin 4) (v : VN)
    (hn : ∀ d, s.he (.inner c i d) = none) : HInv T (addInner s c i v) := by
  have hh : (addInner s c i v).he = fun x =>
      if x = .inner c i false then some ⟨v, .center c, some (.inner c i true), none, false, false⟩
      else if x = .inner c i true then some ⟨.center c, v, some (.inner c i false), none, false, false⟩
      else s.he x := rfl
  have hin : ∀ d q, (addInner s c i v).he (.inner c i d) = some q →
      q.twin = some (.inner c i (!d)) ∧ q.kids = false ∧ q.per = false := by
    intro d q hq
    cases d <;> simp [hh] at hq <;> rw [← hq] <;> simp
  have hold : ∀ x, (∀ d, x ≠ .inner c i d) → (addInner s c i v).he x = s.he x := by
    intro x hx
    simp [hh, hx]
  have hex : ∀ x, ((addInner s c i v).he x).isSome ↔ (s.he x).isSome ∨ ∃ d, x = .inner c i d := by
    intro x
    by_cases hx : ∃ d, x = .inner c i d
    · obtain ⟨d, rfl⟩ := hx
      cases d <;> simp [hh]
    · rw [hold x (fun d hd => hx ⟨d, hd⟩)]
      simp [hx]
  have hnk : ∀ d b, s.he (.kid (.inner c i d) b) = none := by
    intro d b
    by_contra hne
    have := hi.par _ _ (Option.isSome_iff_ne_none.2 hne)
    rw [hn] at this; simp at this
  have htw : ∀ h r, (addInner s c i v).he h = some r → ∀ t, r.twin = some t ↔
      vt T h = some t ∧ ((addInner s c i v).he t).isSome := by
    intro h r hr t
    by_cases hx : ∃ d, h = .inner c i d
    · obtain ⟨d, rfl⟩ := hx
      rw [(hin d r hr).1]
      simp only [vt, Option.some.injEq]
      exact ⟨fun h => ⟨h, (hex t).2 (.inr ⟨_, h.symm⟩)⟩, fun h => h.1⟩
    · rw [hold h (fun d hd => hx ⟨d, hd⟩)] at hr
      rw [hi.tw h r hr t, hex]
      constructor
      · rintro ⟨h1, h2⟩; exact ⟨h1, .inl h2⟩
      · rintro ⟨h1, h2 | ⟨d, rfl⟩⟩
        · exact ⟨h1, h2⟩
        · exfalso
          cases h with
          | root k =>
            simp only [vt, Option.map_eq_some_iff] at h1
            obtain ⟨j, _, e⟩ := h1
            cases e
          | kid h b =>
            simp only [vt, Option.map_eq_some_iff] at h1
            obtain ⟨j, _, e⟩ := h1
            cases e
          | inner c' i' d' =>
            simp only [vt, Option.some.injEq, HN.inner.injEq] at h1
            obtain ⟨rfl, rfl, _⟩ := h1
            exact hx ⟨_, rfl⟩
  refine ⟨htw, ?_, ?_, ?_, ?_⟩
  · intro h r hr b
    rw [hex]
    have hno : ¬ ∃ d, HN.kid h b = .inner c i d := by rintro ⟨d, hd⟩; cases hd
    simp only [hno, or_false]
    by_cases hx : ∃ d, h = .inner c i d
    · obtain ⟨d, rfl⟩ := hx
      rw [(hin d r hr).2.1, hnk]
      simp
    · rw [hold h (fun d hd => hx ⟨d, hd⟩)] at hr
      exact hi.kids h r hr b
  · intro h b hb
    rw [hex] at hb ⊢
    rcases hb with h1 | ⟨d, hd⟩
    · exact .inl (hi.par h b h1)
    · cases hd
  · intro h r a b hr ha hb
    rw [hold _ (fun d hd => by cases hd)] at ha hb
    by_cases hx : ∃ d, h = .inner c i d
    · obtain ⟨d, rfl⟩ := hx
      rw [hnk] at ha; cases ha
    · rw [hold h (fun d hd => hx ⟨d, hd⟩)] at hr
      exact hi.ends h r a b hr ha hb
  · intro h r t q hr ht hq
    by_cases hx : ∃ d, h = .inner c i d
    · obtain ⟨d, rfl⟩ := hx
      rw [(hin d r hr).1] at ht
      cases ht
      refine ⟨by rw [(hin d r hr).2.2, (hin (!d) q hq).2.2], fun _ => ?_⟩
      cases d
      · simp [hh] at hr hq; rw [← hr, ← hq]; simp
      · simp [hh] at hr hq; rw [← hr, ← hq]; simp
    · have hv := ((htw h r hr t).1 ht).1
      rw [hold h (fun d hd => hx ⟨d, hd⟩)] at hr
      have h2 := ((hi.tw h r hr t).1 ht).2
      have hxt : ∀ d, t ≠ .inner c i d := by
        rintro d rfl
        rw [hn] at h2; simp at h2
      rw [hold t hxt] at hq
      exact hi.swap h r t q hr ht hq

/-- The state after the sides in `D` have been treated by the first loop of `cell.split`. -/
structure Eff1 (T : Nat → Option Nat) (s s' : St K) (c : CN) (D : List (Fin 4)) : Prop where
  hinv : HInv T s'
  same : s'.cells = s.cells ∧ s'.sides = s.sides ∧ s'.kids = s.kids ∧ s'.mkd = s.mkd
  iff : ∀ x, (s'.he x).isSome ↔ (s.he x).isSome ∨ (∃ i ∈ D, ∃ b, x = .kid (side c i) b) ∨
    ∃ i ∈ D, ∃ d, x = .inner c i d
  rcd : ∀ x q', s'.he x = some q' → ∀ q, s.he x = some q →
    q'.base = q.base ∧ q'.head = q.head ∧ q'.per = q.per ∧ q'.cell = q.cell
  inn : ∀ i ∈ D, ∃ a u d, s'.he (.kid (side c i) false) = some a ∧ s'.he (.inner c i false) = some u ∧
    s'.he (.inner c i true) = some d ∧ u.base = a.head ∧ u.head = .center c ∧ d.base = .center c ∧
    d.head = a.head ∧ u.per = false ∧ d.per = false

theorem splitSide_eff {B : Base K} (hB : B.WF) {s : St K} (hi : CInv B s) {c : CN} (hc : CEx B.n s.kids c)
    (hk : s.kids c = false) {s1 : St K} {D : List (Fin 4)} (h1 : Eff1 B.T s s1 c D) {i : Fin 4} (hiD : i ∉ D) :
    ∃ s2, splitSide c s1 i = .ok s2 ∧ Eff1 B.T s s2 c (i :: D) := by
  have hsd : s1.sides c i = side c i := by rw [h1.same.2.1, hi.sides c hc]
  -- the side exists and is not split
  have hex0 : (s.he (side c i)).isSome := by rw [hi.ex, owner_side]; exact hc
  obtain ⟨r0, hr0⟩ := Option.isSome_iff_exists.1 hex0
  obtain ⟨r, hr⟩ := Option.isSome_iff_exists.1 ((h1.iff _).2 (.inl hex0))
  have hnk0 : ∀ b, s.he (.kid (side c i) b) = none := by
    intro b
    have h2 := hi.hinv.kids _ r0 hr0 b
    have h3 := hi.kids_iff hr0
    rw [owner_side] at h3
    simp only [hk] at h3
    rw [h3] at h2
    simpa using h2
  have hnk1 : ∀ b, s1.he (.kid (side c i) b) = none := by
    intro b
    by_contra hne
    rcases (h1.iff _).1 (Option.isSome_iff_ne_none.2 hne) with h2 | ⟨j, hj, b', h2⟩ | ⟨j, hj, d, h2⟩
    · rw [hnk0] at h2; simp at h2
    · injection h2 with h3 _
      exact hiD ((side_inj h3).2 ▸ hj)
    · cases h2
  have hrk : r.kids = false := by
    have := h1.hinv.kids _ r hr false
    rw [hnk1] at this
    simpa using this
  have hnin : ∀ d, s1.he (.inner c i d) = none := by
    intro d
    by_contra hne
    rcases (h1.iff _).1 (Option.isSome_iff_ne_none.2 hne) with h2 | ⟨j, hj, b', h2⟩ | ⟨j, hj, d', h2⟩
    · rw [hi.ex] at h2
      have : (owner (.inner c i d)).1 = child c i ∨ (owner (.inner c i d)).1 = child c (i + 1) := by
        cases d <;> simp [owner]
      rcases this with h3 | h3 <;> rw [h3, CEx_child, hk] at h2 <;> cases h2
    · cases h2
    · injection h2 with _ h3 _
      exact hiD (h3 ▸ hj)
  obtain ⟨s2, hs2, e, hi2⟩ := heSplit_spec hB.twf h1.hinv hr hrk
  obtain ⟨vm, tw0, tw1, k0, k1⟩ := e.kids
  have hex2 := e.some_iff hr
  have hnin2 : ∀ d, s2.he (.inner c i d) = none := by
    intro d
    by_contra hne
    rcases (hex2 _).1 (Option.isSome_iff_ne_none.2 hne) with h2 | ⟨b, h2⟩
    · rw [hnin] at h2; simp at h2
    · cases h2
  refine ⟨addInner s2 c i vm, ?_, ?_⟩
  · unfold splitSide
    rw [hsd, hr]
    simp only [hrk, Bool.false_eq_true, if_false, hs2, k0]
  have hold : ∀ x, (∀ d, x ≠ .inner c i d) → (addInner s2 c i vm).he x = s2.he x := by
    intro x hx
    simp [addInner, hx]
  have hexA : ∀ x, ((addInner s2 c i vm).he x).isSome ↔ (s2.he x).isSome ∨ ∃ d, x = .inner c i d := by
    intro x
    by_cases hx : ∃ d, x = .inner c i d
    · obtain ⟨d, rfl⟩ := hx
      cases d <;> simp [addInner]
    · rw [hold x (fun d hd => hx ⟨d, hd⟩)]
      simp [hx]
  -- records of old half-edges
  have hrec : ∀ x q', (addInner s2 c i vm).he x = some q' → ∀ q, s1.he x = some q →
      q'.base = q.base ∧ q'.head = q.head ∧ q'.per = q.per ∧ q'.cell = q.cell := by
    intro x q' hq' q hq
    have hx1 : ∀ d, x ≠ .inner c i d := by
      rintro d rfl; rw [hnin] at hq; cases hq
    have hx2 : ∀ b, x ≠ .kid (side c i) b := by
      rintro b rfl; rw [hnk1] at hq; cases hq
    rw [hold x hx1] at hq'
    obtain ⟨q0, hq0, f1, f2, f3, f4⟩ := e.rec_of' hr hx2 hq'
    rw [hq] at hq0
    cases hq0
    exact ⟨f1, f2, f3, f4⟩
  refine ⟨addInner_hinv hi2 c i vm hnin2, ?_, ?_, ?_, ?_⟩
  · obtain ⟨a1, a2, a3, a4⟩ := e.same
    obtain ⟨b1, b2, b3, b4⟩ := h1.same
    exact ⟨by rw [← b1, ← a1]; rfl, by rw [← b2, ← a2]; rfl, by rw [← b3, ← a3]; rfl, by rw [← b4, ← a4]; rfl⟩
  · intro x
    rw [hexA, hex2, h1.iff]
    simp only [List.mem_cons, exists_eq_or_imp]
    have : ∀ A B C E F : Prop, ((A ∨ B ∨ C) ∨ E) ∨ F ↔ A ∨ (E ∨ B) ∨ F ∨ C := by
      intros; tauto
    exact this _ _ _ _ _
  · intro x q' hq' q hq
    have : (s1.he x).isSome := (h1.iff x).2 (.inl (by simp [hq]))
    obtain ⟨q1, hq1⟩ := Option.isSome_iff_exists.1 this
    obtain ⟨a1, a2, a3, a4⟩ := hrec x q' hq' q1 hq1
    obtain ⟨b1, b2, b3, b4⟩ := h1.rcd x q1 hq1 q hq
    exact ⟨a1.trans b1, a2.trans b2, a3.trans b3, a4.trans b4⟩
  · intro j hj
    rcases List.mem_cons.1 hj with rfl | hj
    · refine ⟨⟨r.base, vm, tw0, none, false, r.per⟩,
        ⟨vm, .center c, some (.inner c j true), none, false, false⟩,
        ⟨.center c, vm, some (.inner c j false), none, false, false⟩, ?_, ?_, ?_, rfl, rfl, rfl, rfl, rfl, rfl⟩
      · rw [hold _ (fun d hd => by cases hd)]; exact k0
      · simp [addInner]
      · simp [addInner]
    · obtain ⟨a, u, d, e1, e2, e3, e4, e5, e6, e7, e8, e9⟩ := h1.inn j hj
      have g : ∀ x q, s1.he x = some q → ∃ q', (addInner s2 c i vm).he x = some q' := by
        intro x q hq
        exact Option.isSome_iff_exists.1 ((hexA x).2 (.inl ((hex2 x).2 (.inl (by simp [hq])))))
      obtain ⟨a', ha'⟩ := g _ _ e1
      obtain ⟨u', hu'⟩ := g _ _ e2
      obtain ⟨d', hd'⟩ := g _ _ e3
      have A := hrec _ _ ha' _ e1
      have U := hrec _ _ hu' _ e2
      have D' := hrec _ _ hd' _ e3
      exact ⟨a', u', d', ha', hu', hd', by rw [U.1, A.2.1, e4], by rw [U.2.1, e5], by rw [D'.1, e6],
        by rw [D'.2.1, A.2.1, e7], by rw [U.2.2.1, e8], by rw [D'.2.2.1, e9]⟩

theorem child_ne (c : CN) (k : Fin 4) : child c k ≠ c := by
  intro e
  have := congrArg (fun d : CN => d.2.length) e
  simp [child] at this

theorem child_inj {c c' : CN} {k k' : Fin 4} (h : child c k = child c' k') : c = c' ∧ k = k' := by
  obtain ⟨r, p⟩ := c
  obtain ⟨r', p'⟩ := c'
  simp only [child, Prod.mk.injEq, List.cons.injEq] at h
  obtain ⟨rfl, rfl, rfl⟩ := h
  exact ⟨rfl, rfl⟩

/-! ### The second loop of `QuadCell.split` -/

/-- `he'` differs from `he` in the cells of the half-edges only. -/
def SameUpToCell (he he' : HN → Option HERec) : Prop :=
  ∀ x, ∃ f : HERec → Option CN, he' x = (he x).map (fun q => { q with cell := f q })

theorem SameUpToCell.fwd {he he' : HN → Option HERec} (h : SameUpToCell he he') {x : HN} {q : HERec}
    (hq : he x = some q) : ∃ o, he' x = some { q with cell := o } := by
  obtain ⟨f, hf⟩ := h x
  exact ⟨f q, by rw [hf, hq]; rfl⟩

theorem SameUpToCell.bwd {he he' : HN → Option HERec} (h : SameUpToCell he he') {x : HN} {q' : HERec}
    (hq : he' x = some q') : ∃ q, he x = some q ∧ q'.base = q.base ∧ q'.head = q.head ∧ q'.twin = q.twin ∧
      q'.kids = q.kids ∧ q'.per = q.per := by
  obtain ⟨f, hf⟩ := h x
  rw [hf, Option.map_eq_some_iff] at hq
  obtain ⟨q, h1, rfl⟩ := hq
  exact ⟨q, h1, rfl, rfl, rfl, rfl, rfl⟩

theorem SameUpToCell.iff {he he' : HN → Option HERec} (h : SameUpToCell he he') (x : HN) :
    (he' x).isSome ↔ (he x).isSome := by
  obtain ⟨f, hf⟩ := h x
  rw [hf]; simp

theorem SameUpToCell.hinv {T} {s s' : St K} (h : SameUpToCell s.he s'.he) (hi : HInv T s) : HInv T s' := by
  refine ⟨?_, ?_, ?_, ?_, ?_⟩
  · intro x r hr t
    obtain ⟨q, hq, _, _, e, _⟩ := h.bwd hr
    rw [e, hi.tw x q hq t, h.iff]
  · intro x r hr b
    obtain ⟨q, hq, _, _, _, e, _⟩ := h.bwd hr
    rw [e, hi.kids x q hq b, h.iff]
  · intro x b hb
    rw [h.iff] at hb ⊢
    exact hi.par x b hb
  · intro x r a b hr ha hb
    obtain ⟨q, hq, e1, e2, _, _, e5⟩ := h.bwd hr
    obtain ⟨a', ha', f1, f2, _, _, f5⟩ := h.bwd ha
    obtain ⟨b', hb', g1, g2, _, _, g5⟩ := h.bwd hb
    rw [e1, e2, e5, f1, f2, f5, g1, g2, g5]
    exact hi.ends x q a' b' hq ha' hb'
  · intro x r t q hr ht hq
    obtain ⟨r', hr', e1, e2, e3, _, e5⟩ := h.bwd hr
    obtain ⟨q', hq', f1, f2, _, _, f5⟩ := h.bwd hq
    rw [e1, e2, e5, f1, f2, f5]
    exact hi.swap x r' t q' hr' (e3 ▸ ht) hq'

theorem newCell_ok {s : St K} {c : CN} {hes : Fin 4 → HN}
    (h : ∀ i, ∃ r r', s.he (hes i) = some r ∧ s.he (hes (i + 1)) = some r' ∧ r.head = r'.base) :
    newCell s c hes = .ok { s with
        he := fun x => if ∃ i, x = hes i then (s.he x).map (fun r => { r with cell := some c }) else s.he x
        sides := Function.update s.sides c hes
        cells := s.cells ++ [c] } := by
  obtain ⟨r0, r1, a0, a1, e0⟩ := h 0
  obtain ⟨r1', r2, b1, b2, e1⟩ := h 1
  obtain ⟨r2', r3, c2, c3, e2⟩ := h 2
  obtain ⟨r3', r0', d3, d0, e3⟩ := h 3
  have z1 : (0 + 1 : Fin 4) = 1 := rfl
  have z2 : (1 + 1 : Fin 4) = 2 := rfl
  have z3 : (2 + 1 : Fin 4) = 3 := rfl
  have z0 : (3 + 1 : Fin 4) = 0 := rfl
  rw [z1] at a1; rw [z2] at b2; rw [z3] at c3; rw [z0] at d0
  rw [a1] at b1; cases b1
  rw [b2] at c2; cases c2
  rw [c3] at d3; cases d3
  rw [a0] at d0; cases d0
  unfold newCell
  rw [a0, a1, b2, c3]
  simp only
  rw [if_pos]
  simp [chainOk, e0, e1, e2, e3]

/-- The state after the children in `D` have been created by the second loop of `cell.split`. -/
structure Eff2 (s s' : St K) (c : CN) (D : List (Fin 4)) : Prop where
  upto : SameUpToCell s.he s'.he
  old : ∀ x, (∀ k ∈ D, (owner x).1 ≠ child c k) → s'.he x = s.he x
  new : ∀ k ∈ D, ∀ i r, s'.he (side (child c k) i) = some r → r.cell = some (child c k)
  cells : ∀ d, d ∈ s'.cells ↔ d ∈ s.cells ∨ ∃ k ∈ D, d = child c k
  sidesN : ∀ k ∈ D, s'.sides (child c k) = side (child c k)
  sidesO : ∀ d, (∀ k ∈ D, d ≠ child c k) → s'.sides d = s.sides d
  same : s'.kids = s.kids ∧ s'.mkd = s.mkd

theorem newCell_eff {s : St K} {c : CN} (hsc : s.sides c = side c)
    (hch : ∀ k i, ∃ r r', s.he (side (child c k) i) = some r ∧ s.he (side (child c k) (i + 1)) = some r' ∧
      r.head = r'.base)
    {s1 : St K} {D : List (Fin 4)} (h1 : Eff2 s s1 c D) {k : Fin 4} (hk : k ∉ D) :
    ∃ s2, newCell s1 (child c k) (childSides s1 c k) = .ok s2 ∧ Eff2 s s2 c (k :: D) := by
  have hs1 : s1.sides c = side c := by
    rw [h1.sidesO c (fun k' _ e => child_ne c k' e.symm), hsc]
  have hcs : childSides s1 c k = side (child c k) := by
    funext i; exact childSides_eq hs1 k i
  rw [hcs]
  refine ⟨_, newCell_ok ?_, ?_⟩
  · intro i
    obtain ⟨r, r', e1, e2, e3⟩ := hch k i
    obtain ⟨o, f1⟩ := h1.upto.fwd e1
    obtain ⟨o', f2⟩ := h1.upto.fwd e2
    exact ⟨_, _, f1, f2, e3⟩
  have hexi : ∀ x, (∃ i, x = side (child c k) i) ↔ (owner x).1 = child c k := by
    intro x
    constructor
    · rintro ⟨i, rfl⟩; rw [owner_side]
    · intro h
      exact ⟨(owner x).2, by rw [← h, side_owner]⟩
  simp only [hexi]
  refine ⟨?_, ?_, ?_, ?_, ?_, ?_, ?_⟩
  · intro x
    obtain ⟨f, hf⟩ := h1.upto x
    by_cases hx : (owner x).1 = child c k
    · refine ⟨fun _ => some (child c k), ?_⟩
      simp only [hx, if_true]
      rw [hf]
      simp only [Option.map_map]
      rfl
    · exact ⟨f, by simp only [hx, if_false]; exact hf⟩
  · intro x hx
    have h2 : (owner x).1 ≠ child c k := hx k (by simp)
    simp only [h2, if_false]
    exact h1.old x (fun k' hk' => hx k' (by simp [hk']))
  · intro k' hk' i r hr
    simp only [owner_side] at hr
    by_cases hkk : k' = k
    · subst hkk
      simp only [if_true] at hr
      obtain ⟨q, _, rfl⟩ := Option.map_eq_some_iff.1 hr
      rfl
    · have : child c k' ≠ child c k := fun e => hkk (child_inj e).2
      simp only [this, if_false] at hr
      exact h1.new k' (by simpa [hkk] using hk') i r hr
  · intro d
    simp only [List.mem_append, h1.cells, List.mem_cons, List.not_mem_nil, or_false, exists_eq_or_imp]
    have : ∀ A B C : Prop, (A ∨ B) ∨ C ↔ A ∨ C ∨ B := by intros; tauto
    exact this _ _ _
  · intro k' hk'
    by_cases hkk : k' = k
    · subst hkk; simp
    · have : child c k' ≠ child c k := fun e => hkk (child_inj e).2
      simp only [Function.update_of_ne this]
      exact h1.sidesN k' (by simpa [hkk] using hk')
  · intro d hd
    have : d ≠ child c k := hd k (by simp)
    simp only [Function.update_of_ne this]
    exact h1.sidesO d (fun k' hk' => hd k' (by simp [hk']))
  · exact h1.same

theorem forEach_cons {σ α : Type} (f : σ → α → Except Err σ) (a : α) (l : List α) {s s' : σ}
    (h : f s a = .ok s') : forEach f (a :: l) s = forEach f l s' := by
  simp [forEach, h]

/-- `cell.split(flag)` of an unsplit cell succeeds; the mesh stays consistent, exactly this cell
is split, and the half-edges keep their vertices. -/
theorem cellSplit_keep {B : Base K} (hB : B.WF) {s : St K} (hi : CInv B s) {c : CN} (hc : CEx B.n s.kids c)
    (hk : s.kids c = false) (sf : Bool) :
    ∃ s', cellSplit sf s c = .ok s' ∧ (∀ x q, s.he x = some q → ∃ q', s'.he x = some q' ∧ q'.base = q.base ∧
        q'.head = q.head ∧ q'.per = q.per) ∧ CInv B s' ∧ s'.kids = Function.update s.kids c true ∧
      s'.mkd = (fun d => if sf && decide (∃ k, d = child c k) then true else s.mkd d) := by
  -- first loop
  generalize hs0 : ({ s with vx := Function.update s.vx (.center c) (centerPt s c) } : St K) = s0
  have hf : s0.he = s.he ∧ s0.cells = s.cells ∧ s0.sides = s.sides ∧ s0.kids = s.kids ∧ s0.mkd = s.mkd := by
    rw [← hs0]; simp
  have e0 : Eff1 B.T s s0 c [] := by
    refine ⟨?_, ⟨hf.2.1, hf.2.2.1, hf.2.2.2.1, hf.2.2.2.2⟩, ?_, ?_, ?_⟩
    · have : SameUpToCell s.he s0.he := by
        intro x
        rw [hf.1]
        refine ⟨fun q => q.cell, ?_⟩
        cases s.he x <;> rfl
      exact this.hinv hi.hinv
    · intro x; rw [hf.1]; simp
    · intro x q' hq' q hq
      rw [hf.1, hq] at hq'
      cases hq'
      simp
    · intro i hi; cases hi
  obtain ⟨s1, r1, e1⟩ := splitSide_eff hB hi hc hk e0 (i := 0) (by simp)
  obtain ⟨s2, r2, e2⟩ := splitSide_eff hB hi hc hk e1 (i := 1) (by decide)
  obtain ⟨s3, r3, e3⟩ := splitSide_eff hB hi hc hk e2 (i := 2) (by decide)
  obtain ⟨s4, r4, e4⟩ := splitSide_eff hB hi hc hk e3 (i := 3) (by decide)
  have hl1 : forEach (splitSide c) four s0 = .ok s4 := by
    rw [four, forEach_cons _ _ _ r1, forEach_cons _ _ _ r2, forEach_cons _ _ _ r3, forEach_cons _ _ _ r4]
    rfl
  have hall : ∀ i : Fin 4, i ∈ ([3, 2, 1, 0] : List (Fin 4)) := by decide
  -- the four children
  have hsc : s4.sides c = side c := by rw [e4.same.2.1, hi.sides c hc]
  have hexs : ∀ i, ∃ r0 r, s.he (side c i) = some r0 ∧ s4.he (side c i) = some r ∧ r.base = r0.base ∧
      r.head = r0.head := by
    intro i
    have hex0 : (s.he (side c i)).isSome := by rw [hi.ex, owner_side]; exact hc
    obtain ⟨r0, hr0⟩ := Option.isSome_iff_exists.1 hex0
    obtain ⟨r, hr⟩ := Option.isSome_iff_exists.1 ((e4.iff _).2 (.inl hex0))
    obtain ⟨f1, f2, _⟩ := e4.rcd _ r hr r0 hr0
    exact ⟨r0, r, hr0, hr, f1, f2⟩
  have hkidex : ∀ i b, ∃ a, s4.he (.kid (side c i) b) = some a := fun i b =>
    Option.isSome_iff_exists.1 ((e4.iff _).2 (.inr (.inl ⟨i, hall i, b, rfl⟩)))
  have hch : ∀ k i, ∃ r r', s4.he (side (child c k) i) = some r ∧
      s4.he (side (child c k) (i + 1)) = some r' ∧ r.head = r'.base := by
    intro k i
    have g0 : k + 0 = k := by revert k; decide
    have g1 : k + 1 + 1 = k + 2 := by revert k; decide
    have g2 : k + 2 + 1 = k + 3 := by revert k; decide
    have g3 : k + 3 + 1 = k := by revert k; decide
    obtain ⟨a, u, d, i1, i2, i3, i4, i5, i6, i7, _⟩ := e4.inn k (hall k)
    obtain ⟨a', u', d', j1, j2, j3, j4, j5, j6, j7, _⟩ := e4.inn (k - 1) (hall (k - 1))
    obtain ⟨a1, ha1⟩ := hkidex (k - 1) true
    obtain ⟨r0, r, q1, q2, q3, q4⟩ := hexs k
    obtain ⟨p0, p, t1, t2, t3, t4⟩ := hexs (k - 1)
    have en := e4.hinv.ends _ p a' a1 t2 j1 ha1
    obtain ⟨ak1, hak1⟩ := hkidex k true
    have en' := e4.hinv.ends _ r a ak1 q2 i1 hak1
    rcases fin4_cases k i with rfl | rfl | rfl | rfl
    · rw [side_k, side_k1]
      exact ⟨a, u, i1, i2, i4.symm⟩
    · rw [g1, side_k1, side_k2]
      exact ⟨u, d', i2, j3, by rw [i5, j6]⟩
    · rw [g2, side_k2, side_k3]
      exact ⟨d', a1, j3, ha1, by rw [j7, en.2.1]⟩
    · rw [g3, side_k3, side_k]
      refine ⟨a1, a, ha1, i1, ?_⟩
      have hcc := hi.chain c (k - 1) p0 r0 t1 (by rw [fin4_a]; exact q1)
      rw [en.2.2.1, t4, hcc, ← q3, ← en'.1]
  have f0 : Eff2 s4 s4 c [] := by
    refine ⟨?_, fun _ _ => rfl, by simp, by simp, by simp, fun _ _ => rfl, rfl, rfl⟩
    intro x
    refine ⟨fun q => q.cell, ?_⟩
    cases s4.he x <;> rfl
  obtain ⟨u1, v1, f1⟩ := newCell_eff hsc hch f0 (k := 0) (by simp)
  obtain ⟨u2, v2, f2⟩ := newCell_eff hsc hch f1 (k := 1) (by decide)
  obtain ⟨u3, v3, f3⟩ := newCell_eff hsc hch f2 (k := 2) (by decide)
  obtain ⟨u4, v4, f4⟩ := newCell_eff hsc hch f3 (k := 3) (by decide)
  have hl2 : forEach (fun s2 k => newCell s2 (child c k) (childSides s2 c k)) four s4 = .ok u4 := by
    rw [four, forEach_cons _ _ _ v1, forEach_cons _ _ _ v2, forEach_cons _ _ _ v3, forEach_cons _ _ _ v4]
    rfl
  have hres : cellSplit sf s c = .ok { u4 with
      kids := Function.update u4.kids c true
      mkd := fun d => if sf && decide (∃ k, d = child c k) then true else u4.mkd d } := by
    unfold cellSplit
    simp only [hk, Bool.false_eq_true, if_false, hs0, hl1, hl2]
  have hku : u4.kids = s.kids := by rw [f4.same.1, e4.same.2.2.1]
  have hmu : u4.mkd = s.mkd := by rw [f4.same.2, e4.same.2.2.2]
  refine ⟨_, hres, ?_, ?_, by simp [hku], by simp [hmu]⟩
  · intro x q hq
    obtain ⟨q1, h1⟩ := Option.isSome_iff_exists.1 ((e4.iff x).2 (.inl (by rw [hq]; rfl)))
    obtain ⟨g1, g2, g3, _⟩ := e4.rcd x q1 h1 q hq
    obtain ⟨o, h2⟩ := f4.upto.fwd h1
    exact ⟨_, h2, g1, g2, g3⟩
  -- the invariant
  have hCEx : ∀ d, CEx B.n (Function.update s.kids c true) d ↔ CEx B.n s.kids d ∨ ∃ k, d = child c k := by
    rintro ⟨r, _ | ⟨k, p⟩⟩
    · simp only [CEx, child, Prod.mk.injEq]
      simp
    · have e : ((r, k :: p) : CN) = child (r, p) k := rfl
      rw [e, CEx_child, CEx_child]
      by_cases hrc : ((r, p) : CN) = c
      · rw [hrc]
        simp
      · rw [Function.update_of_ne hrc]
        constructor
        · exact .inl
        · rintro (h | ⟨k', h⟩)
          · exact h
          · exact absurd (child_inj h).1 hrc
  have hex4 : ∀ h, (s4.he h).isSome ↔ (s.he h).isSome ∨ ∃ k, (owner h).1 = child c k := by
    intro h
    rw [e4.iff]
    constructor
    · rintro (h1 | ⟨i, _, b, rfl⟩ | ⟨i, _, d, rfl⟩)
      · exact .inl h1
      · right
        cases b
        · exact ⟨i, by simp [owner, owner_side]⟩
        · exact ⟨i + 1, by simp [owner, owner_side]⟩
      · right
        cases d
        · exact ⟨i, by simp [owner]⟩
        · exact ⟨i + 1, by simp [owner]⟩
    · rintro (h1 | ⟨k, h1⟩)
      · exact .inl h1
      · right
        have h2 : h = side (child c k) (owner h).2 := by rw [← h1, side_owner]
        rw [h2]
        rcases fin4_cases k (owner h).2 with e | e | e | e <;> rw [e]
        · exact .inl ⟨k, hall k, false, side_k c k⟩
        · exact .inr ⟨k, hall k, false, side_k1 c k⟩
        · exact .inr ⟨k - 1, hall _, true, side_k2 c k⟩
        · exact .inl ⟨k - 1, hall _, true, side_k3 c k⟩
  have hall2 : ∀ k : Fin 4, k ∈ ([3, 2, 1, 0] : List (Fin 4)) := hall
  refine ⟨?_, ?_, ?_, ?_, ?_, ?_, ?_⟩
  · refine SameUpToCell.hinv (s := s4) ?_ e4.hinv
    exact f4.upto
  · intro h
    simp only [hku]
    rw [hCEx, f4.upto.iff, hex4, hi.ex]
  · intro h r hr
    by_cases ho : ∃ k, (owner h).1 = child c k
    · obtain ⟨k, ho⟩ := ho
      have h2 : h = side (child c k) (owner h).2 := by rw [← ho, side_owner]
      have hr' : u4.he (side (child c k) (owner h).2) = some r := by rw [← h2]; exact hr
      rw [f4.new k (hall k) _ r hr', ho]
    · have hr' : u4.he h = some r := hr
      rw [f4.old h (fun k _ e => ho ⟨k, e⟩)] at hr'
      have h3 : (s.he h).isSome := by
        have := (hex4 h).1 (by simp [hr'])
        simpa [ho] using this
      obtain ⟨q, hq⟩ := Option.isSome_iff_exists.1 h3
      rw [(e4.rcd h r hr' q hq).2.2.2, hi.cell h q hq]
  · intro d
    simp only [hku]
    rw [hCEx, f4.cells, e4.same.1, hi.mem]
    constructor
    · rintro (h | ⟨k, _, h⟩)
      · exact .inl h
      · exact .inr ⟨k, h⟩
    · rintro (h | ⟨k, h⟩)
      · exact .inl h
      · exact .inr ⟨k, hall k, h⟩
  · intro d hd
    simp only [hku] at hd ⊢
    rw [hCEx]
    left
    by_cases hdc : d = c
    · rw [hdc]; exact hc
    · rw [Function.update_of_ne hdc] at hd
      exact hi.pref d hd
  · intro d hd
    simp only [hku] at hd ⊢
    rw [hCEx] at hd
    by_cases hdc : ∃ k, d = child c k
    · obtain ⟨k, rfl⟩ := hdc
      exact f4.sidesN k (hall k)
    · rw [f4.sidesO d (fun k _ e => hdc ⟨k, e⟩), e4.same.2.1]
      rcases hd with h | h
      · exact hi.sides d h
      · exact absurd h hdc
  · intro d i r r' hr hr'
    by_cases hdc : ∃ k, d = child c k
    · obtain ⟨k, rfl⟩ := hdc
      obtain ⟨q, q', g1, g2, g3⟩ := hch k i
      obtain ⟨x, hx, x1, x2, _⟩ := f4.upto.bwd hr
      obtain ⟨y, hy, y1, y2, _⟩ := f4.upto.bwd hr'
      rw [g1] at hx; cases hx
      rw [g2] at hy; cases hy
      rw [x2, y1, g3]
    · have hno : ∀ i, ∀ k ∈ ([3, 2, 1, 0] : List (Fin 4)), (owner (side d i)).1 ≠ child c k := by
        intro i k _ e
        rw [owner_side] at e
        exact hdc ⟨k, e⟩
      have hr1 : s4.he (side d i) = some r := by rw [← f4.old _ (hno i)]; exact hr
      have hr2 : s4.he (side d (i + 1)) = some r' := by rw [← f4.old _ (hno (i + 1))]; exact hr'
      have hs1 : (s.he (side d i)).isSome := by
        have := (hex4 _).1 (show (s4.he (side d i)).isSome by simp [hr1])
        rw [owner_side] at this
        simpa [hdc] using this
      have hs2 : (s.he (side d (i + 1))).isSome := by
        have := (hex4 _).1 (show (s4.he (side d (i + 1))).isSome by simp [hr2])
        rw [owner_side] at this
        simpa [hdc] using this
      obtain ⟨q, hq⟩ := Option.isSome_iff_exists.1 hs1
      obtain ⟨q', hq'⟩ := Option.isSome_iff_exists.1 hs2
      rw [(e4.rcd _ _ hr1 _ hq).2.1, (e4.rcd _ _ hr2 _ hq').1]
      exact hi.chain d i q q' hq hq'

theorem cellSplit_spec {B : Base K} (hB : B.WF) {s : St K} (hi : CInv B s) {c : CN} (hc : CEx B.n s.kids c)
    (hk : s.kids c = false) (sf : Bool) :
    ∃ s', cellSplit sf s c = .ok s' ∧ CInv B s' ∧ s'.kids = Function.update s.kids c true ∧
      s'.mkd = (fun d => if sf && decide (∃ k, d = child c k) then true else s.mkd d) := by
  obtain ⟨s', h1, _, h2⟩ := cellSplit_keep hB hi hc hk sf
  exact ⟨s', h1, h2⟩

end
end Verif.Mesh
