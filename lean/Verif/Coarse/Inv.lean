import Verif.Coarse.Model

/-!
# Consistency of meshes that are refined and coarsened
-/

namespace Verif.Mesh
open Verif.Geom Verif.Quad

def LiveL (n : Nat) (kids : CN → Bool) (r : Nat) : List (Fin 4) → Prop
  | [] => r < n
  | _ :: p => kids (r, p) = true ∧ LiveL n kids r p

/-- The cells of the mesh: all ancestors have children. -/
def Live (n : Nat) (kids : CN → Bool) (c : CN) : Prop := LiveL n kids c.1 c.2

theorem Live_child {n : Nat} {kids : CN → Bool} (c : CN) (k : Fin 4) : Live n kids (child c k) ↔ kids c = true ∧ Live n kids c := Iff.rfl

theorem Live_mono {n : Nat} {kids kids' : CN → Bool} (h : ∀ c, kids c = true → kids' c = true) (c : CN) : Live n kids c → Live n kids' c := by
  obtain ⟨r, p⟩ := c
  induction p with
  | nil => exact id
  | cons k p ih => exact fun hc => ⟨h _ hc.1, ih hc.2⟩

theorem Live_congr {n : Nat} {kids kids' : CN → Bool} (h : ∀ c, Live n kids c → kids c = kids' c) (c : CN) : Live n kids c ↔ Live n kids' c := by
  obtain ⟨r, p⟩ := c
  induction p with
  | nil => exact Iff.rfl
  | cons k p ih =>
    change (kids (r, p) = true ∧ Live n kids (r, p)) ↔ (kids' (r, p) = true ∧ Live n kids' (r, p))
    rw [← ih, and_congr_left_iff]
    intro hl
    rw [h _ hl]

theorem live_inIn {n : Nat} {kids : CN → Bool} {c : CN} : ∀ h : HN, inIn c h = true → Live n kids (owner h).1 → kids c = true
  | .root _, h, _ => by simp [inIn] at h
  | .kid h false, hi, hl => live_inIn h hi ((Live_child _ _).1 hl).2
  | .kid h true, hi, hl => live_inIn h hi ((Live_child _ _).1 hl).2
  | .inner d i false, hi, hl => by
    simp only [inIn, decide_eq_true_eq] at hi
    rw [← hi]; exact ((Live_child _ _).1 hl).1
  | .inner d i true, hi, hl => by
    simp only [inIn, decide_eq_true_eq] at hi
    rw [← hi]; exact ((Live_child _ _).1 hl).1

theorem vt_inIn {T : Nat → Option Nat} {c : CN} : ∀ h t : HN, vt T h = some t → inIn c t = inIn c h
  | .root k, t, h => by
    simp only [vt, Option.map_eq_some_iff] at h
    obtain ⟨j, _, rfl⟩ := h
    rfl
  | .kid h b, t, e => by
    simp only [vt, Option.map_eq_some_iff] at e
    obtain ⟨j, hj, rfl⟩ := e
    exact vt_inIn h j hj
  | .inner d i b, t, e => by
    simp only [vt, Option.some.injEq] at e
    rw [← e]; rfl

theorem under_iff (c d : CN) : under c d = true ↔ c.1 = d.1 ∧ c.2 <:+ d.2 ∧ c ≠ d := by
  simp [under, and_assoc]

theorem under_child (c d : CN) (k : Fin 4) : under c (child d k) = true ↔ d = c ∨ under c d = true := by
  obtain ⟨r, p⟩ := c
  obtain ⟨r', q⟩ := d
  rw [under_iff, under_iff]
  simp only [child, ne_eq, Prod.mk.injEq]
  constructor
  · rintro ⟨rfl, h1, h2⟩
    rcases List.suffix_cons_iff.1 h1 with h3 | h3
    · exact absurd ⟨rfl, h3⟩ h2
    · by_cases e : p = q
      · exact .inl ⟨rfl, e.symm⟩
      · exact .inr ⟨rfl, h3, fun h => e h.2⟩
  · rintro (⟨rfl, rfl⟩ | ⟨rfl, h1, _⟩)
    · exact ⟨rfl, List.suffix_cons _ _, fun h => by simpa using congrArg List.length h.2⟩
    · exact ⟨rfl, h1.trans (List.suffix_cons _ _), fun h => by
        have := h1.length_le
        rw [h.2] at this
        simp at this⟩

theorem under_nil (c : CN) (r : Nat) : under c (r, []) = false := by
  obtain ⟨r', p⟩ := c
  rw [Bool.eq_false_iff, ne_eq, under_iff]
  rintro ⟨h1, h2, h3⟩
  simp only at h1 h2
  rw [List.suffix_nil.1 h2, h1] at h3
  exact h3 rfl

theorem live_del {n : Nat} {kids : CN → Bool} {c : CN} (d : CN) : Live n (Function.update kids c false) d ↔ Live n kids d ∧ under c d = false := by
  obtain ⟨r, p⟩ := d
  induction p with
  | nil => rw [under_nil]; simp [Live, LiveL]
  | cons k p ih =>
    have e := under_child c (r, p) k
    change (Function.update kids c false (r, p) = true ∧ Live n _ (r, p)) ↔ (kids (r, p) = true ∧ Live n kids (r, p)) ∧ under c (child (r, p) k) = false
    rw [ih, Bool.eq_false_iff (b := under c (child (r, p) k)), ne_eq, e, not_or]
    by_cases hd : (r, p) = c
    · rw [hd]; simp
    · rw [Function.update_of_ne hd]
      simp only [hd, not_false_eq_true, true_and, Bool.not_eq_true]
      tauto

section
set_option linter.unusedSectionVars false
variable {K : Type} [Field K]

/-- Invariant of a mesh with deletions. -/
structure ZInv (B : Base K) (s : St K) : Prop where
  hinv : HInv B.T s
  ex : ∀ c, Live B.n s.kids c → ∀ i, (s.he (side c i)).isSome
  cell : ∀ h r, s.he h = some r → r.cell = some (owner h).1
  mem : ∀ c, c ∈ s.cells ↔ Live B.n s.kids c
  sides : ∀ c, Live B.n s.kids c → s.sides c = side c
  chain : ∀ c i r r', s.he (side c i) = some r → s.he (side c (i + 1)) = some r' → r.head = r'.base

theorem ZInv.mark {B : Base K} {s : St K} (hi : ZInv B s) (m : CN → Bool) : ZInv B { s with mkd := m } := by
  have h := hi.hinv
  exact ⟨⟨h.tw, h.kids, h.par, h.ends, h.swap⟩, hi.ex, hi.cell, hi.mem, hi.sides, hi.chain⟩

theorem ZInv.del {B : Base K} {s : St K} (hi : ZInv B s) (c : CN) : ZInv B (delKids s c) := by
  have h := hi.hinv
  have hl : ∀ d, Live B.n (delKids s c).kids d ↔ Live B.n s.kids d ∧ under c d = false := live_del
  refine ⟨⟨h.tw, h.kids, h.par, h.ends, h.swap⟩, fun d hd => hi.ex d ((hl d).1 hd).1, hi.cell, fun d => ?_, fun d hd => hi.sides d ((hl d).1 hd).1, hi.chain⟩
  rw [hl, ← hi.mem]
  simp [delKids]

theorem clear_live {B : Base K} {s : St K} {c : CN} (hk : s.kids c = false) (d : CN) : Live B.n (clear s c).kids d ↔ Live B.n s.kids d := by
  refine (Live_congr (fun d hd => ?_) d).symm
  by_cases h : ∃ k, d = child c k
  · obtain ⟨k, rfl⟩ := h
    rw [Live_child, hk] at hd
    cases hd.1
  · simp [clear, h]

theorem ZInv.clear {B : Base K} {s : St K} (hi : ZInv B s) {c : CN} (hk : s.kids c = false) : ZInv B (clear s c) := by
  have h := hi.hinv
  have hold : ∀ x r, (Mesh.clear s c).he x = some r → s.he x = some r ∧ inIn c x = false := by
    intro x r hr
    by_cases hx : inIn c x = true
    · simp [Mesh.clear, hx] at hr
    · simp only [Mesh.clear, hx] at hr
      exact ⟨hr, by simpa using hx⟩
  have hkeep : ∀ x, inIn c x = false → (Mesh.clear s c).he x = s.he x := fun x hx => by simp [Mesh.clear, hx]
  have hsome : ∀ x, ((Mesh.clear s c).he x).isSome ↔ inIn c x = false ∧ (s.he x).isSome := by
    intro x
    by_cases hx : inIn c x = true <;> simp [Mesh.clear, hx]
  have hL := clear_live (B := B) hk
  refine ⟨⟨?_, ?_, ?_, ?_, ?_⟩, ?_, ?_, ?_, ?_, ?_⟩
  · intro x r hr t
    obtain ⟨h1, h2⟩ := hold x r hr
    rw [h.tw x r h1 t, hsome]
    constructor
    · rintro ⟨e1, e2⟩
      exact ⟨e1, by rw [vt_inIn x t e1]; exact h2, e2⟩
    · rintro ⟨e1, _, e2⟩
      exact ⟨e1, e2⟩
  · intro x r hr b
    obtain ⟨h1, h2⟩ := hold x r hr
    rw [h.kids x r h1 b, hsome]
    exact ⟨fun e => ⟨h2, e⟩, fun e => e.2⟩
  · intro x b hb
    rw [hsome] at hb ⊢
    exact ⟨hb.1, h.par x b hb.2⟩
  · intro x r a b hr ha hb
    exact h.ends x r a b (hold _ _ hr).1 (hold _ _ ha).1 (hold _ _ hb).1
  · intro x r t q hr ht hq
    exact h.swap x r t q (hold _ _ hr).1 ht (hold _ _ hq).1
  · intro d hd i
    have hd' := (hL d).1 hd
    rw [hsome]
    refine ⟨?_, hi.ex d hd' i⟩
    by_contra hx
    have := live_inIn (n := B.n) (kids := s.kids) (side d i) (by simpa using hx) (by rw [owner_side]; exact hd')
    rw [hk] at this; cases this
  · exact fun x r hr => hi.cell x r (hold _ _ hr).1
  · intro d
    rw [hL]; exact hi.mem d
  · exact fun d hd => hi.sides d ((hL d).1 hd)
  · exact fun d i r r' hr hr' => hi.chain d i r r' (hold _ _ hr).1 (hold _ _ hr').1

theorem reSide_eff {B : Base K} (hB : B.WF) {s : St K} (hi : ZInv B s) {c : CN} (hc : Live B.n s.kids c)
    (hin : ∀ i d, s.he (.inner c i d) = none) {s1 : St K} {D : List (Fin 4)} (h1 : Eff1 B.T s s1 c D) {i : Fin 4} (hiD : i ∉ D) :
    ∃ s2, splitSide c s1 i = .ok s2 ∧ Eff1 B.T s s2 c (i :: D) := by
  have hsd : s1.sides c i = side c i := by rw [h1.same.2.1, hi.sides c hc]
  have hex0 := hi.ex c hc i
  obtain ⟨r, hr⟩ := Option.isSome_iff_exists.1 ((h1.iff _).2 (.inl hex0))
  have hnin : ∀ d, s1.he (.inner c i d) = none := by
    intro d
    by_contra hne
    rcases (h1.iff _).1 (Option.isSome_iff_ne_none.2 hne) with h2 | ⟨j, hj, b', h2⟩ | ⟨j, hj, d', h2⟩
    · rw [hin] at h2; cases h2
    · cases h2
    · injection h2 with _ h3 _
      exact hiD (h3 ▸ hj)
  -- the state in which the side has children
  have key : ∃ s2, (if r.kids then .ok s1 else heSplit s1 (side c i)) = .ok s2 ∧ HInv B.T s2 ∧
      (s2.cells = s1.cells ∧ s2.sides = s1.sides ∧ s2.kids = s1.kids ∧ s2.mkd = s1.mkd) ∧
      (∀ x, (s2.he x).isSome ↔ (s1.he x).isSome ∨ ∃ b, x = .kid (side c i) b) ∧
      (∀ x q', s2.he x = some q' → ∀ q, s1.he x = some q → q'.base = q.base ∧ q'.head = q.head ∧ q'.per = q.per ∧ q'.cell = q.cell) := by
    cases hrk : r.kids
    · obtain ⟨s2, hs2, e, hi2⟩ := heSplit_spec hB.twf h1.hinv hr hrk
      refine ⟨s2, by simpa using hs2, hi2, e.same, e.some_iff hr, fun x q' hq' q hq => ?_⟩
      have hx : ∀ b, x ≠ .kid (side c i) b := by
        rintro b rfl
        have := (h1.hinv.kids _ r hr b).2 (by rw [hq]; rfl)
        rw [hrk] at this; cases this
      obtain ⟨q0, hq0, f⟩ := e.rec_of' hr hx hq'
      rw [hq] at hq0
      cases hq0
      exact f
    · refine ⟨s1, by simp, h1.hinv, ⟨rfl, rfl, rfl, rfl⟩, fun x => ⟨.inl, ?_⟩, fun x q' hq' q hq => ?_⟩
      · rintro (h | ⟨b, rfl⟩)
        · exact h
        · exact (h1.hinv.kids _ r hr b).1 hrk
      · rw [hq'] at hq
        cases hq
        exact ⟨rfl, rfl, rfl, rfl⟩
  obtain ⟨s2, hs2, hi2, e1, hex2, hrec2⟩ := key
  obtain ⟨a0, k0⟩ := Option.isSome_iff_exists.1 ((hex2 (.kid (side c i) false)).2 (.inr ⟨_, rfl⟩))
  have hnin2 : ∀ d, s2.he (.inner c i d) = none := by
    intro d
    by_contra hne
    rcases (hex2 _).1 (Option.isSome_iff_ne_none.2 hne) with h2 | ⟨b, h2⟩
    · rw [hnin] at h2; simp at h2
    · cases h2
  refine ⟨addInner s2 c i a0.head, ?_, ?_⟩
  · unfold splitSide
    rw [hsd, hr]
    simp only [hs2, k0]
  have hold : ∀ x, (∀ d, x ≠ .inner c i d) → (addInner s2 c i a0.head).he x = s2.he x := by
    intro x hx
    simp [addInner, hx]
  have hexA : ∀ x, ((addInner s2 c i a0.head).he x).isSome ↔ (s2.he x).isSome ∨ ∃ d, x = .inner c i d := by
    intro x
    by_cases hx : ∃ d, x = .inner c i d
    · obtain ⟨d, rfl⟩ := hx
      cases d <;> simp [addInner]
    · rw [hold x (fun d hd => hx ⟨d, hd⟩)]
      simp [hx]
  -- records of old half-edges
  have hrec : ∀ x q', (addInner s2 c i a0.head).he x = some q' → ∀ q, s1.he x = some q →
      q'.base = q.base ∧ q'.head = q.head ∧ q'.per = q.per ∧ q'.cell = q.cell := by
    intro x q' hq' q hq
    have hx1 : ∀ d, x ≠ .inner c i d := by
      rintro d rfl; rw [hnin] at hq; cases hq
    rw [hold x hx1] at hq'
    exact hrec2 x q' hq' q hq
  refine ⟨addInner_hinv hi2 c i a0.head hnin2, ?_, ?_, ?_, ?_⟩
  · obtain ⟨a1, a2, a3, a4⟩ := e1
    obtain ⟨b1, b2, b3, b4⟩ := h1.same
    exact ⟨by rw [← b1, ← a1]; rfl, by rw [← b2, ← a2]; rfl, by rw [← b3, ← a3]; rfl, by rw [← b4, ← a4]; rfl⟩
  · intro x
    rw [hexA, hex2, h1.iff]
    simp only [List.mem_cons, exists_eq_or_imp]
    have : ∀ A B C E F : Prop, ((A ∨ B ∨ C) ∨ E) ∨ F ↔ A ∨ (E ∨ B) ∨ F ∨ C := by
      intros; tauto
    exact this _ _ _ _ _
  · intro x q' hq' q hq
    have : (s1.he x).isSome := (h1.iff x).2 (.inl (by simp [hq]))
    obtain ⟨q1, hq1⟩ := Option.isSome_iff_exists.1 this
    obtain ⟨a1, a2, a3, a4⟩ := hrec x q' hq' q1 hq1
    obtain ⟨b1, b2, b3, b4⟩ := h1.rcd x q1 hq1 q hq
    exact ⟨a1.trans b1, a2.trans b2, a3.trans b3, a4.trans b4⟩
  · intro j hj
    rcases List.mem_cons.1 hj with rfl | hj
    · refine ⟨a0, ⟨a0.head, .center c, some (.inner c j true), none, false, false⟩,
        ⟨.center c, a0.head, some (.inner c j false), none, false, false⟩, ?_, ?_, ?_, rfl, rfl, rfl, rfl, rfl, rfl⟩
      · rw [hold _ (fun d hd => by cases hd)]; exact k0
      · simp [addInner]
      · simp [addInner]
    · obtain ⟨a, u, d, e1, e2, e3, e4, e5, e6, e7, e8, e9⟩ := h1.inn j hj
      have g : ∀ x q, s1.he x = some q → ∃ q', (addInner s2 c i a0.head).he x = some q' := by
        intro x q hq
        exact Option.isSome_iff_exists.1 ((hexA x).2 (.inl ((hex2 x).2 (.inl (by simp [hq])))))
      obtain ⟨a', ha'⟩ := g _ _ e1
      obtain ⟨u', hu'⟩ := g _ _ e2
      obtain ⟨d', hd'⟩ := g _ _ e3
      have A := hrec _ _ ha' _ e1
      have U := hrec _ _ hu' _ e2
      have D' := hrec _ _ hd' _ e3
      exact ⟨a', u', d', ha', hu', hd', by rw [U.1, A.2.1, e4], by rw [U.2.1, e5], by rw [D'.1, e6],
        by rw [D'.2.1, A.2.1, e7], by rw [U.2.2.1, e8], by rw [D'.2.2.1, e9]⟩


/-- `cell.split(flag)` of a cell without children, when the names of its inner half-edges are free. -/
theorem reSplit_keep {B : Base K} (hB : B.WF) {s : St K} (hi : ZInv B s) {c : CN} (hc : Live B.n s.kids c)
    (hk : s.kids c = false) (hkk : ∀ k, s.kids (child c k) = false) (hin : ∀ i d, s.he (.inner c i d) = none) (sf : Bool) :
    ∃ s', cellSplit sf s c = .ok s' ∧ (∀ x q, s.he x = some q → ∃ q', s'.he x = some q' ∧ q'.base = q.base ∧
        q'.head = q.head ∧ q'.per = q.per) ∧ ZInv B s' ∧ s'.kids = Function.update s.kids c true ∧
      s'.mkd = (fun d => if sf && decide (∃ k, d = child c k) then true else s.mkd d) ∧
      ∀ x, (s'.he x).isSome ↔ (s.he x).isSome ∨ ∃ k, (owner x).1 = child c k := by
  -- first loop
  generalize hs0 : ({ s with vx := Function.update s.vx (.center c) (centerPt s c) } : St K) = s0
  have hf : s0.he = s.he ∧ s0.cells = s.cells ∧ s0.sides = s.sides ∧ s0.kids = s.kids ∧ s0.mkd = s.mkd := by
    rw [← hs0]; simp
  have e0 : Eff1 B.T s s0 c [] := by
    refine ⟨?_, ⟨hf.2.1, hf.2.2.1, hf.2.2.2.1, hf.2.2.2.2⟩, ?_, ?_, ?_⟩
    · have : SameUpToCell s.he s0.he := by
        intro x
        rw [hf.1]
        refine ⟨fun q => q.cell, ?_⟩
        cases s.he x <;> rfl
      exact this.hinv hi.hinv
    · intro x; rw [hf.1]; simp
    · intro x q' hq' q hq
      rw [hf.1, hq] at hq'
      cases hq'
      simp
    · intro i hi; cases hi
  obtain ⟨s1, r1, e1⟩ := reSide_eff hB hi hc hin e0 (i := 0) (by simp)
  obtain ⟨s2, r2, e2⟩ := reSide_eff hB hi hc hin e1 (i := 1) (by decide)
  obtain ⟨s3, r3, e3⟩ := reSide_eff hB hi hc hin e2 (i := 2) (by decide)
  obtain ⟨s4, r4, e4⟩ := reSide_eff hB hi hc hin e3 (i := 3) (by decide)
  have hl1 : forEach (splitSide c) four s0 = .ok s4 := by
    rw [four, forEach_cons _ _ _ r1, forEach_cons _ _ _ r2, forEach_cons _ _ _ r3, forEach_cons _ _ _ r4]
    rfl
  have hall : ∀ i : Fin 4, i ∈ ([3, 2, 1, 0] : List (Fin 4)) := by decide
  -- the four children
  have hsc : s4.sides c = side c := by rw [e4.same.2.1, hi.sides c hc]
  have hexs : ∀ i, ∃ r0 r, s.he (side c i) = some r0 ∧ s4.he (side c i) = some r ∧ r.base = r0.base ∧
      r.head = r0.head := by
    intro i
    have hex0 : (s.he (side c i)).isSome := hi.ex c hc i
    obtain ⟨r0, hr0⟩ := Option.isSome_iff_exists.1 hex0
    obtain ⟨r, hr⟩ := Option.isSome_iff_exists.1 ((e4.iff _).2 (.inl hex0))
    obtain ⟨f1, f2, _⟩ := e4.rcd _ r hr r0 hr0
    exact ⟨r0, r, hr0, hr, f1, f2⟩
  have hkidex : ∀ i b, ∃ a, s4.he (.kid (side c i) b) = some a := fun i b =>
    Option.isSome_iff_exists.1 ((e4.iff _).2 (.inr (.inl ⟨i, hall i, b, rfl⟩)))
  have hch : ∀ k i, ∃ r r', s4.he (side (child c k) i) = some r ∧
      s4.he (side (child c k) (i + 1)) = some r' ∧ r.head = r'.base := by
    intro k i
    have g0 : k + 0 = k := by revert k; decide
    have g1 : k + 1 + 1 = k + 2 := by revert k; decide
    have g2 : k + 2 + 1 = k + 3 := by revert k; decide
    have g3 : k + 3 + 1 = k := by revert k; decide
    obtain ⟨a, u, d, i1, i2, i3, i4, i5, i6, i7, _⟩ := e4.inn k (hall k)
    obtain ⟨a', u', d', j1, j2, j3, j4, j5, j6, j7, _⟩ := e4.inn (k - 1) (hall (k - 1))
    obtain ⟨a1, ha1⟩ := hkidex (k - 1) true
    obtain ⟨r0, r, q1, q2, q3, q4⟩ := hexs k
    obtain ⟨p0, p, t1, t2, t3, t4⟩ := hexs (k - 1)
    have en := e4.hinv.ends _ p a' a1 t2 j1 ha1
    obtain ⟨ak1, hak1⟩ := hkidex k true
    have en' := e4.hinv.ends _ r a ak1 q2 i1 hak1
    rcases fin4_cases k i with rfl | rfl | rfl | rfl
    · rw [side_k, side_k1]
      exact ⟨a, u, i1, i2, i4.symm⟩
    · rw [g1, side_k1, side_k2]
      exact ⟨u, d', i2, j3, by rw [i5, j6]⟩
    · rw [g2, side_k2, side_k3]
      exact ⟨d', a1, j3, ha1, by rw [j7, en.2.1]⟩
    · rw [g3, side_k3, side_k]
      refine ⟨a1, a, ha1, i1, ?_⟩
      have hcc := hi.chain c (k - 1) p0 r0 t1 (by rw [fin4_a]; exact q1)
      rw [en.2.2.1, t4, hcc, ← q3, ← en'.1]
  have f0 : Eff2 s4 s4 c [] := by
    refine ⟨?_, fun _ _ => rfl, by simp, by simp, by simp, fun _ _ => rfl, rfl, rfl⟩
    intro x
    refine ⟨fun q => q.cell, ?_⟩
    cases s4.he x <;> rfl
  obtain ⟨u1, v1, f1⟩ := newCell_eff hsc hch f0 (k := 0) (by simp)
  obtain ⟨u2, v2, f2⟩ := newCell_eff hsc hch f1 (k := 1) (by decide)
  obtain ⟨u3, v3, f3⟩ := newCell_eff hsc hch f2 (k := 2) (by decide)
  obtain ⟨u4, v4, f4⟩ := newCell_eff hsc hch f3 (k := 3) (by decide)
  have hl2 : forEach (fun s2 k => newCell s2 (child c k) (childSides s2 c k)) four s4 = .ok u4 := by
    rw [four, forEach_cons _ _ _ v1, forEach_cons _ _ _ v2, forEach_cons _ _ _ v3, forEach_cons _ _ _ v4]
    rfl
  have hres : cellSplit sf s c = .ok { u4 with
      kids := Function.update u4.kids c true
      mkd := fun d => if sf && decide (∃ k, d = child c k) then true else u4.mkd d } := by
    unfold cellSplit
    simp only [hk, Bool.false_eq_true, if_false, hs0, hl1, hl2]
  have hku : u4.kids = s.kids := by rw [f4.same.1, e4.same.2.2.1]
  have hmu : u4.mkd = s.mkd := by rw [f4.same.2, e4.same.2.2.2]
  -- the invariant
  have hCEx : ∀ d, Live B.n (Function.update s.kids c true) d ↔ Live B.n s.kids d ∨ ∃ k, d = child c k := by
    have key : ∀ (r : Nat) (p : List (Fin 4)), Live B.n (Function.update s.kids c true) (r, p) ↔ Live B.n s.kids (r, p) ∨ ∃ k, (r, p) = child c k := by
      intro r p
      induction p with
      | nil =>
        simp only [Live, LiveL, child, Prod.mk.injEq]
        simp
      | cons k p ih =>
        have e : ((r, k :: p) : CN) = child (r, p) k := rfl
        rw [e, Live_child, Live_child, ih]
        by_cases hrc : ((r, p) : CN) = c
        · rw [hrc]
          simp [hc]
        · rw [Function.update_of_ne hrc]
          constructor
          · rintro ⟨h1, h2 | ⟨k', h2⟩⟩
            · exact .inl ⟨h1, h2⟩
            · rw [h2, hkk] at h1; cases h1
          · rintro (⟨h1, h2⟩ | ⟨k', h⟩)
            · exact ⟨h1, .inl h2⟩
            · exact absurd (child_inj h).1 hrc
    rintro ⟨r, p⟩
    exact key r p
  have hex4 : ∀ h, (s4.he h).isSome ↔ (s.he h).isSome ∨ ∃ k, (owner h).1 = child c k := by
    intro h
    rw [e4.iff]
    constructor
    · rintro (h1 | ⟨i, _, b, rfl⟩ | ⟨i, _, d, rfl⟩)
      · exact .inl h1
      · right
        cases b
        · exact ⟨i, by simp [owner, owner_side]⟩
        · exact ⟨i + 1, by simp [owner, owner_side]⟩
      · right
        cases d
        · exact ⟨i, by simp [owner]⟩
        · exact ⟨i + 1, by simp [owner]⟩
    · rintro (h1 | ⟨k, h1⟩)
      · exact .inl h1
      · right
        have h2 : h = side (child c k) (owner h).2 := by rw [← h1, side_owner]
        rw [h2]
        rcases fin4_cases k (owner h).2 with e | e | e | e <;> rw [e]
        · exact .inl ⟨k, hall k, false, side_k c k⟩
        · exact .inr ⟨k, hall k, false, side_k1 c k⟩
        · exact .inr ⟨k - 1, hall _, true, side_k2 c k⟩
        · exact .inl ⟨k - 1, hall _, true, side_k3 c k⟩
  have hall2 : ∀ k : Fin 4, k ∈ ([3, 2, 1, 0] : List (Fin 4)) := hall
  refine ⟨_, hres, ?_, ?_, by simp [hku], by simp [hmu], ?_⟩
  · intro x q hq
    obtain ⟨q1, h1⟩ := Option.isSome_iff_exists.1 ((e4.iff x).2 (.inl (by rw [hq]; rfl)))
    obtain ⟨g1, g2, g3, _⟩ := e4.rcd x q1 h1 q hq
    obtain ⟨o, h2⟩ := f4.upto.fwd h1
    exact ⟨_, h2, g1, g2, g3⟩
  swap
  · intro x
    rw [f4.upto.iff, hex4]
  refine ⟨?_, ?_, ?_, ?_, ?_, ?_⟩
  · refine SameUpToCell.hinv (s := s4) ?_ e4.hinv
    exact f4.upto
  · intro d hd i
    simp only [hku] at hd
    rw [f4.upto.iff, hex4, owner_side]
    exact ((hCEx d).1 hd).imp (fun h => hi.ex d h i) id
  · intro h r hr
    by_cases ho : ∃ k, (owner h).1 = child c k
    · obtain ⟨k, ho⟩ := ho
      have h2 : h = side (child c k) (owner h).2 := by rw [← ho, side_owner]
      have hr' : u4.he (side (child c k) (owner h).2) = some r := by rw [← h2]; exact hr
      rw [f4.new k (hall k) _ r hr', ho]
    · have hr' : u4.he h = some r := hr
      rw [f4.old h (fun k _ e => ho ⟨k, e⟩)] at hr'
      have h3 : (s.he h).isSome := by
        have := (hex4 h).1 (by simp [hr'])
        simpa [ho] using this
      obtain ⟨q, hq⟩ := Option.isSome_iff_exists.1 h3
      rw [(e4.rcd h r hr' q hq).2.2.2, hi.cell h q hq]
  · intro d
    simp only [hku]
    rw [hCEx, f4.cells, e4.same.1, hi.mem]
    constructor
    · rintro (h | ⟨k, _, h⟩)
      · exact .inl h
      · exact .inr ⟨k, h⟩
    · rintro (h | ⟨k, h⟩)
      · exact .inl h
      · exact .inr ⟨k, hall k, h⟩
  · intro d hd
    simp only [hku] at hd ⊢
    rw [hCEx] at hd
    by_cases hdc : ∃ k, d = child c k
    · obtain ⟨k, rfl⟩ := hdc
      exact f4.sidesN k (hall k)
    · rw [f4.sidesO d (fun k _ e => hdc ⟨k, e⟩), e4.same.2.1]
      rcases hd with h | h
      · exact hi.sides d h
      · exact absurd h hdc
  · intro d i r r' hr hr'
    by_cases hdc : ∃ k, d = child c k
    · obtain ⟨k, rfl⟩ := hdc
      obtain ⟨q, q', g1, g2, g3⟩ := hch k i
      obtain ⟨x, hx, x1, x2, _⟩ := f4.upto.bwd hr
      obtain ⟨y, hy, y1, y2, _⟩ := f4.upto.bwd hr'
      rw [g1] at hx; cases hx
      rw [g2] at hy; cases hy
      rw [x2, y1, g3]
    · have hno : ∀ i, ∀ k ∈ ([3, 2, 1, 0] : List (Fin 4)), (owner (side d i)).1 ≠ child c k := by
        intro i k _ e
        rw [owner_side] at e
        exact hdc ⟨k, e⟩
      have hr1 : s4.he (side d i) = some r := by rw [← f4.old _ (hno i)]; exact hr
      have hr2 : s4.he (side d (i + 1)) = some r' := by rw [← f4.old _ (hno (i + 1))]; exact hr'
      have hs1 : (s.he (side d i)).isSome := by
        have := (hex4 _).1 (show (s4.he (side d i)).isSome by simp [hr1])
        rw [owner_side] at this
        simpa [hdc] using this
      have hs2 : (s.he (side d (i + 1))).isSome := by
        have := (hex4 _).1 (show (s4.he (side d (i + 1))).isSome by simp [hr2])
        rw [owner_side] at this
        simpa [hdc] using this
      obtain ⟨q, hq⟩ := Option.isSome_iff_exists.1 hs1
      obtain ⟨q', hq'⟩ := Option.isSome_iff_exists.1 hs2
      rw [(e4.rcd _ _ hr1 _ hq).2.1, (e4.rcd _ _ hr2 _ hq').1]
      exact hi.chain d i q q' hq hq'

theorem reSplit_spec {B : Base K} (hB : B.WF) {s : St K} (hi : ZInv B s) {c : CN} (hc : c ∈ s.cells) (hk : s.kids c = false) (sf : Bool) :
    ∃ s', reSplit sf s c = .ok s' ∧ ZInv B s' ∧ (∀ d, s'.kids d = true ↔ d = c ∨ s.kids d = true ∧ ∀ k, d ≠ child c k) ∧
      (∀ d, s'.mkd d = true ↔ (∃ k, d = child c k) ∧ sf = true ∨ (∀ k, d ≠ child c k) ∧ s.mkd d = true) := by
  have hc' := (hi.mem c).1 hc
  obtain ⟨s', h1, h2, h3, h4, h5, h6⟩ := reSplit_keep hB (hi.clear hk) ((clear_live hk c).2 hc') (c := c)
    (by simp only [Mesh.clear]; rw [if_neg]; exact hk; rintro ⟨k, e⟩; exact child_ne c k e.symm)
    (fun k => by simp [Mesh.clear]) (fun i d => by simp [Mesh.clear, inIn]) sf
  refine ⟨s', ?_, h3, fun d => ?_, fun d => ?_⟩
  · unfold reSplit
    rw [if_neg (by simp [hk])]
    exact h1
  · rw [h4]
    by_cases hd : d = c
    · rw [hd]; simp
    · rw [Function.update_of_ne hd]
      simp only [Mesh.clear, hd, false_or]
      by_cases h : ∃ k, d = child c k
      · rw [if_pos h]
        obtain ⟨k, rfl⟩ := h
        simp only [Bool.false_eq_true, false_iff, not_and, not_forall, not_not]
        exact fun _ => ⟨k, rfl⟩
      · rw [if_neg h]
        push Not at h
        exact ⟨fun e => ⟨e, h⟩, fun e => e.1⟩
  · rw [h5]
    simp only [Mesh.clear]
    by_cases h : ∃ k, d = child c k
    · cases sf
      · simp only [Bool.false_and, Bool.false_eq_true, if_false, if_pos h, and_false, false_or, false_iff, not_and]
        obtain ⟨k, rfl⟩ := h
        exact fun e => absurd rfl (e k)
      · simp [h]
    · have h' := h
      push Not at h'
      simp [h']

theorem init_zinv {B : Base K} (hB : B.WF) : ZInv B (init B) := by
  have hi := init_cinv hB
  have hl : ∀ c, Live B.n (init B).kids c ↔ CEx B.n (init B).kids c := by
    rintro ⟨r, _ | ⟨k, p⟩⟩
    · exact Iff.rfl
    · exact ⟨fun h => h.1, fun h => by simp [CEx, init] at h⟩
  refine ⟨hi.hinv, fun c hc i => ?_, hi.cell, fun c => (hi.mem c).trans (hl c).symm, fun c hc => hi.sides c ((hl c).1 hc), hi.chain⟩
  rw [hi.ex, owner_side]
  exact (hl c).1 hc

theorem ZReach.inv {B : Base K} (hB : B.WF) {s : St K} (hs : ZReach B s) : ZInv B s := by
  induction hs with
  | init => exact init_zinv hB
  | split s s' c sf _ hc hk h ih =>
    obtain ⟨s2, h1, h2, _⟩ := reSplit_spec hB ih hc hk sf
    rw [h] at h1
    cases h1
    exact h2
  | del s c _ _ _ ih => exact ih.del c
  | mark s m _ ih => exact ih.mark m

end
end Verif.Mesh
