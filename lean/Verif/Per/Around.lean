import Verif.Per.Inv

/-!
# The corners around a vertex of a periodic mesh
-/

namespace Verif.Per
open Verif.Fem Verif.Mesh Verif.Dof

section
set_option linter.unusedSectionVars false
variable {K : Type} [Field K] {B : Base K} {s : St K} {pr : Pairs}

/-- What the theorems assume of the initial mesh: the corners of a cell are different points, a vertex is one point, the
periodic pairs of the initial mesh are complete, and around a point all corners have the same vertex, or the cells close
up, or the corner is the first or the last. -/
structure PerOk (B : Base K) : Prop extends Nice B where
  pairs : ∀ f < B.n, ∀ g < B.n, ∀ i j : Fin 4, SamePt B (f, E i (0 : ℚ)) (g, E j 0) →
    ((g, []), VN.root (B.b (4 * g + j))) ∈ initPairs B (.root (B.b (4 * f + i))) ∨
    initPairs B (.root (B.b (4 * f + i))) = [] ∧ B.b (4 * g + j) = B.b (4 * f + i)
  turn : ∀ f < B.n, ∀ i : Fin 4,
    (∀ g < B.n, ∀ j : Fin 4, SamePt B (f, E i (0 : ℚ)) (g, E j 0) → B.b (4 * g + j) = B.b (4 * f + i)) ∨
    (∀ g < B.n, ∀ j : Fin 4, SamePt B (f, E i (0 : ℚ)) (g, E j 0) → B.T (4 * g + (j + 3 : Fin 4)) ≠ none) ∨
    B.T (4 * f + (i + 3 : Fin 4)) = none ∨ B.T (4 * f + i) = none

/-- A corner of an existing cell at the same level and the same point. -/
def Co (B : Base K) (s : St K) (y z : CN × Fin 4) : Prop :=
  CEx B.n s.kids z.1 ∧ level z.1 = level y.1 ∧ cls B y.1 y.2 = cls B z.1 z.2

/-- A corner that is no corner of the parent. -/
def TopPl (y : CN × Fin 4) : Prop := y.1.2 = [] ∨ ∃ c k, y.1 = child c k ∧ y.2 ≠ k

/-- The corner is the midpoint of side `a` of `c`. -/
def MidPl (c : CN) (a : Fin 4) (y : CN × Fin 4) : Prop := y = (child c a, a + 1) ∨ y = (child c (a + 1), a)

theorem mid_emb : ∀ k j a : Fin 4, emb k (E j (0 : ℚ)) = E a (1 / 2) → (k = a ∧ j = a + 1) ∨ (k = a + 1 ∧ j = a) := by
  decide +kernel

theorem cen_emb : ∀ k j : Fin 4, emb k (E j (0 : ℚ)) = (1 / 2, 1 / 2) → j = k + 2 := by decide +kernel

theorem emb_cor (k i : Fin 4) (h : i ≠ k) : ¬ Corner (emb k (E i (0 : ℚ))) := by
  revert h
  fin_cases k <;> fin_cases i <;> simp [emb, E, Corner]

theorem MidPl.pt {c : CN} {a : Fin 4} {y : CN × Fin 4} (h : MidPl c a y) : rootPt y.1 (E y.2 (0 : ℚ)) = rootPt c (E a (1 / 2)) := by
  have h1 : ∀ a : Fin 4, emb a (E (a + 1) (0 : ℚ)) = E a (1 / 2) := by decide +kernel
  have h2 : ∀ a : Fin 4, emb (a + 1) (E a (0 : ℚ)) = E a (1 / 2) := by decide +kernel
  rcases h with rfl | rfl
  · simp only [rootPt_child, h1]
  · simp only [rootPt_child, h2]

/-- The corners that are no corners of the parent. -/
theorem kinds {c : CN} {k i : Fin 4} (h : i ≠ k) : (∃ a, MidPl c a (child c k, i)) ∨ i = k + 2 := by
  rcases fin4_cases k i with h1 | h1 | h1 | h1
  · exact absurd h1 h
  · exact .inl ⟨k, .inl (by rw [h1])⟩
  · exact .inr h1
  · refine .inl ⟨k + 3, .inr ?_⟩
    rw [h1, fin4_l]

/-- Splitting off the last step of a corner. -/
theorem Co.par {c : CN} {k i : Fin 4} (hB : B.WF) (h : i ≠ k) {z : CN × Fin 4} (hz : Co B s (child c k, i) z) :
    ∃ c' k', z.1 = child c' k' ∧ (c' = c ∧ emb k' (E z.2 (0 : ℚ)) = emb k (E i 0) ∨
      PGlue B.T (c, emb k (E i (0 : ℚ))) (c', emb k' (E z.2 0))) := by
  obtain ⟨h1, h2, h3⟩ := hz
  obtain ⟨⟨g, q⟩, j⟩ := z
  obtain ⟨f, p⟩ := c
  cases q with
  | nil => simp [level, child] at h2
  | cons k' q =>
    simp only [level, child, List.length_cons, Nat.add_right_cancel_iff] at h2
    refine ⟨(g, q), k', rfl, ?_⟩
    have h3' := cls_iff.1 h3
    exact same_noncorner hB.inv p q f g _ _ h2.symm (emb_insq k (E_insq i (le_refl _) (by norm_num)))
      (emb_insq k' (E_insq j (le_refl _) (by norm_num))) h3' (emb_cor k i h)

theorem Co.mid (hB : B.WF) {c : CN} {a : Fin 4} {y z : CN × Fin 4} (hy : MidPl c a y) (hz : Co B s y z) :
    MidPl c a z ∨ ∃ c' b, MidPl c' b z ∧ vt B.T (side c a) = some (side c' b) := by
  have hne1 : ∀ a : Fin 4, a + 1 ≠ a := by decide
  have hne2 : ∀ a : Fin 4, a ≠ a + 1 := by decide
  have h1 : ∀ a : Fin 4, emb a (E (a + 1) (0 : ℚ)) = E a (1 / 2) := by decide +kernel
  have h2 : ∀ a : Fin 4, emb (a + 1) (E a (0 : ℚ)) = E a (1 / 2) := by decide +kernel
  obtain ⟨c', k', e, h⟩ : ∃ c' k', z.1 = child c' k' ∧ (c' = c ∧ emb k' (E z.2 (0 : ℚ)) = E a (1 / 2) ∨
      PGlue B.T (c, E a (1 / 2 : ℚ)) (c', emb k' (E z.2 0))) := by
    rcases hy with rfl | rfl
    · have := hz.par hB (hne1 a)
      rwa [h1] at this
    · have := hz.par hB (hne2 a)
      rwa [h2] at this
  obtain ⟨d, j⟩ := z
  simp only at e h
  subst e
  rcases h with ⟨rfl, h⟩ | ⟨i', j', r, r0, r1, hv, e1, e2⟩
  · rcases mid_emb k' j a h with ⟨rfl, rfl⟩ | ⟨rfl, rfl⟩
    · exact .inl (.inl rfl)
    · exact .inl (.inr rfl)
  · simp only at e1 e2 hv
    have := E_two a i' (by norm_num) (by norm_num) e1 (by norm_num)
    subst this
    have hr := E_inj a e1
    refine .inr ⟨c', j', ?_, hv⟩
    rw [← hr] at e2
    have e3 : (1 : ℚ) - 1 / 2 = 1 / 2 := by norm_num
    rw [e3] at e2
    rcases mid_emb k' j j' e2 with ⟨rfl, rfl⟩ | ⟨rfl, rfl⟩
    · exact .inl rfl
    · exact .inr rfl

theorem Co.cen (hB : B.WF) {c : CN} {k : Fin 4} {z : CN × Fin 4} (hz : Co B s (child c k, k + 2) z) :
    ∃ k', z = (child c k', k' + 2) := by
  have h1 : ∀ k : Fin 4, emb k (E (k + 2) (0 : ℚ)) = (1 / 2, 1 / 2) := by decide +kernel
  have hne : ∀ k : Fin 4, k + 2 ≠ k := by decide
  obtain ⟨c', k', e, h⟩ := hz.par hB (hne k)
  rw [h1] at h
  obtain ⟨d, j⟩ := z
  simp only at e h
  subst e
  rcases h with ⟨rfl, h⟩ | ⟨i', j', r, r0, r1, hv, e1, e2⟩
  · exact ⟨k', by rw [cen_emb k' j h]⟩
  · exfalso
    simp only at e1
    revert e1
    fin_cases i' <;> simp [E]

/-! ### Names -/

/-- The vertex of the corners at the midpoint of a side. -/
theorem MidPl.vert (hi : CInv B s) {c : CN} {a : Fin 4} {y : CN × Fin 4} (hk : s.kids c = true) (h : MidPl c a y) :
    ∃ a0, s.he (.kid (side c a) false) = some a0 ∧ vert s y.1 y.2 = a0.head := by
  obtain ⟨a0, ha0⟩ := Option.isSome_iff_exists.1 ((kids_owner_kid hi (side c a) false).2 (by rw [owner_side]; exact hk))
  obtain ⟨a1, ha1⟩ := Option.isSome_iff_exists.1 ((kids_owner_kid hi (side c a) true).2 (by rw [owner_side]; exact hk))
  obtain ⟨q, hq⟩ := Option.isSome_iff_exists.1 (hi.hinv.par (side c a) false (by rw [ha0]; rfl))
  obtain ⟨_, e2, _⟩ := hi.hinv.ends _ q a0 a1 hq ha0 ha1
  have hx : ∀ k, CEx B.n s.kids (child c k) := fun k => hk
  refine ⟨a0, ha0, ?_⟩
  rcases h with rfl | rfl
  · obtain ⟨r, g1, _, g3⟩ := vert_eq hi (hx a) a
    rw [side_k, ha0] at g1
    cases g1
    exact g3
  · obtain ⟨r, g1, g2, _⟩ := vert_eq hi (hx (a + 1)) a
    have e : side (child c (a + 1)) a = .kid (side c a) true := by
      have := side_k3 c (a + 1)
      rwa [fin4_h, fin4_succ_pred] at this
    rw [e, ha1] at g1
    cases g1
    rw [e2]
    exact g2

theorem MidPl.cell {c : CN} {a : Fin 4} {y : CN × Fin 4} (h : MidPl c a y) : ∃ b, y.1 = (owner (.kid (side c a) b)).1 := by
  rcases h with rfl | rfl
  · exact ⟨false, by simp only [owner, owner_side]⟩
  · exact ⟨true, by simp only [owner, owner_side]⟩

theorem cen_vert (hi : CInv B s) (hn : NInv B.T B.per s) {c : CN} (hk : s.kids c = true) (k : Fin 4) :
    vert s (child c k) (k + 2) = .center c := by
  have hx : CEx B.n s.kids (child c k) := hk
  obtain ⟨r, g1, _, g3⟩ := vert_eq hi hx (k + 1)
  rw [side_k1] at g1
  rw [fin4_d] at g3
  rw [g3]
  exact hn.cen c k r g1

theorem initPairs_root (v : VN) (h : initPairs B v ≠ []) : ∃ m, v = .root m := by
  have hset : ∀ (pr : Pairs) (m : Nat) (x : CN × VN), (∀ v, pr v ≠ [] → ∃ m, v = VN.root m) →
      ∀ v, setPair pr (.root m) x v ≠ [] → ∃ m, v = VN.root m := by
    intro pr m x hp v hv
    by_cases e : v = .root m
    · exact ⟨m, e⟩
    · rw [setPair, Function.update_of_ne e] at hv
      exact hp v hv
  have hvtx : ∀ (pr : Pairs) (c d : CN) (m m' : Nat), (∀ v, pr v ≠ [] → ∃ m, v = VN.root m) →
      ∀ v, pairVtx pr c (.root m) d (.root m') v ≠ [] → ∃ m, v = VN.root m := by
    intro pr c d m m' hp
    exact hset _ _ _ (hset _ _ _ (hset _ _ _ (hset _ _ _ hp)))
  have key : ∀ (l : List Nat) (pr : Pairs), (∀ v, pr v ≠ [] → ∃ m, v = VN.root m) →
      ∀ v, l.foldl (pairRoot B) pr v ≠ [] → ∃ m, v = VN.root m := by
    intro l
    induction l with
    | nil => intro pr hp; exact hp
    | cons k l ih =>
      intro pr hp
      refine ih _ ?_
      unfold pairRoot
      rcases B.T k with _ | j
      · exact hp
      · simp only
        split_ifs
        · exact hvtx _ _ _ _ _ (hvtx _ _ _ _ _ hp)
        · exact hp
  exact key _ _ (fun v hv => absurd rfl hv) v h

/-- The corners around a point know each other, or have the same vertex. -/
theorem around (hB : B.WF) (hO : PerOk B) (hs : MReach B s) (hp : PInv B s pr) {y z : CN × Fin 4} (hy : TopPl y)
    (hyx : CEx B.n s.kids y.1) (hz : Co B s y z) :
    (z.1, vert s z.1 z.2) ∈ pr (vert s y.1 y.2) ∨ pr (vert s y.1 y.2) = [] ∧ vert s z.1 z.2 = vert s y.1 y.2 := by
  have hi := hs.inv hB
  have hn := reach_ninv hB hs
  -- vertices without pairs
  have nil : ∀ v, ¬ MayPair B s v → pr v = [] := by
    intro v hv
    by_contra h
    exact hv (hp.only v h)
  rcases hy with hy | ⟨c, k, hc, hik⟩
  · -- initial cells
    obtain ⟨⟨f, p⟩, i⟩ := y
    obtain ⟨⟨g, q⟩, j⟩ := z
    simp only at hy
    subst hy
    obtain ⟨h1, h2, h3⟩ := hz
    have hq : q = [] := by
      simp only [level, List.length_nil] at h2
      exact List.eq_nil_of_length_eq_zero h2
    subst hq
    have vr : ∀ (f : Nat) (i : Fin 4), CEx B.n s.kids (f, []) → vert s (f, []) i = .root (B.b (4 * f + i)) := by
      intro f i hf
      obtain ⟨r, e1, e2, _⟩ := vert_eq hi hf i
      rw [e2]
      exact (root_verts hB hs _ r e1).1
    have h3' := cls_iff.1 h3
    simp only
    rw [vr f i hyx, vr g j h1]
    rcases hO.pairs f hyx g h1 i j h3' with h | ⟨h, h'⟩
    · exact .inl (hp.ini _ _ h)
    · refine .inr ⟨nil _ ?_, by rw [h']⟩
      rintro (h' | ⟨_, _, h', _⟩)
      · exact h' h
      · cases h'
  · obtain ⟨d, i⟩ := y
    simp only at hc hik
    subst hc
    have hk : s.kids c = true := hyx
    rcases kinds (c := c) hik with ⟨a, ha⟩ | rfl
    · -- midpoints
      obtain ⟨a0, e0, e1⟩ := ha.vert hi hk
      have hzc := hz.mid hB ha
      -- both sides
      have other : ∀ c' b, MidPl c' b z → s.kids c' = true := by
        intro c' b hm
        have := hz.1
        rcases hm with rfl | rfl <;> exact this
      by_cases hper : perH B.per (side c a) = true
      · have hmid : vert s (child c k) i = .mid (side c a) := by
          rw [show vert s (child c k) i = a0.head from e1]
          rcases hn.mid _ a0 e0 with h | ⟨h, _⟩
          · exact h
          · rw [hper] at h; cases h
        have hmid' : ∀ z, MidPl c a z → vert s z.1 z.2 = .mid (side c a) := by
          intro z hz
          obtain ⟨a0', g1, g2⟩ := hz.vert hi hk
          rw [e0] at g1; cases g1
          rw [g2, ← e1]; exact hmid
        simp only
        rw [hmid]
        by_cases hboth : ∃ t, vt B.T (side c a) = some t ∧ s.kids (owner t).1 = true
        · left
          obtain ⟨t, ht, hkt⟩ := hboth
          have hF := hp.full _ t hper ht (by rw [owner_side]; exact hk) hkt
          rcases hzc with hm | ⟨c', b', hm, hv⟩
          · obtain ⟨b, hb⟩ := hm.cell
            rw [hmid' z hm, hb]
            exact (hF _ (.inl rfl) b).1
          · rw [ht] at hv
            cases hv
            obtain ⟨b, hb⟩ := hm.cell
            obtain ⟨b0, g1, g2⟩ := hm.vert hi (other c' b' hm)
            have : vert s z.1 z.2 = .mid (side c' b') := by
              rw [g2]
              rcases hn.mid _ b0 g1 with h | ⟨h, _⟩
              · exact h
              · rw [perH_twin hB _ _ ht, hper] at h; cases h
            rw [this, hb]
            exact (hF _ (.inl rfl) b).2
        · right
          refine ⟨nil _ ?_, ?_⟩
          · rintro (h | ⟨h, t, h1, _, h3, _, h5⟩)
            · obtain ⟨m, hm⟩ := initPairs_root _ h
              cases hm
            · cases h1
              exact hboth ⟨t, h3, h5⟩
          · rcases hzc with hm | ⟨c', b', hm, hv⟩
            · exact hmid' z hm
            · exact absurd ⟨_, hv, by rw [owner_side]; exact other c' b' hm⟩ hboth
      · right
        have hper : perH B.per (side c a) = false := by simpa using hper
        refine ⟨nil _ ?_, ?_⟩
        · rw [show vert s (child c k, i).1 (child c k, i).2 = a0.head from e1]
          rintro (h | ⟨h, t, h1, h2, _⟩)
          · obtain ⟨m, hm⟩ := initPairs_root _ h
            rcases hn.mid _ a0 e0 with h | ⟨_, t, _, h⟩
            · rw [h] at hm; cases hm
            · rw [h] at hm; cases hm
          · rcases hn.mid _ a0 e0 with h' | ⟨_, t', g1, h'⟩
            · rw [h'] at h1; cases h1
              rw [hper] at h2; cases h2
            · rw [h'] at h1; cases h1
              rw [perH_twin hB _ _ g1, hper] at h2; cases h2
        · rcases hzc with hm | ⟨c', b', hm, hv⟩
          · obtain ⟨a0', g1, g2⟩ := hm.vert hi hk
            rw [e0] at g1; cases g1
            rw [g2, ← e1]
          · have hkc := other c' b' hm
            obtain ⟨b0, g1, g2⟩ := hm.vert hi hkc
            obtain ⟨b1, hb1⟩ := Option.isSome_iff_exists.1 ((kids_owner_kid hi (side c' b') true).2 (by rw [owner_side]; exact hkc))
            obtain ⟨q, hq⟩ := Option.isSome_iff_exists.1 (hi.hinv.par (side c' b') false (by rw [g1]; rfl))
            obtain ⟨_, f2, _⟩ := hi.hinv.ends _ q b0 b1 hq g1 hb1
            have htw : a0.twin = some (.kid (side c' b') true) :=
              (hi.hinv.tw _ a0 e0 _).2 ⟨by simp [vt, hv], by rw [hb1]; rfl⟩
            have := ((hi.hinv.swap _ a0 _ b1 e0 htw hb1).2 ((hn.per _ a0 e0).trans hper)).2
            rw [g2, e1, f2, this]
    · -- the center
      obtain ⟨k', rfl⟩ := hz.cen hB
      right
      simp only
      rw [cen_vert hi hn hk, cen_vert hi hn hk]
      refine ⟨nil _ ?_, rfl⟩
      rintro (h | ⟨_, _, h, _⟩)
      · obtain ⟨m, hm⟩ := initPairs_root _ h
        cases hm
      · cases h

theorem fwd_ne {x : CN × Fin 4} {t : HN} (hx : CEx B.n s.kids x.1) (ht : vt B.T (side x.1 (x.2 + 3)) = some t)
    (hc : CEx B.n s.kids (owner t).1) : fwd B s x ≠ none := by
  have := (fwd_iff (B := B) (s := s) x (owner t)).2 ⟨hx, hc, by rw [side_owner]; exact ht⟩
  rw [this]; simp

/-- Around a point: one vertex, or the cells close up, or the corner is the first or the last. -/
theorem turn (hB : B.WF) (hO : PerOk B) (hs : MReach B s) {y : CN × Fin 4} (hy : TopPl y) (hyx : CEx B.n s.kids y.1) :
    (∀ z, Co B s y z → vert s z.1 z.2 = vert s y.1 y.2) ∨ (∀ z, Co B s y z → fwd B s z ≠ none) ∨ fwd B s y = none ∨
      bwd B s y = none := by
  have hi := hs.inv hB
  have hn := reach_ninv hB hs
  rcases hy with hy | ⟨c, k, hc, hik⟩
  · obtain ⟨⟨f, p⟩, i⟩ := y
    simp only at hy
    subst hy
    have vr : ∀ (f : Nat) (i : Fin 4), CEx B.n s.kids (f, []) → vert s (f, []) i = .root (B.b (4 * f + i)) := by
      intro f i hf
      obtain ⟨r, e1, e2, _⟩ := vert_eq hi hf i
      rw [e2]
      exact (root_verts hB hs _ r e1).1
    have zz : ∀ z : CN × Fin 4, Co B s ((f, []), i) z → ∃ g < B.n, ∃ j, z = ((g, []), j) ∧
        SamePt B (f, E i (0 : ℚ)) (g, E j 0) := by
      rintro ⟨⟨g, q⟩, j⟩ ⟨h1, h2, h3⟩
      have hq : q = [] := by
        simp only [level, List.length_nil] at h2
        exact List.eq_nil_of_length_eq_zero h2
      subst hq
      exact ⟨g, h1, j, rfl, cls_iff.1 h3⟩
    rcases hO.turn f hyx i with h | h | h | h
    · left
      intro z hz
      obtain ⟨g, hg, j, rfl, h3⟩ := zz z hz
      simp only
      rw [vr g j hg, vr f i hyx, h g hg j h3]
    · right; left
      intro z hz
      obtain ⟨g, hg, j, rfl, h3⟩ := zz z hz
      obtain ⟨t, ht⟩ := Option.ne_none_iff_exists'.1 (h g hg j h3)
      refine fwd_ne (t := .root t) hg ?_ ?_
      · simp only [side, sideL, vt]
        rw [ht]; rfl
      · have := hB.lt _ t ht
        show t / 4 < B.n
        omega
    · right; right; left
      rw [Option.eq_none_iff_forall_ne_some]
      intro z hz
      have := ((fwd_iff _ z).1 hz).2.2
      simp only [side, sideL, vt] at this
      rw [h] at this
      cases this
    · right; right; right
      rw [Option.eq_none_iff_forall_ne_some]
      intro z hz
      have := ((bwd_iff _ z).1 hz).2.2
      simp only [side, sideL, vt] at this
      rw [h] at this
      cases this
  · obtain ⟨d, i⟩ := y
    simp only at hc hik
    subst hc
    have hk : s.kids c = true := hyx
    rcases kinds (c := c) hik with ⟨a, ha⟩ | rfl
    · have e3 : ∀ (c : CN) (a : Fin 4), side (child c (a + 1)) a = .kid (side c a) true := by
        intro c a
        have := side_k3 c (a + 1)
        rwa [fin4_h, fin4_succ_pred] at this
      by_cases hboth : ∃ t, vt B.T (side c a) = some t ∧ s.kids (owner t).1 = true
      · right; left
        obtain ⟨t, ht, hkt⟩ := hboth
        -- the corners at a midpoint with refined cells on both sides
        have key : ∀ c' b t', s.kids c' = true → vt B.T (side c' b) = some t' → s.kids (owner t').1 = true →
            ∀ z, MidPl c' b z → fwd B s z ≠ none := by
          intro c' b t' hk1 hv hk2 z hz
          have hx : ∀ k, CEx B.n s.kids (child c' k) := fun k => hk1
          rcases hz with rfl | rfl
          · refine fwd_ne (t := .kid t' true) (hx _) ?_ hk2
            simp only [fin4_h, side_k, vt, hv]; rfl
          · refine fwd_ne (t := .inner c' b false) (hx _) ?_ hk1
            have e2 := side_k2 c' (b + 1)
            rw [fin4_succ_pred, fin4_g] at e2
            simp only [e2, vt]
            rfl
        intro z hz
        rcases hz.mid hB ha with hm | ⟨c', b', hm, hv⟩
        · exact key c a t hk ht hkt z hm
        · have hkc : s.kids c' = true := by
            have := hz.1
            rcases hm with rfl | rfl <;> exact this
          exact key c' b' _ hkc (vt_inv hB.inv _ _ hv) (by rw [owner_side]; exact hk) z hm
      · right; right
        rcases ha with h | h
        · left
          rw [h, Option.eq_none_iff_forall_ne_some]
          intro z hz
          obtain ⟨_, h1, h2⟩ := (fwd_iff _ z).1 hz
          simp only [fin4_h, side_k, vt, Option.map_eq_some_iff] at h2
          obtain ⟨t, g1, g2⟩ := h2
          refine hboth ⟨t, g1, ?_⟩
          have : z = owner (.kid t true) := by rw [show HN.kid t true = side z.1 z.2 from g2, owner_side]
          rw [this] at h1
          exact h1
        · right
          rw [h, Option.eq_none_iff_forall_ne_some]
          intro z hz
          obtain ⟨_, h1, h2⟩ := (bwd_iff _ z).1 hz
          simp only [e3, vt, Option.map_eq_some_iff] at h2
          obtain ⟨t, g1, g2⟩ := h2
          refine hboth ⟨t, g1, ?_⟩
          have : z.1 = (owner (.kid t false)).1 := by rw [show HN.kid t false = side z.1 (z.2 + 3) from g2, owner_side]
          rw [this] at h1
          exact h1
    · left
      intro z hz
      obtain ⟨k', rfl⟩ := hz.cen hB
      simp only
      rw [cen_vert hi hn hk, cen_vert hi hn hk]

end

end Verif.Per
