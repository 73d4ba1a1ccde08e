import Verif.Dof.Model

/-!
# The vertices of a cell are distinct

If the four vertices of every initial cell are distinct and no half-edge is periodic, then the
four vertices of every cell of every refined mesh are distinct.
-/

namespace Verif.Dof
open Verif.Geom Verif.Quad Verif.Mesh

/-- The level of the cells whose creation creates the vertex. -/
def vlev : VN → Nat
  | .root _ => 0
  | .mid h => level (owner h).1 + 1
  | .center c => level c + 1

section
set_option linter.unusedSectionVars false
variable {K : Type} [Field K]

/-- The periodic half-edges, given the periodic half-edges of the initial mesh. -/
def perH (P : Nat → Bool) : HN → Bool
  | .root k => P k
  | .kid h _ => perH P h
  | .inner _ _ _ => false

/-- Names of the vertices. -/
structure NInv (T : Nat → Option Nat) (P : Nat → Bool) (s : St K) : Prop where
  lev : ∀ h r, s.he h = some r → vlev r.base ≤ level (owner h).1 ∧ vlev r.head ≤ level (owner h).1
  mid : ∀ h a, s.he (.kid h false) = some a →
    a.head = .mid h ∨ perH P h = false ∧ ∃ t, vt T h = some t ∧ a.head = .mid t
  tw : ∀ h r t, s.he h = some r → r.twin = some t → vt T h = some t
  cen : ∀ c i r, s.he (.inner c i false) = some r → r.head = .center c
  per : ∀ h r, s.he h = some r → r.per = perH P h

theorem heSplit_ninv {T P} (hT : ∀ k j, T k = some j → T j = some k) {s s' : St K} (hn : NInv T P s) {h : HN}
    (hs : heSplit s h = .ok s') : NInv T P s' := by
  unfold heSplit at hs
  rcases hr : s.he h with _ | r
  · rw [hr] at hs; cases hs
  rw [hr] at hs
  simp only at hs
  obtain ⟨lb, lh⟩ := hn.lev h r hr
  have hp := hn.per h r hr
  rcases htk : twinKids s r with _ | ⟨t, t0, t1⟩
  · rw [htk] at hs
    simp only at hs
    cases hs
    have hcase : ∀ x q, (if x = h then some { r with kids := true }
          else if x = .kid h false then some ⟨r.base, .mid h, none, none, false, r.per⟩
          else if x = .kid h true then some ⟨.mid h, r.head, none, none, false, r.per⟩
          else s.he x) = some q → (∃ q0, s.he x = some q0 ∧ q.base = q0.base ∧ q.head = q0.head ∧ q.twin = q0.twin ∧
            q.per = q0.per) ∨ x = .kid h false ∧ q = ⟨r.base, .mid h, none, none, false, r.per⟩ ∨
            x = .kid h true ∧ q = ⟨.mid h, r.head, none, none, false, r.per⟩ := by
      intro x q hq
      split_ifs at hq with h1 h2 h3
      · cases hq; left; exact ⟨r, h1 ▸ hr, rfl, rfl, rfl, rfl⟩
      · cases hq; right; left; exact ⟨h2, rfl⟩
      · cases hq; right; right; exact ⟨h3, rfl⟩
      · left; exact ⟨q, hq, rfl, rfl, rfl, rfl⟩
    refine ⟨?_, ?_, ?_, ?_, ?_⟩
    · intro x q hq
      rcases hcase x q hq with ⟨q0, h0, e1, e2, _⟩ | ⟨rfl, rfl⟩ | ⟨rfl, rfl⟩
      · rw [e1, e2]; exact hn.lev x q0 h0
      · rw [level_kid]; exact ⟨by simp only; omega, le_refl _⟩
      · rw [level_kid]; exact ⟨le_refl _, by simp only; omega⟩
    · intro x q hq
      rcases hcase _ q hq with ⟨q0, h0, e1, e2, _⟩ | ⟨h1, rfl⟩ | ⟨h1, _⟩
      · rw [e2]; exact hn.mid x q0 h0
      · cases h1; exact .inl rfl
      · cases h1
    · intro x q t hq ht
      rcases hcase x q hq with ⟨q0, h0, _, _, e3, _⟩ | ⟨_, rfl⟩ | ⟨_, rfl⟩
      · exact hn.tw x q0 t h0 (e3 ▸ ht)
      · cases ht
      · cases ht
    · intro c i q hq
      rcases hcase _ q hq with ⟨q0, h0, _, e2, _⟩ | ⟨h1, _⟩ | ⟨h1, _⟩
      · rw [e2]; exact hn.cen c i q0 h0
      · cases h1
      · cases h1
    · intro x q hq
      rcases hcase x q hq with ⟨q0, h0, _, _, _, e4⟩ | ⟨rfl, rfl⟩ | ⟨rfl, rfl⟩
      · rw [e4]; exact hn.per x q0 h0
      · exact hp
      · exact hp
  · rw [htk] at hs
    simp only at hs
    generalize hvm : (if r.per then VN.mid h else t0.head) = vm at hs
    generalize (if r.per = true then Function.update s.vx (.mid h) (midpt (s.vx r.base) (s.vx r.head)) else s.vx) = vx at hs
    split_ifs at hs with hass
    cases hs
    -- the twin
    have htw : r.twin = some t ∧ s.he (.kid t false) = some t0 ∧ s.he (.kid t true) = some t1 := by
      unfold twinKids at htk
      split at htk
      · cases htk
      · rename_i t' ht'
        split at htk
        · rename_i rt a b h1 h2 h3
          split_ifs at htk with hk
          simp only [Option.some.injEq, Prod.mk.injEq] at htk
          obtain ⟨rfl, rfl, rfl⟩ := htk
          exact ⟨ht', h2, h3⟩
        · cases htk
    obtain ⟨g1, g2, g3⟩ := htw
    have hvt := hn.tw h r t hr g1
    have hvt' := vt_inv hT h t hvt
    have hmid : vm = .mid h ∨ perH P h = false ∧ ∃ t, vt T h = some t ∧ vm = .mid t := by
      rw [← hvm, ← hp]
      by_cases hper : r.per = true
      · rw [if_pos hper]; exact .inl rfl
      · rw [if_neg hper]
        rcases hn.mid t t0 g2 with e | ⟨_, t', e1, e2⟩
        · exact .inr ⟨by simpa using hper, t, hvt, e⟩
        · rw [hvt'] at e1; cases e1; exact .inl e2
    have hlv : vlev vm = level (owner h).1 + 1 := by
      rcases hmid with e | ⟨_, t', e1, e2⟩
      · rw [e, vlev]
      · rw [e2, vlev, vt_level h t' e1]
    have hcase : ∀ x q, (if x = h then some { r with kids := true }
          else if x = .kid h false then some ⟨r.base, vm, some (.kid t true), none, false, r.per⟩
          else if x = .kid h true then some ⟨vm, r.head, some (.kid t false), none, false, r.per⟩
          else if x = .kid t false then some { t0 with twin := some (.kid h true) }
          else if x = .kid t true then some { t1 with twin := some (.kid h false) }
          else s.he x) = some q → (∃ q0, s.he x = some q0 ∧ q.base = q0.base ∧ q.head = q0.head ∧
            (q.twin = q0.twin ∨ ∃ b, x = .kid t b ∧ q.twin = some (.kid h (!b))) ∧
            q.per = q0.per) ∨ x = .kid h false ∧ q = ⟨r.base, vm, some (.kid t true), none, false, r.per⟩ ∨
            x = .kid h true ∧ q = ⟨vm, r.head, some (.kid t false), none, false, r.per⟩ := by
      intro x q hq
      split_ifs at hq with h1 h2 h3 h4 h5
      · cases hq; left; exact ⟨r, h1 ▸ hr, rfl, rfl, .inl rfl, rfl⟩
      · cases hq; right; left; exact ⟨h2, rfl⟩
      · cases hq; right; right; exact ⟨h3, rfl⟩
      · cases hq; left; exact ⟨t0, h4 ▸ g2, rfl, rfl, .inr ⟨false, h4, rfl⟩, rfl⟩
      · cases hq; left; exact ⟨t1, h5 ▸ g3, rfl, rfl, .inr ⟨true, h5, rfl⟩, rfl⟩
      · left; exact ⟨q, hq, rfl, rfl, .inl rfl, rfl⟩
    refine ⟨?_, ?_, ?_, ?_, ?_⟩
    · intro x q hq
      rcases hcase x q hq with ⟨q0, h0, e1, e2, _⟩ | ⟨rfl, rfl⟩ | ⟨rfl, rfl⟩
      · rw [e1, e2]; exact hn.lev x q0 h0
      · rw [level_kid]; exact ⟨by simp only; omega, by simp only; omega⟩
      · rw [level_kid]; exact ⟨by simp only; omega, by simp only; omega⟩
    · intro x q hq
      rcases hcase _ q hq with ⟨q0, h0, e1, e2, _⟩ | ⟨h1, rfl⟩ | ⟨h1, _⟩
      · rw [e2]; exact hn.mid x q0 h0
      · cases h1
        exact hmid
      · cases h1
    · intro x q t' hq ht
      rcases hcase x q hq with ⟨q0, h0, _, _, e3 | ⟨b, rfl, e3⟩, _⟩ | ⟨rfl, rfl⟩ | ⟨rfl, rfl⟩
      · exact hn.tw x q0 t' h0 (e3 ▸ ht)
      · rw [e3] at ht; cases ht; simp [vt, hvt']
      · cases ht; simp [vt, hvt]
      · cases ht; simp [vt, hvt]
    · intro c i q hq
      rcases hcase _ q hq with ⟨q0, h0, _, e2, _⟩ | ⟨h1, _⟩ | ⟨h1, _⟩
      · rw [e2]; exact hn.cen c i q0 h0
      · cases h1
      · cases h1
    · intro x q hq
      rcases hcase x q hq with ⟨q0, h0, _, _, _, e4⟩ | ⟨rfl, rfl⟩ | ⟨rfl, rfl⟩
      · rw [e4]; exact hn.per x q0 h0
      · exact hp
      · exact hp

theorem addInner_ninv {T P} {s : St K} (hn : NInv T P s) (c : CN) (i : Fin 4) (v : VN) (hv : vlev v ≤ level c + 1) :
    NInv T P (addInner s c i v) := by
  have hcase : ∀ x q, (addInner s c i v).he x = some q → s.he x = some q ∨
      x = .inner c i false ∧ q = ⟨v, .center c, some (.inner c i true), none, false, false⟩ ∨
      x = .inner c i true ∧ q = ⟨.center c, v, some (.inner c i false), none, false, false⟩ := by
    intro x q hq
    simp only [addInner] at hq
    split_ifs at hq with h1 h2
    · cases hq; exact .inr (.inl ⟨h1, rfl⟩)
    · cases hq; exact .inr (.inr ⟨h2, rfl⟩)
    · exact .inl hq
  have ho : ∀ d, level (owner (.inner c i d)).1 = level c + 1 := by intro d; cases d <;> rfl
  refine ⟨?_, ?_, ?_, ?_, ?_⟩
  · intro x q hq
    rcases hcase x q hq with h | ⟨rfl, rfl⟩ | ⟨rfl, rfl⟩
    · exact hn.lev x q h
    · rw [ho]; exact ⟨hv, le_refl _⟩
    · rw [ho]; exact ⟨le_refl _, hv⟩
  · intro x q hq
    rcases hcase _ q hq with h | ⟨h, _⟩ | ⟨h, _⟩
    · exact hn.mid x q h
    · cases h
    · cases h
  · intro x q t hq ht
    rcases hcase x q hq with h | ⟨rfl, rfl⟩ | ⟨rfl, rfl⟩
    · exact hn.tw x q t h ht
    · cases ht; rfl
    · cases ht; rfl
  · intro c' i' q hq
    rcases hcase _ q hq with h | ⟨h, rfl⟩ | ⟨h, _⟩
    · exact hn.cen c' i' q h
    · cases h; rfl
    · cases h
  · intro x q hq
    rcases hcase x q hq with h | ⟨rfl, rfl⟩ | ⟨rfl, rfl⟩
    · exact hn.per x q h
    · rfl
    · rfl

/-- A loop keeps what every round keeps. -/
theorem forEach_inv {σ α : Type} {f : σ → α → Except Err σ} {I : σ → Prop}
    (h : ∀ s s' a, I s → f s a = .ok s' → I s') : ∀ (l : List α) (s s' : σ), I s → forEach f l s = .ok s' → I s'
  | [], s, s', hi, e => by cases e; exact hi
  | a :: l, s, s', hi, e => by
    unfold forEach at e
    rcases ha : f s a with _ | s1
    · rw [ha] at e; cases e
    · rw [ha] at e
      exact forEach_inv h l s1 s' (h s s1 a hi ha) e

theorem cellSplit_ninv {B : Base K} (hB : B.WF) {s s' : St K} (hi : CInv B s) (hn : NInv B.T B.per s) {c : CN}
    (hc : CEx B.n s.kids c) {sf : Bool} (hs : cellSplit sf s c = .ok s') : NInv B.T B.per s' := by
  unfold cellSplit at hs
  split_ifs at hs with hk
  generalize hs0 : ({ s with vx := Function.update s.vx (.center c) (centerPt s c) } : St K) = s0 at hs
  have hn0 : NInv B.T B.per s0 ∧ s0.sides = s.sides := by
    rw [← hs0]; exact ⟨⟨hn.lev, hn.mid, hn.tw, hn.cen, hn.per⟩, rfl⟩
  rcases h1 : forEach (splitSide c) four s0 with _ | s1
  · rw [h1] at hs; cases hs
  rw [h1] at hs
  simp only at hs
  rcases h2 : forEach (fun s2 k => newCell s2 (child c k) (childSides s2 c k)) four s1 with _ | s2
  · rw [h2] at hs; cases hs
  rw [h2] at hs
  cases hs
  have i1 : NInv B.T B.per s1 ∧ s1.sides = s.sides := by
    refine forEach_inv (I := fun x => NInv B.T B.per x ∧ x.sides = s.sides) ?_ _ _ _ hn0 h1
    rintro a b i ⟨ha, hsd⟩ hab
    unfold splitSide at hab
    rcases hr : a.he (a.sides c i) with _ | r
    · rw [hr] at hab; cases hab
    rw [hr] at hab
    simp only at hab
    have hstep : ∀ a1, (if r.kids then .ok a else heSplit a (a.sides c i)) = Except.ok a1 →
        NInv B.T B.per a1 ∧ a1.sides = s.sides := by
      intro a1 h
      split_ifs at h
      · cases h; exact ⟨ha, hsd⟩
      · refine ⟨heSplit_ninv hB.inv ha h, ?_⟩
        rw [← hsd]
        unfold heSplit at h
        rw [hr] at h
        simp only at h
        rcases htk : twinKids a r with _ | ⟨t, t0, t1⟩
        · rw [htk] at h; cases h; rfl
        · rw [htk] at h
          simp only at h
          split_ifs at h <;> · cases h; rfl
    rcases h3 : (if r.kids then .ok a else heSplit a (a.sides c i)) with _ | a1
    · rw [h3] at hab; cases hab
    rw [h3] at hab
    simp only at hab
    obtain ⟨j1, j2⟩ := hstep a1 h3
    rcases h4 : a1.he (.kid (a.sides c i) false) with _ | q
    · rw [h4] at hab; cases hab
    rw [h4] at hab
    cases hab
    refine ⟨addInner_ninv j1 c i q.head ?_, j2⟩
    have := (j1.lev _ q h4).2
    rwa [level_kid, hsd, hi.sides c hc, owner_side] at this
  have i2 : NInv B.T B.per s2 := by
    refine forEach_inv (I := fun x => NInv B.T B.per x) ?_ _ _ _ i1.1 h2
    intro a b k ha hab
    unfold newCell at hab
    split at hab
    · split_ifs at hab
      cases hab
      have hcase : ∀ x q, (if ∃ i, x = childSides a c k i then (a.he x).map (fun r => { r with cell := some (child c k) })
          else a.he x) = some q → ∃ q0, a.he x = some q0 ∧ q.base = q0.base ∧ q.head = q0.head ∧ q.twin = q0.twin ∧
            q.per = q0.per := by
        intro x q hq
        split_ifs at hq
        · obtain ⟨q0, h0, rfl⟩ := Option.map_eq_some_iff.1 hq
          exact ⟨q0, h0, rfl, rfl, rfl, rfl⟩
        · exact ⟨q, hq, rfl, rfl, rfl, rfl⟩
      refine ⟨?_, ?_, ?_, ?_, ?_⟩
      · intro x q hq
        obtain ⟨q0, h0, e1, e2, e3, e4⟩ := hcase x q hq
        rw [e1, e2]; exact ha.lev x q0 h0
      · intro x q hq
        obtain ⟨q0, h0, e1, e2, e3, e4⟩ := hcase _ q hq
        rw [e2]; exact ha.mid x q0 h0
      · intro x q t hq ht
        obtain ⟨q0, h0, e1, e2, e3, e4⟩ := hcase x q hq
        exact ha.tw x q0 t h0 (e3 ▸ ht)
      · intro c' i' q hq
        obtain ⟨q0, h0, e1, e2, e3, e4⟩ := hcase _ q hq
        rw [e2]; exact ha.cen c' i' q0 h0
      · intro x q hq
        obtain ⟨q0, h0, e1, e2, e3, e4⟩ := hcase x q hq
        rw [e4]; exact ha.per x q0 h0
    · cases hab
  exact ⟨i2.lev, i2.mid, i2.tw, i2.cen, i2.per⟩

/-- What the theorems about dofs assume of the initial mesh: no periodic half-edges, and the four vertices of
every cell are distinct. -/
structure Plain (B : Base K) : Prop where
  per : ∀ k < 4 * B.n, B.per k = false
  vert : ∀ f < B.n, ∀ i j : Fin 4, B.b (4 * f + i) = B.b (4 * f + j) → i = j

theorem init_ninv (B : Base K) : NInv B.T B.per (init B) := by
  have hroot : ∀ x q, (init B).he x = some q → ∃ k, x = .root k ∧ k < 4 * B.n ∧
      q = ⟨.root (B.b k), .root (B.hd k), (B.T k).map .root, some (k / 4, []), false, B.per k⟩ := by
    intro x q hq
    cases x with
    | root k =>
      rw [init_he] at hq
      split_ifs at hq with hk
      exact ⟨k, rfl, hk, by cases hq; rfl⟩
    | kid h b => cases hq
    | inner c i d => cases hq
  refine ⟨?_, ?_, ?_, ?_, ?_⟩
  · intro x q hq
    obtain ⟨k, rfl, hk, rfl⟩ := hroot x q hq
    simp [vlev]
  · intro x q hq
    cases hq
  · intro x q t hq ht
    obtain ⟨k, rfl, hk, rfl⟩ := hroot x q hq
    exact ht
  · intro c i q hq
    cases hq
  · intro x q hq
    obtain ⟨k, rfl, hk, rfl⟩ := hroot x q hq
    rfl

theorem reach_ninv {B : Base K} (hB : B.WF) {s : St K} (h : MReach B s) : NInv B.T B.per s := by
  induction h with
  | init => exact init_ninv B
  | split s s' c sf hr hc hk hs ih =>
    have hi := hr.inv hB
    exact cellSplit_ninv hB hi ih ((hi.mem c).1 hc) hs
  | mark s m _ ih => exact ⟨ih.lev, ih.mid, ih.tw, ih.cen, ih.per⟩

theorem perH_plain {B : Base K} (hB : B.WF) (hP : Plain B) : ∀ h, perH B.per h = false
  | .root k => by
    by_cases hk : k < 4 * B.n
    · exact hP.per k hk
    · show B.per k = false
      unfold Base.per
      rcases hT : B.T k with _ | j
      · rfl
      · exact absurd (hB.lt j k (hB.inv k j hT)) hk
  | .kid h _ => perH_plain hB hP h
  | .inner _ _ _ => rfl

/-! ### Distinct vertices -/

theorem side_ex {B : Base K} {s : St K} (hi : CInv B s) {c : CN} (hc : CEx B.n s.kids c) (i : Fin 4) :
    ∃ r, s.he (side c i) = some r :=
  Option.isSome_iff_exists.1 (by rw [hi.ex, owner_side]; exact hc)

theorem fin4_d (k : Fin 4) : k + 1 + 1 = k + 2 := by revert k; decide
theorem fin4_e (k : Fin 4) : k ≠ k - 1 := by revert k; decide
theorem fin4_f (k : Fin 4) : k - 1 ≠ k + 1 := by revert k; decide

theorem fin4_succ_pred (i : Fin 4) : i + 1 - 1 = i := by revert i; decide

/-- The root half-edges keep their vertices. -/
theorem root_verts {B : Base K} (hB : B.WF) {s : St K} (h : MReach B s) (k : Nat) (r : HERec)
    (hr : s.he (.root k) = some r) : r.base = .root (B.b k) ∧ r.head = .root (B.hd k) := by
  have key : ∀ {s : St K}, MReach B s → ∀ k r, s.he (.root k) = some r → r.base = .root (B.b k) ∧
      r.head = .root (B.hd k) := by
    intro s h
    induction h with
    | init =>
      intro k r hr
      rw [init_he] at hr
      split_ifs at hr
      cases hr
      exact ⟨rfl, rfl⟩
    | split s s' c sf hr hc hk hs ih =>
      -- every part of `split` keeps base and head of the root half-edges
      unfold cellSplit at hs
      rw [hk] at hs
      simp only [Bool.false_eq_true, if_false] at hs
      generalize hs0 : ({ s with vx := Function.update s.vx (.center c) (centerPt s c) } : St K) = s0 at hs
      rcases h1 : forEach (splitSide c) four s0 with _ | s1
      · rw [h1] at hs; cases hs
      rw [h1] at hs
      simp only at hs
      rcases h2 : forEach (fun s2 k => newCell s2 (child c k) (childSides s2 c k)) four s1 with _ | s2
      · rw [h2] at hs; cases hs
      rw [h2] at hs
      cases hs
      let I : St K → Prop := fun x => ∀ k r, x.he (.root k) = some r → r.base = .root (B.b k) ∧ r.head = .root (B.hd k)
      have i0 : I s0 := by rw [← hs0]; exact ih
      have i1 : I s1 := by
        refine forEach_inv (I := I) ?_ _ _ _ i0 h1
        intro a b i ha hab
        unfold splitSide at hab
        rcases hr : a.he (a.sides c i) with _ | r
        · rw [hr] at hab; cases hab
        rw [hr] at hab
        simp only at hab
        have hstep : ∀ a1, (if r.kids then .ok a else heSplit a (a.sides c i)) = Except.ok a1 → I a1 := by
          intro a1 h
          split_ifs at h
          · cases h; exact ha
          · unfold heSplit at h
            rw [hr] at h
            simp only at h
            intro k q hq
            rcases htk : twinKids a r with _ | ⟨t, t0, t1⟩
            · rw [htk] at h
              cases h
              simp only [reduceCtorEq, if_false] at hq
              split_ifs at hq with h5
              · cases hq; exact ha k r (h5 ▸ hr)
              · exact ha k q hq
            · rw [htk] at h
              simp only at h
              split_ifs at h <;>
              · cases h
                simp only [reduceCtorEq, if_false] at hq
                split_ifs at hq with h5
                · cases hq; exact ha k r (h5 ▸ hr)
                · exact ha k q hq
        rcases h3 : (if r.kids then .ok a else heSplit a (a.sides c i)) with _ | a1
        · rw [h3] at hab; cases hab
        rw [h3] at hab
        simp only at hab
        have j1 := hstep a1 h3
        rcases h4 : a1.he (.kid (a.sides c i) false) with _ | q
        · rw [h4] at hab; cases hab
        rw [h4] at hab
        cases hab
        intro k q' hq'
        simp only [addInner, reduceCtorEq, if_false] at hq'
        exact j1 k q' hq'
      have i2 : I s2 := by
        refine forEach_inv (I := I) ?_ _ _ _ i1 h2
        intro a b k ha hab
        unfold newCell at hab
        split at hab
        · split_ifs at hab
          cases hab
          intro j q hq
          simp only at hq
          split_ifs at hq
          · obtain ⟨q0, h0, rfl⟩ := Option.map_eq_some_iff.1 hq
            exact ha j q0 h0
          · exact ha j q hq
        · cases hab
      exact i2
    | mark s m _ ih => exact ih
  exact key h k r hr

/-- The four vertices of a cell are distinct. -/
theorem verts_distinct {B : Base K} (hB : B.WF) (hP : Plain B) {s : St K} (h : MReach B s) :
    ∀ (p : List (Fin 4)) (f : Nat), CEx B.n s.kids (f, p) → ∀ i j r q, s.he (side (f, p) i) = some r →
      s.he (side (f, p) j) = some q → r.base = q.base → i = j := by
  have hi := h.inv hB
  have hn := reach_ninv hB h
  intro p
  induction p with
  | nil =>
    intro f hf i j r q hr hq e
    have h1 := (root_verts hB h _ r hr).1
    have h2 := (root_verts hB h _ q hq).1
    rw [h1, h2] at e
    exact hP.vert f hf i j (by injection e)
  | cons k p ih =>
    intro f hf
    have hk : s.kids (f, p) = true := hf
    have hPx : CEx B.n s.kids (f, p) := hi.pref _ hk
    have hch : ((f, k :: p) : CN) = child (f, p) k := rfl
    rw [hch]
    rw [hch] at hf
    have ihP := ih f hPx
    generalize hPP : ((f, p) : CN) = P at *
    clear ih
    -- the four vertices
    obtain ⟨rk, hrk⟩ := side_ex hi hPx k
    obtain ⟨rk', hrk'⟩ := side_ex hi hPx (k - 1)
    obtain ⟨a0, ha0⟩ := side_ex hi hf k
    obtain ⟨a1, ha1⟩ := side_ex hi hf (k + 1)
    obtain ⟨a2, ha2⟩ := side_ex hi hf (k + 2)
    obtain ⟨a3, ha3⟩ := side_ex hi hf (k + 3)
    have c01 := hi.chain _ k a0 a1 ha0 ha1
    have c12 := hi.chain _ (k + 1) a1 a2 ha1 (by
      have : k + 1 + 1 = k + 2 := fin4_d k
      rw [this]; exact ha2)
    rw [side_k] at ha0
    rw [side_k1] at ha1
    rw [side_k3] at ha3
    have hkidex : ∀ j b, ∃ a, s.he (.kid (side P j) b) = some a := fun j b =>
      Option.isSome_iff_exists.1 (by rw [kids_owner_kid hi, owner_side]; exact hk)
    obtain ⟨b0, hb0⟩ := hkidex k true
    obtain ⟨b3, hb3⟩ := hkidex (k - 1) false
    have en0 := hi.hinv.ends _ rk a0 b0 hrk ha0 hb0
    have en3 := hi.hinv.ends _ rk' b3 a3 hrk' hb3 ha3
    have v2 : a2.base = .center P := by rw [← c12]; exact hn.cen P k a1 ha1
    have l0 : vlev a0.base ≤ level P := by
      rw [en0.1]
      have := (hn.lev _ rk hrk).1
      rwa [owner_side] at this
    have m1 : a1.base = .mid (side P k) ∨ ∃ t, vt B.T (side P k) = some t ∧ a1.base = .mid t := by
      rw [← c01]; exact (hn.mid _ a0 ha0).imp_right And.right
    have m3 : a3.base = .mid (side P (k - 1)) ∨ ∃ t, vt B.T (side P (k - 1)) = some t ∧ a3.base = .mid t := by
      rw [← en3.2.1]; exact (hn.mid _ b3 hb3).imp_right And.right
    have l1 : vlev a1.base = level P + 1 := by
      rcases m1 with e | ⟨t, e1, e2⟩
      · rw [e, vlev, owner_side]
      · rw [e2, vlev, ← vt_level _ _ e1, owner_side]
    have l3 : vlev a3.base = level P + 1 := by
      rcases m3 with e | ⟨t, e1, e2⟩
      · rw [e, vlev, owner_side]
      · rw [e2, vlev, ← vt_level _ _ e1, owner_side]
    have l2 : vlev a2.base = level P + 1 := by rw [v2, vlev]
    have n02 : a0.base ≠ a2.base := by intro e; rw [e] at l0; omega
    have n01 : a0.base ≠ a1.base := by intro e; rw [e] at l0; omega
    have n03 : a0.base ≠ a3.base := by intro e; rw [e] at l0; omega
    have n12 : a1.base ≠ a2.base := by
      rw [v2]
      rcases m1 with e | ⟨t, _, e⟩ <;> rw [e] <;> simp
    have n32 : a3.base ≠ a2.base := by
      rw [v2]
      rcases m3 with e | ⟨t, _, e⟩ <;> rw [e] <;> simp
    have hkk : k ≠ k - 1 := fin4_e k
    -- two neighbouring sides of a cell do not face each other
    have noself : vt B.T (side P (k - 1)) ≠ some (side P k) := by
      intro e
      have ht : rk'.twin = some (side P k) := (hi.hinv.tw _ rk' hrk' _).2 ⟨e, by rw [hrk]; rfl⟩
      have sw := (hi.hinv.swap _ rk' _ rk hrk' ht hrk).2 ((hn.per _ rk' hrk').trans (perH_plain hB hP _))
      obtain ⟨rn, hrn⟩ := side_ex hi hPx (k + 1)
      have := hi.chain P k rk rn hrk hrn
      have := ihP (k - 1) (k + 1) rk' rn hrk' hrn (by rw [sw.1, this])
      exact fin4_f k this
    have n13 : a1.base ≠ a3.base := by
      intro e
      rcases m1 with e1 | ⟨t, t1, e1⟩ <;> rcases m3 with e3 | ⟨t', t3, e3⟩ <;> rw [e1, e3] at e <;>
        injection e with e
      · exact hkk (side_inj e).2
      · rw [← e] at t3
        exact noself t3
      · rw [e] at t1
        exact noself (vt_inv hB.inv _ _ t1)
      · rw [e] at t1
        have h1 := vt_inv hB.inv _ _ t1
        have h3 := vt_inv hB.inv _ _ t3
        rw [h1] at h3
        injection h3 with h3
        exact hkk (side_inj h3).2
    intro i j r q hr hq e
    have w0 : ∀ i r, s.he (side (child P k) i) = some r → (i = k ∧ r.base = a0.base) ∨ (i = k + 1 ∧ r.base = a1.base) ∨
        (i = k + 2 ∧ r.base = a2.base) ∨ (i = k + 3 ∧ r.base = a3.base) := by
      intro i r hr
      rcases fin4_cases k i with e | e | e | e <;> rw [e] at hr
      · rw [side_k, ha0] at hr; cases hr; exact .inl ⟨e, rfl⟩
      · rw [side_k1, ha1] at hr; cases hr; exact .inr (.inl ⟨e, rfl⟩)
      · rw [ha2] at hr; cases hr; exact .inr (.inr (.inl ⟨e, rfl⟩))
      · rw [side_k3, ha3] at hr; cases hr; exact .inr (.inr (.inr ⟨e, rfl⟩))
    rcases w0 i r hr with ⟨e1, f1⟩ | ⟨e1, f1⟩ | ⟨e1, f1⟩ | ⟨e1, f1⟩ <;>
      rcases w0 j q hq with ⟨e2, f2⟩ | ⟨e2, f2⟩ | ⟨e2, f2⟩ | ⟨e2, f2⟩ <;> rw [f1, f2] at e <;>
      first
      | exact e1.trans e2.symm
      | exact absurd e n01
      | exact absurd e n02
      | exact absurd e n03
      | exact absurd e n12
      | exact absurd e n13
      | exact absurd e n32
      | exact absurd e.symm n01
      | exact absurd e.symm n02
      | exact absurd e.symm n03
      | exact absurd e.symm n12
      | exact absurd e.symm n13
      | exact absurd e.symm n32

end
end Verif.Dof
