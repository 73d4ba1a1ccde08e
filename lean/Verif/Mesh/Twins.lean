import Verif.Mesh.Model
import Mathlib.Tactic.FieldSimp
import Mathlib.Tactic.Ring
import Mathlib.Tactic.Linarith

/-!
# Half-edges and their twins under splitting (C23)
-/

namespace Verif.Mesh
open Verif.Geom Verif.Quad

/-- The half-edge that faces `h` when the mesh is refined often enough: determined by the twins
of the initial mesh. -/
def vt (T : Nat → Option Nat) : HN → Option HN
  | .root k => (T k).map .root
  | .kid h b => (vt T h).map (fun t => .kid t (!b))
  | .inner c i d => some (.inner c i (!d))

theorem vt_inv {T : Nat → Option Nat} (hT : ∀ k j, T k = some j → T j = some k) (h : HN) :
    ∀ t, vt T h = some t → vt T t = some h := by
  induction h with
  | root k =>
    intro t ht
    simp only [vt, Option.map_eq_some_iff] at ht
    obtain ⟨j, hj, rfl⟩ := ht
    simp [vt, hT k j hj]
  | kid h b ih =>
    intro t ht
    simp only [vt, Option.map_eq_some_iff] at ht
    obtain ⟨j, hj, rfl⟩ := ht
    simp [vt, ih j hj]
  | inner c i d =>
    intro t ht
    simp only [vt, Option.some.injEq] at ht
    subst ht
    simp [vt]

theorem vt_irr {T : Nat → Option Nat} (hT : ∀ k j, T k = some j → j ≠ k) (h : HN) : vt T h ≠ some h := by
  induction h with
  | root k =>
    intro ht
    simp only [vt, Option.map_eq_some_iff] at ht
    obtain ⟨j, hj, h⟩ := ht
    exact hT k j hj (by injection h)
  | kid h b ih =>
    intro ht
    simp only [vt, Option.map_eq_some_iff] at ht
    obtain ⟨j, hj, h⟩ := ht
    injection h with h1 h2
    exact ih (h1 ▸ hj)
  | inner c i d =>
    intro ht
    simp [vt] at ht

/-- Number of splits above a half-edge. -/
def sizeOfDepth : HN → Nat
  | .root _ => 0
  | .kid h _ => sizeOfDepth h + 1
  | .inner _ _ _ => 0

theorem vt_depth {T : Nat → Option Nat} (x : HN) :
    ∀ y, vt T x = some y → sizeOfDepth x = sizeOfDepth y := by
  induction x with
  | root k =>
    intro y h
    simp only [vt, Option.map_eq_some_iff] at h
    obtain ⟨j, _, rfl⟩ := h
    rfl
  | kid h b ih =>
    intro y h
    simp only [vt, Option.map_eq_some_iff] at h
    obtain ⟨j, hj, rfl⟩ := h
    simp [sizeOfDepth, ih j hj]
  | inner c i d =>
    intro y h
    simp only [vt, Option.some.injEq] at h
    subst h
    rfl

/-- Twins of the initial mesh are an involution without fixed points. -/
structure TWF (T : Nat → Option Nat) : Prop where
  inv : ∀ k j, T k = some j → T j = some k
  irr : ∀ k j, T k = some j → j ≠ k

section
set_option linter.unusedSectionVars false
variable {K : Type} [Field K]

/-- Invariant of the half-edges. -/
structure HInv (T : Nat → Option Nat) (s : St K) : Prop where
  tw : ∀ h r, s.he h = some r → ∀ t, r.twin = some t ↔ vt T h = some t ∧ (s.he t).isSome
  kids : ∀ h r, s.he h = some r → ∀ b, r.kids = true ↔ (s.he (.kid h b)).isSome
  par : ∀ h b, (s.he (.kid h b)).isSome → (s.he h).isSome
  ends : ∀ h r a b, s.he h = some r → s.he (.kid h false) = some a → s.he (.kid h true) = some b →
    a.base = r.base ∧ a.head = b.base ∧ b.head = r.head ∧ a.per = r.per ∧ b.per = r.per
  swap : ∀ h r t q, s.he h = some r → r.twin = some t → s.he t = some q →
    r.per = q.per ∧ (r.per = false → r.base = q.head ∧ r.head = q.base)

theorem kid_ne (h : HN) (b : Bool) : HN.kid h b ≠ h := by
  intro e
  have := congrArg sizeOf e
  simp only [HN.kid.sizeOf_spec] at this
  omega

theorem twinKids_some {T} {s : St K} (hi : HInv T s) {h : HN} {r : HERec} (hr : s.he h = some r)
    {t t0 t1} (e : twinKids s r = some (t, t0, t1)) :
    r.twin = some t ∧ vt T h = some t ∧ s.he (.kid t false) = some t0 ∧ s.he (.kid t true) = some t1 ∧
    ∃ rt, s.he t = some rt ∧ rt.kids = true := by
  unfold twinKids at e
  split at e
  · cases e
  · rename_i t' ht'
    split at e
    · rename_i rt a b h1 h2 h3
      split_ifs at e with hk
      simp only [Option.some.injEq, Prod.mk.injEq] at e
      obtain ⟨rfl, rfl, rfl⟩ := e
      exact ⟨ht', ((hi.tw h r hr _).1 ht').1, h2, h3, rt, h1, hk⟩
    · cases e

theorem twinKids_none {T} {s : St K} (hi : HInv T s) {h : HN} {r : HERec}
    (hr : s.he h = some r) (e : twinKids s r = none) {t} (ht : vt T h = some t) (b : Bool) :
    s.he (.kid t b) = none := by
  by_contra hne
  have hk : (s.he (.kid t b)).isSome := Option.isSome_iff_ne_none.2 hne
  have h1 := hi.par t b hk
  obtain ⟨rt, hrt⟩ := Option.isSome_iff_exists.1 h1
  have h2 : r.twin = some t := (hi.tw h r hr t).2 ⟨ht, h1⟩
  have h3 : rt.kids = true := (hi.kids t rt hrt b).2 hk
  obtain ⟨a, ha⟩ := Option.isSome_iff_exists.1 ((hi.kids t rt hrt false).1 h3)
  obtain ⟨a', ha'⟩ := Option.isSome_iff_exists.1 ((hi.kids t rt hrt true).1 h3)
  unfold twinKids at e
  simp only [h2, hrt, ha, ha', h3] at e
  simp at e

/-- What `heSplit` does to the half-edges: `h` gets two children, which join at `vm`; the other
half-edges keep everything but possibly their twin. -/
structure SplitEff (s s' : St K) (h : HN) (r : HERec) : Prop where
  own : s'.he h = some { r with kids := true }
  kids : ∃ vm tw0 tw1, s'.he (.kid h false) = some ⟨r.base, vm, tw0, none, false, r.per⟩ ∧
    s'.he (.kid h true) = some ⟨vm, r.head, tw1, none, false, r.per⟩
  rest : ∀ x, x ≠ h → (∀ b, x ≠ .kid h b) →
    (s'.he x = s.he x ∨ ∃ q tw, s.he x = some q ∧ s'.he x = some { q with twin := tw })
  same : s'.cells = s.cells ∧ s'.sides = s.sides ∧ s'.kids = s.kids ∧ s'.mkd = s.mkd

theorem SplitEff.rec_of {s s' : St K} {h : HN} {r : HERec} (e : SplitEff s s' h r) {x : HN}
    (hx : x ≠ h) (hk : ∀ b, x ≠ .kid h b) {q' : HERec} (hq : s'.he x = some q') :
    ∃ q, s.he x = some q ∧ q'.base = q.base ∧ q'.head = q.head ∧ q'.kids = q.kids ∧ q'.per = q.per ∧
      q'.cell = q.cell := by
  rcases e.rest x hx hk with h1 | ⟨q, tw, h1, h2⟩
  · exact ⟨q', h1 ▸ hq, rfl, rfl, rfl, rfl, rfl⟩
  · rw [h2] at hq
    cases hq
    exact ⟨q, h1, rfl, rfl, rfl, rfl, rfl⟩

theorem SplitEff.rec_of' {s s' : St K} {h : HN} {r : HERec} (e : SplitEff s s' h r) (hr : s.he h = some r)
    {x : HN} (hk : ∀ b, x ≠ .kid h b) {q' : HERec} (hq : s'.he x = some q') :
    ∃ q, s.he x = some q ∧ q'.base = q.base ∧ q'.head = q.head ∧ q'.per = q.per ∧ q'.cell = q.cell := by
  by_cases hx : x = h
  · subst hx
    rw [e.own] at hq
    cases hq
    exact ⟨r, hr, rfl, rfl, rfl, rfl⟩
  · obtain ⟨q, h1, h2, h3, _, h5, h6⟩ := e.rec_of hx hk hq
    exact ⟨q, h1, h2, h3, h5, h6⟩

theorem SplitEff.some_iff {s s' : St K} {h : HN} {r : HERec} (e : SplitEff s s' h r)
    (hr : s.he h = some r) (x : HN) :
    (s'.he x).isSome ↔ (s.he x).isSome ∨ ∃ b, x = .kid h b := by
  by_cases hx : x = h
  · subst hx
    simp [e.own, hr]
  by_cases hk : ∃ b, x = .kid h b
  · obtain ⟨b, rfl⟩ := hk
    obtain ⟨vm, a, b', h1, h2⟩ := e.kids
    cases b <;> simp [h1, h2]
  · have hk' : ∀ b, x ≠ .kid h b := fun b hb => hk ⟨b, hb⟩
    simp only [hk, or_false]
    rcases e.rest x hx hk' with h1 | ⟨q, tw, h1, h2⟩
    · rw [h1]
    · simp [h1, h2]

theorem heSplit_spec {T} (hT : TWF T) {s : St K} (hi : HInv T s) {h : HN} {r : HERec}
    (hr : s.he h = some r) (hk : r.kids = false) :
    ∃ s', heSplit s h = .ok s' ∧ SplitEff s s' h r ∧ HInv T s' := by
  have hnk : ∀ b, s.he (.kid h b) = none := by
    intro b
    have := hi.kids h r hr b
    rw [hk] at this
    simpa using this
  -- common part of the invariant, given the effect and the twins
  have common : ∀ s', SplitEff s s' h r →
      (∀ x q, s'.he x = some q → ∀ t, q.twin = some t ↔ vt T x = some t ∧ (s'.he t).isSome) →
      (∀ x q t q', s'.he x = some q → q.twin = some t → s'.he t = some q' →
        q.per = q'.per ∧ (q.per = false → q.base = q'.head ∧ q.head = q'.base)) → HInv T s' := by
    intro s' e htw hsw
    have hiff := e.some_iff hr
    refine ⟨htw, ?_, ?_, ?_, hsw⟩
    · intro x q hq b
      by_cases hx : x = h
      · subst hx
        rw [e.own] at hq
        cases hq
        simp [hiff]
      · rw [hiff]
        have hnx : ¬ ∃ b', HN.kid x b = HN.kid h b' := by
          rintro ⟨b', hb'⟩
          injection hb' with h1 _
          exact hx h1
        simp only [hnx, or_false]
        by_cases hkx : ∃ b', x = .kid h b'
        · obtain ⟨b', rfl⟩ := hkx
          obtain ⟨vm, a0, a1, h1, h2⟩ := e.kids
          have hq' : q.kids = false := by
            cases b'
            · rw [h1] at hq; cases hq; rfl
            · rw [h2] at hq; cases hq; rfl
          rw [hq']
          simp only [Bool.false_eq_true, false_iff, Bool.not_eq_true]
          by_contra hcon
          have := hi.par (.kid h b') b (by simpa [Option.isSome_iff_ne_none] using hcon)
          rw [hnk] at this
          simp at this
        · obtain ⟨q0, h0, _, _, h1, _⟩ := e.rec_of hx (fun b' hb' => hkx ⟨b', hb'⟩) hq
          rw [h1]
          exact hi.kids x q0 h0 b
    · intro x b hxb
      rw [hiff] at hxb ⊢
      rcases hxb with h1 | ⟨b', hb'⟩
      · exact .inl (hi.par x b h1)
      · injection hb' with h1 _
        subst h1
        simp [hr]
    · intro x q a b hq ha hb
      by_cases hx : x = h
      · subst hx
        obtain ⟨vm, a0, a1, h1, h2⟩ := e.kids
        rw [e.own] at hq; rw [h1] at ha; rw [h2] at hb
        cases hq; cases ha; cases hb
        simp
      · have hne : ∀ b0 b', HN.kid x b0 ≠ HN.kid h b' := by
          intro b0 b' hb'
          injection hb' with h1 _
          exact hx h1
        obtain ⟨a', ha', e1, e2, e3, _⟩ := e.rec_of' hr (hne false) ha
        obtain ⟨b', hb', f1, f2, f3, _⟩ := e.rec_of' hr (hne true) hb
        by_cases hkx : ∃ b', x = .kid h b'
        · obtain ⟨b0, rfl⟩ := hkx
          have := hi.par (.kid h b0) false (by simp [ha'])
          rw [hnk] at this
          simp at this
        · obtain ⟨q', hq', g1, g2, g3, _⟩ := e.rec_of' hr (fun b' hb' => hkx ⟨b', hb'⟩) hq
          have := hi.ends x q' a' b' hq' ha' hb'
          rw [e1, e2, e3, f1, f2, f3, g1, g2, g3]
          exact this
  have hvth : vt T h ≠ some h := vt_irr hT.irr h
  unfold heSplit
  rw [hr]
  simp only
  -- twins of children of `h`
  have hvk : ∀ x b, vt T x = some (.kid h b) → ∃ t, vt T h = some t ∧ x = .kid t (!b) := by
    intro x b hx
    have := vt_inv hT.inv x _ hx
    simp only [vt, Option.map_eq_some_iff] at this
    obtain ⟨t, ht, e⟩ := this
    exact ⟨t, ht, e.symm⟩
  rcases htk : twinKids s r with _ | ⟨t, t0, t1⟩
  · -- the twin is not split
    simp only
    have hno : ∀ t, vt T h = some t → ∀ b, s.he (.kid t b) = none := fun t ht b =>
      twinKids_none hi hr htk ht b
    refine ⟨_, rfl, ?_⟩
    generalize hs' : ({ s with
        vx := Function.update s.vx (.mid h) (midpt (s.vx r.base) (s.vx r.head))
        he := fun x =>
          if x = h then some { r with kids := true }
          else if x = .kid h false then some ⟨r.base, .mid h, none, none, false, r.per⟩
          else if x = .kid h true then some ⟨.mid h, r.head, none, none, false, r.per⟩
          else s.he x } : St K) = s'
    have hh : s'.he = fun x =>
          if x = h then some { r with kids := true }
          else if x = .kid h false then some ⟨r.base, .mid h, none, none, false, r.per⟩
          else if x = .kid h true then some ⟨.mid h, r.head, none, none, false, r.per⟩
          else s.he x := by rw [← hs']
    have e : SplitEff s s' h r := by
      refine ⟨by simp [hh], ⟨.mid h, none, none, by simp [hh, kid_ne], by simp [hh, kid_ne]⟩, ?_,
        by rw [← hs']; simp⟩
      intro x hx hkx
      left
      simp [hh, hx, hkx]
    have hiff := e.some_iff hr
    have hkid : ∀ b q, s'.he (.kid h b) = some q → q.twin = none := by
      intro b q hq
      cases b
      · simp [hh, kid_ne] at hq; rw [← hq]
      · simp [hh, kid_ne] at hq; rw [← hq]
    have hold : ∀ x q, (∀ b, x ≠ .kid h b) → s'.he x = some q →
        ∃ q0, s.he x = some q0 ∧ q0.twin = q.twin := by
      intro x q hx hq
      by_cases hxh : x = h
      · subst hxh
        simp [hh] at hq
        exact ⟨r, hr, by rw [← hq]⟩
      · simp [hh, hxh, hx] at hq
        exact ⟨q, hq, rfl⟩
    have htw : ∀ x q, s'.he x = some q → ∀ t, q.twin = some t ↔ vt T x = some t ∧ (s'.he t).isSome := by
      intro x q hq t
      by_cases hx : ∃ b, x = .kid h b
      · obtain ⟨b, rfl⟩ := hx
        rw [hkid b q hq]
        simp only [reduceCtorEq, false_iff, not_and]
        intro hv
        simp only [vt, Option.map_eq_some_iff] at hv
        obtain ⟨t', ht', rfl⟩ := hv
        rw [hiff]
        rintro (h1 | ⟨b', hb'⟩)
        · rw [hno t' ht'] at h1; simp at h1
        · injection hb' with h1 _
          exact hvth (h1 ▸ ht')
      · have hx' : ∀ b, x ≠ .kid h b := fun b hb => hx ⟨b, hb⟩
        obtain ⟨q0, hq0, ht0⟩ := hold x q hx' hq
        rw [← ht0, hi.tw x q0 hq0 t, hiff]
        constructor
        · rintro ⟨h1, h2⟩; exact ⟨h1, .inl h2⟩
        · rintro ⟨h1, h2 | ⟨b, rfl⟩⟩
          · exact ⟨h1, h2⟩
          · obtain ⟨t', ht', rfl⟩ := hvk x b h1
            rw [hno t' ht'] at hq0; cases hq0
    refine ⟨e, common s' e htw ?_⟩
    intro x q t q' hq ht hq'
    have hv := ((htw x q hq t).1 ht).1
    by_cases hx : ∃ b, x = .kid h b
    · obtain ⟨b, rfl⟩ := hx
      rw [hkid b q hq] at ht; cases ht
    have hx' : ∀ b, x ≠ .kid h b := fun b hb => hx ⟨b, hb⟩
    obtain ⟨q0, hq0, ht0⟩ := hold x q hx' hq
    have htn : ∀ b, t ≠ .kid h b := by
      rintro b rfl
      obtain ⟨t', ht', rfl⟩ := hvk x b hv
      rw [hno t' ht'] at hq0; cases hq0
    obtain ⟨q1, hq1, f1, f2, f3, _⟩ := e.rec_of' hr hx' hq
    obtain ⟨q2, hq2, g1, g2, g3, _⟩ := e.rec_of' hr htn hq'
    rw [hq0] at hq1
    cases hq1
    rw [f1, f2, f3, g1, g2, g3]
    exact hi.swap x q0 t q2 hq0 (by rw [ht0, ht]) hq2
  · -- the twin is split
    obtain ⟨h1, h2, h3, h4, rt, h5, h6⟩ := twinKids_some hi hr htk
    obtain ⟨sw1, sw2⟩ := hi.swap h r t rt hr h1 h5
    obtain ⟨en1, en2, en3, en4, en5⟩ := hi.ends t rt t0 t1 h5 h3 h4
    have hth : t ≠ h := fun e => hvth (e ▸ h2)
    have hkt : ∀ b b', HN.kid t b ≠ HN.kid h b' := by
      intro b b' e; injection e with e1 _; exact hth e1
    simp only
    generalize hvm : (if r.per then VN.mid h else t0.head) = vm
    have hvm' : r.per = false → vm = t0.head := by
      intro hp; rw [← hvm, hp]; simp
    have hass : (twinOk ⟨r.base, vm, some (.kid t true), none, false, r.per⟩ t1 &&
        twinOk ⟨vm, r.head, some (.kid t false), none, false, r.per⟩ t0 &&
        twinOk t0 ⟨vm, r.head, some (.kid t false), none, false, r.per⟩ &&
        twinOk t1 ⟨r.base, vm, some (.kid t true), none, false, r.per⟩) = true := by
      have hp0 : t0.per = r.per := by rw [en4, ← sw1]
      have hp1 : t1.per = r.per := by rw [en5, ← sw1]
      rcases hp : r.per with _ | _
      · obtain ⟨sb, sh⟩ := sw2 hp
        simp [twinOk, hp0, hp1, hp, hvm' hp, en2, en3, en1, sb, sh]
      · simp [twinOk, hp0, hp1, hp]
    rw [if_pos hass]
    refine ⟨_, rfl, ?_⟩
    generalize hvx : (if r.per = true then
        (match s.vx r.base, s.vx r.head with
          | p, q => Function.update s.vx (.mid h) (midpt p q)) else s.vx) = vx'
    generalize hs' : ({ s with
          vx := vx'
          he := fun x =>
            if x = h then some { r with kids := true }
            else if x = .kid h false then some ⟨r.base, vm, some (.kid t true), none, false, r.per⟩
            else if x = .kid h true then some ⟨vm, r.head, some (.kid t false), none, false, r.per⟩
            else if x = .kid t false then some { t0 with twin := some (.kid h true) }
            else if x = .kid t true then some { t1 with twin := some (.kid h false) }
            else s.he x } : St K) = s'
    have hh : s'.he = fun x =>
            if x = h then some { r with kids := true }
            else if x = .kid h false then some ⟨r.base, vm, some (.kid t true), none, false, r.per⟩
            else if x = .kid h true then some ⟨vm, r.head, some (.kid t false), none, false, r.per⟩
            else if x = .kid t false then some { t0 with twin := some (.kid h true) }
            else if x = .kid t true then some { t1 with twin := some (.kid h false) }
            else s.he x := by rw [← hs']
    have hth2 : ∀ b, HN.kid t b ≠ h := by
      rintro b rfl
      -- `h` is a child of its own twin: impossible by size
      have hsz : ∀ x y : HN, vt T x = some y → sizeOfDepth x = sizeOfDepth y := vt_depth
      have := hsz _ _ h2
      simp [sizeOfDepth] at this
    have e : SplitEff s s' h r := by
      refine ⟨by simp [hh], ⟨vm, some (.kid t true), some (.kid t false), by simp [hh, kid_ne],
        by simp [hh, kid_ne]⟩, ?_, by rw [← hs']; simp⟩
      intro x hx hkx
      by_cases hx0 : x = .kid t false
      · right; exact ⟨t0, some (.kid h true), hx0 ▸ h3, by simp [hh, hx0, hth2, hkt]⟩
      by_cases hx1 : x = .kid t true
      · right; exact ⟨t1, some (.kid h false), hx1 ▸ h4, by simp [hh, hx1, hth2, hkt]⟩
      left
      simp [hh, hx, hkx, hx0, hx1]
    have hiff := e.some_iff hr
    have hkid : ∀ b q, s'.he (.kid h b) = some q → q.twin = some (.kid t (!b)) := by
      intro b q hq
      cases b
      · simp [hh, kid_ne] at hq; rw [← hq]; rfl
      · simp [hh, kid_ne] at hq; rw [← hq]; rfl
    have hkidt : ∀ b q, s'.he (.kid t b) = some q → q.twin = some (.kid h (!b)) := by
      intro b q hq
      cases b
      · simp [hh, hth2, hkt] at hq; rw [← hq]; rfl
      · simp [hh, hth2, hkt] at hq; rw [← hq]; rfl
    have hold : ∀ x q, (∀ b, x ≠ .kid h b) → (∀ b, x ≠ .kid t b) → s'.he x = some q →
        ∃ q0, s.he x = some q0 ∧ q0.twin = q.twin := by
      intro x q hx hxt hq
      by_cases hxh : x = h
      · subst hxh
        simp [hh] at hq
        exact ⟨r, hr, by rw [← hq]⟩
      · simp [hh, hxh, hx, hxt] at hq
        exact ⟨q, hq, rfl⟩
    have hext : ∀ b, (s'.he (.kid t b)).isSome := by
      intro b
      rw [hiff]
      left
      cases b
      · simp [h3]
      · simp [h4]
    have hexh : ∀ b, (s'.he (.kid h b)).isSome := by
      intro b
      rw [hiff]
      exact .inr ⟨b, rfl⟩
    have hvt2 := vt_inv hT.inv h t h2
    have htw : ∀ x q, s'.he x = some q → ∀ t, q.twin = some t ↔ vt T x = some t ∧ (s'.he t).isSome := by
      intro x q hq t'
      by_cases hx : ∃ b, x = .kid h b
      · obtain ⟨b, rfl⟩ := hx
        rw [hkid b q hq]
        simp only [vt, h2, Option.map_some, Option.some.injEq]
        exact ⟨fun hb => ⟨hb, hb ▸ hext _⟩, fun hb => hb.1⟩
      by_cases hxt : ∃ b, x = .kid t b
      · obtain ⟨b, rfl⟩ := hxt
        rw [hkidt b q hq]
        simp only [vt, hvt2, Option.map_some, Option.some.injEq]
        exact ⟨fun hb => ⟨hb, hb ▸ hexh _⟩, fun hb => hb.1⟩
      · have hx' : ∀ b, x ≠ .kid h b := fun b hb => hx ⟨b, hb⟩
        obtain ⟨q0, hq0, ht0⟩ := hold x q hx' (fun b hb => hxt ⟨b, hb⟩) hq
        rw [← ht0, hi.tw x q0 hq0 t', hiff]
        constructor
        · rintro ⟨h1, h2⟩; exact ⟨h1, .inl h2⟩
        · rintro ⟨h1, h2 | ⟨b, rfl⟩⟩
          · exact ⟨h1, h2⟩
          · obtain ⟨t'', ht'', rfl⟩ := hvk x b h1
            rw [h2] at ht''
            cases ht''
            exact absurd ⟨_, rfl⟩ hxt
    refine ⟨e, common s' e htw ?_⟩
    have hk0 : s'.he (.kid h false) = some ⟨r.base, vm, some (.kid t true), none, false, r.per⟩ := by
      simp [hh, kid_ne]
    have hk1 : s'.he (.kid h true) = some ⟨vm, r.head, some (.kid t false), none, false, r.per⟩ := by
      simp [hh, kid_ne]
    have hk2 : s'.he (.kid t false) = some { t0 with twin := some (.kid h true) } := by
      simp [hh, hth2, hkt]
    have hk3 : s'.he (.kid t true) = some { t1 with twin := some (.kid h false) } := by
      simp [hh, hth2, hkt]
    intro x q t' q' hq ht hq'
    have hv := ((htw x q hq t').1 ht).1
    by_cases hx : ∃ b, x = .kid h b
    · obtain ⟨b, rfl⟩ := hx
      rw [hkid b q hq] at ht
      cases ht
      cases b
      · rw [hk0] at hq
        simp only [Bool.not_false] at hq'
        rw [hk3] at hq'
        cases hq; cases hq'
        refine ⟨by simp [en5, sw1], fun hp => ?_⟩
        obtain ⟨sb, sh⟩ := sw2 hp
        simp [hvm' hp, en2, en3, sb]
      · rw [hk1] at hq
        simp only [Bool.not_true] at hq'
        rw [hk2] at hq'
        cases hq; cases hq'
        refine ⟨by simp [en4, sw1], fun hp => ?_⟩
        obtain ⟨sb, sh⟩ := sw2 hp
        simp [hvm' hp, en1, sh]
    by_cases hxt : ∃ b, x = .kid t b
    · obtain ⟨b, rfl⟩ := hxt
      rw [hkidt b q hq] at ht
      cases ht
      cases b
      · rw [hk2] at hq
        simp only [Bool.not_false] at hq'
        rw [hk1] at hq'
        cases hq; cases hq'
        refine ⟨by simp [en4, sw1], fun hp => ?_⟩
        have hp' : r.per = false := by rw [sw1, ← en4]; exact hp
        obtain ⟨sb, sh⟩ := sw2 hp'
        simp [hvm' hp', en1, sh]
      · rw [hk3] at hq
        simp only [Bool.not_true] at hq'
        rw [hk0] at hq'
        cases hq; cases hq'
        refine ⟨by simp [en5, sw1], fun hp => ?_⟩
        have hp' : r.per = false := by rw [sw1, ← en5]; exact hp
        obtain ⟨sb, sh⟩ := sw2 hp'
        simp [hvm' hp', en2, en3, sb]
    have hx' : ∀ b, x ≠ .kid h b := fun b hb => hx ⟨b, hb⟩
    obtain ⟨q0, hq0, ht0⟩ := hold x q hx' (fun b hb => hxt ⟨b, hb⟩) hq
    have htn : ∀ b, t' ≠ .kid h b := by
      rintro b rfl
      obtain ⟨t'', ht'', rfl⟩ := hvk x b hv
      rw [h2] at ht''
      cases ht''
      exact absurd ⟨_, rfl⟩ hxt
    obtain ⟨q1, hq1, f1, f2, f3, _⟩ := e.rec_of' hr hx' hq
    obtain ⟨q2, hq2, g1, g2, g3, _⟩ := e.rec_of' hr htn hq'
    rw [hq0] at hq1
    cases hq1
    rw [f1, f2, f3, g1, g2, g3]
    exact hi.swap x q0 t' q2 hq0 (by rw [ht0, ht]) hq2

/-! ### The initial mesh -/

theorem Base.WF.twf {B : Base K} (hB : B.WF) : TWF B.T := ⟨hB.inv, hB.irr⟩

theorem init_he (B : Base K) (k : Nat) : (init B).he (.root k) = if k < 4 * B.n then
    some ⟨.root (B.b k), .root (B.hd k), (B.T k).map .root, some (k / 4, []), false, B.per k⟩ else none := rfl

theorem init_inv {B : Base K} (hB : B.WF) : HInv B.T (init B) := by
  have hroot : ∀ x q, (init B).he x = some q → ∃ k, x = .root k ∧ k < 4 * B.n ∧
      q = ⟨.root (B.b k), .root (B.hd k), (B.T k).map .root, some (k / 4, []), false, B.per k⟩ := by
    intro x q hq
    cases x with
    | root k =>
      rw [init_he] at hq
      split_ifs at hq with hk
      exact ⟨k, rfl, hk, by cases hq; rfl⟩
    | kid h b => cases hq
    | inner c i d => cases hq
  refine ⟨?_, ?_, ?_, ?_, ?_⟩
  · intro h r hr t
    obtain ⟨k, rfl, hk, rfl⟩ := hroot h r hr
    simp only [vt]
    constructor
    · intro ht
      refine ⟨ht, ?_⟩
      obtain ⟨j, hj, rfl⟩ := Option.map_eq_some_iff.1 ht
      simp [init_he, hB.lt k j hj]
    · exact fun ht => ht.1
  · intro h r hr b
    obtain ⟨k, rfl, hk, rfl⟩ := hroot h r hr
    simp [init]
  · intro h b hb
    cases hb
  · intro h r a b _ ha
    cases ha
  · intro h r t q hr ht hq
    obtain ⟨k, rfl, hk, rfl⟩ := hroot h r hr
    obtain ⟨j, hj, rfl⟩ := Option.map_eq_some_iff.1 ht
    rw [init_he, if_pos (hB.lt k j hj)] at hq
    cases hq
    have hj' := hB.inv k j hj
    simp only [Base.per, hj, hj']
    constructor
    · congr 1
      rw [Bool.and_comm]
      congr 1 <;> exact decide_eq_decide.2 eq_comm
    · intro hp
      simp only [Bool.not_eq_false', Bool.and_eq_true, decide_eq_true_eq] at hp
      simp [hp.1, hp.2]

/-! ### Coordinates -/

/-- Midpoints have the right coordinates, and a midpoint vertex exists only once its half-edge has
been split. -/
structure VInv (s : St K) : Prop where
  fresh : ∀ x q g, s.he x = some q → q.base = .mid g ∨ q.head = .mid g → (s.he (.kid g false)).isSome
  midp : ∀ h r a, s.he h = some r → s.he (.kid h false) = some a →
    s.vx a.head = midpt (s.vx r.base) (s.vx r.head)

theorem init_vinv (B : Base K) : VInv (init B) := by
  refine ⟨?_, ?_⟩
  · intro x q g hq hg
    cases x with
    | root k =>
      rw [init_he] at hq
      split_ifs at hq
      cases hq
      simp at hg
    | kid h b => cases hq
    | inner c i d => cases hq
  · intro h r a _ ha
    cases ha

theorem midpt_comm (p q : Pt K) : midpt p q = midpt q p := by
  simp [midpt, add_comm]

theorem heSplit_vinv {T} (hT : TWF T) {s s' : St K} (hi : HInv T s) (hv : VInv s) {h : HN} {r : HERec}
    (hr : s.he h = some r) (hk : r.kids = false) (hs : heSplit s h = .ok s') : VInv s' := by
  obtain ⟨s'', hs'', e, hi'⟩ := heSplit_spec hT hi hr hk
  rw [hs] at hs''
  cases hs''
  have hiff := e.some_iff hr
  have hnk : s.he (.kid h false) = none := by
    have := hi.kids h r hr false
    rw [hk] at this
    simpa using this
  -- the old vertices keep their coordinates; the midpoint of `h` is right
  have hvx : (∀ v, v ≠ .mid h → s'.vx v = s.vx v) ∧
      ∃ a, s'.he (.kid h false) = some a ∧ s'.vx a.head = midpt (s.vx r.base) (s.vx r.head) ∧
        (a.head = .mid h ∨ ∃ t t0, s.he (.kid t false) = some t0 ∧ a.head = t0.head) := by
    unfold heSplit at hs
    rw [hr] at hs
    simp only at hs
    rcases htk : twinKids s r with _ | ⟨t, t0, t1⟩
    · rw [htk] at hs
      simp only at hs
      cases hs
      refine ⟨fun v hv => by simp [Function.update_of_ne hv], ?_⟩
      exact ⟨⟨r.base, .mid h, none, none, false, r.per⟩, by simp [kid_ne], by simp, .inl rfl⟩
    · rw [htk] at hs
      simp only at hs
      split_ifs at hs with hp hass hass
      · cases hs
        refine ⟨fun v hv => by simp [Function.update_of_ne hv], ?_⟩
        exact ⟨⟨r.base, .mid h, some (.kid t true), none, false, r.per⟩, by simp [kid_ne, hp], by simp [hp],
          .inl rfl⟩
      · cases hs
        refine ⟨fun v hv => rfl, ?_⟩
        obtain ⟨h1, h2, h3, h4, rt, h5, h6⟩ := twinKids_some hi hr htk
        obtain ⟨sw1, sw2⟩ := hi.swap h r t rt hr h1 h5
        obtain ⟨sb, sh⟩ := sw2 (by simpa using hp)
        refine ⟨⟨r.base, t0.head, some (.kid t true), none, false, r.per⟩, by simp [kid_ne, hp], ?_,
          .inr ⟨t, t0, h3, rfl⟩⟩
        simp only
        rw [hv.midp t rt t0 h5 h3, sb, sh, midpt_comm]
  obtain ⟨hold, a, ha, hmid, hah⟩ := hvx
  have hnm : ∀ x q, s.he x = some q → q.base ≠ .mid h ∧ q.head ≠ .mid h := by
    intro x q hq
    constructor
    · intro hc
      have := hv.fresh x q h hq (.inl hc)
      rw [hnk] at this; simp at this
    · intro hc
      have := hv.fresh x q h hq (.inr hc)
      rw [hnk] at this; simp at this
  obtain ⟨vm, tw0, tw1, k0, k1⟩ := e.kids
  rw [ha] at k0
  cases k0
  simp only at hmid hah
  constructor
  · intro x q g hq hg
    rw [hiff]
    by_cases hx : ∃ b, x = .kid h b
    · obtain ⟨b, rfl⟩ := hx
      have : r.base = .mid g ∨ r.head = .mid g ∨ vm = .mid g := by
        cases b
        · rw [ha] at hq; cases hq; rcases hg with h1 | h1 <;> simp only at h1 <;> simp [h1]
        · rw [k1] at hq; cases hq; rcases hg with h1 | h1 <;> simp only at h1 <;> simp [h1]
      rcases this with h1 | h1 | h1
      · exact .inl (hv.fresh h r g hr (.inl h1))
      · exact .inl (hv.fresh h r g hr (.inr h1))
      · rcases hah with h2 | ⟨t, t0, h2, h3⟩
        · rw [h1] at h2
          cases h2
          exact .inr ⟨false, rfl⟩
        · exact .inl (hv.fresh _ t0 g h2 (.inr (by rw [← h3, h1])))
    · obtain ⟨q0, hq0, f1, f2, _⟩ := e.rec_of' hr (fun b hb => hx ⟨b, hb⟩) hq
      rw [f1, f2] at hg
      exact .inl (hv.fresh x q0 g hq0 hg)
  · intro x q a' hq ha'
    by_cases hx : x = h
    · subst hx
      rw [e.own] at hq
      cases hq
      rw [ha] at ha'
      cases ha'
      simp only
      rw [hmid, hold _ (hnm x r hr).1, hold _ (hnm x r hr).2]
    · have hne : ∀ b', HN.kid x false ≠ HN.kid h b' := by
        intro b' hb'; injection hb' with h1 _; exact hx h1
      obtain ⟨a0, ha0, _, g2, _⟩ := e.rec_of' hr hne ha'
      by_cases hkx : ∃ b, x = .kid h b
      · obtain ⟨b, rfl⟩ := hkx
        have h1 := hi.par (.kid h b) false (by simp [ha0])
        have h2 := (hi.kids h r hr b).2 h1
        rw [hk] at h2; cases h2
      obtain ⟨q0, hq0, f1, f2, _⟩ := e.rec_of' hr (fun b hb => hkx ⟨b, hb⟩) hq
      rw [f1, f2, g2, hold _ (hnm _ _ hq0).1, hold _ (hnm _ _ hq0).2, hold _ (hnm _ _ ha0).2]
      exact hv.midp x q0 a0 hq0 ha0

/-! ### C23 -/

/-- The states of the half-edges that are reached from the initial mesh by splitting half-edges,
each at most once, in any order. -/
inductive HReach (B : Base K) : St K → Prop
  | init : HReach B (init B)
  | split (s s' : St K) (h : HN) (r : HERec) : HReach B s → s.he h = some r → r.kids = false →
      heSplit s h = .ok s' → HReach B s'

theorem HReach.inv {B : Base K} (hB : B.WF) {s : St K} (h : HReach B s) : HInv B.T s ∧ VInv s := by
  induction h with
  | init => exact ⟨init_inv hB, init_vinv B⟩
  | split s s' h r _ hr hk hs ih =>
    obtain ⟨s'', hs'', _, h2⟩ := heSplit_spec hB.twf ih.1 hr hk
    rw [hs] at hs''
    cases hs''
    exact ⟨h2, heSplit_vinv hB.twf ih.1 ih.2 hr hk hs⟩

/-- Splitting an unsplit half-edge never fails (the assertions of `assign_twin` hold). -/
theorem C23_split_ok {B : Base K} (hB : B.WF) {s : St K} (hs : HReach B s) (h : HN) (r : HERec)
    (hr : s.he h = some r) (hk : r.kids = false) : ∃ s', heSplit s h = .ok s' ∧ HReach B s' := by
  obtain ⟨s', h1, _⟩ := heSplit_spec hB.twf (hs.inv hB).1 hr hk
  exact ⟨s', h1, .split s s' h r hs hr hk h1⟩

/-- Whatever was split in whatever order: the twin of the twin is the half-edge itself, twins are
different, and (unless they lie on a periodic boundary) the base of one is the head of the other. -/
theorem C23_twins {B : Base K} (hB : B.WF) {s : St K} (hs : HReach B s) (h t : HN) (r : HERec)
    (hr : s.he h = some r) (ht : r.twin = some t) :
    t ≠ h ∧ ∃ q, s.he t = some q ∧ q.twin = some h ∧ q.per = r.per ∧
      (r.per = false → r.base = q.head ∧ r.head = q.base) := by
  have hi := (hs.inv hB).1
  obtain ⟨h1, h2⟩ := (hi.tw h r hr t).1 ht
  refine ⟨fun e => vt_irr hB.irr h (e ▸ h1), ?_⟩
  obtain ⟨q, hq⟩ := Option.isSome_iff_exists.1 h2
  obtain ⟨s1, s2⟩ := hi.swap h r t q hr ht hq
  exact ⟨q, hq, (hi.tw t q hq h).2 ⟨vt_inv hB.inv h t h1, by simp [hr]⟩, s1.symm, s2⟩

/-- The children run from the base to a common vertex to the head; they form one half of the
parent each, with equal vectors. -/
theorem C23_children [CharZero K] {B : Base K} (hB : B.WF) {s : St K} (hs : HReach B s) (h : HN) (r : HERec)
    (hr : s.he h = some r) (hk : r.kids = true) :
    ∃ a b, s.he (.kid h false) = some a ∧ s.he (.kid h true) = some b ∧
      a.base = r.base ∧ a.head = b.base ∧ b.head = r.head ∧
      2 * ((s.vx a.head).x - (s.vx a.base).x) = (s.vx r.head).x - (s.vx r.base).x ∧
      2 * ((s.vx a.head).y - (s.vx a.base).y) = (s.vx r.head).y - (s.vx r.base).y ∧
      (s.vx a.head).x - (s.vx a.base).x = (s.vx b.head).x - (s.vx b.base).x ∧
      (s.vx a.head).y - (s.vx a.base).y = (s.vx b.head).y - (s.vx b.base).y := by
  obtain ⟨hi, hv⟩ := hs.inv hB
  obtain ⟨a, ha⟩ := Option.isSome_iff_exists.1 ((hi.kids h r hr false).1 hk)
  obtain ⟨b, hb⟩ := Option.isSome_iff_exists.1 ((hi.kids h r hr true).1 hk)
  obtain ⟨e1, e2, e3, _⟩ := hi.ends h r a b hr ha hb
  have hm := hv.midp h r a hr ha
  refine ⟨a, b, ha, hb, e1, e2, e3, ?_⟩
  rw [← e2, hm, e1, e3]
  simp only [midpt]
  refine ⟨?_, ?_, ?_, ?_⟩ <;> field_simp <;> ring

/-- Children are paired crosswise as soon as both twins are split, and have no twin before. -/
theorem C23_pairs {B : Base K} (hB : B.WF) {s : St K} (hs : HReach B s) (h : HN) (r a : HERec) (b : Bool)
    (hr : s.he h = some r) (ha : s.he (.kid h b) = some a) :
    (∀ t q, r.twin = some t → s.he t = some q → q.kids = true → a.twin = some (.kid t (!b))) ∧
    (∀ t q, r.twin = some t → s.he t = some q → q.kids = false → a.twin = none) ∧
    (r.twin = none → a.twin = none) := by
  have hi := (hs.inv hB).1
  have key : ∀ t', a.twin = some t' → ∃ t q, t' = .kid t (!b) ∧ r.twin = some t ∧ s.he t = some q ∧
      q.kids = true := by
    intro t' ht'
    obtain ⟨h1, h2⟩ := (hi.tw _ a ha t').1 ht'
    simp only [vt, Option.map_eq_some_iff] at h1
    obtain ⟨t, h3, rfl⟩ := h1
    have h4 := hi.par _ _ h2
    obtain ⟨q, hq⟩ := Option.isSome_iff_exists.1 h4
    exact ⟨t, q, rfl, (hi.tw h r hr t).2 ⟨h3, h4⟩, hq, (hi.kids t q hq _).2 h2⟩
  refine ⟨?_, ?_, ?_⟩
  · intro t q ht hq hk
    refine (hi.tw _ a ha _).2 ⟨?_, (hi.kids t q hq _).1 hk⟩
    simp [vt, ((hi.tw h r hr t).1 ht).1]
  · intro t q ht hq hk
    rcases hat : a.twin with _ | t'
    · rfl
    obtain ⟨t2, q2, _, h2, h3, h4⟩ := key t' hat
    rw [ht] at h2
    cases h2
    rw [hq] at h3
    cases h3
    rw [hk] at h4; cases h4
  · intro ht
    rcases hat : a.twin with _ | t'
    · rfl
    obtain ⟨t2, q2, _, h2, _⟩ := key t' hat
    rw [ht] at h2; cases h2

end

/-- Two squares side by side, the right side of the first (half-edge 1) facing the left side of the
second (half-edge 7). -/
def twoB : Base ℚ where
  n := 2
  b := fun k => [0, 1, 4, 3, 1, 2, 5, 4].getD k 0
  hd := fun k => [1, 4, 3, 0, 2, 5, 4, 1].getD k 0
  T := fun k => if k = 1 then some 7 else if k = 7 then some 1 else none
  xy := fun k => [⟨0, 0⟩, ⟨1, 0⟩, ⟨2, 0⟩, ⟨0, 1⟩, ⟨1, 1⟩, ⟨2, 1⟩].getD k ⟨0, 0⟩

theorem twoB_wf : twoB.WF := by
  refine ⟨?_, ?_, ?_, ?_⟩
  · intro k j h
    simp only [twoB] at h ⊢
    split_ifs at h <;> simp_all <;> subst h <;> simp
  · intro k j h
    simp only [twoB] at h
    split_ifs at h <;> simp_all <;> subst h <;> simp
  · intro k j h
    simp only [twoB] at h ⊢
    split_ifs at h <;> simp_all <;> omega
  · decide

/-- Non-vacuity: half-edge 1 and then its twin 7 are split; the children face each other and share
the vertex created first. -/
example : ∃ s, HReach twoB s ∧ ∃ a q, s.he (.kid (.root 1) false) = some a ∧ a.twin = some (.kid (.root 7) true) ∧
    s.he (.kid (.root 7) true) = some q ∧ q.base = a.head ∧ a.head = .mid (.root 1) := by
  obtain ⟨s1, h1, r1⟩ := C23_split_ok twoB_wf .init (.root 1) _ rfl rfl
  have e1 : s1.he (.root 7) = (init twoB).he (.root 7) := by
    cases h1; rfl
  obtain ⟨s2, h2, r2⟩ := C23_split_ok twoB_wf r1 (.root 7) _ e1 rfl
  refine ⟨s2, r2, ?_⟩
  cases h1
  cases h2
  exact ⟨_, _, rfl, rfl, rfl, rfl, rfl⟩

end Verif.Mesh
