import Verif.Line.Sys
import Verif.Line.Tree

/-!
# One round of the loop of `distribute_dofs`, in one dimension
-/

namespace Verif.Line
open Verif.Fem Verif.OneD Verif.Geom
open Verif.Dof (Sys Same Top Eff NumInv Done Shared)

section
set_option linter.unusedSectionVars false
variable {K : Type} [Field K] [LinearOrder K] [IsStrictOrderedRing K] {N : Nat} {per : Bool} {X : Nat → K} {F : List (Cell K)} {e : ET}

/-! ### No cell is its own neighbour -/

theorem leftUp_some : ∀ (r q : Path), leftUp r = some q → ∃ s i t, r = s ++ i :: t ∧ q = (i - 1) :: t ∧ i ≠ 0 := by
  intro r
  induction r with
  | nil => intro q h; cases h
  | cons j r ih =>
    intro q h
    rw [leftUp] at h
    split_ifs at h with hj
    · obtain ⟨s, i, t, rfl, rfl, hi⟩ := ih q h
      exact ⟨j :: s, i, t, rfl, rfl, hi⟩
    · cases h
      exact ⟨[], j, r, rfl, rfl, hj⟩

theorem leftUp_none : ∀ (r : Path), leftUp r = none → ∀ i ∈ r, i = 0 := by
  intro r
  induction r with
  | nil => intro _ i hi; cases hi
  | cons j r ih =>
    intro h i hi
    rw [leftUp] at h
    split_ifs at h with hj
    · rcases List.mem_cons.1 hi with rfl | hi
      · exact hj
      · exact ih h i hi

theorem rightUp_some : ∀ (r q : Path), rightUp F r = some q → ∃ s i t, r = s ++ i :: t ∧ q = (i + 1) :: t := by
  intro r
  induction r with
  | nil => intro q h; cases h
  | cons j r ih =>
    intro q h
    rw [rightUp] at h
    split_ifs at h with hj
    · cases h
      exact ⟨[], j, r, rfl, rfl⟩
    · obtain ⟨s, i, t, rfl, rfl⟩ := ih q h
      exact ⟨j :: s, i, t, rfl, rfl⟩

theorem rightUp_none : ∀ (r : Path) (i : Nat), rightUp F (r ++ [i]) = none → F.length ≤ i + 1 := by
  intro r
  induction r with
  | nil =>
    intro i h
    by_contra hj
    rw [List.nil_append, rightUp, if_pos (by simp only [nSib]; omega)] at h
    cases h
  | cons j r ih =>
    intro i h
    simp only [List.cons_append, rightUp] at h
    split_ifs at h with hj
    exact ih i h

theorem ownNb_false (hF : F.length = N) (hN : per = true → 2 ≤ N) (c : IN) : ownNb per e F c = false := by
  rcases hp : per with _ | _
  · rfl
  have hN := hN hp
  unfold ownNb
  simp only [Bool.true_and, Bool.and_eq_false_iff, Bool.or_eq_false_iff, decide_eq_false_iff_not]
  right
  constructor
  · intro h
    rw [leftNbr_spec] at h
    rcases hl : leftUp (pathOf c).reverse with _ | q
    · simp only [lup, hl, Option.map_none, if_true, Option.map_eq_some_iff] at h
      obtain ⟨t, _, h⟩ := h
      have h0 := leftUp_none _ hl c.1 (by simp [pathOf])
      simp only [pathOf, List.singleton_append, List.cons.injEq] at h
      omega
    · simp only [lup, hl, Option.map_some, Option.map_eq_some_iff] at h
      obtain ⟨t, _, h⟩ := h
      obtain ⟨s, i, t', h1, rfl, hi⟩ := leftUp_some _ _ hl
      have h2 : pathOf c = t'.reverse ++ i :: s.reverse := by
        rw [← List.reverse_reverse (pathOf c), h1]; simp
      rw [h2] at h
      simp only [List.reverse_cons, List.append_assoc, List.append_cancel_left_eq, List.singleton_append, List.cons.injEq] at h
      omega
  · intro h
    rw [rightNbr_spec] at h
    rcases hl : rightUp F (pathOf c).reverse with _ | q
    · simp only [rup, hl, Option.map_none, if_true, Option.map_eq_some_iff] at h
      obtain ⟨t, _, h⟩ := h
      have h0 := rightUp_none (F := F) ((c.2.reverse.map Fin.val).reverse) c.1 (by rw [← hl]; simp [pathOf])
      simp only [pathOf, List.singleton_append, List.cons.injEq] at h
      omega
    · simp only [rup, hl, Option.map_some, Option.map_eq_some_iff] at h
      obtain ⟨t, _, h⟩ := h
      obtain ⟨s, i, t', h1, rfl⟩ := rightUp_some _ _ hl
      have h2 : pathOf c = t'.reverse ++ i :: s.reverse := by
        rw [← List.reverse_reverse (pathOf c), h1]; simp
      rw [h2] at h
      simp only [List.reverse_cons, List.append_assoc, List.append_cancel_left_eq, List.singleton_append, List.cons.injEq] at h
      omega

/-! ### Children -/

theorem two_mem (k : Fin 2) : k ∈ ([0, 1] : List (Fin 2)) := by revert k; decide

theorem shareC_spec {c : IN} {w : Fin (nd1 e) → Nat} {D : Dict} (h : Row e c w D) :
    ∃ D', shareC e c D = some D' ∧ Ext e (fun l a => ∃ q, upL e l = some (c, q) ∧ a = w q) D D' := by
  obtain ⟨row, hr, hlen, hp⟩ := h.row
  refine ⟨_, by rw [shareC, hr]; rfl, ?_⟩
  have hget : ∀ q (hq : q < nd1 e), row.getD q none = some (w ⟨q, hq⟩) := by
    intro q hq
    rw [List.getD_eq_getElem?_getD, hp ⟨q, hq⟩]; rfl
  have := foldl_ext (c := c) (w := w) (fun D k =>
    assignAt (nd1 e) D (child c k) ((inherit e k).map (fun a => (a.1, row.getD a.2 none))))
    (fun k l b => l.1 = child c k ∧ (l.2.1, some b) ∈ (inherit e k).map (fun a => (a.1, row.getD a.2 none))) [0, 1]
    (fun k _ D _ => assignAt_ext D (child c k) _ (by
      intro x hx
      obtain ⟨a, ha, rfl⟩ := List.mem_map.1 hx
      obtain ⟨h1, h2, _⟩ := inherit_sound e k a ha
      exact ⟨h1, _, hget _ h2⟩)) D h
  refine this.congr ?_
  rintro ⟨x, p⟩ b
  constructor
  · rintro ⟨k, _, rfl, hm⟩
    obtain ⟨a, ha, hab⟩ := List.mem_map.1 hm
    obtain ⟨h1, h2, _⟩ := inherit_sound e k a ha
    rw [hget _ h2] at hab
    simp only [Prod.mk.injEq, Option.some.injEq] at hab
    refine ⟨⟨a.2, h2⟩, (upL_iff e c k p _).2 ⟨rfl, ?_⟩, hab.2.symm⟩
    rw [← hab.1]
    exact ha
  · rintro ⟨q, hu, rfl⟩
    obtain ⟨k, h1, h2⟩ := upL_some e _ _ hu
    refine ⟨k, two_mem k, h1, ?_⟩
    simp only at h2
    exact List.mem_map.2 ⟨_, h2, by rw [hget _ q.2]⟩

/-! ### Neighbours -/

theorem prev_next {c d : IN} (hc : c.1 < N) : prev c = some d ↔ next N d = some c := by
  obtain ⟨f, _ | ⟨k, p⟩⟩ := c <;> obtain ⟨g, _ | ⟨j, q⟩⟩ := d
  · simp only [prev, next]
    split_ifs with h1 h2 h2 <;> simp at *
    all_goals omega
  · simp only [prev, next]
    split_ifs <;> simp
  · simp only [prev, next]
    split_ifs <;> simp
  · simp only [prev, next]
    fin_cases k <;> fin_cases j <;> simp <;> tauto

theorem descendTo_child (j : Fin 2) : ∀ (n : Nat) (c d : IN), descendTo F j n c = some d → d.2.length = n + c.2.length := by
  intro n
  induction n with
  | zero => intro c d h; cases h; simp
  | succ n ih =>
    intro c d h
    rw [descendTo] at h
    split_ifs at h
    have := ih _ _ h
    simp [child] at this
    omega

theorem leftOf_spec (hF : F.length = N) {c : IN} (hc : c.1 < N) (d : IN) (i : Nat) :
    (∃ ps, leftOf per F c = some (d, ps) ∧ i ∈ ps) ↔ Rt N per d c ∧ i = 1 := by
  unfold leftOf
  rw [hF]
  rcases hp : prev c with _ | d'
  · simp only
    have hnone : ¬ next N d = some c := by rw [← prev_next hc, hp]; simp
    constructor
    · rintro ⟨ps, h, hi⟩
      split_ifs at h with hper
      simp only [Bool.and_eq_true] at hper
      simp only [Option.map_eq_some_iff, Prod.mk.injEq] at h
      obtain ⟨d', h1, rfl, h3⟩ := h
      split_ifs at h3 with hd
      · subst h3
        simp only [List.mem_singleton] at hi
        refine ⟨.inr ⟨hper.1, hd, ?_⟩, hi⟩
        have hl := descendTo_child _ _ _ _ h1
        rw [hd] at hl
        have h0 : c.1 = 0 := by
          have := hper.2
          simp only [atLeft, Bool.and_eq_true, beq_iff_eq] at this
          exact this.1
        obtain ⟨f, p⟩ := c
        cases p with
        | nil => simp only at h0; rw [h0]
        | cons k p => simp at hl
      · subst h3; cases hi
    · rintro ⟨h | ⟨h1, h2, h3⟩, rfl⟩
      · exact absurd h hnone
      · subst h2 h3
        exact ⟨[1], by simp [h1, atLeft, descendTo], by simp⟩
  · simp only [Option.some.injEq, Prod.mk.injEq]
    have hx := (prev_next hc).1 hp
    constructor
    · rintro ⟨ps, ⟨rfl, rfl⟩, hi⟩
      exact ⟨.inl hx, by simpa using hi⟩
    · rintro ⟨h, rfl⟩
      exact ⟨[1], ⟨(Rt.left (.inl hx) h : d' = d), rfl⟩, by simp⟩

theorem rightOf_spec (hF : F.length = N) {c : IN} (hc : c.1 < N) (d : IN) (i : Nat) :
    (∃ ps, rightOf per F c = some (d, ps) ∧ i ∈ ps) ↔ Rt N per c d ∧ i = 0 := by
  unfold rightOf
  rw [hF]
  rcases hp : next N c with _ | d'
  · simp only
    constructor
    · rintro ⟨ps, h, hi⟩
      split_ifs at h with hper
      simp only [Bool.and_eq_true] at hper
      simp only [Option.map_eq_some_iff, Prod.mk.injEq] at h
      obtain ⟨d', h1, rfl, h3⟩ := h
      split_ifs at h3 with hd
      · subst h3
        simp only [List.mem_singleton] at hi
        refine ⟨.inr ⟨hper.1, ?_, hd⟩, hi⟩
        have hl := descendTo_child _ _ _ _ h1
        rw [hd] at hl
        have h0 : c.1 = N - 1 := by
          have := hper.2
          simp only [atRight, Bool.and_eq_true, beq_iff_eq] at this
          omega
        obtain ⟨f, p⟩ := c
        cases p with
        | nil => simp only at h0; rw [h0]
        | cons k p => simp at hl
      · subst h3; cases hi
    · rintro ⟨h | ⟨h1, h2, h3⟩, rfl⟩
      · rw [hp] at h; cases h
      · subst h2 h3
        simp only at hc
        exact ⟨[0], by simp [h1, atRight, descendTo]; omega, by simp⟩
  · simp only [Option.some.injEq, Prod.mk.injEq]
    constructor
    · rintro ⟨ps, ⟨rfl, rfl⟩, hi⟩
      exact ⟨.inl hp, by simpa using hi⟩
    · rintro ⟨h, rfl⟩
      exact ⟨[0], ⟨(Rt.right (.inl hp) h : d' = d), rfl⟩, by simp⟩

theorem dpv_one (he : torn e = false) : dpv e = 1 := by cases e <;> first | exact absurd he (by decide) | rfl

theorem shareV_spec (he : torn e = false) {c : IN} {w : Fin (nd1 e) → Nat} {D : Dict} (h : Row e c w D) (nb : Option (IN × List Nat))
    (hnb : ∀ d ps, nb = some (d, ps) → ∀ j ∈ ps, j < nd1 e) (i : Fin (nd1 e)) :
    ∃ D', shareV e c nb D i = some D' ∧
      Ext e (fun l a => (∃ ps, nb = some (l.1, ps) ∧ l.2.1 ∈ ps) ∧ a = w i) D D' := by
  obtain ⟨row, hr, hlen, hp⟩ := h.row
  have hds : (row.drop i.1).take 1 = [some (w i)] := by
    have := hp i
    have hi : i.1 < row.length := by rw [hlen]; exact i.2
    rw [List.getElem?_eq_getElem hi] at this
    rw [List.drop_eq_getElem_cons hi, List.take_succ_cons, List.take_zero]
    simpa using this
  unfold shareV
  simp only [hr, dpv_one he, Nat.mul_one, hds]
  rw [if_neg (by simp)]
  rcases nb with _ | ⟨d, ps⟩
  · exact ⟨D, rfl, (Ext.refl D).congr (by simp)⟩
  · refine ⟨_, rfl, ?_⟩
    have := foldl_ext (c := c) (w := w) (assignVertex e [some (w i)] d)
      (fun j l b => l.1 = d ∧ l.2.1 = j ∧ b = w i) ps
      (fun j hj D _ => by
        unfold assignVertex
        refine (assignAt_ext D d _ ?_).congr ?_
        · simp only [dpv_one he, List.range_one, List.map_cons, List.map_nil, List.mem_singleton]
          rintro x rfl
          exact ⟨by simpa using hnb d ps rfl j hj, w i, by simp⟩
        · intro l b
          simp [dpv_one he]) D h
    refine this.congr ?_
    intro l a
    simp only [Option.some.injEq, Prod.mk.injEq]
    constructor
    · rintro ⟨j, hj, rfl, rfl, rfl⟩
      exact ⟨⟨ps, ⟨rfl, rfl⟩, hj⟩, rfl⟩
    · rintro ⟨⟨ps', ⟨rfl, rfl⟩, hj⟩, rfl⟩
      exact ⟨_, hj, rfl, rfl, rfl⟩

theorem shareN_spec (hF : F.length = N) (hN : per = true → 2 ≤ N) (he : torn e = false) {c : IN} (hc : c.1 < N) {w : Fin (nd1 e) → Nat}
    {D : Dict} (h : Row e c w D) : ∃ D', shareN per e F c D = some D' ∧
      Ext e (fun l a => ∃ p, l ≠ (c, p) ∧ (contSys hN e he).nb (c, p) l ∧ a = w p) D D' := by
  have h1 := (node_ends e he).1
  obtain ⟨D1, a1, a2⟩ := shareV_spec he h (leftOf per F c) (by
    intro d ps hd j hj
    have := ((leftOf_spec (per := per) hF hc d j).1 ⟨ps, hd, hj⟩).2
    omega) ⟨0, by omega⟩
  obtain ⟨D2, b1, b2⟩ := shareV_spec he (h.ext a2) (rightOf per F c) (by
    intro d ps hd j hj
    have := ((rightOf_spec (per := per) hF hc d j).1 ⟨ps, hd, hj⟩).2
    omega) ⟨1, by omega⟩
  refine ⟨D2, ?_, (a2.trans b2).congr ?_⟩
  · unfold shareN
    simp only at a1 b1
    rw [a1]
    exact b1
  · rintro ⟨d, q⟩ a
    rw [leftOf_spec hF hc, rightOf_spec hF hc]
    constructor
    · rintro (⟨⟨h2, h3⟩, rfl⟩ | ⟨⟨h2, h3⟩, rfl⟩)
      · exact ⟨⟨0, by omega⟩, fun h => h2.ne hN (Prod.mk.inj h).1, .inr (.inr ⟨h2, h3, rfl⟩), rfl⟩
      · exact ⟨⟨1, by omega⟩, fun h => h2.ne hN (Prod.mk.inj h).1.symm, .inr (.inl ⟨h2, rfl, h3⟩), rfl⟩
    · rintro ⟨p, hne, hn, rfl⟩
      rcases hn with hn | ⟨h2, h3, h4⟩ | ⟨h2, h3, h4⟩
      · exact absurd hn.symm hne
      · exact .inr ⟨⟨h2, h4⟩, congrArg w (Fin.ext h3)⟩
      · exact .inl ⟨⟨h2, h3⟩, congrArg w (Fin.ext h4)⟩

/-- The system of places that describes the sharing of dofs of the element. -/
def sysOf (hN : per = true → 2 ≤ N) (e : ET) : Sys (Loc e) IN :=
  if he : torn e = false then contSys hN e he else tornSys e

theorem sysOf_cell (hN : per = true → 2 ≤ N) (l : Loc e) : (sysOf hN e).cell l = l.1 := by
  unfold sysOf
  split_ifs <;> rfl

theorem sysOf_up (hN : per = true → 2 ≤ N) (l : Loc e) : (sysOf hN e).up l = upL e l := by
  unfold sysOf
  split_ifs <;> rfl

/-- One round of the loop of `distribute_dofs`. -/
theorem process_spec (hF : F.length = N) (hN : per = true → 2 ≤ N) (mk : Itv K → Bool) {c : IN}
    (hc : c.1 < N) (D : DH) (hl : Len e D.dofs) :
    ∃ D', process per mk e F D c = some D' ∧ Len e D'.dofs ∧
      Eff (sysOf hN e) c (hasCh mk F c) (vOf D.dofs) (vOf D'.dofs) D.count D'.count := by
  obtain ⟨f1, f2, f3, f4, f5, f6, f7, f8⟩ := fill_spec D c (ownNb_false hF hN c) hl
  have hfull : ∀ p : Fin (nd1 e), ∃ a, vOf (fill per e F D c).dofs (c, p) = some a := by
    intro p
    rcases hv : vOf D.dofs (c, p) with _ | a
    · obtain ⟨a, ha, _⟩ := f6 p hv
      exact ⟨a, ha⟩
    · exact ⟨a, f5 p a hv⟩
  choose w hw using hfull
  have hrow : Row e c w (fill per e F D c).dofs := ⟨f1, hw⟩
  -- the neighbours
  obtain ⟨D2, h2, x2⟩ : ∃ D2, (if torn e then some (fill per e F D c).dofs else shareN per e F c (fill per e F D c).dofs) = some D2 ∧
      Ext e (fun l a => ∃ p, l ≠ (c, p) ∧ (sysOf hN e).nb (c, p) l ∧ a = w p) (fill per e F D c).dofs D2 := by
    by_cases he : torn e = false
    · rw [if_neg (by simp [he])]
      have hs : sysOf hN e = contSys hN e he := by unfold sysOf; rw [dif_pos he]
      rw [hs]
      exact shareN_spec hF hN he hc hrow
    · have hs : sysOf hN e = tornSys e := by unfold sysOf; rw [dif_neg he]
      rw [if_pos (by simpa using he), hs]
      refine ⟨_, rfl, (Ext.refl _).congr ?_⟩
      rintro l a
      simp only [false_iff, not_exists, not_and]
      intro p hne hp
      exact absurd hp.symm hne
  have hrow2 := hrow.ext x2
  -- the children
  obtain ⟨D3, h3, x3⟩ : ∃ D3, (if hasCh mk F c then shareC e c D2 else some D2) = some D3 ∧
      Ext e (fun l a => hasCh mk F c = true ∧ ∃ q, upL e l = some (c, q) ∧ a = w q) D2 D3 := by
    by_cases hb : hasCh mk F c = true
    · rw [if_pos hb]
      obtain ⟨D3, h3, x3⟩ := shareC_spec hrow2
      exact ⟨D3, h3, x3.congr (by simp [hb])⟩
    · rw [if_neg hb]
      exact ⟨D2, rfl, (Ext.refl D2).congr (by simp [hb])⟩
  have x := x2.trans x3
  have hrow3 := hrow2.ext x3
  refine ⟨⟨D3, (fill per e F D c).count⟩, ?_, hrow3.1, ?_⟩
  · unfold process
    simp only [h2, Option.bind_some, h3, Option.map_some]
  have hv3 : ∀ p, vOf D3 (c, p) = vOf (fill per e F D c).dofs (c, p) := fun p => by rw [hrow3.2, hw]
  refine ⟨?_, ?_, ?_, f2, ?_, ?_, ?_, ?_⟩
  · rintro ⟨y, p⟩ a ha
    refine x.mono _ _ ?_
    by_cases hy : y = c
    · subst hy; exact f5 p a ha
    · rw [f4 _ hy]; exact ha
  · rintro ⟨y, p⟩ hy
    rw [sysOf_cell] at hy
    simp only at hy
    subst hy
    refine ⟨w p, hrow3.2 p, ?_⟩
    rcases hv : vOf D.dofs (y, p) with _ | a
    · right
      obtain ⟨a, g1, g2, g3⟩ := f6 p hv
      rw [hw] at g1; cases g1
      exact ⟨rfl, g2, g3⟩
    · left
      have := f5 p a hv
      rw [hw] at this
      exact this.symm
  · rintro ⟨y, p⟩ ⟨y', p'⟩ hy hy' g1 g2 g3
    rw [sysOf_cell] at hy hy'
    simp only at hy hy' g3
    subst hy hy'
    rw [hv3, hv3] at g3
    rw [f7 p p' g1 g2 g3]
  · intro a ha ha'
    obtain ⟨p, g1, g2⟩ := f8 a ha ha'
    exact ⟨(c, p), by rw [sysOf_cell], g1, by simp only; rw [hv3]; exact g2⟩
  · rintro ⟨y, p⟩ l' hy _ hn'
    rw [sysOf_cell] at hy
    simp only at hy
    subst hy
    by_cases hne : l' = (y, p)
    · rw [hne, show vOf D3 (y, p) = _ from hrow3.2 p]; simp
    · exact x.set f1 l' (w p) (.inl ⟨p, hne, hn', rfl⟩)
  · rintro hb ⟨y, p⟩ l' hy hu
    rw [sysOf_cell] at hy
    simp only at hy
    subst hy
    rw [sysOf_up] at hu
    exact x.set f1 l' (w p) (.inr ⟨hb, p, hu, rfl⟩)
  · intro l' a g1 g2 g3
    rw [sysOf_cell] at g3
    have g1' : vOf (fill per e F D c).dofs l' = none := by rw [f4 _ g3]; exact g1
    rcases x.new l' a g1' g2 with ⟨p, _, h5, rfl⟩ | ⟨hb, p, h5, rfl⟩
    · exact ⟨(c, p), by rw [sysOf_cell], hrow3.2 p, .inl h5⟩
    · exact ⟨(c, p), by rw [sysOf_cell], hrow3.2 p, .inr ⟨hb, by rw [sysOf_up]; exact h5⟩⟩

end

end Verif.Line
