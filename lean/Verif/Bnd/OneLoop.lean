import Verif.Bnd.MergeProps

/-! # The merge loops on one simple loop -/

namespace Verif.Bnd
open Verif.Dcel (MS popFirst setAt shift)

section
variable {V : Type} [DecidableEq V] {C : Nat → V × V} {bnd : List Nat}

omit [DecidableEq V] in
theorem Path.heads {a : Nat} {t : List Nat} (h : Path C (a :: t)) :
    ∃ b, (a :: t).getLast? = some b ∧ (a :: t).map (fun k => (C k).2) = t.map (fun k => (C k).1) ++ [(C b).2] := by
  induction t generalizing a with
  | nil => exact ⟨a, rfl, rfl⟩
  | cons c t ih =>
    obtain ⟨b, h1, h2⟩ := ih h.2
    refine ⟨b, by rw [List.getLast?_cons_cons]; exact h1, ?_⟩
    rw [List.map_cons, h2, h.1]
    rfl

omit [DecidableEq V] in
theorem Path.right {α : Type} {C : α → V × V} {g g' : List α} (h : Path C (g ++ g')) : Path C g' := by
  induction g with
  | nil => exact h
  | cons a g ih =>
    apply ih
    cases hg : g ++ g' with
    | nil => trivial
    | cons b l => rw [List.cons_append, hg] at h; exact h.2

omit [DecidableEq V] in
/-- Along a path one stays in a set that is closed under going to the next half-edge. -/
theorem Path.closed {S : Nat → Prop} {a : Nat} {t : List Nat} (h : Path C (a :: t))
    (hS : ∀ x ∈ a :: t, ∀ y ∈ a :: t, S x → (C x).2 = (C y).1 → S y) (ha : S a) : ∀ x ∈ a :: t, S x := by
  induction t generalizing a with
  | nil =>
    intro x hx
    rw [List.mem_singleton] at hx
    subst hx
    exact ha
  | cons b t ih =>
    intro x hx
    rcases List.mem_cons.1 hx with rfl | hx
    · exact ha
    · exact ih h.2 (fun x hx y hy => hS x (List.mem_cons_of_mem _ hx) y (List.mem_cons_of_mem _ hy))
        (hS a (by simp) b (by simp) ha h.1) x hx

/-- What is used of a simple loop. -/
structure Cyc (C : Nat → V × V) (bnd : List Nat) : Prop where
  nd : bnd.Nodup
  binj : ∀ x ∈ bnd, ∀ y ∈ bnd, (C x).1 = (C y).1 → x = y
  hinj : ∀ x ∈ bnd, ∀ y ∈ bnd, (C x).2 = (C y).2 → x = y
  succ : ∀ x ∈ bnd, ∃ y ∈ bnd, (C x).2 = (C y).1
  conn : ∀ S : Nat → Prop, (∀ x ∈ bnd, ∀ y ∈ bnd, S x → (C x).2 = (C y).1 → S y) → (∃ x ∈ bnd, S x) → ∀ x ∈ bnd, S x
  irr : ∀ x ∈ bnd, (C x).2 ≠ (C x).1
  ne : bnd ≠ []

omit [DecidableEq V] in
theorem nodup_inj {f : Nat → V} {l : List Nat} (h : (l.map f).Nodup) : ∀ x ∈ l, ∀ y ∈ l, f x = f y → x = y :=
  fun _ hx _ hy e => List.inj_on_of_nodup_map h hx hy e

omit [DecidableEq V] in
theorem SimpleLoop.cyc (h : SimpleLoop C bnd) : Cyc C bnd := by
  obtain ⟨g, hp, ⟨hP, a, b, ha, hb, hab⟩, hn, hlen⟩ := h
  cases g with
  | nil => simp at hlen
  | cons a' t =>
    simp only [List.head?_cons, Option.some.injEq] at ha
    subst ha
    obtain ⟨b', e1, e2⟩ := hP.heads
    rw [hb] at e1
    cases e1
    have hheads : ((a' :: t).map (fun k => (C k).2)).Perm ((a' :: t).map (fun k => (C k).1)) := by
      rw [e2, hab, List.map_cons]
      exact (List.perm_append_singleton _ _)
    have hhn := hheads.nodup_iff.2 hn
    have hm : ∀ x, x ∈ bnd ↔ x ∈ a' :: t := fun x => hp.mem_iff.symm
    have hbm : b ∈ a' :: t := List.mem_of_getLast? hb
    have hconn : ∀ S : Nat → Prop, (∀ x ∈ bnd, ∀ y ∈ bnd, S x → (C x).2 = (C y).1 → S y) → (∃ x ∈ bnd, S x) → ∀ x ∈ bnd, S x := by
      rintro S hS ⟨x, hx, hSx⟩
      have hSg : ∀ x ∈ a' :: t, ∀ y ∈ a' :: t, S x → (C x).2 = (C y).1 → S y := fun x hx y hy =>
        hS x ((hm x).2 hx) y ((hm y).2 hy)
      have hSb : S b := by
        obtain ⟨l1, l2, e⟩ := List.append_of_mem ((hm x).1 hx)
        have h2 : Path C (x :: l2) := by rw [e] at hP; exact hP.right
        refine h2.closed (fun u hu v hv => hSg u ?_ v ?_) hSx b ?_
        · rw [e]; exact List.mem_append_right _ hu
        · rw [e]; exact List.mem_append_right _ hv
        · rw [e, List.getLast?_append] at hb
          cases hl : (x :: l2).getLast? with
          | none => simp at hl
          | some c =>
            rw [hl] at hb
            simp at hb
            subst hb
            exact List.mem_of_getLast? hl
      have hSa : S a' := hSg b hbm a' (by simp) hSb hab
      intro y hy
      exact hP.closed hSg hSa y ((hm y).1 hy)
    have hsucc : ∀ x ∈ bnd, ∃ y ∈ bnd, (C x).2 = (C y).1 := by
      intro x hx
      have : (C x).2 ∈ (a' :: t).map (fun k => (C k).1) := hheads.mem_iff.1 (List.mem_map.2 ⟨x, (hm x).1 hx, rfl⟩)
      obtain ⟨y, hy, e⟩ := List.mem_map.1 this
      exact ⟨y, (hm y).2 hy, e.symm⟩
    have hbinj : ∀ x ∈ bnd, ∀ y ∈ bnd, (C x).1 = (C y).1 → x = y := fun x hx y hy =>
      nodup_inj hn x ((hm x).1 hx) y ((hm y).1 hy)
    refine ⟨hp.nodup_iff.1 (List.Nodup.of_map _ hn), hbinj, fun x hx y hy =>
      nodup_inj hhn x ((hm x).1 hx) y ((hm y).1 hy), hsucc, hconn, ?_, ?_⟩
    · intro x hx e
      have hall := hconn (fun y => y = x) (fun u hu v hv h1 h2 => by
        subst h1
        exact (hbinj _ hu v hv (e.symm.trans h2)).symm) ⟨x, hx, rfl⟩
      have h1 := hall a' ((hm a').2 (by simp))
      cases t with
      | nil => simp at hlen
      | cons c t =>
        have h2 := hall c ((hm c).2 (by simp))
        rw [h1, h2] at hn
        simp at hn
    · rintro rfl
      have := hp.length_eq
      simp at this

omit [DecidableEq V] in
/-- A closed path contains everything. -/
theorem Cyc.loop (h : Cyc C bnd) {g : List Nat} (hs : ∀ x ∈ g, x ∈ bnd) (hl : Loop C g) : ∀ x ∈ bnd, x ∈ g := by
  obtain ⟨hP, a, b, ha, hb, hab⟩ := hl
  refine h.conn (· ∈ g) (fun x hx y hy hxg e => ?_) ⟨a, hs a (List.mem_of_mem_head? ha), List.mem_of_mem_head? ha⟩
  obtain ⟨l1, l2, rfl⟩ := List.append_of_mem hxg
  cases l2 with
  | nil =>
    have : b = x := by simpa using hb.symm
    subst this
    have : y = a := h.binj y hy a (hs a (List.mem_of_mem_head? ha)) (e.symm.trans hab)
    rw [this]
    exact List.mem_of_mem_head? ha
  | cons z l2 =>
    have hz : z ∈ l1 ++ x :: z :: l2 := by simp
    have : y = z := h.binj y hy z (hs z hz) (e.symm.trans hP.right.1)
    rw [this]
    exact hz

omit [DecidableEq V] in
/-- The half-edge after the last one of a path is the first of its group. -/
theorem Cyc.first (h : Cyc C bnd) {g g' : List Nat} (hs : ∀ x ∈ g', x ∈ bnd) (hP : Path C g') {x y : Nat}
    (hx : g.getLast? = some x) (hxb : x ∈ bnd) (hy : y ∈ g') (e : (C x).2 = (C y).1) (hd : x ∈ g' → g' = g) (hn : g.Nodup) :
    g'.head? = some y := by
  obtain ⟨l1, l2, rfl⟩ := List.append_of_mem hy
  rcases List.eq_nil_or_concat l1 with rfl | ⟨l0, z, rfl⟩
  · rfl
  · exfalso
    rw [List.concat_eq_append] at *
    have hz : z ∈ (l0 ++ [z]) ++ y :: l2 := by simp
    have hPz : (C z).2 = (C y).1 := by
      have : Path C (z :: y :: l2) := by
        have := hP
        rw [List.append_assoc] at this
        exact this.right
      exact this.1
    have hzx : z = x := h.hinj z (hs z hz) x hxb (hPz.trans e.symm)
    have := hd (hzx ▸ hz)
    rw [← this] at hx hn
    rw [List.getLast?_append] at hx
    have hl : x ∈ y :: l2 := by
      cases hl : (y :: l2).getLast? with
      | none => simp at hl
      | some c =>
        rw [hl] at hx
        simp at hx
        subst hx
        exact List.mem_of_getLast? hl
    rw [List.nodup_append'] at hn
    exact hn.2.2 (by rw [hzx]; simp) hl

set_option linter.unusedSectionVars false
/-! ### The loops -/

/-- All half-edges are in the list. -/
structure AllIn (C : Nat → V × V) (bnd : List Nat) (L : List (List Nat)) : Prop where
  good : Good C bnd L
  perm : L.flatten.Perm bnd

theorem AllIn.mem {L : List (List Nat)} (h : AllIn C bnd L) {g : List Nat} (hg : g ∈ L) : ∀ x ∈ g, x ∈ bnd :=
  fun x hx => h.perm.mem_iff.1 (List.mem_flatten.2 ⟨g, hg, hx⟩)

theorem AllIn.uniq {L : List (List Nat)} (h : AllIn C bnd L) (hb : bnd.Nodup) {g g' : List Nat} (hg : g ∈ L) (hg' : g' ∈ L) {x : Nat}
    (hx : x ∈ g) (hx' : x ∈ g') : g = g' := by
  have hn := h.good.nodup hb
  clear h
  induction L with
  | nil => cases hg
  | cons a L ih =>
    rw [List.flatten_cons, List.nodup_append'] at hn
    rcases List.mem_cons.1 hg with e1 | k1 <;> rcases List.mem_cons.1 hg' with e2 | k2
    · rw [e1, e2]
    · exact absurd (List.mem_flatten.2 ⟨g', k2, hx'⟩ : x ∈ L.flatten) (fun hh => hn.2.2 (e1 ▸ hx) hh)
    · exact absurd (List.mem_flatten.2 ⟨g, k1, hx⟩ : x ∈ L.flatten) (fun hh => hn.2.2 (e2 ▸ hx') hh)
    · exact ih k1 k2 hn.2.1

/-- A closed group is alone. -/
theorem AllIn.closed {L : List (List Nat)} (h : AllIn C bnd L) (hc : Cyc C bnd) {g : List Nat} (hg : g ∈ L) (hl : Loop C g) : L = [g] := by
  have hall := hc.loop (h.mem hg) hl
  have hg' : ∀ g' ∈ L, g' = g := by
    intro g' hg'
    obtain ⟨x, hx⟩ := List.exists_mem_of_ne_nil g' (h.good.ne g' hg')
    exact (h.uniq hc.nd hg hg' (hall x (h.mem hg' x hx)) hx).symm
  have hnd := nodup_of_flat (h.good.nodup hc.nd) h.good.ne
  have hrep := List.eq_replicate_of_mem hg'
  rw [hrep] at hnd ⊢
  rw [List.nodup_replicate] at hnd
  have hlen : L.length ≠ 0 := by
    intro h0
    rw [List.length_eq_zero_iff] at h0
    rw [h0] at hg
    cases hg
  rw [show L.length = 1 by omega]
  rfl

/-- No group is closed. -/
def Open (C : Nat → V × V) (L : List (List Nat)) : Prop := ∀ g ∈ L, ¬ Loop C g

/-- Every group is followed by a group. -/
theorem AllIn.next {L : List (List Nat)} (h : AllIn C bnd L) (hc : Cyc C bnd) {g : List Nat} (hg : g ∈ L) {b : Nat}
    (hb : g.getLast? = some b) : ∃ g' ∈ L, ∃ y, g'.head? = some y ∧ (C b).2 = (C y).1 := by
  have hbb : b ∈ bnd := h.mem hg b (List.mem_of_getLast? hb)
  obtain ⟨y, hy, e⟩ := hc.succ b hbb
  obtain ⟨g', hg', hyg⟩ := List.mem_flatten.1 (h.perm.mem_iff.2 hy)
  have hgn : g.Nodup := (List.nodup_flatten.1 (h.good.nodup hc.nd)).1 g hg
  exact ⟨g', hg', y, hc.first (h.mem hg') (h.good.path g' hg') hb hbb hyg e
    (fun hx => h.uniq hc.nd hg' hg hx (List.mem_of_getLast? hb)) hgn, e⟩

theorem AllIn.single {g : List Nat} (h : AllIn C bnd [g]) (hc : Cyc C bnd) : Loop C g := by
  have hne := h.good.ne g (by simp)
  obtain ⟨b, hb⟩ : ∃ b, g.getLast? = some b := by
    cases g with
    | nil => exact absurd rfl hne
    | cons a g => exact ⟨_, List.getLast?_eq_some_getLast (by simp)⟩
  obtain ⟨g', hg', y, hy, e⟩ := h.next hc (List.mem_singleton.2 rfl) hb
  rw [List.mem_singleton] at hg'
  subst hg'
  exact ⟨h.good.path _ (by simp), y, b, hy, hb, e⟩

/-- Invariant of the inner loop. -/
structure J (C : Nat → V × V) (bnd : List Nat) (j : Nat) (s : MS) : Prop where
  all : AllIn C bnd s.L
  at_ : ∃ i, s.i = some i ∧ s.L[i]? = some s.g1
  op : Open C s.L ∨ (s.L.length = 1 ∧ 1 ≤ j ∧ s.act = true)
  seen : s.act = true ∨ ∀ j' < j, ∀ g2 b c, s.L[j']? = some g2 → s.g1.getLast? = some b → g2.head? = some c → (C b).2 ≠ (C c).1

theorem mergeBody_J (hc : Cyc C bnd) {s : MS} {j : Nat} (h : J C bnd j s) {g2 : List Nat} (hj : s.L[j]? = some g2) :
    J C bnd (j + 1) (mergeBody C s g2) := by
  obtain ⟨i, hi, hg1⟩ := h.at_
  have hopen : Open C s.L := by
    rcases h.op with h | ⟨h1, h2, _⟩
    · exact h
    · have := (List.getElem?_eq_some_iff.1 hj).1
      omega
  have hm1 := List.mem_of_getElem? hg1
  have hm2 := List.mem_of_getElem? hj
  have hinn : Inn C bnd s := ⟨h.all.good, fun k hk => by rw [hi] at hk; cases hk; exact hg1⟩
  have hL := nodup_of_flat (h.all.good.nodup hc.nd) h.all.good.ne
  -- a merge with another group
  have step : ∀ g : List Nat, g.Perm (s.g1 ++ g2) → Path C g → i ≠ j →
      J C bnd (j + 1) ⟨setAt (popFirst s.L g2) (shift s.i (s.L.findIdx (· = g2))) g, shift s.i (s.L.findIdx (· = g2)), g, true⟩ := by
    intro g hperm hpath hij
    obtain ⟨m1, m2⟩ := merge_step hc.nd hinn hj g (fun h1 h2 h3 => by
      rw [h3] at hperm
      have := hperm.length_eq
      simp only [List.length_nil, List.length_append] at this
      exact h1 (List.length_eq_zero_iff.1 (by omega))) (fun _ _ _ => hpath) hperm true
    obtain ⟨i', rest, q1, q2, q3, q4⟩ := pop_other (g := g) hL hg1 hj hij
    rw [hi, q1] at m1 m2 ⊢
    have hall : AllIn C bnd (setAt (popFirst s.L g2) (some i') g) := by
      refine ⟨m1.good, q4.flatten.trans (List.Perm.trans ?_ (q3.flatten.symm.trans h.all.perm))⟩
      simp only [List.flatten_cons]
      rw [← List.append_assoc]
      exact List.Perm.append_right _ hperm
    refine ⟨hall, ⟨i', rfl, q2⟩, ?_, .inl rfl⟩
    by_cases hop : Open C (setAt (popFirst s.L g2) (some i') g)
    · exact .inl hop
    · right
      unfold Open at hop
      push Not at hop
      obtain ⟨g', hg', hl⟩ := hop
      exact ⟨by simp only; rw [hall.closed hc hg' hl]; rfl, by omega, rfl⟩
  have hsame : (∀ b c, s.g1.getLast? = some b → g2.head? = some c → (C b).2 ≠ (C c).1) → J C bnd (j + 1) s := by
    intro hno
    refine ⟨h.all, h.at_, ?_, ?_⟩
    · rcases h.op with h | ⟨h1, h2, h3⟩
      · exact .inl h
      · exact .inr ⟨h1, by omega, h3⟩
    · rcases h.seen with h' | h'
      · exact .inl h'
      · right
        intro j' hj' g b c hg hb hcc
        rcases Nat.lt_succ_iff_lt_or_eq.1 hj' with h1 | rfl
        · exact h' j' h1 g b c hg hb hcc
        · rw [hj] at hg
          cases hg
          exact hno b c hb hcc
  unfold mergeBody
  split
  · rename_i a b c d ha hb hcc hd
    have hij : (C b).2 = (C c).1 ∨ (C a).1 = (C d).2 → i ≠ j := by
      rintro hh rfl
      rw [hj] at hg1
      cases hg1
      rw [ha] at hcc
      rw [hb] at hd
      cases hcc
      cases hd
      refine hopen _ hm2 ⟨h.all.good.path _ hm2, a, b, ha, hb, ?_⟩
      rcases hh with hh | hh
      · exact hh
      · exact hh.symm
    split_ifs with h1 h2
    · refine step _ (List.Perm.refl _) ?_ (hij (.inl h1))
      refine (h.all.good.path _ hm1).append (h.all.good.path _ hm2) (fun x y hx hy => ?_)
      rw [hb] at hx
      rw [hcc] at hy
      cases hx
      cases hy
      exact h1
    · refine step _ List.perm_append_comm ?_ (hij (.inr h2))
      refine (h.all.good.path _ hm2).append (h.all.good.path _ hm1) (fun x y hx hy => ?_)
      rw [hd] at hx
      rw [ha] at hy
      cases hx
      cases hy
      exact h2.symm
    · refine hsame (fun b' c' hb' hc' => ?_)
      rw [hb] at hb'
      rw [hcc] at hc'
      cases hb'
      cases hc'
      exact h1
  · rename_i hno
    refine hsame (fun b c hb hcc => ?_)
    have n1 := h.all.good.ne _ hm1
    have n2 := h.all.good.ne _ hm2
    exfalso
    cases e1 : s.g1 with
    | nil => exact n1 e1
    | cons a l =>
      cases e2 : g2 with
      | nil => exact n2 e2
      | cons a' l' =>
        have h4 : g2.getLast? = some (g2.getLast n2) := List.getLast?_eq_some_getLast n2
        exact hno a b c _ (by rw [e1]; rfl) hb hcc h4

theorem innerLoop_J (hc : Cyc C bnd) : ∀ (fuel j : Nat) (s : MS), J C bnd j s → s.L.length ≤ j + fuel →
    AllIn C bnd (innerLoop C fuel j s).L ∧ (Open C (innerLoop C fuel j s).L ∨ (innerLoop C fuel j s).L.length = 1) ∧
      (innerLoop C fuel j s).act = true := by
  have done : ∀ (j : Nat) (s : MS), J C bnd j s → s.L.length ≤ j → AllIn C bnd s.L ∧ (Open C s.L ∨ s.L.length = 1) ∧ s.act = true := by
    intro j s h hl
    refine ⟨h.all, h.op.imp id (fun h => h.1), ?_⟩
    rcases h.seen with h' | h'
    · exact h'
    · exfalso
      obtain ⟨i, hi, hg1⟩ := h.at_
      have hm1 := List.mem_of_getElem? hg1
      have n1 := h.all.good.ne _ hm1
      obtain ⟨g', hg', y, hy, e⟩ := h.all.next hc hm1 (List.getLast?_eq_some_getLast n1)
      obtain ⟨j', hj'⟩ := List.mem_iff_getElem?.1 hg'
      have hlt := (List.getElem?_eq_some_iff.1 hj').1
      exact h' j' (by omega) g' _ y hj' (List.getLast?_eq_some_getLast n1) hy e
  intro fuel
  induction fuel with
  | zero => exact fun j s h hl => done j s h (by omega)
  | succ fuel ih =>
    intro j s h hl
    unfold innerLoop
    cases hj : s.L[j]? with
    | none => exact done j s h (by rw [List.getElem?_eq_none_iff] at hj; exact hj)
    | some g2 =>
      refine ih (j + 1) _ (mergeBody_J hc h hj) ?_
      obtain ⟨i, hi, hg1⟩ := h.at_
      have := (mergeBody_inn hc.nd ⟨h.all.good, fun k hk => by rw [hi] at hk; cases hk; exact hg1⟩ hj).2
      rcases this with this | ⟨_, this⟩
      · rw [this]; omega
      · omega

theorem outerLoop_J (hc : Cyc C bnd) : ∀ (fuel i : Nat) (L : List (List Nat)) (a : Bool), AllIn C bnd L →
    (Open C L ∨ (L.length = 1 ∧ 1 ≤ i)) → (a = true ∨ i < L.length) → L.length ≤ i + fuel →
    AllIn C bnd (outerLoop C fuel i L a).1 ∧ (Open C (outerLoop C fuel i L a).1 ∨ (outerLoop C fuel i L a).1.length = 1) ∧
      (outerLoop C fuel i L a).2 = true := by
  intro fuel
  induction fuel with
  | zero =>
    intro i L a h1 h2 h3 h4
    exact ⟨h1, h2.imp id (fun h => h.1), h3.resolve_right (by omega)⟩
  | succ fuel ih =>
    intro i L a h1 h2 h3 h4
    unfold outerLoop
    cases hi : L[i]? with
    | none =>
      rw [List.getElem?_eq_none_iff] at hi
      exact ⟨h1, h2.imp id (fun h => h.1), h3.resolve_right (by omega)⟩
    | some g1 =>
      have hlt := (List.getElem?_eq_some_iff.1 hi).1
      have hop : Open C L := h2.resolve_right (by omega)
      obtain ⟨r1, r2, r3⟩ := innerLoop_J hc L.length 0 ⟨L, some i, g1, false⟩ ⟨h1, ⟨i, rfl, hi⟩, .inl hop, .inr (by simp)⟩ (by simp)
      have hle := (innerLoop_inn hc.nd L.length 0 ⟨L, some i, g1, false⟩ ⟨h1.good, fun k hk => by cases hk; exact hi⟩).2.1
      refine ih (i + 1) _ _ r1 (r2.imp id (fun h => ⟨h, by omega⟩)) (.inl r3) ?_
      simp only at hle
      omega

theorem whileLoop_J (hc : Cyc C bnd) : ∀ (fuel : Nat) (L : List (List Nat)), AllIn C bnd L → Open C L → L.length < fuel →
    ∃ g, whileLoop C fuel L = some [g] ∧ AllIn C bnd [g] := by
  intro fuel
  induction fuel with
  | zero => intro L _ _ h; omega
  | succ fuel ih =>
    intro L h1 h2 h3
    have hlen : 0 < L.length := by
      rcases Nat.eq_zero_or_pos L.length with h0 | h0
      · rw [List.length_eq_zero_iff] at h0
        subst h0
        have := h1.perm.symm.eq_nil
        exact absurd this hc.ne
      · exact h0
    obtain ⟨o1, o2, o3⟩ := outerLoop_J hc L.length 0 L false h1 (.inl h2) (.inr hlen) (by omega)
    have og := (outerLoop_good hc.nd L.length 0 L false h1.good).2.2 o3
    unfold whileLoop
    split_ifs with hcnd
    · rw [o3] at hcnd
      have h1' := hcnd.resolve_left (by simp)
      obtain ⟨g, hg⟩ := List.length_eq_one_iff.1 h1'
      rw [hg] at o1 ⊢
      exact ⟨g, rfl, o1⟩
    · push Not at hcnd
      refine ih _ o1 (o2.resolve_right hcnd.2) ?_
      rcases og with og | og
      · cases og
      · omega

/-- On one simple loop the result is one closed path with all half-edges. -/
theorem groups_loop (h : SimpleLoop C bnd) : ∃ g, groups C bnd = some [g] ∧ g.Perm bnd ∧ Loop C g := by
  have hc := h.cyc
  obtain ⟨g, hg, ha⟩ := whileLoop_J hc (bnd.length + 1) (bnd.map (fun i => [i])) ⟨start_good bnd, by
      have : (bnd.map (fun i => [i])).flatten = bnd := by
        clear h hc
        induction bnd with
        | nil => rfl
        | cons a l ih => simp only [List.map_cons, List.flatten_cons, ih, List.singleton_append]
      rw [this]⟩ (by
      intro g hg hl
      obtain ⟨i, hi, rfl⟩ := List.mem_map.1 hg
      obtain ⟨_, a, b, h1, h2, h3⟩ := hl
      cases h1
      cases h2
      exact hc.irr _ hi h3) (by simp)
  refine ⟨g, hg, ?_, ha.single hc⟩
  have := ha.perm
  simpa using this

end
end Verif.Bnd
