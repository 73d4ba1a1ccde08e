import Verif.Coarse.Props

/-!
# Without deletions, the model with deletions is the model of `Verif.Mesh`
-/

namespace Verif.Mesh
open Verif.Geom Verif.Quad

section
set_option linter.unusedSectionVars false
variable {K : Type} [Field K]

def setM (m : CN → Bool) (s : St K) : St K := { s with mkd := m }

theorem heSplit_setM (m : CN → Bool) (s : St K) (h : HN) : heSplit (setM m s) h = (heSplit s h).map (setM m) := by
  have e1 : (setM m s).he = s.he := rfl
  have e2 : (setM m s).vx = s.vx := rfl
  have e3 : ∀ r, twinKids (setM m s) r = twinKids s r := fun _ => rfl
  unfold heSplit
  simp only [e1, e2, e3]
  cases s.he h with
  | none => rfl
  | some r =>
    simp only
    cases twinKids s r with
    | none => rfl
    | some x =>
      obtain ⟨t, t0, t1⟩ := x
      simp only
      split_ifs <;> rfl

theorem splitSide_setM (m : CN → Bool) (c : CN) (s : St K) (i : Fin 4) : splitSide c (setM m s) i = (splitSide c s i).map (setM m) := by
  have e1 : (setM m s).he = s.he := rfl
  have e2 : (setM m s).sides = s.sides := rfl
  unfold splitSide
  simp only [e1, e2, heSplit_setM]
  cases s.he (s.sides c i) with
  | none => rfl
  | some r =>
    simp only
    have : (if r.kids then Except.ok (setM m s) else (heSplit s (s.sides c i)).map (setM m)) =
        (if r.kids then Except.ok s else heSplit s (s.sides c i)).map (setM m) := by
      split_ifs <;> rfl
    rw [this]
    cases (if r.kids then Except.ok s else heSplit s (s.sides c i)) with
    | error e => rfl
    | ok s1 =>
      change (match s1.he (.kid (s.sides c i) false) with
        | none => _
        | some a => _) = _
      simp only
      cases s1.he (.kid (s.sides c i) false) with
      | none => rfl
      | some a => rfl

theorem newCell_setM (m : CN → Bool) (c : CN) (s : St K) (hes : Fin 4 → HN) : newCell (setM m s) c hes = (newCell s c hes).map (setM m) := by
  have e1 : (setM m s).he = s.he := rfl
  unfold newCell
  simp only [e1]
  split
  · split_ifs <;> rfl
  · rfl

theorem forEach_setM {α : Type} (m : CN → Bool) (f : St K → α → Except Err (St K)) (hf : ∀ s a, f (setM m s) a = (f s a).map (setM m)) :
    ∀ (l : List α) (s : St K), forEach f l (setM m s) = (forEach f l s).map (setM m)
  | [], _ => rfl
  | a :: l, s => by
    unfold forEach
    rw [hf]
    cases f s a with
    | error e => rfl
    | ok s' => exact forEach_setM m f hf l s'

theorem cellSplit_setM (m : CN → Bool) (sf : Bool) (s : St K) (c : CN) : cellSplit sf (setM m s) c =
    (cellSplit sf s c).map (setM (fun d => if sf && decide (∃ k, d = child c k) then true else m d)) := by
  unfold cellSplit
  change (if s.kids c then _ else match forEach (splitSide c) four (setM m { s with vx := Function.update s.vx (.center c) (centerPt s c) }) with
    | .error e => _
    | .ok s1 => _) = _
  rw [forEach_setM m _ (splitSide_setM m c)]
  split_ifs with hk
  · rfl
  · cases forEach (splitSide c) four { s with vx := Function.update s.vx (.center c) (centerPt s c) } with
    | error e => rfl
    | ok s1 =>
      simp only [Except.map]
      rw [forEach_setM m (fun s2 k => newCell s2 (child c k) (childSides s2 c k)) (fun s a => newCell_setM m _ s _)]
      cases forEach (fun s2 k => newCell s2 (child c k) (childSides s2 c k)) four s1 with
      | error e => rfl
      | ok s2 => rfl

/-- Every mesh that is reached by splits and marks alone is reached in the model with deletions. -/
theorem C83_extends {B : Base K} (hB : B.WF) {s : St K} (hs : MReach B s) : ZReach B s := by
  induction hs with
  | init => exact .init
  | mark s m _ ih => exact .mark s m ih
  | split s s' c sf hs hc hk h ih =>
    have hi := hs.inv hB
    have hcl : clear (setM (fun d => if ∃ k, d = child c k then false else s.mkd d) s) c =
        setM (fun d => if ∃ k, d = child c k then false else s.mkd d) s := by
      have h1 : ∀ x, inIn c x = true → s.he x = none := by
        intro x hx
        by_contra hne
        have h2 := (hi.ex x).1 (Option.isSome_iff_ne_none.2 hne)
        have hl : Live B.n s.kids (owner x).1 := by
          have key : ∀ (p : List (Fin 4)) (r : Nat), CEx B.n s.kids (r, p) → Live B.n s.kids (r, p) := by
            intro p
            induction p with
            | nil => exact fun r h => h
            | cons k p ih => exact fun r h => ⟨h, ih r (hi.pref _ h)⟩
          exact key _ _ h2
        have := live_inIn x hx hl
        rw [hk] at this; cases this
      have h2 : ∀ k, s.kids (child c k) = false := by
        intro k
        rw [Bool.eq_false_iff]
        intro e
        have := hi.pref _ e
        rw [CEx_child, hk] at this
        cases this
      unfold clear setM
      simp only [St.mk.injEq, true_and]
      refine ⟨?_, ?_, ?_⟩
      · funext x
        split_ifs with hx
        · exact (h1 x hx).symm
        · rfl
      · funext d
        split_ifs with hd
        · obtain ⟨k, rfl⟩ := hd
          exact (h2 k).symm
        · rfl
      · funext d
        split_ifs <;> rfl
    have hr : reSplit sf (setM (fun d => if ∃ k, d = child c k then false else s.mkd d) s) c =
        .ok (setM (fun d => if sf && decide (∃ k, d = child c k) then true else if ∃ k, d = child c k then false else s.mkd d) s') := by
      unfold reSplit
      rw [if_neg (by change ¬ (s.kids c = true); simp [hk]), hcl, cellSplit_setM, h]
      rfl
    have hz := ZReach.split _ _ c sf (.mark s (fun d => if ∃ k, d = child c k then false else s.mkd d) ih) hc hk hr
    have hm := ZReach.mark _ s'.mkd hz
    exact hm

end
end Verif.Mesh
