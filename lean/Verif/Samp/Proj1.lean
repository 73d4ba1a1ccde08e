import Verif.Samp.Proj

/-!
# Samples of linear forms
-/

set_option linter.unusedSectionVars false

namespace Verif.Samp
open Verif.Asm

variable {K : Type} [CommRing K] {κ : Type} [DecidableEq κ]

/-- Sample `j` of an entry. -/
def prE1 (j : ℕ) (e : Ent1 (List K)) : Ent1 K := ⟨e.row, e.val.getD j 0⟩

/-- Sample `j` of the state of the loop. -/
def prS1 (j : ℕ) (s : St1 (List K)) : St1 K := ⟨s.stack.map (prE1 j), s.agg.map (prE1 j)⟩

/-- Sample `j` of the assembled form. -/
def prA1 (j : ℕ) (af : AF1 κ (List K)) : AF1 κ K := ⟨fun k => (af.cells k).map (·.map (prE1 j)), af.agg.map (prE1 j)⟩

/-- All entries have `n` samples. -/
structure LenS1 (n : ℕ) (s : St1 (List K)) : Prop where
  stack : ∀ e ∈ s.stack, e.val.length = n
  agg : ∀ e ∈ s.agg, e.val.length = n

/-- All entries have `n` samples. -/
structure LenA1 (n : ℕ) (af : AF1 κ (List K)) : Prop where
  cells : ∀ k es, af.cells k = some es → ∀ e ∈ es, e.val.length = n
  agg : ∀ e ∈ af.agg, e.val.length = n

theorem step1S_spec {C : ConsS K} {n : ℕ} {e : Ent1 (List K)} {rest agg : List (Ent1 (List K))}
    (he : e.val.length = n) (hL : LenS1 n ⟨rest, agg⟩) :
    LenS1 n (step1S C e rest agg) ∧ ∀ j, prS1 j (step1S C e rest agg) = step1 (C.at j) (prE1 j e) (rest.map (prE1 j)) (agg.map (prE1 j)) := by
  obtain ⟨l1, l2⟩ := hL
  unfold step1S
  cases h1 : C.hng e.row with
  | some h =>
    refine ⟨⟨?_, l2⟩, fun j => ?_⟩
    · intro x hx
      simp only [List.mem_append, List.mem_reverse, List.mem_map] at hx
      rcases hx with ⟨p, _, rfl⟩ | hx
      · simpa using he
      · exact l1 x hx
    · simp only [step1, ConsS.at, prE1, h1, prS1, List.map_append, List.map_reverse, List.map_map]
      congr 4
      funext p
      simp only [Function.comp, prE1, getD_map_mul']
  | none =>
    cases h2 : C.dir e.row with
    | some g => exact ⟨⟨l1, l2⟩, fun j => by simp [step1, ConsS.at, prE1, h1, h2, prS1]⟩
    | none =>
      refine ⟨⟨l1, ?_⟩, fun j => by simp [step1, ConsS.at, prE1, h1, h2, prS1]⟩
      intro b hb
      simp only [List.mem_append, List.mem_singleton] at hb
      rcases hb with hb | rfl
      · exact l2 b hb
      · exact he

/-- `Asm.loop1` with the exception of `distribute`. -/
def loopE1 (C : Cons K) (fuel : ℕ) (s : St1 K) : Except Err (St1 K) :=
  match loop1 C fuel s with
  | none => .error .running
  | some s => .ok s

theorem loop1S_sim {C : ConsS K} {n : ℕ} : ∀ (fuel : ℕ) (s : St1 (List K)), LenS1 n s →
    Sim n (LenS1 n) prS1 (loop1S C fuel s) (fun j => loopE1 (C.at j) fuel (prS1 j s)) := by
  intro fuel
  induction fuel with
  | zero =>
    intro s hL
    obtain ⟨stack, agg⟩ := s
    cases stack with
    | nil => exact Sim.pure hL (fun j _ => by simp [loopE1, prS1, loop1])
    | cons e rest => exact Sim.error (fun j _ => by simp [loopE1, prS1, loop1])
  | succ fuel ih =>
    intro s hL
    obtain ⟨stack, agg⟩ := s
    cases stack with
    | nil => exact Sim.pure hL (fun j _ => by simp [loopE1, prS1, loop1])
    | cons e rest =>
      obtain ⟨h1, h2⟩ := step1S_spec (C := C) (rest := rest) (agg := agg) (hL.stack e (by simp)) ⟨fun x hx => hL.stack x (by simp [hx]), hL.agg⟩
      refine (ih _ h1).congr (fun j _ => ?_)
      rw [h2 j]
      rfl

theorem distribute1S_sim {C : ConsS K} {n : ℕ} (fuel : ℕ) (af : AF1 κ (List K)) (k : κ) (hL : LenA1 n af) :
    Sim n (LenA1 n) prA1 (distribute1S C fuel af k) (fun j => (prA1 j af).distribute (C.at j) false fuel k) := by
  unfold distribute1S
  cases h : af.cells k with
  | none => exact Sim.error (fun j _ => by simp [AF1.distribute, prA1, h])
  | some stk =>
    refine (Sim.bind (loop1S_sim fuel ⟨stk, af.agg⟩ ⟨hL.cells k stk h, hL.agg⟩)
      (g := fun j t => .ok (⟨Function.update (prA1 j af).cells k (some t.stack), t.agg⟩ : AF1 κ K)) (fun s' h' => ?_)).congr (fun j _ => ?_)
    · refine Sim.pure ⟨?_, h'.agg⟩ (fun j _ => ?_)
      · intro k' es hk'
        by_cases hkk : k' = k
        · subst hkk
          replace hk' := (Function.update_self ..).symm.trans hk'
          cases hk'
          exact h'.stack
        · replace hk' := (Function.update_of_ne hkk ..).symm.trans hk'
          exact hL.cells k' es hk'
      · simp only [prA1, prS1]
        congr 2
        funext k'
        by_cases hkk : k' = k
        · subst hkk
          simp
        · simp [Function.update_of_ne hkk]
    · simp only [AF1.distribute, loopE1, prA1, prS1, h, Option.map_some]
      cases loop1 (C.at j) fuel ⟨stk.map (prE1 j), af.agg.map (prE1 j)⟩ <;> rfl

theorem vecS_spec {n : ℕ} (l : Loc1S K) (hS : l.S = n) :
    (∀ e ∈ vecS l, e.val.length = n) ∧ ∀ j < n, (vecS l).map (prE1 j) = vecEntries l.tst (l.at j).vec := by
  unfold vecS
  refine ⟨fun e he => ?_, fun j hj => ?_⟩
  · obtain ⟨k, _, rfl⟩ := List.mem_map.1 he
    simp [hS]
  · unfold vecEntries
    rw [List.map_map]
    refine List.map_congr_left (fun k hk => ?_)
    have hp : pick l.S j = j := by
      unfold pick
      split_ifs
      · rfl
      · omega
    rw [← hS] at hj
    simp only [Function.comp, prE1, List.getD_eq_getElem?_getD, List.getElem?_map, List.getElem?_range hj, Option.map_some, Option.getD_some, Loc1S.at, hp]

theorem update1S_spec {n : ℕ} (k : κ) (af : AF1 κ (List K)) (l : Loc1S K) (hL : LenA1 n af) (hS : l.S = n) :
    LenA1 n (update1S k af l) ∧ ∀ j < n, prA1 j (update1S k af l) = (prA1 j af).update k (l.at j).tst (l.at j).vec := by
  obtain ⟨h2, h3⟩ := vecS_spec l hS
  unfold update1S
  refine ⟨⟨?_, hL.agg⟩, fun j hj => ?_⟩
  · intro k' es' hk'
    by_cases hkk : k' = k
    · subst hkk
      replace hk' := (Function.update_self ..).symm.trans hk'
      cases hk'
      intro e he
      simp only [List.mem_append, List.mem_reverse] at he
      rcases he with he | he
      · exact h2 e he
      · cases hc : af.cells k' with
        | none => rw [hc] at he; simp at he
        | some x => rw [hc] at he; exact hL.cells k' x hc e he
    · replace hk' := (Function.update_of_ne hkk ..).symm.trans hk'
      exact hL.cells k' es' hk'
  · simp only [AF1.update, prA1]
    congr 1
    funext k'
    by_cases hkk : k' = k
    · subst hkk
      simp only [Function.update_self, Option.map_some, List.map_append, List.map_reverse, h3 j hj]
      congr 2
      cases af.cells k' <;> rfl
    · simp only [Function.update_of_ne hkk]

theorem cell1S_sim {C : ConsS K} {n : ℕ} (keep : Bool) (fuel : ℕ) (af : AF1 κ (List K)) (c : κ × List (Loc1S K))
    (hL : LenA1 n af) (hS : ∀ l ∈ c.2, l.S = n) :
    Sim n (LenA1 n) prA1 (cell1S C keep fuel af c) (fun j => cell1 (C.at j) keep fuel (prA1 j af) (c.1, c.2.map (·.at j))) := by
  have h1 : ∀ (ls : List (Loc1S K)) (a : AF1 κ (List K)), LenA1 n a → (∀ l ∈ ls, l.S = n) → LenA1 n (ls.foldl (update1S c.1) a) ∧
      ∀ j < n, prA1 j (ls.foldl (update1S c.1) a) = (ls.map (·.at j)).foldl (fun a l => a.update c.1 l.tst l.vec) (prA1 j a) := by
    intro ls
    induction ls with
    | nil => exact fun a h _ => ⟨h, fun j _ => rfl⟩
    | cons l ls ih =>
      intro a ha hl
      obtain ⟨g1, g2⟩ := update1S_spec c.1 a l ha (hl l (by simp))
      obtain ⟨g3, g4⟩ := ih _ g1 (fun l h => hl l (by simp [h]))
      refine ⟨g3, fun j hj => ?_⟩
      rw [List.foldl_cons, g4 j hj, g2 j hj, List.map_cons, List.foldl_cons]
  obtain ⟨g1, g2⟩ := h1 c.2 af hL hS
  unfold cell1S cell1
  refine (Sim.bind (distribute1S_sim fuel _ c.1 g1)
      (g := fun j (af2 : AF1 κ K) => .ok (if keep then af2 else af2.clear c.1)) (fun b hb => ?_)).congr (fun j hj => ?_)
  · cases keep with
    | true => exact Sim.pure hb (fun j _ => rfl)
    | false =>
      refine Sim.pure ⟨?_, hb.agg⟩ (fun j _ => ?_)
      · intro k' es' hk'
        simp only [Bool.false_eq_true, if_false] at hk'
        by_cases hkk : k' = c.1
        · subst hkk
          replace hk' := (Function.update_self ..).symm.trans hk'
          cases hk'
        · replace hk' := (Function.update_of_ne hkk ..).symm.trans hk'
          exact hb.cells k' es' hk'
      · simp only [Bool.false_eq_true, if_false, AF1.clear, prA1]
        congr 2
        funext k'
        by_cases hkk : k' = c.1
        · subst hkk
          simp
        · simp [Function.update_of_ne hkk]
  · rw [g2 j hj]

theorem assemble1S_sim {C : ConsS K} {n : ℕ} (keep : Bool) (fuel : ℕ) (cs : List (κ × List (Loc1S K)))
    (hS : ∀ c ∈ cs, ∀ l ∈ c.2, l.S = n) :
    Sim n (LenA1 n) prA1 (assemble1S C keep fuel cs) (fun j => assemble1 (C.at j) keep fuel (at1 cs j)) :=
  Sim.foldlM (q := fun j (c : κ × List (Loc1S K)) => (c.1, c.2.map (·.at j))) (P := fun c => ∀ l ∈ c.2, l.S = n)
    (fun a c ha hc => cell1S_sim keep fuel a c ha hc) cs _ ⟨fun _ _ h => (Option.some_ne_none _ h.symm).elim,
      fun _ h => (List.not_mem_nil h).elim⟩ hS

theorem consolidate1S_sim {n : ℕ} {ord : List ℕ → List ℕ} (ho : SetOrder ord) (af : AF1 κ (List K)) (hL : LenA1 n af) :
    Sim n (fun _ => True) (fun j s => (s.1, s.2.getD j [])) (consolidate1S ord n af) (fun j => (prA1 j af).consolidate ord) := by
  have r1 : ∀ j, (prA1 j af).agg.map (·.row) = af.agg.map (·.row) := fun j => by simp [prA1, prE1, Function.comp_def]
  have r4 : ∀ j, (prA1 j af).agg.map (·.val) = (af.agg.map (·.val)).map (·.getD j 0) := fun j => by simp [prA1, prE1, Function.comp_def]
  have l1 : ∀ r ∈ af.agg.map (·.val), r.length = n := fun r hr => by
    obtain ⟨e, he, rfl⟩ := List.mem_map.1 hr
    exact hL.agg e he
  unfold consolidate1S AF1.consolidate
  simp only [r1, r4, toArray_ok l1]
  refine Sim.shared _ (fun ir hir => ?_)
  have hne : af.agg.map (·.val) ≠ [] := by
    intro h0
    have h1 : af.agg = [] := List.map_eq_nil_iff.1 h0
    rw [h1] at hir
    have h2 : ord [] = [] := List.eq_nil_iff_forall_not_mem.2 (fun x hx => by
      have := ((ho []).2 x).1 hx
      cases this)
    rw [List.map_nil, h2] at hir
    cases hir
  refine Sim.shared (n := n) (Asm.look ir (af.agg.map (·.row))) (fun rows hrows => ?_)
  have m1 : ((List.range n).mapM fun i => do
      let v ← column (af.agg.map fun e : Ent1 (List K) => e.val) i
      (.ok (bincount rows v (ord (af.agg.map fun e : Ent1 (List K) => e.row)).length) : Except Err _)) =
      .ok ((List.range n).map fun i => bincount rows ((af.agg.map fun e : Ent1 (List K) => e.val).map (fun v : List K => v.getD i 0))
        (ord (af.agg.map fun e : Ent1 (List K) => e.row)).length) := by
    refine mapM_ok _ _ _ (fun i hi => ?_)
    rw [column_ok l1 hne (List.mem_range.1 hi)]
    rfl
  rw [m1]
  refine Sim.pure trivial (fun j hj => ?_)
  simp [hj]

end Verif.Samp
