import Verif.Samp.Model

/-!
# Samples do not influence each other
-/

set_option linter.unusedSectionVars false

namespace Verif.Samp
open Verif.Asm

variable {K : Type} [CommRing K] {κ : Type} [DecidableEq κ]

/-- A call on all samples and the calls on single samples: all raise the same exception, or all return, and the single results are those of the
whole. -/
def Sim {α β : Type} (n : ℕ) (L : α → Prop) (R : ℕ → α → β) (x : Except Err α) (y : ℕ → Except Err β) : Prop :=
  (∃ a, x = .ok a ∧ L a ∧ ∀ j < n, y j = .ok (R j a)) ∨ ∃ e, x = .error e ∧ ∀ j < n, y j = .error e

theorem Sim.pure {α β : Type} {n : ℕ} {L : α → Prop} {R : ℕ → α → β} {a : α} {y : ℕ → Except Err β} (h : L a) (hy : ∀ j < n, y j = .ok (R j a)) :
    Sim n L R (.ok a) y := .inl ⟨a, rfl, h, hy⟩

theorem Sim.error {α β : Type} {n : ℕ} {L : α → Prop} {R : ℕ → α → β} {e : Err} {y : ℕ → Except Err β} (hy : ∀ j < n, y j = .error e) :
    Sim n L R (.error e : Except Err α) y := .inr ⟨e, rfl, hy⟩

theorem Sim.bind {α β α' β' : Type} {n : ℕ} {L : α → Prop} {R : ℕ → α → β} {L' : α' → Prop} {R' : ℕ → α' → β'} {x : Except Err α}
    {y : ℕ → Except Err β} {f : α → Except Err α'} {g : ℕ → β → Except Err β'} (h : Sim n L R x y)
    (hf : ∀ a, L a → Sim n L' R' (f a) (fun j => g j (R j a))) : Sim n L' R' (x >>= f) (fun j => y j >>= g j) := by
  rcases h with ⟨a, rfl, hL, hy⟩ | ⟨e, rfl, hy⟩
  · rcases hf a hL with ⟨b, hb, hL', hy'⟩ | ⟨e, hb, hy'⟩
    · exact .inl ⟨b, hb, hL', fun j hj => by simp only [hy j hj]; exact hy' j hj⟩
    · exact .inr ⟨e, hb, fun j hj => by simp only [hy j hj]; exact hy' j hj⟩
  · exact .inr ⟨e, rfl, fun j hj => by simp only [hy j hj]; rfl⟩

theorem Sim.congr {α β : Type} {n : ℕ} {L : α → Prop} {R : ℕ → α → β} {x : Except Err α} {y y' : ℕ → Except Err β} (h : Sim n L R x y)
    (e : ∀ j < n, y j = y' j) : Sim n L R x y' := by
  rcases h with ⟨a, rfl, hL, hy⟩ | ⟨e', rfl, hy⟩
  · exact .inl ⟨a, rfl, hL, fun j hj => (e j hj).symm.trans (hy j hj)⟩
  · exact .inr ⟨e', rfl, fun j hj => (e j hj).symm.trans (hy j hj)⟩

theorem Sim.map {α β : Type} {n : ℕ} {L : α → Prop} {R : ℕ → α → β} {x : Except Err α} {y : ℕ → Except Err β} (h : Sim n L R x y) {j : ℕ} (hj : j < n) :
    x.map (R j) = y j := by
  rcases h with ⟨a, rfl, _, hy⟩ | ⟨e, rfl, hy⟩
  · exact (hy j hj).symm
  · exact (hy j hj).symm

theorem Sim.foldlM {α β γ γ' : Type} {n : ℕ} {L : α → Prop} {R : ℕ → α → β} {f : α → γ → Except Err α} {g : ℕ → β → γ' → Except Err β} {q : ℕ → γ → γ'}
    {P : γ → Prop} (hf : ∀ a c, L a → P c → Sim n L R (f a c) (fun j => g j (R j a) (q j c))) :
    ∀ (l : List γ) (a : α), L a → (∀ c ∈ l, P c) → Sim n L R (l.foldlM f a) (fun j => (l.map (q j)).foldlM (g j) (R j a)) := by
  intro l
  induction l with
  | nil => exact fun a h _ => Sim.pure h (fun j _ => rfl)
  | cons c l ih =>
    intro a h hc
    rw [List.foldlM_cons]
    exact (Sim.bind (hf a c h (hc c (by simp))) (g := fun j b => (l.map (q j)).foldlM (g j) b) (fun b hb => ih b hb (fun c h => hc c (by simp [h])))).congr
      (fun j _ => by rw [List.map_cons, List.foldlM_cons])

/-! ## Bilinear forms -/

/-- Sample `j` of an entry. -/
def prE (j : ℕ) (e : Ent (List K)) : Ent K := ⟨e.row, e.col, e.val.getD j 0⟩

/-- Sample `j` of an entry of the Dirichlet correction. -/
def prB (j : ℕ) (b : ℕ × List K) : ℕ × K := (b.1, b.2.getD j 0)

/-- Sample `j` of the state of the loop. -/
def prS (j : ℕ) (s : St2 (List K)) : St2 K := ⟨s.stack.map (prE j), s.agg.map (prE j), s.bnd.map (prB j)⟩

/-- Sample `j` of the assembled form. -/
def prA (j : ℕ) (af : AF2 κ (List K)) : AF2 κ K := ⟨fun k => (af.cells k).map (·.map (prE j)), af.agg.map (prE j), af.bnd.map (prB j)⟩

/-- All entries have `n` samples. -/
structure LenS (n : ℕ) (s : St2 (List K)) : Prop where
  stack : ∀ e ∈ s.stack, e.val.length = n
  agg : ∀ e ∈ s.agg, e.val.length = n
  bnd : ∀ b ∈ s.bnd, b.2.length = n

/-- All entries have `n` samples. -/
structure LenA (n : ℕ) (af : AF2 κ (List K)) : Prop where
  cells : ∀ k es, af.cells k = some es → ∀ e ∈ es, e.val.length = n
  agg : ∀ e ∈ af.agg, e.val.length = n
  bnd : ∀ b ∈ af.bnd, b.2.length = n

theorem getD_map_mul (v : List K) (c : K) {j : ℕ} : (v.map (· * c)).getD j 0 = v.getD j 0 * c := by
  simp only [List.getD_eq_getElem?_getD, List.getElem?_map]
  cases v[j]? <;> simp

theorem getD_map_mul' (v : List K) (c : K) {j : ℕ} : (v.map (c * ·)).getD j 0 = c * v.getD j 0 := by
  simp only [List.getD_eq_getElem?_getD, List.getElem?_map]
  cases v[j]? <;> simp

theorem mulB_spec {n : ℕ} {v g : List K} (hv : v.length = n) (hg : g.length = 1 ∨ g.length = n) :
    ∃ w, mulB v g = .ok w ∧ w.length = n ∧ ∀ j < n, w.getD j 0 = v.getD j 0 * g.getD (pick g.length j) 0 := by
  unfold mulB
  by_cases h : v.length = g.length
  · rw [if_pos h]
    refine ⟨_, rfl, by simp [hv, ← h], fun j hj => ?_⟩
    have hp : pick g.length j = j := by
      unfold pick
      split_ifs with h1
      · rfl
      · omega
    rw [hp]
    have h1 : j < v.length := hv ▸ hj
    have h2 : j < g.length := h ▸ h1
    simp [List.getD_eq_getElem?_getD, h1, h2]
  · have hg1 : g.length = 1 := hg.resolve_right (fun h0 => h (hv.trans h0.symm))
    rw [if_neg h, if_pos hg1]
    refine ⟨_, rfl, by simp [hv], fun j hj => ?_⟩
    rw [getD_map_mul]
    simp [pick, hg1]

theorem step2S_sim {C : ConsS K} {n : ℕ} (hC : C.Fits n) {e : Ent (List K)} {rest agg : List (Ent (List K))} {bnd : List (ℕ × List K)}
    (he : e.val.length = n) (hL : LenS n ⟨rest, agg, bnd⟩) :
    Sim n (LenS n) prS (step2S C e rest agg bnd) (fun j => .ok (step2 (C.at j) (prE j e) (rest.map (prE j)) (agg.map (prE j)) (bnd.map (prB j)))) := by
  obtain ⟨l1, l2, l3⟩ := hL
  unfold step2S
  cases h1 : C.hng e.row with
  | some h =>
    refine Sim.pure ⟨?_, l2, l3⟩ (fun j _ => ?_)
    · intro x hx
      simp only [List.mem_append, List.mem_reverse, List.mem_map] at hx
      rcases hx with ⟨p, _, rfl⟩ | hx
      · simpa using he
      · exact l1 x hx
    · simp only [step2, ConsS.at, prE, h1, prS, List.map_append, List.map_reverse, List.map_map]
      congr 5
      funext p
      simp only [Function.comp, prE, getD_map_mul]
  | none =>
    cases h2 : C.dir e.row with
    | some g =>
      exact Sim.pure ⟨l1, l2, l3⟩ (fun j _ => by simp [step2, ConsS.at, prE, h1, h2, prS])
    | none =>
      cases h3 : C.hng e.col with
      | some h =>
        refine Sim.pure ⟨?_, l2, l3⟩ (fun j _ => ?_)
        · intro x hx
          simp only [List.mem_append, List.mem_reverse, List.mem_map] at hx
          rcases hx with ⟨p, _, rfl⟩ | hx
          · simpa using he
          · exact l1 x hx
        · simp only [step2, ConsS.at, prE, h1, h2, h3, prS, List.map_append, List.map_reverse, List.map_map, Option.map_none]
          congr 5
          funext p
          simp only [Function.comp, prE, getD_map_mul]
      | none =>
        cases h4 : C.dir e.col with
        | some g =>
          obtain ⟨w, hw, hl, hv⟩ := mulB_spec he (hC _ _ h4)
          simp only [hw]
          refine Sim.pure ⟨l1, l2, ?_⟩ (fun j hj => ?_)
          · intro b hb
            simp only [List.mem_append, List.mem_singleton] at hb
            rcases hb with hb | rfl
            · exact l3 b hb
            · exact hl
          · simp only [step2, ConsS.at, prE, h1, h2, h3, h4, prS, Option.map_none, Option.map_some, List.map_append, List.map_cons, List.map_nil, prB,
              hv j hj]
        | none =>
          refine Sim.pure ⟨l1, ?_, l3⟩ (fun j hj => ?_)
          · intro b hb
            simp only [List.mem_append, List.mem_singleton] at hb
            rcases hb with hb | rfl
            · exact l2 b hb
            · exact he
          · simp [step2, ConsS.at, prE, h1, h2, h3, h4, prS]

/-- `Asm.loop2` with the exception of `distribute`. -/
def loopE (C : Cons K) (fuel : ℕ) (s : St2 K) : Except Err (St2 K) :=
  match loop2 C fuel s with
  | none => .error .running
  | some s => .ok s

theorem loop2S_sim {C : ConsS K} {n : ℕ} (hC : C.Fits n) : ∀ (fuel : ℕ) (s : St2 (List K)), LenS n s →
    Sim n (LenS n) prS (loop2S C fuel s) (fun j => loopE (C.at j) fuel (prS j s)) := by
  intro fuel
  induction fuel with
  | zero =>
    intro s hL
    obtain ⟨stack, agg, bnd⟩ := s
    cases stack with
    | nil => exact Sim.pure hL (fun j _ => by simp [loopE, prS, loop2])
    | cons e rest => exact Sim.error (fun j _ => by simp [loopE, prS, loop2])
  | succ fuel ih =>
    intro s hL
    obtain ⟨stack, agg, bnd⟩ := s
    cases stack with
    | nil => exact Sim.pure hL (fun j _ => by simp [loopE, prS, loop2])
    | cons e rest =>
      have := Sim.bind (step2S_sim (rest := rest) (agg := agg) (bnd := bnd) hC (hL.stack e (by simp)) ⟨fun x hx => hL.stack x (by simp [hx]), hL.agg, hL.bnd⟩)
        (g := fun j t => loopE (C.at j) fuel t) (fun s' h' => ih s' h')
      exact this.congr (fun j _ => by simp only [loopE, prS, List.map_cons, loop2]; rfl)

theorem distribute2S_sim {C : ConsS K} {n : ℕ} (hC : C.Fits n) (fuel : ℕ) (af : AF2 κ (List K)) (k : κ) (hL : LenA n af) :
    Sim n (LenA n) prA (distribute2S C fuel af k) (fun j => (prA j af).distribute (C.at j) false fuel k) := by
  unfold distribute2S
  cases h : af.cells k with
  | none => exact Sim.error (fun j _ => by simp [AF2.distribute, prA, h])
  | some stk =>
    refine (Sim.bind (loop2S_sim hC fuel ⟨stk, af.agg, af.bnd⟩ ⟨hL.cells k stk h, hL.agg, hL.bnd⟩)
      (g := fun j t => .ok (⟨Function.update (prA j af).cells k (some t.stack), t.agg, t.bnd⟩ : AF2 κ K)) (fun s' h' => ?_)).congr (fun j _ => ?_)
    · refine Sim.pure ⟨?_, h'.agg, h'.bnd⟩ (fun j _ => ?_)
      · intro k' es hk'
        by_cases hkk : k' = k
        · subst hkk
          replace hk' := (Function.update_self ..).symm.trans hk'
          cases hk'
          exact h'.stack
        · replace hk' := (Function.update_of_ne hkk ..).symm.trans hk'
          exact hL.cells k' es hk'
      · simp only [prA, prS]
        congr 2
        funext k'
        by_cases hkk : k' = k
        · subst hkk
          simp
        · simp [Function.update_of_ne hkk]
    · simp only [AF2.distribute, loopE, prA, prS, h, Option.map_some]
      cases loop2 (C.at j) fuel ⟨stk.map (prE j), af.agg.map (prE j), af.bnd.map (prB j)⟩ <;> rfl

theorem gridS_spec {n : ℕ} (hn : 1 ≤ n) (l : Loc2S K) (hS : l.S = 1 ∨ l.S = n) :
    ∃ es, gridS n l = .ok es ∧ (∀ e ∈ es, e.val.length = n) ∧ ∀ j < n, es.map (prE j) = gridEntries l.tst l.trl (l.at j).mat := by
  have ht : (tile n l).1 = n ∧ ∀ a i s, s < n → (tile n l).2 a i s = l.mat a i (pick l.S s) := by
    unfold tile pick
    split_ifs with h1 h2 h2
    · omega
    · exact ⟨rfl, fun a i s _ => by simp only [Nat.mod_one]⟩
    · exact ⟨by omega, fun _ _ _ _ => rfl⟩
    · refine ⟨by omega, fun a i s hs => ?_⟩
      have : s = 0 := by omega
      rw [this]
  unfold gridS
  simp only
  rw [ht.1, if_pos (by ring)]
  refine ⟨_, rfl, ?_, fun j hj => ?_⟩
  · intro e he
    obtain ⟨k, _, rfl⟩ := List.mem_map.1 he
    simp
  · unfold gridEntries
    rw [List.map_map]
    refine List.map_congr_left (fun k hk => ?_)
    rw [List.mem_range] at hk
    have hnt : 0 < l.tst.length := Nat.pos_of_ne_zero (fun h => by rw [h] at hk; simp at hk)
    have hnu : 0 < l.trl.length := Nat.pos_of_ne_zero (fun h => by rw [h] at hk; simp at hk)
    have e1 : (k + l.trl.length * l.tst.length * j) % l.tst.length = k % l.tst.length := by
      rw [show l.trl.length * l.tst.length * j = l.tst.length * (l.trl.length * j) by ring, Nat.add_mul_mod_self_left]
    have e2 : (k + l.trl.length * l.tst.length * j) / l.tst.length % l.trl.length = k / l.tst.length := by
      rw [show l.trl.length * l.tst.length * j = l.tst.length * (l.trl.length * j) by ring, Nat.add_mul_div_left _ _ hnt, Nat.add_mul_mod_self_left]
      exact Nat.mod_eq_of_lt (Nat.div_lt_of_lt_mul (by rwa [mul_comm]))
    have e3 : (k + l.trl.length * l.tst.length * j) / (l.tst.length * l.trl.length) = j := by
      rw [mul_comm l.trl.length l.tst.length, Nat.add_mul_div_left _ _ (Nat.mul_pos hnt hnu),
        Nat.div_eq_of_lt (by rwa [mul_comm]), Nat.zero_add]
    simp only [Function.comp, prE, List.getD_eq_getElem?_getD, List.getElem?_map, List.getElem?_range hj, Option.map_some, Option.getD_some, flatF,
      e1, e2, e3, ht.2 _ _ j hj, Loc2S.at]

theorem update2S_sim {n : ℕ} (hn : 1 ≤ n) (k : κ) (af : AF2 κ (List K)) (l : Loc2S K) (hL : LenA n af) (hS : l.S = 1 ∨ l.S = n) :
    Sim n (LenA n) prA (update2S n k af l) (fun j => .ok ((prA j af).update k (l.at j).tst (l.at j).trl (l.at j).mat)) := by
  obtain ⟨es, h1, h2, h3⟩ := gridS_spec hn l hS
  unfold update2S
  rw [h1]
  refine Sim.pure ⟨?_, hL.agg, hL.bnd⟩ (fun j hj => ?_)
  · intro k' es' hk'
    by_cases hkk : k' = k
    · subst hkk
      replace hk' := (Function.update_self ..).symm.trans hk'
      cases hk'
      intro e he
      simp only [List.mem_append, List.mem_reverse] at he
      rcases he with he | he
      · exact h2 e he
      · cases hc : af.cells k' with
        | none => rw [hc] at he; simp at he
        | some x => rw [hc] at he; exact hL.cells k' x hc e he
    · replace hk' := (Function.update_of_ne hkk ..).symm.trans hk'
      exact hL.cells k' es' hk'
  · simp only [AF2.update, prA]
    congr 2
    funext k'
    by_cases hkk : k' = k
    · subst hkk
      simp only [Function.update_self, Option.map_some, List.map_append, List.map_reverse, h3 j hj]
      congr 2
      cases af.cells k' <;> rfl
    · simp only [Function.update_of_ne hkk]

theorem cell2S_sim {C : ConsS K} {n : ℕ} (hn : 1 ≤ n) (hC : C.Fits n) (keep : Bool) (fuel : ℕ) (af : AF2 κ (List K)) (c : κ × List (Loc2S K))
    (hL : LenA n af) (hS : ∀ l ∈ c.2, l.S = 1 ∨ l.S = n) :
    Sim n (LenA n) prA (cell2S C n keep fuel af c) (fun j => cell2 (C.at j) keep fuel (prA j af) (c.1, c.2.map (·.at j))) := by
  unfold cell2S cell2
  have h1 := Sim.foldlM (f := update2S n c.1) (g := fun j (a : AF2 κ K) (l : Loc2 K) => .ok (a.update c.1 l.tst l.trl l.mat)) (q := fun j l => l.at j)
    (P := fun l => l.S = 1 ∨ l.S = n) (fun a l ha hl => update2S_sim hn c.1 a l ha hl) c.2 af hL hS
  have h2 : ∀ (ls : List (Loc2 K)) (a : AF2 κ K), ls.foldlM (fun (a : AF2 κ K) l => (.ok (a.update c.1 l.tst l.trl l.mat) : Except Err _)) a =
      .ok (ls.foldl (fun a l => a.update c.1 l.tst l.trl l.mat) a) := by
    intro ls
    induction ls with
    | nil => exact fun a => rfl
    | cons l ls ih =>
      intro a
      rw [List.foldlM_cons, List.foldl_cons]
      exact ih _
  refine (Sim.bind h1 (g := fun j (a : AF2 κ K) => do
    let af2 ← a.distribute (C.at j) false fuel c.1
    .ok (if keep then af2 else af2.clear c.1)) (fun a ha => Sim.bind (distribute2S_sim hC fuel a c.1 ha)
      (g := fun j (af2 : AF2 κ K) => .ok (if keep then af2 else af2.clear c.1)) (fun b hb => ?_))).congr (fun j _ => ?_)
  · cases keep with
    | true => exact Sim.pure hb (fun j _ => rfl)
    | false =>
      refine Sim.pure ⟨?_, hb.agg, hb.bnd⟩ (fun j _ => ?_)
      · intro k' es' hk'
        simp only [Bool.false_eq_true, if_false] at hk'
        by_cases hkk : k' = c.1
        · subst hkk
          replace hk' := (Function.update_self ..).symm.trans hk'
          cases hk'
        · replace hk' := (Function.update_of_ne hkk ..).symm.trans hk'
          exact hb.cells k' es' hk'
      · simp only [Bool.false_eq_true, if_false, AF2.clear, prA]
        congr 2
        funext k'
        by_cases hkk : k' = c.1
        · subst hkk
          simp
        · simp [Function.update_of_ne hkk]
  · rw [h2]
    rfl

theorem assemble2S_sim {C : ConsS K} {n : ℕ} (hn : 1 ≤ n) (hC : C.Fits n) (keep : Bool) (fuel : ℕ) (cs : List (κ × List (Loc2S K)))
    (hS : ∀ c ∈ cs, ∀ l ∈ c.2, l.S = 1 ∨ l.S = n) :
    Sim n (LenA n) prA (assemble2S C n keep fuel cs) (fun j => assemble2 (C.at j) keep fuel (at2 cs j)) :=
  Sim.foldlM (q := fun j (c : κ × List (Loc2S K)) => (c.1, c.2.map (·.at j))) (P := fun c => ∀ l ∈ c.2, l.S = 1 ∨ l.S = n)
    (fun a c ha hc => cell2S_sim hn hC keep fuel a c ha hc) cs _ ⟨fun _ _ h => (Option.some_ne_none _ h.symm).elim,
      fun _ h => (List.not_mem_nil h).elim, fun _ h => (List.not_mem_nil h).elim⟩ hS

/-! ## Consolidation -/

theorem toArray_ok {rows : List (List K)} {n : ℕ} (h : ∀ r ∈ rows, r.length = n) : toArray rows = .ok rows := by
  unfold toArray
  rw [if_pos]
  rw [List.all_eq_true]
  intro r hr
  cases rows with
  | nil => cases hr
  | cons r0 rows => simp [h r hr, h r0 (by simp)]

theorem column_ok {rows : List (List K)} {n i : ℕ} (h : ∀ r ∈ rows, r.length = n) (hne : rows ≠ []) (hi : i < n) :
    column rows i = .ok (rows.map (·.getD i 0)) := by
  unfold column
  rw [if_pos]
  cases rows with
  | nil => exact absurd rfl hne
  | cons r0 rows =>
    show i < r0.length
    rw [h r0 (by simp)]
    exact hi

theorem mapM_ok {α β : Type} (l : List α) (f : α → Except Err β) (g : α → β) (h : ∀ a ∈ l, f a = .ok (g a)) : l.mapM f = .ok (l.map g) := by
  induction l with
  | nil => rfl
  | cons a l ih =>
    rw [List.mapM_cons, h a (by simp), ih (fun a ha => h a (by simp [ha]))]
    rfl

theorem mapM_length {α β : Type} (f : α → Except Err β) : ∀ (l : List α) (r : List β), l.mapM f = .ok r → r.length = l.length := by
  intro l
  induction l with
  | nil =>
    intro r h
    cases h
    rfl
  | cons d l ih =>
    intro r h
    rw [List.mapM_cons] at h
    cases h0 : f d with
    | error e =>
      rw [h0] at h
      cases h
    | ok i =>
      cases h1 : l.mapM f with
      | error e =>
        rw [h0, h1] at h
        cases h
      | ok r' =>
        rw [h0, h1] at h
        cases h
        simp [ih r' h1]

theorem look_length {idx dofs r : List ℕ} (h : Asm.look idx dofs = .ok r) : r.length = dofs.length := mapM_length _ _ _ h

theorem Sim.shared {γ α β : Type} {n : ℕ} {L : α → Prop} {R : ℕ → α → β} (x : Except Err γ) {f : γ → Except Err α} {g : ℕ → γ → Except Err β}
    (h : ∀ c, x = .ok c → Sim n L R (f c) (fun j => g j c)) : Sim n L R (x >>= f) (fun j => x >>= g j) := by
  cases x with
  | error e => exact Sim.error (fun j _ => rfl)
  | ok c => exact h c rfl

theorem consolidate2S_sim {n : ℕ} {ord : List ℕ → List ℕ} (ho : SetOrder ord) (af : AF2 κ (List K)) (hL : LenA n af) :
    Sim n (fun _ => True) (fun j s => s.sample j) (consolidate2S ord n af) (fun j => (prA j af).consolidate ord) := by
  have r1 : ∀ j, (prA j af).agg.map (·.row) = af.agg.map (·.row) := fun j => by simp [prA, prE, Function.comp_def]
  have r2 : ∀ j, (prA j af).agg.map (·.col) = af.agg.map (·.col) := fun j => by simp [prA, prE, Function.comp_def]
  have r3 : ∀ j, (prA j af).bnd.map (·.1) = af.bnd.map (·.1) := fun j => by simp [prA, prB, Function.comp_def]
  have r4 : ∀ j, (prA j af).agg.map (·.val) = (af.agg.map (·.val)).map (·.getD j 0) := fun j => by simp [prA, prE, Function.comp_def]
  have r5 : ∀ j, (prA j af).bnd.map (·.2) = (af.bnd.map (·.2)).map (·.getD j 0) := fun j => by simp [prA, prB, Function.comp_def]
  have l1 : ∀ r ∈ af.agg.map (·.val), r.length = n := fun r hr => by
    obtain ⟨e, he, rfl⟩ := List.mem_map.1 hr
    exact hL.agg e he
  have l2 : ∀ r ∈ af.bnd.map (·.2), r.length = n := fun r hr => by
    obtain ⟨e, he, rfl⟩ := List.mem_map.1 hr
    exact hL.bnd e he
  unfold consolidate2S AF2.consolidate
  simp only [r1, r2, r3, r4, r5, toArray_ok l1, toArray_ok l2]
  refine Sim.shared _ (fun ir hir => Sim.shared _ (fun ic hic => ?_))
  have hne : af.agg.map (·.val) ≠ [] := by
    intro h0
    have h1 : af.agg = [] := List.map_eq_nil_iff.1 h0
    rw [h1] at hir
    have h2 : ord [] = [] := List.eq_nil_iff_forall_not_mem.2 (fun x hx => by
      have := ((ho []).2 x).1 hx
      cases this)
    rw [List.map_nil, h2] at hir
    cases hir
  refine Sim.shared (n := n) (Asm.look ir (af.bnd.map (·.1))) (fun xd hxd => Sim.shared (n := n) (Asm.look ir (af.agg.map (·.row))) (fun rows hrows =>
    Sim.shared (n := n) (Asm.look ic (af.agg.map (·.col))) (fun cols hcols => ?_)))
  have m1 : ((List.range n).mapM fun i => do
      let v ← column (af.agg.map fun e : Ent (List K) => e.val) i
      (.ok (rows.zip (cols.zip v)) : Except Err _)) = .ok ((List.range n).map fun i => rows.zip (cols.zip ((af.agg.map fun e : Ent (List K) => e.val).map (fun v : List K => v.getD i 0)))) := by
    refine mapM_ok _ _ _ (fun i hi => ?_)
    rw [column_ok l1 hne (List.mem_range.1 hi)]
    rfl
  rw [m1]
  have hx := look_length hxd
  by_cases hb : xd = []
  · simp only [hb, if_true]
    refine Sim.pure trivial (fun j hj => ?_)
    simp [Sys2S.sample, hj]
  · have hbn : af.bnd.map (·.2) ≠ [] := by
      intro h0
      have h1 : af.bnd = [] := List.map_eq_nil_iff.1 h0
      rw [h1] at hx
      exact hb (List.length_eq_zero_iff.1 hx)
    have m2 : ((List.range n).mapM fun i => do
        let v ← column (af.bnd.map fun b : ℕ × List K => b.2) i
        (.ok (bincount xd v (ord (af.agg.map fun e : Ent (List K) => e.row)).length) : Except Err _)) =
        .ok ((List.range n).map fun i => bincount xd ((af.bnd.map fun b : ℕ × List K => b.2).map (fun v : List K => v.getD i 0)) (ord (af.agg.map fun e : Ent (List K) => e.row)).length) := by
      refine mapM_ok _ _ _ (fun i hi => ?_)
      rw [column_ok l2 hbn (List.mem_range.1 hi)]
      rfl
    simp only [hb, if_false]
    rw [m2]
    refine Sim.pure trivial (fun j hj => ?_)
    simp [Sys2S.sample, hj]

end Verif.Samp
