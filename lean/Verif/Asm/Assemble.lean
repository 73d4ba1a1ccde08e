import Verif.Asm.Core

/-! # The cell loop of `assemble` -/

set_option linter.unusedSectionVars false

namespace Verif.Asm

variable {R : Type} [CommRing R] {κ : Type} [DecidableEq κ]

/-! ### bilinear forms -/

lemma fold_update2 (k : κ) (ls : List (Loc2 R)) : ∀ af : AF2 κ R,
    (ls.foldl (fun a l => a.update k l.tst l.trl l.mat) af).agg = af.agg ∧
    (ls.foldl (fun a l => a.update k l.tst l.trl l.mat) af).bnd = af.bnd ∧
    (∀ k', k' ≠ k → (ls.foldl (fun a l => a.update k l.tst l.trl l.mat) af).cells k' = af.cells k') ∧
    (ls ≠ [] → ((ls.foldl (fun a l => a.update k l.tst l.trl l.mat) af).cells k).isSome) ∧
    (∀ v x, val2 v x (((ls.foldl (fun a l => a.update k l.tst l.trl l.mat) af).cells k).getD [])
      = val2 v x ((af.cells k).getD []) + (ls.map fun l => localBilin l.tst l.trl l.mat v x).sum) ∧
    (∀ r c, (∃ e ∈ ((ls.foldl (fun a l => a.update k l.tst l.trl l.mat) af).cells k).getD [],
        e.row = r ∧ e.col = c)
      ↔ (∃ e ∈ (af.cells k).getD [], e.row = r ∧ e.col = c) ∨ ∃ l ∈ ls, r ∈ l.tst ∧ c ∈ l.trl) := by
  induction ls with
  | nil => intro af; simp
  | cons l ls ih =>
    intro af
    obtain ⟨h1, h2, h3, h4, h5, h6⟩ := ih (af.update k l.tst l.trl l.mat)
    have hk : (af.update k l.tst l.trl l.mat).cells k
        = some ((gridEntries l.tst l.trl l.mat).reverse ++ (af.cells k).getD []) := by
      simp [AF2.update]
    refine ⟨by rw [List.foldl_cons, h1]; rfl, by rw [List.foldl_cons, h2]; rfl, ?_, ?_, ?_, ?_⟩
    · intro k' hk'
      rw [List.foldl_cons, h3 k' hk']
      simp [AF2.update, hk']
    · intro _
      rw [List.foldl_cons]
      by_cases hls : ls = []
      · subst hls; simp [hk]
      · exact h4 hls
    · intro v x
      rw [List.foldl_cons, h5, hk]
      simp only [Option.getD_some, val2_append, val2_reverse, val2_grid, List.map_cons,
        List.sum_cons]
      ring
    · intro r c
      rw [List.foldl_cons, h6, hk]
      simp only [Option.getD_some, List.mem_append, List.mem_reverse, or_and_right, exists_or]
      rw [mem_grid]
      rw [List.exists_mem_cons_iff]
      exact ⟨fun h => h.elim (fun h => h.elim (fun h => .inr (.inl h)) .inl) (fun h => .inr (.inr h)),
        fun h => h.elim (fun h => .inl (.inr h)) (fun h => h.elim (fun h => .inl (.inl h)) .inr)⟩

/-- All cellwise lists are empty. -/
def Empty2 (af : AF2 κ R) : Prop := ∀ k, (af.cells k).getD [] = []

/-- What one cell does. -/
lemma cell2_ok {C : Cons R} {keep : Bool} {fuel : ℕ} {af af' : AF2 κ R} {c : κ × List (Loc2 R)}
    (hE : Empty2 af) (h : cell2 C keep fuel af c = .ok af') :
    ∃ stk s, loop2 C fuel ⟨stk, af.agg, af.bnd⟩ = some s ∧ af'.agg = s.agg ∧ af'.bnd = s.bnd ∧
      Empty2 af' ∧
      (∀ v x, val2 v x stk = (c.2.map fun l => localBilin l.tst l.trl l.mat v x).sum) ∧
      (∀ r q, (∃ e ∈ stk, e.row = r ∧ e.col = q) ↔ ∃ l ∈ c.2, r ∈ l.tst ∧ q ∈ l.trl) := by
  obtain ⟨h1, h2, h3, _, h5, h6⟩ := fold_update2 c.1 c.2 af
  unfold cell2 at h
  simp only [bind, Except.bind] at h
  set af1 := c.2.foldl (fun a l => a.update c.1 l.tst l.trl l.mat) af with haf1
  unfold AF2.distribute at h
  cases hc : af1.cells c.1 with
  | none => simp [hc] at h
  | some stk =>
    rw [hc] at h
    simp only at h
    cases hl : loop2 C fuel ⟨stk, af1.agg, af1.bnd⟩ with
    | none => simp [hl] at h
    | some s =>
      rw [hl] at h
      simp only [Except.ok.injEq] at h
      rw [h1, h2] at hl
      refine ⟨stk, s, hl, ?_, ?_, ?_, ?_, ?_⟩
      · subst h; cases keep <;> rfl
      · subst h; cases keep <;> rfl
      · intro k
        subst h
        by_cases hk : k = c.1
        · subst hk
          cases keep <;> simp [AF2.clear, loop2_stack _ _ _ hl]
        · have := hE k
          rw [← h3 k hk] at this
          cases keep <;> simp [AF2.clear, hk, this]
      · intro v x
        have := h5 v x
        rw [hc, hE] at this
        simpa using this
      · intro r q
        have := h6 r q
        rw [hc, hE] at this
        simpa using this

/-- Everything the cell loop guarantees, for any invariant style use. -/
lemma fold2_ok {C : Cons R} {keep : Bool} {fuel : ℕ} :
    ∀ (cs : List (κ × List (Loc2 R))) (af af' : AF2 κ R), Empty2 af →
      cs.foldlM (cell2 C keep fuel) af = .ok af' →
      Empty2 af' ∧
      (∀ v x t, Test C.hng C.dir v → Conforms C.hng x → OnDirichlet C.hng C.dir t x →
        val2 v x af'.agg + t * valb v af'.bnd
          = total2 cs v x + val2 v x af.agg + t * valb v af.bnd) ∧
      (∀ f f', (∃ a ∈ af'.agg, a.row = f ∧ a.col = f') ↔ (∃ a ∈ af.agg, a.row = f ∧ a.col = f') ∨
        ∃ c ∈ cs, ∃ l ∈ c.2, ∃ r ∈ l.tst, ∃ q ∈ l.trl, FreePair C r q f f') ∧
      (∀ f, f ∈ af'.bnd.map (·.1) ↔ f ∈ af.bnd.map (·.1) ∨
        ∃ c ∈ cs, ∃ l ∈ c.2, ∃ r ∈ l.tst, ∃ q ∈ l.trl, BndPair C r q f) := by
  intro cs
  induction cs with
  | nil =>
    intro af af' hE h
    simp only [List.foldlM_nil, pure, Except.pure, Except.ok.injEq] at h
    subst h
    exact ⟨hE, by simp [total2], by simp, by simp⟩
  | cons c cs ih =>
    intro af af' hE h
    simp only [List.foldlM_cons, bind, Except.bind] at h
    cases h1 : cell2 C keep fuel af c with
    | error e => simp [h1] at h
    | ok af1 =>
      rw [h1] at h
      obtain ⟨stk, s, hl, ha, hb, hE1, hv, hm⟩ := cell2_ok hE h1
      obtain ⟨hE2, i1, i2, i3⟩ := ih af1 af' hE1 h
      refine ⟨hE2, ?_, ?_, ?_⟩
      · intro v x t h1 h2 h3
        rw [i1 v x t h1 h2 h3, ha, hb, add_assoc, loop2_val h1 h2 h3 hl]
        simp only
        rw [hv]
        simp only [total2, List.map_cons, List.sum_cons]; ring
      · intro f f'
        rw [i2, ha, loop2_pairs hl]
        have : Pairs C stk f f' ↔ ∃ l ∈ c.2, ∃ r ∈ l.tst, ∃ q ∈ l.trl, FreePair C r q f f' := by
          constructor
          · rintro ⟨e, he, hp⟩
            obtain ⟨l, hl, h1, h2⟩ := (hm e.row e.col).1 ⟨e, he, rfl, rfl⟩
            exact ⟨l, hl, _, h1, _, h2, hp⟩
          · rintro ⟨l, hl, r, h1, q, h2, hp⟩
            obtain ⟨e, he, rfl, rfl⟩ := (hm r q).2 ⟨l, hl, h1, h2⟩
            exact ⟨e, he, hp⟩
        rw [this, List.exists_mem_cons_iff, or_assoc]
      · intro f
        rw [i3, hb, loop2_brows hl]
        have : BRows C stk f ↔ ∃ l ∈ c.2, ∃ r ∈ l.tst, ∃ q ∈ l.trl, BndPair C r q f := by
          constructor
          · rintro ⟨e, he, hp⟩
            obtain ⟨l, hl, h1, h2⟩ := (hm e.row e.col).1 ⟨e, he, rfl, rfl⟩
            exact ⟨l, hl, _, h1, _, h2, hp⟩
          · rintro ⟨l, hl, r, h1, q, h2, hp⟩
            obtain ⟨e, he, rfl, rfl⟩ := (hm r q).2 ⟨l, hl, h1, h2⟩
            exact ⟨e, he, hp⟩
        rw [this, List.exists_mem_cons_iff, or_assoc]

lemma empty2_new : Empty2 (AF2.new : AF2 κ R) := fun _ => rfl

/-- One cell ends if it has a form, for all large enough fuel, with the same result. -/
lemma cell2_terminates {C : Cons R} (hac : Acyclic C.hng) (keep : Bool) (af : AF2 κ R)
    (c : κ × List (Loc2 R)) (hc : c.2 ≠ []) :
    ∃ N af', ∀ fuel ≥ N, cell2 C keep fuel af c = .ok af' := by
  obtain ⟨W, w1, w2⟩ := exists_weight hac
  obtain ⟨_, _, _, h4, _, _⟩ := fold_update2 c.1 c.2 af
  set af1 := c.2.foldl (fun a l => a.update c.1 l.tst l.trl l.mat) af with haf1
  obtain ⟨stk, hstk⟩ := Option.isSome_iff_exists.1 (h4 hc)
  set s0 : St2 R := ⟨stk, af1.agg, af1.bnd⟩
  obtain ⟨s, hs⟩ := loop2_terminates w1 w2 _ s0 le_rfl
  refine ⟨(s0.stack.map fun e => W e.row * W e.col).sum,
    (if keep then ⟨Function.update af1.cells c.1 (some s.stack), s.agg, s.bnd⟩ else
      (⟨Function.update af1.cells c.1 (some s.stack), s.agg, s.bnd⟩ : AF2 κ R).clear c.1),
    fun fuel hf => ?_⟩
  · unfold cell2
    simp only [bind, Except.bind, ← haf1]
    unfold AF2.distribute
    rw [hstk]
    simp only
    rw [loop2_mono _ _ _ _ hf hs]
    simp

lemma fold2_terminates {C : Cons R} (hac : Acyclic C.hng) (keep : Bool) :
    ∀ (cs : List (κ × List (Loc2 R))) (af : AF2 κ R), (∀ c ∈ cs, c.2 ≠ []) →
    ∃ N af', ∀ fuel ≥ N, cs.foldlM (cell2 C keep fuel) af = .ok af' := by
  intro cs
  induction cs with
  | nil => intro af _; exact ⟨0, af, fun _ _ => rfl⟩
  | cons c cs ih =>
    intro af h
    obtain ⟨N1, af1, h1⟩ := cell2_terminates hac keep af c (h c (by simp))
    obtain ⟨N2, af2, h2⟩ := ih af1 fun c hc => h c (by simp [hc])
    refine ⟨max N1 N2, af2, fun fuel hf => ?_⟩
    simp only [List.foldlM_cons, bind, Except.bind]
    rw [h1 fuel (le_trans (le_max_left _ _) hf)]
    exact h2 fuel (le_trans (le_max_right _ _) hf)

/-! ### linear forms -/

lemma fold_update1 (k : κ) (ls : List (Loc1 R)) : ∀ af : AF1 κ R,
    (ls.foldl (fun a l => a.update k l.tst l.vec) af).agg = af.agg ∧
    (∀ k', k' ≠ k → (ls.foldl (fun a l => a.update k l.tst l.vec) af).cells k' = af.cells k') ∧
    (ls ≠ [] → ((ls.foldl (fun a l => a.update k l.tst l.vec) af).cells k).isSome) ∧
    (∀ v, val1 v (((ls.foldl (fun a l => a.update k l.tst l.vec) af).cells k).getD [])
      = val1 v ((af.cells k).getD []) + (ls.map fun l => localLin l.tst l.vec v).sum) ∧
    (∀ r, (∃ e ∈ ((ls.foldl (fun a l => a.update k l.tst l.vec) af).cells k).getD [], e.row = r)
      ↔ (∃ e ∈ (af.cells k).getD [], e.row = r) ∨ ∃ l ∈ ls, r ∈ l.tst) := by
  induction ls with
  | nil => intro af; simp
  | cons l ls ih =>
    intro af
    obtain ⟨h1, h3, h4, h5, h6⟩ := ih (af.update k l.tst l.vec)
    have hk : (af.update k l.tst l.vec).cells k
        = some ((vecEntries l.tst l.vec).reverse ++ (af.cells k).getD []) := by
      simp [AF1.update]
    refine ⟨by rw [List.foldl_cons, h1]; rfl, ?_, ?_, ?_, ?_⟩
    · intro k' hk'
      rw [List.foldl_cons, h3 k' hk']
      simp [AF1.update, hk']
    · intro _
      rw [List.foldl_cons]
      by_cases hls : ls = []
      · subst hls; simp [hk]
      · exact h4 hls
    · intro v
      rw [List.foldl_cons, h5, hk]
      simp only [Option.getD_some, val1_append, val1_reverse, val1_vec, List.map_cons,
        List.sum_cons]
      ring
    · intro r
      rw [List.foldl_cons, h6, hk]
      simp only [Option.getD_some, List.mem_append, List.mem_reverse, or_and_right, exists_or]
      rw [mem_vec]
      rw [List.exists_mem_cons_iff]
      exact ⟨fun h => h.elim (fun h => h.elim (fun h => .inr (.inl h)) .inl) (fun h => .inr (.inr h)),
        fun h => h.elim (fun h => .inl (.inr h)) (fun h => h.elim (fun h => .inl (.inl h)) .inr)⟩

/-- All cellwise lists are empty. -/
def Empty1 (af : AF1 κ R) : Prop := ∀ k, (af.cells k).getD [] = []

lemma cell1_ok {C : Cons R} {keep : Bool} {fuel : ℕ} {af af' : AF1 κ R} {c : κ × List (Loc1 R)}
    (hE : Empty1 af) (h : cell1 C keep fuel af c = .ok af') :
    ∃ stk s, loop1 C fuel ⟨stk, af.agg⟩ = some s ∧ af'.agg = s.agg ∧
      Empty1 af' ∧
      (∀ v, val1 v stk = (c.2.map fun l => localLin l.tst l.vec v).sum) ∧
      (∀ r, (∃ e ∈ stk, e.row = r) ↔ ∃ l ∈ c.2, r ∈ l.tst) := by
  obtain ⟨h1, h3, _, h5, h6⟩ := fold_update1 c.1 c.2 af
  unfold cell1 at h
  simp only [bind, Except.bind] at h
  set af1 := c.2.foldl (fun a l => a.update c.1 l.tst l.vec) af with haf1
  unfold AF1.distribute at h
  cases hc : af1.cells c.1 with
  | none => simp [hc] at h
  | some stk =>
    rw [hc] at h
    simp only at h
    cases hl : loop1 C fuel ⟨stk, af1.agg⟩ with
    | none => simp [hl] at h
    | some s =>
      rw [hl] at h
      simp only [Except.ok.injEq] at h
      rw [h1] at hl
      refine ⟨stk, s, hl, ?_, ?_, ?_, ?_⟩
      · subst h; cases keep <;> rfl
      · intro k
        subst h
        by_cases hk : k = c.1
        · subst hk
          cases keep <;> simp [AF1.clear, loop1_stack _ _ _ hl]
        · have := hE k
          rw [← h3 k hk] at this
          cases keep <;> simp [AF1.clear, hk, this]
      · intro v
        have := h5 v
        rw [hc, hE] at this
        simpa using this
      · intro r
        have := h6 r
        rw [hc, hE] at this
        simpa using this

lemma fold1_ok {C : Cons R} {keep : Bool} {fuel : ℕ} :
    ∀ (cs : List (κ × List (Loc1 R))) (af af' : AF1 κ R), Empty1 af →
      cs.foldlM (cell1 C keep fuel) af = .ok af' →
      Empty1 af' ∧
      (∀ v, Test C.hng C.dir v → val1 v af'.agg = total1 cs v + val1 v af.agg) ∧
      (∀ f, f ∈ af'.agg.map (·.row) ↔ f ∈ af.agg.map (·.row) ∨
        ∃ c ∈ cs, ∃ l ∈ c.2, ∃ r ∈ l.tst, Free C.hng C.dir f ∧ Reach C.hng r f) := by
  intro cs
  induction cs with
  | nil =>
    intro af af' hE h
    simp only [List.foldlM_nil, pure, Except.pure, Except.ok.injEq] at h
    subst h
    exact ⟨hE, by simp [total1], by simp⟩
  | cons c cs ih =>
    intro af af' hE h
    simp only [List.foldlM_cons, bind, Except.bind] at h
    cases h1 : cell1 C keep fuel af c with
    | error e => simp [h1] at h
    | ok af1 =>
      rw [h1] at h
      obtain ⟨stk, s, hl, ha, hE1, hv, hm⟩ := cell1_ok hE h1
      obtain ⟨hE2, i1, i3⟩ := ih af1 af' hE1 h
      refine ⟨hE2, ?_, ?_⟩
      · intro v h1
        rw [i1 v h1, ha, loop1_val h1 hl]
        simp only
        rw [hv]
        simp only [total1, List.map_cons, List.sum_cons]; ring
      · intro f
        rw [i3, ha, loop1_rows hl]
        have : Rows1 C stk f
            ↔ ∃ l ∈ c.2, ∃ r ∈ l.tst, Free C.hng C.dir f ∧ Reach C.hng r f := by
          constructor
          · rintro ⟨e, he, hp⟩
            obtain ⟨l, hl, h1⟩ := (hm e.row).1 ⟨e, he, rfl⟩
            exact ⟨l, hl, _, h1, hp⟩
          · rintro ⟨l, hl, r, h1, hp⟩
            obtain ⟨e, he, rfl⟩ := (hm r).2 ⟨l, hl, h1⟩
            exact ⟨e, he, hp⟩
        rw [this, List.exists_mem_cons_iff, or_assoc]

lemma empty1_new : Empty1 (AF1.new : AF1 κ R) := fun _ => rfl

lemma cell1_terminates {C : Cons R} (hac : Acyclic C.hng) (keep : Bool) (af : AF1 κ R)
    (c : κ × List (Loc1 R)) (hc : c.2 ≠ []) :
    ∃ N af', ∀ fuel ≥ N, cell1 C keep fuel af c = .ok af' := by
  obtain ⟨W, w1, w2⟩ := exists_weight hac
  obtain ⟨_, _, h4, _, _⟩ := fold_update1 c.1 c.2 af
  set af1 := c.2.foldl (fun a l => a.update c.1 l.tst l.vec) af with haf1
  obtain ⟨stk, hstk⟩ := Option.isSome_iff_exists.1 (h4 hc)
  set s0 : St1 R := ⟨stk, af1.agg⟩
  obtain ⟨s, hs⟩ := loop1_terminates w1 w2 _ s0 le_rfl
  refine ⟨(s0.stack.map fun e => W e.row).sum,
    (if keep then ⟨Function.update af1.cells c.1 (some s.stack), s.agg⟩ else
      (⟨Function.update af1.cells c.1 (some s.stack), s.agg⟩ : AF1 κ R).clear c.1),
    fun fuel hf => ?_⟩
  · unfold cell1
    simp only [bind, Except.bind, ← haf1]
    unfold AF1.distribute
    rw [hstk]
    simp only
    rw [loop1_mono _ _ _ _ hf hs]
    simp

lemma fold1_terminates {C : Cons R} (hac : Acyclic C.hng) (keep : Bool) :
    ∀ (cs : List (κ × List (Loc1 R))) (af : AF1 κ R), (∀ c ∈ cs, c.2 ≠ []) →
    ∃ N af', ∀ fuel ≥ N, cs.foldlM (cell1 C keep fuel) af = .ok af' := by
  intro cs
  induction cs with
  | nil => intro af _; exact ⟨0, af, fun _ _ => rfl⟩
  | cons c cs ih =>
    intro af h
    obtain ⟨N1, af1, h1⟩ := cell1_terminates hac keep af c (h c (by simp))
    obtain ⟨N2, af2, h2⟩ := ih af1 fun c hc => h c (by simp [hc])
    refine ⟨max N1 N2, af2, fun fuel hf => ?_⟩
    simp only [List.foldlM_cons, bind, Except.bind]
    rw [h1 fuel (le_trans (le_max_left _ _) hf)]
    exact h2 fuel (le_trans (le_max_right _ _) hf)

end Verif.Asm
