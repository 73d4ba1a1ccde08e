import Verif.Mesh.Flagged

/-!
# C92: `balance` interrupted

`balance` (mesh.py 7822-7891) is a loop that splits at most one cell per round.  It may be interrupted
between two rounds (`KeyboardInterrupt`, `MemoryError`).  Interruptions in the middle of `QuadCell.split`
are not modelled.
-/

namespace Verif.Mesh

section
variable {K : Type} [Field K]

/-- `balance` was called in the state `s` and left by an exception in the state `s'`, after any number of
rounds (mesh.py 7833-7891). -/
def BalCrash (sf : Bool) (s s' : St K) : Prop :=
  ∃ W, Relation.ReflTransGen (BalStep sf) (s, (leaves sf s).toFinset) (s', W)

/-- Any number of interrupted calls in a row. -/
def BalCrashes (sf : Bool) : St K → St K → Prop := Relation.ReflTransGen (BalCrash sf)

lemma balCrashes_inv {B : Base K} (hB : B.WF) {s s' : St K} (hs : MReach B s) {sf : Bool} (hf : Full sf s)
    (h : BalCrashes sf s s') : MReach B s' ∧ Full sf s' ∧ (∀ c, s.kids c = true → s'.kids c = true) ∧
      ∀ k : CN → Bool, (∀ c, s.kids c = true → k c = true) →
        (∀ c, CEx B.n k c → k c = false → ¬ Bad B.T k c) → ∀ c, s'.kids c = true → k c = true := by
  induction h with
  | refl => exact ⟨hs, hf, fun _ h => h, fun k hk _ => hk⟩
  | tail _ h2 ih =>
    obtain ⟨i1, i2, i3, i4⟩ := ih
    obtain ⟨W, hW⟩ := h2
    have hb := binv_run hB (binv_init hB i1 i2) hW
    exact ⟨hb.reach, hb.full, fun c hc => hb.mono c (i3 c hc), fun k hk hbal => hb.forced k (i4 k hk hbal) hbal⟩

/-- **C92** (`balance`: the mesh after an interruption).  However often `balance` was interrupted, and
wherever: the mesh is one of those that splitting cells can give, no cell is lost, and no cell is split that
does not have to be split in every balanced refinement of the original mesh. -/
theorem C92_balance_state {B : Base K} (hB : B.WF) {s s' : St K} (hs : MReach B s) (sf : Bool) (hf : Full sf s)
    (h : BalCrashes sf s s') : MReach B s' ∧ Full sf s' ∧ (∀ c ∈ s.cells, c ∈ s'.cells) ∧
      ∀ s2, MReach B s2 → (∀ c, s.kids c = true → s2.kids c = true) → Balanced21 s2 → ∀ c ∈ s'.cells, c ∈ s2.cells := by
  obtain ⟨h1, h2, h3, h4⟩ := balCrashes_inv hB hs hf h
  refine ⟨h1, h2, fun c hc => ?_, fun s2 hs2 hle hb c hc => ?_⟩
  · exact ((h1.inv hB).mem c).2 (CEx_mono h3 (((hs.inv hB).mem c).1 hc))
  · have := h4 s2.kids hle ((balanced21_iff (hs2.inv hB)).1 hb)
    exact ((hs2.inv hB).mem c).2 (CEx_mono this (((h1.inv hB).mem c).1 hc))

/-- **C92** (`balance`: the call again).  `balance` may be interrupted any number of times; when finally a
call runs to its end, the mesh has exactly the cells (and the split cells) an undisturbed call would have
given, whatever the order in which `set.pop` takes the cells in any of the calls. -/
theorem C92_balance {B : Base K} (hB : B.WF) {s sc s1 s2 : St K} (hs : MReach B s) (sf : Bool) (hf : Full sf s)
    (hc : BalCrashes sf s sc) (h1 : BalRun sf s s1) (h2 : BalRun sf sc s2) :
    s2.kids = s1.kids ∧ (∀ c, c ∈ s2.cells ↔ c ∈ s1.cells) ∧ Balanced21 s2 := by
  obtain ⟨i1, i2, i3, i4⟩ := balCrashes_inv hB hs hf hc
  obtain ⟨r1, b1, _, _, m1⟩ := C27_result hB hs sf hf h1
  obtain ⟨r2, b2, _, _, m2⟩ := C27_result hB i1 sf i2 h2
  have a := C27_minimal hB i1 sf i2 h2 r1 (i4 s1.kids m1 ((balanced21_iff (r1.inv hB)).1 b1)) b1
  have b := C27_minimal hB hs sf hf h1 r2 (fun c h => m2 c (i3 c h)) b2
  refine ⟨?_, fun c => ⟨a.2 c, b.2 c⟩, b2⟩
  funext c
  cases h3 : s1.kids c <;> cases h4 : s2.kids c
  · rfl
  · rw [a.1 c h4] at h3; cases h3
  · rw [b.1 c h3] at h4; cases h4
  · rfl

/-- The call again always runs to its end: it terminates and raises nothing. -/
theorem C92_balance_again {B : Base K} (hB : B.WF) {s sc : St K} (hs : MReach B s) (sf : Bool) (hf : Full sf s)
    (hc : BalCrashes sf s sc) : Acc (fun y x => BalStep sf x y) (sc, (leaves sf sc).toFinset) ∧ ∃ s2, BalRun sf sc s2 := by
  obtain ⟨i1, i2, -, -⟩ := balCrashes_inv hB hs hf hc
  exact ⟨C27_terminates hB i1 sf i2, C27_run_exists hB i1 sf i2⟩

end

/-- Non-vacuity: a mesh that is not balanced, an interruption before anything was done, one after a cell was
split, and the call again. -/
example : ∃ s s' : St ℚ, MReach twoB s ∧ ¬ Balanced21 s ∧ BalCrashes false s s ∧ BalCrashes false s s' ∧ BalRun false s s' ∧
    s'.kids ≠ s.kids := by
  obtain ⟨s, hs, hr⟩ := reach_of_valid twoB_wf [(1, [0]), (1, [])] (by decide) []
  have hi := hs.inv twoB_wf
  obtain ⟨s', hr'⟩ := C27_run_exists twoB_wf hs false (.inl rfl)
  obtain ⟨h1, h2, _, _, h5⟩ := C27_result twoB_wf hs false (.inl rfl) hr'
  have hk : ∀ k : CN → Bool, k (1, []) = true → k (1, [0]) = true → Bad twoB.T k (0, []) :=
    fun k a b => ⟨1, .root 7, true, rfl, a, b⟩
  have k0 : s.kids (0, []) = false := by rw [hr.1]; decide
  have k1 : s.kids (1, []) = true := by rw [hr.1]; decide
  have k2 : s.kids (1, [0]) = true := by rw [hr.1]; decide
  have hx : ∀ k, CEx twoB.n k (0, []) := fun k => by show 0 < 2; decide
  have hnb : ¬ Balanced21 s := fun hb => (balanced21_iff hi).1 hb _ (hx _) k0 (hk _ k1 k2)
  refine ⟨s, s', hs, hnb, .refl, .single ⟨∅, hr'⟩, hr', fun e => ?_⟩
  have := (balanced21_iff (h1.inv twoB_wf)).1 h2 _ (hx _) (by rw [e]; exact k0)
  exact this (hk _ (h5 _ k1) (h5 _ k2))

end Verif.Mesh
