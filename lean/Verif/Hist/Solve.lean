import Verif.Hist.C91
import Verif.Asm.Witness
import Mathlib.Algebra.Order.Ring.Rat
import Mathlib.Tactic.LinearCombination

/-! # C91: `solve` after several calls of `assemble` -/

set_option linter.unusedSectionVars false

namespace Verif.Hist

open Verif.Asm

variable {R : Type} [CommRing R] {κ : Type} [DecidableEq κ]

lemma consolidate2_congr {ord : List ℕ → List ℕ} {a b : AF2 κ R} (h : a.agg = b.agg) (h' : a.bnd = b.bnd) :
    a.consolidate ord = b.consolidate ord := by
  unfold AF2.consolidate
  rw [h, h']

lemma consolidate1_congr {ord : List ℕ → List ℕ} {a b : AF1 κ R} (h : a.agg = b.agg) :
    a.consolidate ord = b.consolidate ord := by
  unfold AF1.consolidate
  rw [h]

/-- With the same constraints in all calls, the forms are what one call over all cells gives. -/
def One (ord : List ℕ → List ℕ) (fuel : ℕ) (C : Cons R) (calls : List (Call κ R)) (p : Prob κ R) : Prop :=
  (∀ k ∈ calls, k.cons = C) →
  (∃ af b, p.a2 = some af ∧ Empty2 af ∧ Empty2 b ∧ assemble2 C false fuel (calls.flatMap (·.bil)) = .ok b ∧
    af.agg = b.agg ∧ af.bnd = b.bnd ∧ (calls ≠ [] → ∃ s, af.consolidate ord = .ok s ∧ p.c2 = some s)) ∧
  (∃ af b, p.a1 = some af ∧ Empty1 af ∧ Empty1 b ∧ assemble1 C false fuel (calls.flatMap (·.lin)) = .ok b ∧
    af.agg = b.agg ∧ (calls ≠ [] → ∃ s, af.consolidate ord = .ok s ∧ p.c1 = some s))

lemma one_assemble {ord : List ℕ → List ℕ} {fuel : ℕ} {C : Cons R} {i : ℕ} {calls : List (Call κ R)} {p p' : Prob κ R} {keep : Bool}
    {cs : List (CellIn κ R)} (hne : ∀ c ∈ cs, bils (c.2 i) ≠ [] ∧ lins (c.2 i) ≠ []) (hI : One ord fuel C calls p)
    (h : probAssemble ord fuel keep p (cs.map fun c => (c.1, c.2 i)) = .ok p') :
    One ord fuel C (calls ++ [callOf p.cons i cs]) p' := by
  intro hall
  have hp : p.cons = C := hall (callOf p.cons i cs) (by simp)
  obtain ⟨q, h1, h2⟩ := (bind_ok_iff _ _ _).1 h
  obtain ⟨f1, -, r1, r2⟩ := probCells_ok h1
  obtain ⟨f2, -, e1, e2, -, k1, k2⟩ := consolidate_ok h2
  obtain ⟨⟨af, b, x1, x2, x3, x4, x5, x6, -⟩, ag, bg, y1, y2, y3, y4, y5, -⟩ := hI fun k hk => hall k (by simp [hk])
  constructor
  · rcases r2 with ⟨e, -⟩ | ⟨a, a', e, e', g⟩
    · rw [x1] at e; cases e
    · rw [x1] at e; cases e
      rw [List.map_map, hp] at g
      obtain ⟨b', g1, g2, g3, g4, g5⟩ := fold2_frame false (b := b) (g := []) (gb := []) x2 x3 (by simpa using x5)
        (by simpa using x6) (by
          intro c hc
          obtain ⟨c', hc', rfl⟩ := List.mem_map.1 hc
          exact (hne c' hc').1) g
      refine ⟨a', b', by rw [e2, e'], g3, g2, ?_, by simpa using g4, by simpa using g5, fun _ => ?_⟩
      · unfold assemble2 at x4 ⊢
        rw [List.flatMap_append, List.foldlM_append, bind_ok_iff]
        exact ⟨b, x4, by rw [List.flatMap_singleton]; exact g1⟩
      · exact k2 a' e'
  · rcases r1 with ⟨e, -⟩ | ⟨a, a', e, e', g⟩
    · rw [y1] at e; cases e
    · rw [y1] at e; cases e
      rw [List.map_map, hp] at g
      obtain ⟨b', g1, g2, g3, g4⟩ := fold1_frame false (b := bg) (g := []) y2 y3 (by simpa using y5) (by
          intro c hc
          obtain ⟨c', hc', rfl⟩ := List.mem_map.1 hc
          exact (hne c' hc').2) g
      refine ⟨a', b', by rw [e1, e'], g3, g2, ?_, by simpa using g4, fun _ => ?_⟩
      · unfold assemble1 at y4 ⊢
        rw [List.flatMap_append, List.foldlM_append, bind_ok_iff]
        exact ⟨bg, y4, by rw [List.flatMap_singleton]; exact g1⟩
      · exact k1 a' e'

lemma one_run {ord : List ℕ → List ℕ} {fuel : ℕ} {C : Cons R} {dss : List (List Dim)} {ops : List (Op κ R)} {ps : List (Prob κ R)}
    {i : ℕ} (hi : i < dss.length) (hd2 : Dim.d2 ∈ dss[i]) (hd1 : Dim.d1 ∈ dss[i]) (hev : Evaluates i dss[i] ops)
    (h : run ord fuel (dss.map Prob.new) ops = .ok ps) (hi' : i < ps.length) :
    One ord fuel C (callsOf i [] [] ops) ps[i] := by
  have := run_induct (ord := ord) (fuel := fuel) i (One ord fuel C) (Evaluates i dss[i])
    (fun op ops h keep cs hm => h keep cs (List.mem_cons_of_mem _ hm))
    (fun calls p d h hI => hI)
    (fun calls p p' keep cs ops hok hI hA =>
      ⟨one_assemble (fun c hc => ⟨(hok keep cs (by simp) c hc).1 hd2, (hok keep cs (by simp) c hc).2 hd1⟩) hI hA, assemble_frame hA⟩)
    ops (dss.map Prob.new) ps [] (by simpa using hi) hi' hev h (by
      intro _
      exact ⟨⟨AF2.new, AF2.new, by simp [Prob.new, hd2], empty2_new, empty2_new, rfl, rfl, rfl, by simp⟩,
        AF1.new, AF1.new, by simp [Prob.new, hd1], empty1_new, empty1_new, rfl, rfl, by simp⟩)
  simpa [Prob.new] using this

lemma total2_flatMap (calls : List (Call κ R)) (v x : ℕ → R) :
    total2 (calls.flatMap (·.bil)) v x = (calls.map fun k => total2 k.bil v x).sum := by
  induction calls with
  | nil => rfl
  | cons k ks ih =>
    rw [List.flatMap_cons, List.map_cons, List.sum_cons, ← ih]
    simp [total2]

lemma total1_flatMap (calls : List (Call κ R)) (v : ℕ → R) :
    total1 (calls.flatMap (·.lin)) v = (calls.map fun k => total1 k.lin v).sum := by
  induction calls with
  | nil => rfl
  | cons k ks ih =>
    rw [List.flatMap_cons, List.map_cons, List.sum_cons, ← ih]
    simp [total1]

/-- **C91** (`solve` after several calls).  If the constraints of the problem were the same in all calls
of `assemble` and are still the same, `solve(i)` returns a solution of the constrained variational
problem whose forms are the sums over all calls: assembling region by region, each region once, is as
good as assembling everything at once.  Missing: constraints that change between calls, see
`C91_dirichlet_violated`. -/
theorem C91_solve_partial {ord : List ℕ → List ℕ} (ho : SetOrder ord) (ha : Ascending ord) {fuel : ℕ} {dss : List (List Dim)}
    {ops : List (Op κ R)} {ps : List (Prob κ R)} {i : ℕ} (hi : i < dss.length) (hd2 : Dim.d2 ∈ dss[i]) (hd1 : Dim.d1 ∈ dss[i])
    (hev : Evaluates i dss[i] ops) (h : run ord fuel (dss.map Prob.new) ops = .ok ps) (hi' : i < ps.length)
    (hC : ∀ k ∈ callsOf i [] [] ops, k.cons = ps[i].cons) {n : ℕ}
    (hO : OneLevel ps[i].cons.hng ps[i].cons.dir n (ps[i].hngD.map (·.1)) (ps[i].dirD.map (·.1)))
    (hb : ∀ k ∈ callsOf i [] [] ops, SameBasis k.bil)
    (huse : ∀ r, (∃ k ∈ callsOf i [] [] ops, Uses2 k.bil r) ↔ ∃ k ∈ callsOf i [] [] ops, Uses1 k.lin r)
    {y u : List R}
    (hy : ∀ s b x0, getMatrix ps i = some s → getVector ps i = some b → s.x0 = some x0 → Solves s b.2 x0 y)
    (hu : solve n ps i y = .ok u) :
    u.length = n ∧ SolvesVariational ps[i].cons.hng ps[i].cons.dir
      (fun v x => ((callsOf i [] [] ops).map fun k => total2 k.bil v x).sum)
      (fun v => ((callsOf i [] [] ops).map fun k => total1 k.lin v).sum) (fun d => u.getD d 0) := by
  obtain ⟨⟨af, b, x1, x2, x3, x4, x5, x6, x7⟩, ag, bg, y1, y2, y3, y4, y5, y7⟩ :=
    one_run (C := ps[i].cons) hi hd2 hd1 hev h hi' hC
  obtain ⟨_, _, _, _, _, _, _, hnone, _⟩ := inv2_run hi hd2 hev h hi'
  unfold solve at hu
  have hg : ps[i]? = some ps[i] := List.getElem?_eq_getElem hi'
  rw [hg] at hu
  simp only at hu
  cases hc2 : ps[i].c2 with
  | none => simp [hc2] at hu
  | some s =>
  cases hc1 : ps[i].c1 with
  | none => simp [hc1, hc2] at hu
  | some v =>
  simp only [hc1, hc2] at hu
  have hne : callsOf i [] [] ops ≠ [] := by
    intro h0
    rw [hnone h0] at hc2
    cases hc2
  obtain ⟨s', hs, hs'⟩ := x7 hne
  rw [hc2] at hs'
  cases hs'
  obtain ⟨v', hv, hv'⟩ := y7 hne
  rw [hc1] at hv'
  cases hv'
  rw [consolidate2_congr x5 x6] at hs
  rw [consolidate1_congr y5] at hv
  have := C54_solve_partial hO (keep := false) (fuel := fuel) (fuel' := fuel)
    (cs2 := (callsOf i [] [] ops).flatMap (·.bil)) (cs1 := (callsOf i [] [] ops).flatMap (·.lin))
    (by
      intro c hc l hl
      obtain ⟨k, hk, hc⟩ := List.mem_flatMap.1 hc
      exact hb k hk c hc l hl)
    (by
      intro r
      have h2 : Uses2 ((callsOf i [] [] ops).flatMap (·.bil)) r ↔ ∃ k ∈ callsOf i [] [] ops, Uses2 k.bil r := by
        unfold Uses2
        constructor
        · rintro ⟨c, hc, l, hl, hr⟩
          obtain ⟨k, hk, hc⟩ := List.mem_flatMap.1 hc
          exact ⟨k, hk, c, hc, l, hl, hr⟩
        · rintro ⟨k, hk, c, hc, l, hl, hr⟩
          exact ⟨c, List.mem_flatMap.2 ⟨k, hk, hc⟩, l, hl, hr⟩
      have h1 : Uses1 ((callsOf i [] [] ops).flatMap (·.lin)) r ↔ ∃ k ∈ callsOf i [] [] ops, Uses1 k.lin r := by
        unfold Uses1
        constructor
        · rintro ⟨c, hc, l, hl, hr⟩
          obtain ⟨k, hk, hc⟩ := List.mem_flatMap.1 hc
          exact ⟨k, hk, c, hc, l, hl, hr⟩
        · rintro ⟨k, hk, c, hc, l, hl, hr⟩
          exact ⟨c, List.mem_flatMap.2 ⟨k, hk, hc⟩, l, hl, hr⟩
      rw [h2, h1, huse])
    x4 y4 ho ha hs (ub := v.1) (b := v.2) hv (y := y) (u := u)
    (fun x0 hx0 => hy s v x0 (by simp [getMatrix, hg, hc2]) (by simp [getVector, hg, hc1]) hx0)
    (lift_ok hu)
  refine ⟨this.1, ?_⟩
  have e2 := total2_flatMap (κ := κ) (callsOf i [] [] ops)
  have e1 := total1_flatMap (κ := κ) (callsOf i [] [] ops)
  obtain ⟨g1, g2⟩ := this.2
  refine ⟨g1, fun w hw => ?_⟩
  have := g2 w hw
  rw [e2, e1] at this
  exact this

/-! ### assembling again -/

/-- The calls of a history that sets constraints first and then assembles `m + 1` times. -/
lemma callsOf_again (i : ℕ) (keep : Bool) (cs : List (CellIn κ R)) : ∀ (setup : List (Op κ R)) (d h) (m : ℕ),
    (∀ keep cs, Op.assemble keep cs ∉ setup) →
    ∃ C : Cons R, callsOf i d h (setup ++ List.replicate m (.assemble keep cs)) = List.replicate m (callOf C i cs) ∧
      ∀ m', callsOf i d h (setup ++ List.replicate m' (.assemble keep cs)) = List.replicate m' (callOf C i cs) := by
  intro setup
  induction setup with
  | nil =>
    intro d h m _
    have : ∀ m, callsOf i d h (List.replicate m (.assemble keep cs)) = List.replicate m (callOf ⟨dictGet h, dictGet d⟩ i cs) := by
      intro m
      induction m with
      | zero => rfl
      | succ m ih => rw [List.replicate_succ, List.replicate_succ, callsOf, ih]
    exact ⟨⟨dictGet h, dictGet d⟩, by simpa using this m, fun m' => by simpa using this m'⟩
  | cons op setup ih =>
    intro d h m hs
    have hs' : ∀ keep cs, Op.assemble keep cs ∉ setup := fun keep cs hm => hs keep cs (by simp [hm])
    cases op with
    | dirichlet j vals => simpa [callsOf] using ih _ h m hs'
    | hanging j hng => simpa [callsOf] using ih d _ m hs'
    | assemble keep cs => exact absurd (List.mem_cons_self ..) (hs keep cs)

/-- **C91** (assembling again).  Constraints first, then the same call of `assemble` `m` times: every
entry of the matrix is `m` times the entry for a single call — `assemble` adds to what is there, it does
not start afresh. -/
theorem C91_again {ord : List ℕ → List ℕ} (ho : SetOrder ord) {fuel : ℕ} {dss : List (List Dim)}
    {setup : List (Op κ R)} (hset : ∀ keep cs, Op.assemble keep cs ∉ setup) {keep : Bool} {cs : List (CellIn κ R)} {m : ℕ}
    {i : ℕ} (hi : i < dss.length) (hd : Dim.d2 ∈ dss[i])
    (hne : ∀ c ∈ cs, (Dim.d2 ∈ dss[i] → bils (c.2 i) ≠ []) ∧ (Dim.d1 ∈ dss[i] → lins (c.2 i) ≠ []))
    {ps ps' : List (Prob κ R)}
    (h : run ord fuel (dss.map Prob.new) (setup ++ List.replicate 1 (.assemble keep cs)) = .ok ps)
    (h' : run ord fuel (dss.map Prob.new) (setup ++ List.replicate m (.assemble keep cs)) = .ok ps')
    {s s' : Sys2 R} (hs : getMatrix ps i = some s) (hs' : getMatrix ps' i = some s')
    (hac : ∀ k ∈ callsOf i [] [] (setup ++ [.assemble keep cs]), Acyclic k.cons.hng)
    {a b a' b' : ℕ} (ha : a < s.urow.length) (hb : b < s.ucol.length) (ha' : a' < s'.urow.length) (hb' : b' < s'.ucol.length)
    (hr : s.urow[a] = s'.urow[a']) (hc : s.ucol[b] = s'.ucol[b']) :
    s'.entry a' b' = m * s.entry a b := by
  have hev : ∀ m, Evaluates i dss[i] (setup ++ List.replicate m (.assemble keep cs)) := by
    intro m keep' cs' hm c hc
    rcases List.mem_append.1 hm with hm | hm
    · exact absurd hm (hset keep' cs')
    · have := List.eq_of_mem_replicate hm
      simp only [Op.assemble.injEq] at this
      obtain ⟨rfl, rfl⟩ := this
      exact hne c hc
  obtain ⟨C, e, e'⟩ := callsOf_again (κ := κ) i keep cs setup [] [] 1 hset
  obtain ⟨⟨P, hP⟩, -⟩ := C35_prolongation (dir := C.dir) (hac (callOf C i cs) (by
    have := e' 1
    simp only [List.replicate_one] at this
    rw [this]; simp))
  have hPk : ∀ m, ∀ k ∈ callsOf i [] [] (setup ++ List.replicate m (.assemble keep cs)),
      IsProlongation k.cons.hng k.cons.dir P := by
    intro m k hk
    rw [e' m] at hk
    rw [List.eq_of_mem_replicate hk]
    exact hP
  rw [C91_matrix ho hi hd (hev 1) h hs (P := fun _ => P) (hPk 1) ha hb,
    C91_matrix ho hi hd (hev m) h' hs' (P := fun _ => P) (hPk m) ha' hb', e' m, e' 1, hr, hc]
  simp

/-- **C91** (assembling again).  Over a field of characteristic zero, `solve` after any number of
identical calls of `assemble` still returns the solution of the problem itself: matrix, vector and
correction grow together.  Missing: as in `C91_solve_partial`. -/
theorem C91_solve_again_partial {K : Type} [Field K] [CharZero K] {ord : List ℕ → List ℕ} (ho : SetOrder ord) (ha : Ascending ord)
    {fuel : ℕ} {dss : List (List Dim)} {ops : List (Op κ K)} {ps : List (Prob κ K)} {i : ℕ} (hi : i < dss.length)
    (hd2 : Dim.d2 ∈ dss[i]) (hd1 : Dim.d1 ∈ dss[i]) (hev : Evaluates i dss[i] ops)
    (h : run ord fuel (dss.map Prob.new) ops = .ok ps) (hi' : i < ps.length) {cs : List (CellIn κ K)} {m : ℕ}
    (hC : callsOf i [] [] ops = List.replicate (m + 1) (callOf ps[i].cons i cs)) {n : ℕ}
    (hO : OneLevel ps[i].cons.hng ps[i].cons.dir n (ps[i].hngD.map (·.1)) (ps[i].dirD.map (·.1)))
    (hb : SameBasis (callOf ps[i].cons i cs).bil)
    (huse : ∀ r, Uses2 (callOf ps[i].cons i cs).bil r ↔ Uses1 (callOf ps[i].cons i cs).lin r)
    {y u : List K}
    (hy : ∀ s b x0, getMatrix ps i = some s → getVector ps i = some b → s.x0 = some x0 → Solves s b.2 x0 y)
    (hu : solve n ps i y = .ok u) :
    u.length = n ∧ SolvesVariational ps[i].cons.hng ps[i].cons.dir (total2 (callOf ps[i].cons i cs).bil)
      (total1 (callOf ps[i].cons i cs).lin) (fun d => u.getD d 0) := by
  have hall : ∀ k ∈ callsOf i [] [] ops, k = callOf ps[i].cons i cs := fun k hk => by
    rw [hC] at hk; exact List.eq_of_mem_replicate hk
  have hmem : callOf ps[i].cons i cs ∈ callsOf i [] [] ops := by rw [hC]; simp
  obtain ⟨g1, g2, g3⟩ := C91_solve_partial ho ha hi hd2 hd1 hev h hi' (fun k hk => by rw [hall k hk]; rfl) hO
    (fun k hk => by rw [hall k hk]; exact hb)
    (fun r => ⟨fun ⟨k, hk, hr⟩ => ⟨k, hk, by rw [hall k hk] at hr ⊢; exact (huse r).1 hr⟩,
      fun ⟨k, hk, hr⟩ => ⟨k, hk, by rw [hall k hk] at hr ⊢; exact (huse r).2 hr⟩⟩) hy hu
  refine ⟨g1, g2, fun w hw => ?_⟩
  have := g3 w hw
  simp only [hC, List.map_replicate, List.sum_replicate, nsmul_eq_mul] at this
  exact mul_left_cancel₀ (by exact_mod_cast Nat.succ_ne_zero m) this

end Verif.Hist
