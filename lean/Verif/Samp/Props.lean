import Verif.Samp.Proj1
import Verif.Asm.Witness

/-!
# C87: every sample is treated as if it were alone
-/

set_option linter.unusedSectionVars false

namespace Verif.Samp
open Verif.Asm Verif.Fem Verif.Form Verif.Gal Verif.Sum Verif.Quad

variable {K : Type} [CommRing K] {κ : Type} [DecidableEq κ]

/-! ## Sample sizes -/

theorem sizes_aux : ∀ (Ss : List ℕ) (n0 n : ℕ), 1 ≤ n0 → Ss.foldlM addSize n0 = .ok n → 1 ≤ n ∧ (n0 = 1 ∨ n = n0) ∧ ∀ S ∈ Ss, 1 < S → S = n := by
  intro Ss
  induction Ss with
  | nil =>
    intro n0 n h0 h
    cases h
    exact ⟨h0, .inr rfl, fun S hS => by cases hS⟩
  | cons S Ss ih =>
    intro n0 n h0 h
    rw [List.foldlM_cons] at h
    unfold addSize at h
    split_ifs at h with h1 h2 h3
    · obtain ⟨g1, g2, g3⟩ := ih S n (by omega) h
      refine ⟨g1, .inl h2, fun T hT hT1 => ?_⟩
      rcases List.mem_cons.1 hT with rfl | hT
      · exact (g2.resolve_left (by omega)).symm
      · exact g3 T hT hT1
    · obtain ⟨g1, g2, g3⟩ := ih n0 n h0 h
      refine ⟨g1, g2, fun T hT hT1 => ?_⟩
      rcases List.mem_cons.1 hT with rfl | hT
      · rw [← h3]
        exact (g2.resolve_left h2).symm
      · exact g3 T hT hT1
    · cases h
    · obtain ⟨g1, g2, g3⟩ := ih n0 n h0 h
      refine ⟨g1, g2, fun T hT hT1 => ?_⟩
      rcases List.mem_cons.1 hT with rfl | hT
      · exact absurd hT1 h1
      · exact g3 T hT hT1

theorem sizes_ok : ∀ (Ss : List ℕ) (n0 : ℕ), 1 ≤ n0 → (∀ S ∈ Ss, ∀ T ∈ n0 :: Ss, 1 < S → 1 < T → S = T) → ∃ n, Ss.foldlM addSize n0 = .ok n := by
  intro Ss
  induction Ss with
  | nil => exact fun n0 _ _ => ⟨n0, rfl⟩
  | cons S Ss ih =>
    intro n0 h0 h
    rw [List.foldlM_cons]
    unfold addSize
    split_ifs with h1 h2 h3
    · exact ih S (by omega) (fun A hA B hB => h A (by simp [hA]) B (by simp at hB ⊢; tauto))
    · exact ih n0 h0 (fun A hA B hB => h A (by simp [hA]) B (by simp at hB ⊢; tauto))
    · exact absurd (h S (by simp) n0 (by simp) h1 (by omega)).symm h3
    · exact ih n0 h0 (fun A hA B hB => h A (by simp [hA]) B (by simp at hB ⊢; tauto))

/-- **C87 (sample sizes).**  Forms can be added to one another exactly if all that have several samples have equally many; this is then the
sample size of the sum. -/
theorem C87_sizes (Ss : List ℕ) : ((∃ n, sizes Ss = .ok n) ↔ ∀ S ∈ Ss, ∀ T ∈ Ss, 1 < S → 1 < T → S = T) ∧
    ∀ n, sizes Ss = .ok n → 1 ≤ n ∧ ∀ S ∈ Ss, 1 < S → S = n := by
  have h2 : ∀ n, sizes Ss = .ok n → 1 ≤ n ∧ ∀ S ∈ Ss, 1 < S → S = n := fun n h => by
    obtain ⟨g1, _, g3⟩ := sizes_aux Ss 1 n le_rfl h
    exact ⟨g1, g3⟩
  refine ⟨⟨fun ⟨n, h⟩ S hS T hT h3 h4 => ((h2 n h).2 S hS h3).trans ((h2 n h).2 T hT h4).symm, fun h => ?_⟩, h2⟩
  refine sizes_ok Ss 1 le_rfl (fun S hS T hT h3 h4 => ?_)
  rcases List.mem_cons.1 hT with rfl | hT
  · omega
  · exact h S hS T hT h3 h4

/-- The sizes of all local forms. -/
theorem sizes_cell {Ss : List ℕ} {n : ℕ} (h : sizes Ss = .ok n) (h1 : ∀ S ∈ Ss, 1 ≤ S) : ∀ S ∈ Ss, S = 1 ∨ S = n := fun S hS => by
  have := ((C87_sizes Ss).2 n h).2 S hS
  have := h1 S hS
  omega

/-! ## Assembled forms -/

/-- **C87 (bilinear forms).**  On every list of cells, with any hanging nodes and Dirichlet values of one or `n` samples: matrix, dofs and
Dirichlet correction of sample `j` are those of the problem with sample `j` alone, deterministic forms and Dirichlet values taking part with
their only value; and where the one raises an exception, the other does. -/
theorem C87_bilinear {C : ConsS K} {n : ℕ} (hn : 1 ≤ n) (hC : C.Fits n) (keep : Bool) (fuel : ℕ) {ord : List ℕ → List ℕ} (ho : SetOrder ord)
    (cs : List (κ × List (Loc2S K))) (hS : ∀ c ∈ cs, ∀ l ∈ c.2, l.S = 1 ∨ l.S = n) {j : ℕ} (hj : j < n) :
    (assemble2S C n keep fuel cs >>= consolidate2S ord n).map (·.sample j) = assemble2 (C.at j) keep fuel (at2 cs j) >>= AF2.consolidate ord :=
  (Sim.bind (assemble2S_sim hn hC keep fuel cs hS) (g := fun _ a => AF2.consolidate ord a) (fun a ha => consolidate2S_sim ho a ha)).map hj

/-- **C87 (linear forms), partial.**  The same for vectors, if all forms have `n` samples.  Missing: problems in which a deterministic linear
form is added to one with several samples, see `C87_linear_violated`. -/
theorem C87_linear_partial {C : ConsS K} {n : ℕ} (keep : Bool) (fuel : ℕ) {ord : List ℕ → List ℕ} (ho : SetOrder ord)
    (cs : List (κ × List (Loc1S K))) (hS : ∀ c ∈ cs, ∀ l ∈ c.2, l.S = n) {j : ℕ} (hj : j < n) :
    (assemble1S C keep fuel cs >>= consolidate1S ord n).map (fun s => (s.1, s.2.getD j [])) =
      assemble1 (C.at j) keep fuel (at1 cs j) >>= AF1.consolidate ord :=
  (Sim.bind (assemble1S_sim keep fuel cs hS) (g := fun _ a => AF1.consolidate ord a) (fun a ha => consolidate1S_sim ho a ha)).map hj

/-- What has been aggregated stays, and everything on the stack arrives. -/
theorem loop1S_track {C : ConsS K} : ∀ (fuel : ℕ) (s s' : St1 (List K)), loop1S C fuel s = .ok s' →
    (∀ e ∈ s.agg, e ∈ s'.agg) ∧
    ∀ e ∈ s.stack, ∀ f, Reach C.hng e.row f → C.hng f = none → C.dir f = none → ∃ e' ∈ s'.agg, e'.val.length = e.val.length := by
  intro fuel
  induction fuel with
  | zero =>
    intro s s' h
    obtain ⟨stack, agg⟩ := s
    cases stack with
    | nil =>
      cases h
      exact ⟨fun e h => h, fun e h => by cases h⟩
    | cons e rest => cases h
  | succ fuel ih =>
    intro s s' h
    obtain ⟨stack, agg⟩ := s
    cases stack with
    | nil =>
      cases h
      exact ⟨fun e h => h, fun e h => by cases h⟩
    | cons e rest =>
      have h' : loop1S C fuel (step1S C e rest agg) = .ok s' := h
      obtain ⟨g1, g2⟩ := ih _ _ h'
      have hagg : ∀ x ∈ agg, x ∈ (step1S C e rest agg).agg := by
        intro x hx
        unfold step1S
        split
        · exact hx
        · split
          · exact hx
          · exact List.mem_append_left _ hx
      have hrest : ∀ x ∈ rest, x ∈ (step1S C e rest agg).stack := by
        intro x hx
        unfold step1S
        split
        · exact List.mem_append_right _ hx
        · split
          · exact hx
          · exact hx
      refine ⟨fun x hx => g1 x (hagg x hx), fun x hx f hr hf hd => ?_⟩
      rcases List.mem_cons.1 hx with rfl | hx
      · rcases Relation.ReflTransGen.cases_head hr with h0 | ⟨c, ⟨S, hS, co, hm⟩, hcf⟩
        · subst h0
          refine ⟨x, g1 x ?_, rfl⟩
          simp [step1S, hf, hd]
        · have hmem : (⟨c, x.val.map (co * ·)⟩ : Ent1 (List K)) ∈ (step1S C x rest agg).stack := by
            simp only [step1S, hS]
            exact List.mem_append_left _ (List.mem_reverse.2 (List.mem_map.2 ⟨(c, co), hm, rfl⟩))
          obtain ⟨e', he', hl⟩ := g2 _ hmem f hcf hf hd
          exact ⟨e', he', by simpa using hl⟩
      · exact g2 x (hrest x hx) f hr hf hd

theorem update1S_mem (k : κ) : ∀ (ls : List (Loc1S K)) (af : AF1 κ (List K)), (ls.foldl (update1S k) af).agg = af.agg ∧
    (∀ es, af.cells k = some es → ∃ es', (ls.foldl (update1S k) af).cells k = some es' ∧ ∀ e ∈ es, e ∈ es') ∧
    ∀ l ∈ ls, ∃ es, (ls.foldl (update1S k) af).cells k = some es ∧ ∀ e ∈ vecS l, e ∈ es := by
  intro ls
  induction ls with
  | nil => exact fun af => ⟨rfl, fun es h => ⟨es, h, fun e he => he⟩, fun l hl => by cases hl⟩
  | cons l ls ih =>
    intro af
    obtain ⟨g1, g2, g3⟩ := ih (update1S k af l)
    have hk : (update1S k af l).cells k = some ((vecS l).reverse ++ (af.cells k).getD []) := Function.update_self ..
    obtain ⟨es', h1, h2⟩ := g2 _ hk
    refine ⟨g1, fun es hes => ⟨es', h1, fun e he => h2 e ?_⟩, fun l' hl' => ?_⟩
    · rw [hes]
      exact List.mem_append_right _ he
    · rcases List.mem_cons.1 hl' with rfl | hl'
      · exact ⟨es', h1, fun e he => h2 e (List.mem_append_left _ (List.mem_reverse.2 he))⟩
      · exact g3 l' hl'

/-- The rows of the assembled linear forms have the lengths of the forms they come from. -/
theorem assemble1S_track {C : ConsS K} {keep : Bool} {fuel : ℕ} : ∀ (cs : List (κ × List (Loc1S K))) (a af : AF1 κ (List K)),
    cs.foldlM (cell1S C keep fuel) a = .ok af → (∀ e ∈ a.agg, e ∈ af.agg) ∧
    ∀ c ∈ cs, ∀ l ∈ c.2, ∀ r ∈ l.tst, ∀ f, Reach C.hng r f → C.hng f = none → C.dir f = none → ∃ e ∈ af.agg, e.val.length = l.S := by
  intro cs
  induction cs with
  | nil =>
    intro a af h
    cases h
    exact ⟨fun e h => h, fun c hc => by cases hc⟩
  | cons c cs ih =>
    intro a af h
    rw [List.foldlM_cons] at h
    cases hc : cell1S C keep fuel a c with
    | error e =>
      rw [hc] at h
      cases h
    | ok b =>
      rw [hc] at h
      obtain ⟨g1, g2⟩ := ih b af h
      obtain ⟨u1, u2, u3⟩ := update1S_mem c.1 c.2 a
      have key : (∀ e ∈ a.agg, e ∈ b.agg) ∧
          ∀ l ∈ c.2, ∀ r ∈ l.tst, ∀ f, Reach C.hng r f → C.hng f = none → C.dir f = none → ∃ e ∈ b.agg, e.val.length = l.S := by
        unfold cell1S distribute1S at hc
        cases hk : (c.2.foldl (update1S c.1) a).cells c.1 with
        | none =>
          rw [hk] at hc
          cases hc
        | some stk =>
          simp only [hk] at hc
          cases hl : loop1S C fuel ⟨stk, (c.2.foldl (update1S c.1) a).agg⟩ with
          | error e =>
            rw [hl] at hc
            cases hc
          | ok s' =>
            rw [hl] at hc
            have hb : b.agg = s'.agg := by
              cases keep <;> (cases hc; rfl)
            obtain ⟨t1, t2⟩ := loop1S_track fuel _ _ hl
            rw [hb]
            refine ⟨fun e he => t1 e (by rw [u1]; exact he), fun l hlm r hr f h1 h2 h3 => ?_⟩
            obtain ⟨es, hes, hin⟩ := u3 l hlm
            rw [hk] at hes
            cases hes
            obtain ⟨i, hi, rfl⟩ := List.mem_iff_getElem.1 hr
            have hm : (⟨l.tst.getD i 0, (List.range l.S).map (l.vec i)⟩ : Ent1 (List K)) ∈ stk :=
              hin _ (List.mem_map.2 ⟨i, List.mem_range.2 hi, rfl⟩)
            obtain ⟨e', he', hl'⟩ := t2 _ hm f (by simpa [List.getD_eq_getElem?_getD, hi] using h1) h2 h3
            exact ⟨e', he', by simpa using hl'⟩
      refine ⟨fun e he => g1 e (key.1 e he), fun c' hc' l hl r hr f h1 h2 h3 => ?_⟩
      rcases List.mem_cons.1 hc' with rfl | hc'
      · obtain ⟨e, he, hel⟩ := key.2 l hl r hr f h1 h2 h3
        exact ⟨e, g1 e he, hel⟩
      · exact g2 c' hc' l hl r hr f h1 h2 h3

theorem toArray_ragged {rows : List (List K)} {r s : List K} (hr : r ∈ rows) (hs : s ∈ rows) (h : r.length ≠ s.length) : toArray rows = .error .shape := by
  unfold toArray
  rw [if_neg]
  intro h0
  rw [List.all_eq_true] at h0
  have h1 := h0 r hr
  have h2 := h0 s hs
  simp only [beq_iff_eq] at h1 h2
  exact h (h1.trans h2.symm)

/-- **C87 (linear forms), negative.**  Whenever a linear form with one sample is added to a linear form with several, and each of them has a
dof that is free or depends on a free one, no vector is assembled at all: the call raises an exception. -/
theorem C87_linear_never {C : ConsS K} {n : ℕ} {keep : Bool} {fuel : ℕ} {ord : List ℕ → List ℕ} (cs : List (κ × List (Loc1S K)))
    {c c' : κ × List (Loc1S K)} (hc : c ∈ cs) (hc' : c' ∈ cs) {l l' : Loc1S K} (hl : l ∈ c.2) (hl' : l' ∈ c'.2) (h1 : l.S = 1) (h2 : 1 < l'.S)
    {r f r' f' : ℕ} (hr : r ∈ l.tst) (hf : Reach C.hng r f) (hff : C.hng f = none ∧ C.dir f = none)
    (hr' : r' ∈ l'.tst) (hf' : Reach C.hng r' f') (hff' : C.hng f' = none ∧ C.dir f' = none) (b : List ℕ × List (List K)) :
    assemble1S C keep fuel cs >>= consolidate1S ord n ≠ .ok b := by
  intro h
  cases ha : assemble1S C keep fuel cs with
  | error e =>
    rw [ha] at h
    cases h
  | ok af =>
    rw [ha] at h
    obtain ⟨_, t⟩ := assemble1S_track cs _ af ha
    obtain ⟨e, he, hle⟩ := t c hc l hl r hr f hf hff.1 hff.2
    obtain ⟨e', he', hle'⟩ := t c' hc' l' hl' r' hr' f' hf' hff'.1 hff'.2
    have hrag : toArray (af.agg.map (·.val)) = .error .shape :=
      toArray_ragged (List.mem_map_of_mem he) (List.mem_map_of_mem he') (by rw [hle, hle']; omega)
    replace h : consolidate1S ord n af = .ok b := h
    unfold consolidate1S at h
    simp only [hrag] at h
    cases hm : mkIdx (ord (af.agg.map (·.row))) with
    | error e =>
      rw [hm] at h
      cases h
    | ok i =>
      rw [hm] at h
      cases h

/-- The problem of the next theorem: one cell with one dof, the linear forms `5 v` and, with two samples, `1 v` and `2 v`. -/
def mixCs : List (ℕ × List (Loc1S ℤ)) := [(0, [⟨[0], 1, fun _ _ => 5⟩, ⟨[0], 2, fun _ s => s + 1⟩])]

/-- **C87 (linear forms), violated.**  The sample sizes 1 and 2 are accepted, and sample 1 alone gives the vector `[7]`; with both samples,
`assemble` raises an exception. -/
theorem C87_linear_violated : sizes [1, 2] = .ok 2 ∧
    (assemble1 (⟨fun _ => none, fun _ => none⟩ : Cons ℤ) true 9 (at1 mixCs 1) >>= AF1.consolidate sortedSet) = .ok ([0], [7]) ∧
    ∀ b, (assemble1S (⟨fun _ => none, fun _ => none⟩ : ConsS ℤ) true 9 mixCs >>= consolidate1S sortedSet 2) ≠ .ok b := by
  refine ⟨rfl, by rfl, fun b => ?_⟩
  exact C87_linear_never (c := mixCs.head!) (c' := mixCs.head!) (l := ⟨[0], 1, fun _ _ => 5⟩) (l' := ⟨[0], 2, fun _ s => s + 1⟩) (r := 0) (f := 0)
    (r' := 0) (f' := 0) mixCs (by simp [mixCs, List.head!]) (by simp [mixCs, List.head!]) (by simp [mixCs, List.head!])
    (by simp [mixCs, List.head!]) rfl (by decide) (by simp) .refl ⟨rfl, rfl⟩ (by simp) .refl ⟨rfl, rfl⟩ b

/-! ## Constant forms -/

/-- **C87 (constant forms), partial.**  If all constant forms have `n` samples and every cell a region of every form, `get_scalar` returns the
sum over all cells and forms, sample by sample.  Missing: forms over marked regions, see `C87_scalar_violated`, and deterministic forms added
to forms with several samples. -/
theorem C87_scalar_partial {n : ℕ} (cs : List (κ × List (Loc0S K))) (hS : ∀ c ∈ cs, ∀ l ∈ c.2, l.S = n ∧ l.hit = true) (hne : ∃ c ∈ cs, c.2 ≠ [])
    {j : ℕ} (hj : j < n) : scalarS cs j = .ok (cs.map fun c => (c.2.map fun l => l.val j).sum).sum := by
  have e0 : (cs.flatMap fun c => c.2.flatMap appS) = (cs.flatMap (·.2)).map fun l => NV.arr ((List.range l.S).map l.val) := by
    rw [List.map_flatMap]
    refine List.flatMap_congr (fun c hc => ?_)
    rw [List.flatMap_def, List.map_congr_left (g := fun l => [NV.arr ((List.range l.S).map l.val)]) (fun l hl => by
      unfold appS
      rw [if_pos (hS c hc l hl).2])]
    generalize c.2 = ls
    induction ls with
    | nil => rfl
    | cons l ls ih => simp [ih]
  have hL : ∀ l ∈ cs.flatMap (·.2), l.S = n := fun l hl => by
    obtain ⟨c, hc, hl⟩ := List.mem_flatMap.1 hl
    exact (hS c hc l hl).1
  have hne' : cs.flatMap (·.2) ≠ [] := by
    obtain ⟨c, hc, hn⟩ := hne
    obtain ⟨l, hl⟩ := List.exists_mem_of_ne_nil _ hn
    exact List.ne_nil_of_mem (List.mem_flatMap.2 ⟨c, hc, hl⟩)
  have hsum : (cs.map fun c => (c.2.map fun l => l.val j).sum).sum = ((cs.flatMap (·.2)).map fun l => l.val j).sum := by
    clear e0 hL hne' hne hS
    induction cs with
    | nil => rfl
    | cons c cs ih => simp [ih]
  rw [hsum]
  unfold scalarS sumS
  simp only [e0]
  generalize cs.flatMap (·.2) = ls at hL hne'
  rw [if_neg, if_pos (by simp)]
  · simp only [List.map_map, Function.comp_def]
    rw [toArray_ok (n := n) (by
      intro r hr
      obtain ⟨l, hl, rfl⟩ := List.mem_map.1 hr
      simp [hL l hl])]
    obtain ⟨l0, ls', rfl⟩ := List.exists_cons_of_ne_nil hne'
    have h0 : l0.S = n := hL l0 (by simp)
    simp only [bind, Except.bind, List.map_cons, List.headD_cons, List.length_map, List.length_range, h0]
    have hj' : j < (List.range n).length := by simpa using hj
    rw [List.getElem?_map, List.getElem?_eq_getElem hj']
    simp only [Option.map_some, List.getElem_range, List.getD_eq_getElem?_getD, List.getElem?_map, List.getElem?_range hj, Option.getD_some, List.sum_cons,
      List.map_map]
    congr 3
    refine List.map_congr_left (fun l hl => ?_)
    simp [Function.comp, List.getElem?_range (hL l (by simp [hl]) ▸ hj : j < l.S)]
  · obtain ⟨l0, ls', rfl⟩ := List.exists_cons_of_ne_nil hne'
    simp

/-- **C87 (constant forms), violated.**  Two cells, one of them in the region of the form, where the form has the value 3: there is no scalar. -/
theorem C87_scalar_violated : scalarS [(0, [(⟨1, true, fun _ => 3⟩ : Loc0S ℤ)]), (1, [⟨1, false, fun _ => 0⟩])] 0 = .error .shape := by rfl

/-! ## Solving -/

/-- **C87 (solving), partial.**  With deterministic Dirichlet values, `solve(i_matrix, i_vector)` is the computation of one sample (see C54) with
this matrix and this vector.  Missing: Dirichlet values with several samples, see `C87_solve_violated`. -/
theorem C87_solve_partial (C : ConsS K) (N : ℕ) (hdofs ddofs : List ℕ) (s : Sys2S K) (bs : List (List K)) {iM iV : ℕ} (hM : iM < s.mats.length)
    (hV : iV < bs.length) (hd : ∀ d ∈ ddofs, ∃ g, C.dir d = some [g]) (hne : ddofs ≠ []) (y : List K) :
    finishS C N hdofs ddofs s bs iM iV y = finish (C.at iM) N hdofs ddofs (s.sample iM) (bs.getD iV []) y := by
  have hl : ∀ r ∈ ddofs.map (fun d => (C.dir d).getD []), r.length = 1 := by
    intro r hr
    obtain ⟨d, hdm, rfl⟩ := List.mem_map.1 hr
    obtain ⟨g, hg⟩ := hd d hdm
    simp [hg]
  unfold finishS finish
  rw [if_pos hM, List.getElem?_eq_getElem hV]
  simp only [Sys2S.sample, List.getD_eq_getElem?_getD, List.getElem?_eq_getElem hV, Option.getD_some]
  cases s.x0[iM]? with
  | none => rfl
  | some x0 =>
    simp only
    split_ifs with h
    · rw [toArray_ok hl]
      have e1 : (ddofs.map fun d => (C.dir d).getD []).map (·.getD 0 0) = ddofs.map fun d => ((C.at iM).dir d).getD 0 := by
        rw [List.map_map]
        refine List.map_congr_left (fun d hdm => ?_)
        obtain ⟨g, hg⟩ := hd d hdm
        simp [ConsS.at, hg, pick]
      have e2 : ∀ (u : List K) i, hangDot (⟨C.hng, fun _ => none⟩ : Cons K) hdofs u i = hangDot (C.at iM) hdofs u i := fun u i => rfl
      cases scatter (List.replicate N 0) s.urow y with
      | error e => rfl
      | ok u1 =>
        simp only [bind, Except.bind]
        rw [column_ok hl (by simpa using hne) Nat.one_pos, e1]
        rfl
    · rfl

/-- The Dirichlet data of the next theorem: dof 1 has the values 1 and 2, in two samples. -/
def dirTwo : ConsS ℤ := ⟨fun _ => none, fun a => if a = 1 then some [1, 2] else none⟩

/-- **C87 (solving), violated.**  One cell with the matrix `[[1,-1],[-1,1]]` and the load 0, the value of dof 1 prescribed as 1 or 2.  Assembling
is right: sample 1 is `u₀ = 2`.  But `solve(i_matrix=1, i_vector=1)` returns `[2, 1]`, the inner value of sample 1 with the boundary value of
sample 0; the solution of sample 1 is `[2, 2]`. -/
theorem C87_solve_violated : ∃ s, (assemble2S dirTwo 2 true 9 [((0 : ℕ), [(⟨[0, 1], [0, 1], 2, fun a i _ => if a = i then 1 else -1⟩ : Loc2S ℤ)])] >>=
      consolidate2S sortedSet 2) = .ok s ∧ Solves (s.sample 1) [0] [-2] [2] ∧ (s.sample 1).x0 = some [-2] ∧
    finishS dirTwo 2 [] [1] s [[0], [0]] 1 1 [2] = .ok [2, 1] ∧ finish (dirTwo.at 1) 2 [] [1] (s.sample 1) [0] [2] = .ok [2, 2] := by
  refine ⟨⟨[0], [0], [[(0, 0, 1)], [(0, 0, 1)]], [[-1], [-2]]⟩, by rfl, ?_, rfl, by rfl, by rfl⟩
  intro i hi
  have : i = 0 := by
    have : i < 1 := hi
    omega
  subst this
  rfl

end Verif.Samp
