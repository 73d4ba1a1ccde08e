import Verif.Asm.Props
import Mathlib.Order.Antisymmetrization

/-! # C54: `Assembler.solve` returns the solution of the constrained variational problem -/

set_option linter.unusedSectionVars false

namespace Verif.Asm

variable {R : Type} [CommRing R] {κ : Type} [DecidableEq κ]

lemma scatter_ok {u u' : List R} {dofs : List ℕ} {vals : List R} (h : scatter u dofs vals = .ok u')
    (hn : dofs.Nodup) (hl : vals.length = dofs.length) :
    u'.length = u.length ∧ (∀ d ∈ dofs, d < u.length) ∧
      (∀ i (hi : i < dofs.length), u'.getD dofs[i] 0 = vals.getD i 0) ∧
      (∀ d, d ∉ dofs → u'.getD d 0 = u.getD d 0) := by
  unfold scatter at h
  split_ifs at h with hall
  simp only [Except.ok.injEq] at h
  subst h
  have hlt : ∀ d ∈ dofs, d < u.length := by simpa using hall
  have hm : (dofs.zip vals).map (·.1) = dofs := List.map_fst_zip (by omega)
  refine ⟨foldl_set_length _ _, hlt, ?_, ?_⟩
  · intro i hi
    have hi' : i < vals.length := by omega
    rw [List.getD_eq_getElem?_getD, foldl_set_mem (x := vals[i]) _ (by rw [hm]; exact hn) _ _
      (hlt _ (List.getElem_mem hi))]
    · simp [hi']
    · rw [List.mem_iff_getElem]
      exact ⟨i, by simp; omega, by simp⟩
  · intro d hd
    rw [List.getD_eq_getElem?_getD, foldl_set_not_mem _ (by rw [hm]; exact hd),
      List.getD_eq_getElem?_getD]

lemma hangTerm_ne {C : Cons R} {u : List R} {i k : ℕ} (h : k ≠ i) : hangTerm C u i k = 0 := by
  unfold hangTerm
  split <;> simp [h]

lemma hangDot_none {C : Cons R} {hdofs : List ℕ} {u : List R} {i : ℕ} (h : C.hng i = none) :
    hangDot C hdofs u i = 0 := by
  unfold hangDot
  apply List.sum_eq_zero
  intro x hx
  obtain ⟨k, hk, rfl⟩ := List.mem_map.1 hx
  by_cases hki : k = i
  · subst hki; simp [hangTerm, h]
  · exact hangTerm_ne hki

lemma hangDot_some {C : Cons R} {hdofs : List ℕ} (hn : hdofs.Nodup) {u : List R} {i : ℕ} {S}
    (h : C.hng i = some S) (hi : i ∈ hdofs) :
    hangDot C hdofs u i = combo S (fun d => u.getD d 0) := by
  unfold hangDot
  induction hdofs with
  | nil => cases hi
  | cons k ks ih =>
    simp only [List.nodup_cons] at hn
    simp only [List.map_cons, List.sum_cons]
    by_cases hk : k = i
    · subst hk
      have : (ks.map (hangTerm C u k)).sum = 0 := by
        apply List.sum_eq_zero
        intro x hx
        obtain ⟨j, hj, rfl⟩ := List.mem_map.1 hx
        exact hangTerm_ne (by rintro rfl; exact hn.1 hj)
      rw [this, add_zero]
      simp [hangTerm, h, combo]
    · have hi' : i ∈ ks := by
        rcases List.mem_cons.1 hi with h | h
        · exact absurd h.symm hk
        · exact h
      rw [hangTerm_ne hk, zero_add, ih hn.2 hi']

/-- What `finish` returns, dof by dof. -/
lemma finish_ok {C : Cons R} {n : ℕ} {hdofs ddofs : List ℕ} {s : Sys2 R} {b y u : List R}
    (hO : OneLevel C.hng C.dir n hdofs ddofs) (hu : s.urow.Nodup)
    (hfree : ∀ f ∈ s.urow, Free C.hng C.dir f)
    (h : finish C n hdofs ddofs s b y = .ok u) :
    u.length = n ∧ Trial C.hng C.dir (fun d => u.getD d 0) ∧
      (∀ i (hi : i < s.urow.length), u.getD s.urow[i] 0 = y.getD i 0) ∧
      ∃ x0, s.x0 = some x0 ∧ b.length = s.urow.length ∧ x0.length = s.urow.length ∧
        s.urow.length = s.ucol.length ∧ y.length = s.ucol.length := by
  unfold finish at h
  cases hx : s.x0 with
  | none => simp [hx] at h
  | some x0 =>
    simp only [hx] at h
    split_ifs at h with hsh
    obtain ⟨s1, s2, s3, s4⟩ := hsh
    simp only [bind, Except.bind] at h
    cases h1 : scatter (List.replicate n 0) s.urow y with
    | error e => simp [h1] at h
    | ok u1 =>
      simp only [h1] at h
      cases h2 : scatter u1 ddofs (ddofs.map fun d => (C.dir d).getD 0) with
      | error e => simp [h2] at h
      | ok u2 =>
        simp only [h2, Except.ok.injEq] at h
        obtain ⟨l1, lt1, v1, o1⟩ := scatter_ok h1 hu (by omega)
        obtain ⟨l2, lt2, v2, o2⟩ := scatter_ok h2 hO.dnodup (by simp)
        have hln : u2.length = n := by rw [l2, l1]; simp
        have hget : ∀ d, u.getD d 0 = if d < n then u2.getD d 0 + hangDot C hdofs u2 d else 0 := by
          intro d
          rw [← h]
          by_cases hd : d < n
          · simp [hd]
          · simp [hd]
        have hnh : ∀ d, C.hng d = none → u.getD d 0 = u2.getD d 0 := by
          intro d hd
          rw [hget, hangDot_none hd, add_zero]
          split_ifs with hdn
          · rfl
          · simp [hln, hdn]
        have hz : ∀ d, d ∉ s.urow → d ∉ ddofs → u2.getD d 0 = 0 := by
          intro d a1 a2
          rw [o2 d a2, o1 d a1]
          simp [List.getD_eq_getElem?_getD, List.getElem?_replicate]
          split_ifs <;> rfl
        refine ⟨by rw [← h]; simp, ⟨?_, ?_⟩, ?_, x0, rfl, s2, by omega, s3, s4⟩
        · intro k S hS
          simp only
          have hk : k ∈ hdofs := (hO.hkeys k).2 (by simp [hS])
          rw [hget, if_pos (hO.below k S hS).1, hangDot_some hO.hnodup hS hk, hz, zero_add]
          · apply combo_congr
            intro d hd
            exact (hnh d (hO.chain k S hS d hd)).symm
          · intro hm
            have := (hfree k hm).1
            rw [hS] at this; cases this
          · intro hm
            have := (hO.dkeys k).1 hm
            rw [hO.disj k (by simp [hS])] at this
            cases this
        · intro d g hd hg
          simp only
          have hm : d ∈ ddofs := (hO.dkeys d).2 (by simp [hg])
          obtain ⟨i, hi, rfl⟩ := List.mem_iff_getElem.1 hm
          rw [hnh _ hd, v2 i hi, one_mul]
          simp [hi, hg]
        · intro i hi
          have hf := hfree _ (List.getElem_mem hi)
          rw [hnh _ hf.1, o2 _ (by rw [hO.dkeys, hf.2]; simp), v1 i hi]

lemma sorted_ext {l l' : List ℕ} (h : l.Pairwise (· < ·)) (h' : l'.Pairwise (· < ·))
    (hm : ∀ x, x ∈ l ↔ x ∈ l') : l = l' := by
  have n : l.Nodup := h.imp (fun hab => Nat.ne_of_lt hab)
  have n' : l'.Nodup := h'.imp (fun hab => Nat.ne_of_lt hab)
  exact ((List.perm_ext_iff_of_nodup n n').2 hm).eq_of_pairwise
    (fun a b _ _ h1 h2 => absurd h1 (Nat.lt_asymm h2)) h h'

lemma uses_rows {C : Cons R} {keep fuel} {cs : List (κ × List (Loc2 R))} {af : AF2 κ R}
    (h : assemble2 C keep fuel cs = .ok af) (hb : SameBasis cs) {ord : List ℕ → List ℕ}
    (ho : SetOrder ord) {s : Sys2 R} (hs : af.consolidate ord = .ok s) (f : ℕ) :
    (f ∈ s.urow ↔ Free C.hng C.dir f ∧ ∃ r, Uses2 cs r ∧ Reach C.hng r f) ∧
    (f ∈ s.ucol ↔ Free C.hng C.dir f ∧ ∃ r, Uses2 cs r ∧ Reach C.hng r f) := by
  obtain ⟨_, _, m1, m2⟩ := C35_dofs h ho hs
  constructor
  · rw [m1]
    constructor
    · rintro ⟨hf, c, hc, l, hl, ⟨r, hr, h1⟩, _⟩
      exact ⟨hf, r, ⟨c, hc, l, hl, hr⟩, h1⟩
    · rintro ⟨hf, r, ⟨c, hc, l, hl, hr⟩, h1⟩
      exact ⟨hf, c, hc, l, hl, ⟨r, hr, h1⟩, r, (hb c hc l hl) ▸ hr, f, hf, h1⟩
  · rw [m2]
    constructor
    · rintro ⟨hf, c, hc, l, hl, ⟨q, hq, h1⟩, _⟩
      exact ⟨hf, q, ⟨c, hc, l, hl, (hb c hc l hl) ▸ hq⟩, h1⟩
    · rintro ⟨hf, r, ⟨c, hc, l, hl, hr⟩, h1⟩
      exact ⟨hf, c, hc, l, hl, ⟨r, (hb c hc l hl) ▸ hr, h1⟩, r, hr, f, hf, h1⟩

/-- **C54** `Assembler.solve`: if the bilinear and the linear forms of a problem were assembled over
the same dofs, with hanging nodes supported by non-hanging dofs, if `list(set(..))` is sorted and
`spsolve` returned an exact solution, then the returned vector is the solution of the constrained
variational problem: it obeys every hanging-node relation, has the Dirichlet values, and
`a(v,u) = ℓ(v)` for all admissible test functions.  Missing: chains of hanging nodes, hanging
Dirichlet dofs, problems without Dirichlet dofs, unsorted sets (violated, see `Verif.Asm.Witness`). -/
theorem C54_solve_partial {C : Cons R} {n : ℕ} {hdofs ddofs : List ℕ}
    (hO : OneLevel C.hng C.dir n hdofs ddofs)
    {keep fuel fuel'} {cs2 : List (κ × List (Loc2 R))} {cs1 : List (κ × List (Loc1 R))}
    (hb : SameBasis cs2) (huse : ∀ r, Uses2 cs2 r ↔ Uses1 cs1 r)
    {af2 : AF2 κ R} {af1 : AF1 κ R} (h2 : assemble2 C keep fuel cs2 = .ok af2)
    (h1 : assemble1 C keep fuel' cs1 = .ok af1)
    {ord : List ℕ → List ℕ} (ho : SetOrder ord) (ha : Ascending ord)
    {s : Sys2 R} {ub : List ℕ} {b : List R} (hs2 : af2.consolidate ord = .ok s)
    (hs1 : af1.consolidate ord = .ok (ub, b)) {y u : List R}
    (hy : ∀ x0, s.x0 = some x0 → Solves s b x0 y)
    (hu : finish C n hdofs ddofs s b y = .ok u) :
    u.length = n ∧
    SolvesVariational C.hng C.dir (total2 cs2) (total1 cs1) (fun d => u.getD d 0) := by
  obtain ⟨_, _, _, _, hur, huc, _⟩ := consolidate2_ok hs2
  have n1 : s.urow.Nodup := hur ▸ (ho _).1
  obtain ⟨hlen, hT, hyv, x0, hx0, _, hx0l, hrc, hyl⟩ := finish_ok hO n1 (fun f hf => by
    obtain ⟨i, hi, rfl⟩ := List.mem_iff_getElem.1 hf
    exact urow_free h2 ho hs2 hi) hu
  refine ⟨hlen, hT, fun v hv => ?_⟩
  obtain ⟨_, hub, _⟩ := (consolidate1_ok hs1).choose_spec
  -- the three orderings coincide
  have e1 : s.ucol = s.urow := sorted_ext (huc ▸ ha _) (hur ▸ ha _) fun f => by
    rw [(uses_rows h2 hb ho hs2 f).1, (uses_rows h2 hb ho hs2 f).2]
  have hlin := fold1_ok cs1 _ _ empty1_new h1
  have e2 : ub = s.urow := sorted_ext (hub ▸ ha _) (hur ▸ ha _) fun f => by
    rw [(uses_rows h2 hb ho hs2 f).1, hub, (ho _).2, hlin.2.2]
    simp only [AF1.new, List.map_nil, List.not_mem_nil, false_or]
    constructor
    · rintro ⟨c, hc, l, hl, r, hr, hf, hre⟩
      exact ⟨hf, r, (huse r).2 ⟨c, hc, l, hl, hr⟩, hre⟩
    · rintro ⟨hf, r, hr, hre⟩
      obtain ⟨c, hc, l, hl, hr⟩ := (huse r).1 hr
      exact ⟨c, hc, l, hl, r, hr, hf, hre⟩
  subst e2
  have hL : total1 cs1 v = val1 v af1.agg := by
    rw [hlin.2.1 v hv]; simp [AF1.new]
  rw [hL, ← vec_val ho hs1 v, ← C35_galerkin_partial h2 hb ho hs2 hv hT, ← Finset.sum_add_distrib]
  apply Finset.sum_congr rfl
  intro i _
  have key := hy x0 hx0 i i.2
  have hcorr : corr s i = x0.getD i 0 := by simp [corr, hx0]
  rw [hcorr]
  have hsum : ∑ j : Fin s.ucol.length, v s.urow[i] * s.entry i j * u.getD s.ucol[j] 0
      = v s.urow[i] * ((List.range s.ucol.length).map fun j => s.entry i j * y.getD j 0).sum := by
    rw [← List.map_coe_finRange_eq_range, List.map_map, ← List.ofFn_eq_map, List.sum_ofFn,
      Finset.mul_sum]
    apply Finset.sum_congr rfl
    intro j _
    have hj : (j : ℕ) < s.urow.length := by rw [hrc]; exact j.2
    have : u.getD s.ucol[j] 0 = y.getD j 0 := by
      rw [← hyv j hj]
      congr 1
      simp [e1]
    rw [this, Function.comp]; ring
  rw [hsum, key]; ring

end Verif.Asm
