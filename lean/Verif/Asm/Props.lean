import Verif.Asm.Consol
import Mathlib.Data.List.Sort
import Mathlib.Data.List.Perm.Basic

/-! # C35 (assembly), C36 (cellwise data), C54 (`Assembler.solve`) -/

set_option linter.unusedSectionVars false

namespace Verif.Asm

variable {R : Type} [CommRing R] {κ : Type} [DecidableEq κ]

/-! ### consequences for the assembled aggregate -/

lemma assemble2_val {C : Cons R} {keep fuel} {cs : List (κ × List (Loc2 R))} {af : AF2 κ R}
    (h : assemble2 C keep fuel cs = .ok af) {v x : ℕ → R} {t : R} (hv : Test C.hng C.dir v)
    (hx : Conforms C.hng x) (hxd : OnDirichlet C.hng C.dir t x) :
    val2 v x af.agg + t * valb v af.bnd = total2 cs v x := by
  have := (fold2_ok cs _ _ empty2_new h).2.1 v x t hv hx hxd
  rw [this]; simp [AF2.new]

lemma assemble2_pairs {C : Cons R} {keep fuel} {cs : List (κ × List (Loc2 R))} {af : AF2 κ R}
    (h : assemble2 C keep fuel cs = .ok af) (f f') :
    (∃ a ∈ af.agg, a.row = f ∧ a.col = f') ↔
      ∃ c ∈ cs, ∃ l ∈ c.2, ∃ r ∈ l.tst, ∃ q ∈ l.trl, FreePair C r q f f' := by
  have := (fold2_ok cs _ _ empty2_new h).2.2.1 f f'
  rw [this]; simp [AF2.new]

lemma assemble2_free {C : Cons R} {keep fuel} {cs : List (κ × List (Loc2 R))} {af : AF2 κ R}
    (h : assemble2 C keep fuel cs = .ok af) {a} (ha : a ∈ af.agg) :
    Free C.hng C.dir a.row ∧ Free C.hng C.dir a.col := by
  obtain ⟨_, _, _, _, _, _, _, _, h1, h2, _⟩ := (assemble2_pairs h a.row a.col).1 ⟨a, ha, rfl, rfl⟩
  exact ⟨h1, h2⟩

lemma assemble2_bnd {C : Cons R} {keep fuel} {cs : List (κ × List (Loc2 R))} {af : AF2 κ R}
    (h : assemble2 C keep fuel cs = .ok af) (f) :
    f ∈ af.bnd.map (·.1) ↔ ∃ c ∈ cs, ∃ l ∈ c.2, ∃ r ∈ l.tst, ∃ q ∈ l.trl, BndPair C r q f := by
  have := (fold2_ok cs _ _ empty2_new h).2.2.2 f
  rw [this]; simp [AF2.new]

/-- With the same dofs for test and trial, rows of the correction are rows of the matrix. -/
lemma bnd_rows {C : Cons R} {keep fuel} {cs : List (κ × List (Loc2 R))} {af : AF2 κ R}
    (h : assemble2 C keep fuel cs = .ok af) (hs : SameBasis cs) :
    ∀ p ∈ af.bnd, p.1 ∈ af.agg.map (·.row) := by
  intro p hp
  obtain ⟨c, hc, l, hl, r, hr, q, _, hf, hrf, _⟩ :=
    (assemble2_bnd h p.1).1 (List.mem_map.2 ⟨p, hp, rfl⟩)
  obtain ⟨a, ha, h1, _⟩ := (assemble2_pairs h p.1 p.1).2
    ⟨c, hc, l, hl, r, hr, r, (hs c hc l hl) ▸ hr, hf, hf, hrf, hrf⟩
  exact List.mem_map.2 ⟨a, ha, h1⟩

lemma val2_prolong {C : Cons R} {P : ℕ → ℕ → R} (hP : IsProlongation C.hng C.dir P)
    {es : List (Ent R)} (hes : ∀ e ∈ es, Free C.hng C.dir e.row ∧ Free C.hng C.dir e.col)
    {f f'} (hf : Free C.hng C.dir f) (hf' : Free C.hng C.dir f') :
    val2 (P f) (P f') es = (es.map fun e => if e.row = f ∧ e.col = f' then e.val else 0).sum := by
  unfold val2
  congr 1
  apply List.map_congr_left
  intro e he
  rw [(hP f hf).2 _ (hes e he).1, (hP f' hf').2 _ (hes e he).2]
  by_cases c1 : e.row = f <;> by_cases c2 : e.col = f' <;> simp [c1, c2]

lemma mem_urow {ord : List ℕ → List ℕ} (ho : SetOrder ord) {af : AF2 κ R} {s : Sys2 R}
    (h : af.consolidate ord = .ok s) (f : ℕ) : f ∈ s.urow ↔ ∃ a ∈ af.agg, a.row = f := by
  obtain ⟨_, _, _, _, hu, _⟩ := consolidate2_ok h
  rw [hu, (ho _).2, List.mem_map]

lemma mem_ucol {ord : List ℕ → List ℕ} (ho : SetOrder ord) {af : AF2 κ R} {s : Sys2 R}
    (h : af.consolidate ord = .ok s) (f : ℕ) : f ∈ s.ucol ↔ ∃ a ∈ af.agg, a.col = f := by
  obtain ⟨_, _, _, _, _, hu, _⟩ := consolidate2_ok h
  rw [hu, (ho _).2, List.mem_map]

lemma urow_free {C : Cons R} {keep fuel} {cs : List (κ × List (Loc2 R))} {af : AF2 κ R}
    (h : assemble2 C keep fuel cs = .ok af) {ord : List ℕ → List ℕ} (ho : SetOrder ord)
    {s : Sys2 R} (hs : af.consolidate ord = .ok s) {i} (hi : i < s.urow.length) :
    Free C.hng C.dir s.urow[i] := by
  obtain ⟨a, ha, h1⟩ := (mem_urow ho hs _).1 (List.getElem_mem hi)
  exact h1 ▸ (assemble2_free h ha).1

lemma ucol_free {C : Cons R} {keep fuel} {cs : List (κ × List (Loc2 R))} {af : AF2 κ R}
    (h : assemble2 C keep fuel cs = .ok af) {ord : List ℕ → List ℕ} (ho : SetOrder ord)
    {s : Sys2 R} (hs : af.consolidate ord = .ok s) {i} (hi : i < s.ucol.length) :
    Free C.hng C.dir s.ucol[i] := by
  obtain ⟨a, ha, h1⟩ := (mem_ucol ho hs _).1 (List.getElem_mem hi)
  exact h1 ▸ (assemble2_free h ha).2

/-! ### C35 -/

/-- **C35** The assembly of bilinear and of linear forms ends for every list of cells (with at least
one form each), every local matrix and every acyclic set of hanging nodes, with a result that does
not depend on the fuel of the model. -/
theorem C35_terminates {C : Cons R} (hac : Acyclic C.hng) (keep : Bool)
    (cs2 : List (κ × List (Loc2 R))) (cs1 : List (κ × List (Loc1 R)))
    (h2 : ∀ c ∈ cs2, c.2 ≠ []) (h1 : ∀ c ∈ cs1, c.2 ≠ []) :
    ∃ N af2 af1, ∀ fuel ≥ N,
      assemble2 C keep fuel cs2 = .ok af2 ∧ assemble1 C keep fuel cs1 = .ok af1 := by
  obtain ⟨N2, af2, e2⟩ := fold2_terminates hac keep cs2 AF2.new h2
  obtain ⟨N1, af1, e1⟩ := fold1_terminates hac keep cs1 AF1.new h1
  exact ⟨max N2 N1, af2, af1, fun fuel hf =>
    ⟨e2 fuel (le_trans (le_max_left _ _) hf), e1 fuel (le_trans (le_max_right _ _) hf)⟩⟩

/-- **C35** For acyclic constraints the constrained basis functions `P f` and the lifting of the
Dirichlet values exist and are unique. -/
theorem C35_prolongation {hng : ℕ → Option (List ℕ × List R)} {dir : ℕ → Option R}
    (hac : Acyclic hng) :
    (∃ P, IsProlongation hng dir P) ∧ (∃ d, IsLifting hng dir d) ∧
    (∀ P Q, IsProlongation hng dir P → IsProlongation hng dir Q →
      ∀ f, Free hng dir f → P f = Q f) ∧
    (∀ d e, IsLifting hng dir d → IsLifting hng dir e → d = e) := by
  refine ⟨?_, ?_, ?_, ?_⟩
  · choose P h1 h2 h3 using fun f : ℕ =>
      exists_conforming (dir := dir) hac (fun f' => if f' = f then (1 : R) else 0) 0
    exact ⟨P, fun f _ => ⟨⟨h1 f, h2 f⟩, h3 f⟩⟩
  · obtain ⟨d, h1, h2, h3⟩ := exists_conforming (dir := dir) hac (fun _ => (0 : R)) 1
    exact ⟨d, ⟨h1, h2⟩, h3⟩
  · intro P Q hP hQ f hf
    refine conforming_unique hac (hP f hf).1.1 (hQ f hf).1.1 (hP f hf).1.2 (hQ f hf).1.2 ?_
    intro f' hf'
    rw [(hP f hf).2 f' hf', (hQ f hf).2 f' hf']
  · intro d e hd he
    refine conforming_unique hac hd.1.1 he.1.1 hd.1.2 he.1.2 ?_
    intro f hf
    rw [hd.2 f hf, he.2 f hf]

/-- **C35** The consolidated matrix is `Pᵀ A P`: entry `(i,j)` is the sum over all cells and forms
of the local form at the constrained basis functions of the `i`-th row dof and `j`-th column dof. -/
theorem C35_matrix {C : Cons R} {keep fuel} {cs : List (κ × List (Loc2 R))} {af : AF2 κ R}
    (h : assemble2 C keep fuel cs = .ok af) {ord : List ℕ → List ℕ} (ho : SetOrder ord)
    {s : Sys2 R} (hs : af.consolidate ord = .ok s) {P : ℕ → ℕ → R}
    (hP : IsProlongation C.hng C.dir P) {i j : ℕ} (hi : i < s.urow.length)
    (hj : j < s.ucol.length) :
    s.entry i j = total2 cs (P s.urow[i]) (P s.ucol[j]) := by
  have f1 := urow_free h ho hs hi
  have f2 := ucol_free h ho hs hj
  have := assemble2_val (t := 0) h (hP _ f1).1 (hP _ f2).1.1 (hP _ f2).1.2
  rw [zero_mul, add_zero, val2_prolong hP (fun e he => assemble2_free h he) f1 f2] at this
  rw [← this, entry_eq ho hs hi hj]

/-- **C35** The rows and columns of the matrix are free dofs only, each once, and a pair is present
exactly if some local form couples dofs that lead to it. -/
theorem C35_dofs {C : Cons R} {keep fuel} {cs : List (κ × List (Loc2 R))} {af : AF2 κ R}
    (h : assemble2 C keep fuel cs = .ok af) {ord : List ℕ → List ℕ} (ho : SetOrder ord)
    {s : Sys2 R} (hs : af.consolidate ord = .ok s) :
    s.urow.Nodup ∧ s.ucol.Nodup ∧
    (∀ f, f ∈ s.urow ↔ Free C.hng C.dir f ∧ ∃ c ∈ cs, ∃ l ∈ c.2, (∃ r ∈ l.tst, Reach C.hng r f) ∧
      ∃ q ∈ l.trl, ∃ f', Free C.hng C.dir f' ∧ Reach C.hng q f') ∧
    (∀ f', f' ∈ s.ucol ↔ Free C.hng C.dir f' ∧ ∃ c ∈ cs, ∃ l ∈ c.2,
      (∃ q ∈ l.trl, Reach C.hng q f') ∧
      ∃ r ∈ l.tst, ∃ f, Free C.hng C.dir f ∧ Reach C.hng r f) := by
  obtain ⟨_, _, _, _, hu, hc, _⟩ := consolidate2_ok hs
  refine ⟨hu ▸ (ho _).1, hc ▸ (ho _).1, fun f => ?_, fun f' => ?_⟩
  · rw [mem_urow ho hs]
    constructor
    · rintro ⟨a, ha, rfl⟩
      obtain ⟨c, hc, l, hl, r, hr, q, hq, h1, h2, h3, h4⟩ :=
        (assemble2_pairs h a.row a.col).1 ⟨a, ha, rfl, rfl⟩
      exact ⟨h1, c, hc, l, hl, ⟨r, hr, h3⟩, q, hq, _, h2, h4⟩
    · rintro ⟨h1, c, hc, l, hl, ⟨r, hr, h3⟩, q, hq, f', h2, h4⟩
      obtain ⟨a, ha, e, _⟩ := (assemble2_pairs h f f').2 ⟨c, hc, l, hl, r, hr, q, hq, h1, h2, h3, h4⟩
      exact ⟨a, ha, e⟩
  · rw [mem_ucol ho hs]
    constructor
    · rintro ⟨a, ha, rfl⟩
      obtain ⟨c, hc, l, hl, r, hr, q, hq, h1, h2, h3, h4⟩ :=
        (assemble2_pairs h a.row a.col).1 ⟨a, ha, rfl, rfl⟩
      exact ⟨h2, c, hc, l, hl, ⟨q, hq, h4⟩, r, hr, _, h1, h3⟩
    · rintro ⟨h2, c, hc, l, hl, ⟨q, hq, h4⟩, r, hr, f, h1, h3⟩
      obtain ⟨a, ha, _, e⟩ := (assemble2_pairs h f f').2 ⟨c, hc, l, hl, r, hr, q, hq, h1, h2, h3, h4⟩
      exact ⟨a, ha, e⟩

/-- **C35** (with the same dofs for test and trial) The Dirichlet columns end up in the correction
vector with their boundary values: entry `i` is the sum of the local forms at the constrained basis
function of row `i` and the lifting of the Dirichlet values.  Missing: different test and trial
spaces, see `C35_petrov_violated`. -/
theorem C35_correction_partial {C : Cons R} {keep fuel} {cs : List (κ × List (Loc2 R))}
    {af : AF2 κ R} (h : assemble2 C keep fuel cs = .ok af) (hb : SameBasis cs)
    {ord : List ℕ → List ℕ} (ho : SetOrder ord)
    {s : Sys2 R} (hs : af.consolidate ord = .ok s) {P : ℕ → ℕ → R}
    (hP : IsProlongation C.hng C.dir P) {d : ℕ → R} (hd : IsLifting C.hng C.dir d)
    {i : ℕ} (hi : i < s.urow.length) :
    corr s i = total2 cs (P s.urow[i]) d := by
  have f1 := urow_free h ho hs hi
  have := assemble2_val (t := 1) h (hP _ f1).1 hd.1.1 hd.1.2
  have hz : val2 (P s.urow[i]) d af.agg = 0 := by
    unfold val2
    apply List.sum_eq_zero
    intro x hx
    obtain ⟨e, he, rfl⟩ := List.mem_map.1 hx
    rw [hd.2 _ (assemble2_free h he).2, mul_zero]
  rw [hz, zero_add, one_mul] at this
  rw [← this, corr_eq ho hs (bnd_rows h hb) hi]
  unfold valb
  congr 1
  apply List.map_congr_left
  intro p hp
  have hf : Free C.hng C.dir p.1 := by
    obtain ⟨a, ha, e⟩ := List.mem_map.1 (bnd_rows h hb p hp)
    exact e ▸ (assemble2_free h ha).1
  rw [(hP _ f1).2 _ hf]
  by_cases c : p.1 = s.urow[i] <;> simp [c]

/-- **C35** The consolidated vector of the linear forms is `Pᵀ b`. -/
theorem C35_vector {C : Cons R} {keep fuel} {cs : List (κ × List (Loc1 R))} {af : AF1 κ R}
    (h : assemble1 C keep fuel cs = .ok af) {ord : List ℕ → List ℕ} (ho : SetOrder ord)
    {u : List ℕ} {b : List R} (hs : af.consolidate ord = .ok (u, b)) {P : ℕ → ℕ → R}
    (hP : IsProlongation C.hng C.dir P) :
    b.length = u.length ∧ u.Nodup ∧
    (∀ f, f ∈ u ↔ Free C.hng C.dir f ∧ ∃ r, Uses1 cs r ∧ Reach C.hng r f) ∧
    ∀ i (hi : i < u.length), b.getD i 0 = total1 cs (P u[i]) := by
  obtain ⟨_, h2, h3⟩ := fold1_ok cs _ _ empty1_new h
  obtain ⟨_, _, hu, _⟩ := consolidate1_ok hs
  have hmem : ∀ f, f ∈ u ↔ Free C.hng C.dir f ∧ ∃ r, Uses1 cs r ∧ Reach C.hng r f := by
    intro f
    rw [hu, (ho _).2, h3]
    simp only [AF1.new, List.map_nil, List.not_mem_nil, false_or, Uses1]
    constructor
    · rintro ⟨c, hc, l, hl, r, hr, hf, hre⟩
      exact ⟨hf, r, ⟨c, hc, l, hl, hr⟩, hre⟩
    · rintro ⟨hf, r, ⟨c, hc, l, hl, hr⟩, hre⟩
      exact ⟨c, hc, l, hl, r, hr, hf, hre⟩
  refine ⟨(vec_eq ho hs).1, hu ▸ (ho _).1, hmem, fun i hi => ?_⟩
  have hf : Free C.hng C.dir u[i] := ((hmem _).1 (List.getElem_mem hi)).1
  have := h2 (P u[i]) (hP _ hf).1
  simp only [AF1.new, val1_nil, add_zero] at this
  rw [(vec_eq ho hs).2 i hi, ← this]
  unfold val1
  congr 1
  apply List.map_congr_left
  intro e he
  have hfe : Free C.hng C.dir e.row := by
    have : e.row ∈ u := by rw [hu, (ho _).2]; exact List.mem_map.2 ⟨e, he, rfl⟩
    exact ((hmem _).1 this).1
  rw [(hP _ hf).2 _ hfe]
  by_cases c : e.row = u[i] <;> simp [c]

/-- **C35** For every admissible test function `v` and trial function `x`, the consolidated system
reproduces the sum of all local forms: `vᵀ A x + vᵀ x0 = Σ_cells a_cell(v, x)` (same dofs for test
and trial). -/
theorem C35_galerkin_partial {C : Cons R} {keep fuel} {cs : List (κ × List (Loc2 R))}
    {af : AF2 κ R} (h : assemble2 C keep fuel cs = .ok af) (hb : SameBasis cs)
    {ord : List ℕ → List ℕ} (ho : SetOrder ord) {s : Sys2 R} (hs : af.consolidate ord = .ok s)
    {v x : ℕ → R} (hv : Test C.hng C.dir v) (hx : Trial C.hng C.dir x) :
    (∑ i : Fin s.urow.length, ∑ j : Fin s.ucol.length, v s.urow[i] * s.entry i j * x s.ucol[j])
      + ∑ i : Fin s.urow.length, v s.urow[i] * corr s i = total2 cs v x := by
  rw [matrix_val ho hs, corr_val ho hs (bnd_rows h hb), ← assemble2_val h hv hx.1 hx.2, one_mul]

/-- **C35** Constant forms: the assembled number is the sum over cells and forms. -/
theorem C35_constant {keep : Bool} {cs : List (κ × List (List R))} {af : AF0 κ R}
    (hn : (cs.map (·.1)).Nodup) (h : assemble0 keep cs = .ok af) :
    af.consolidate = (cs.map fun c => (c.2.map List.sum).sum).sum := by
  have upd : ∀ (k : κ) (ls : List (List R)) (a : AF0 κ R),
      (ls.foldl (fun a l => a.update k l) a).agg = a.agg ∧
      (∀ k', k' ≠ k → (ls.foldl (fun a l => a.update k l) a).cells k' = a.cells k') ∧
      ((ls.foldl (fun a l => a.update k l) a).cells k).getD []
        = (a.cells k).getD [] ++ ls.flatten := by
    intro k ls
    induction ls with
    | nil => intro a; simp
    | cons l ls ih =>
      intro a
      obtain ⟨h1, h2, h3⟩ := ih (a.update k l)
      refine ⟨by rw [List.foldl_cons, h1]; rfl, ?_, ?_⟩
      · intro k' hk'
        rw [List.foldl_cons, h2 k' hk']; simp [AF0.update, hk']
      · rw [List.foldl_cons, h3]; simp [AF0.update]
  have main : ∀ (cs : List (κ × List (List R))) (a a' : AF0 κ R), (cs.map (·.1)).Nodup →
      (∀ c ∈ cs, (a.cells c.1).getD [] = []) → cs.foldlM (cell0 keep) a = .ok a' →
      a'.agg.sum = a.agg.sum + (cs.map fun c => (c.2.map List.sum).sum).sum := by
    intro cs
    induction cs with
    | nil =>
      intro a a' _ _ h
      simp only [List.foldlM_nil, pure, Except.pure, Except.ok.injEq] at h
      subst h; simp
    | cons c cs ih =>
      intro a a' hn hE h
      simp only [List.map_cons, List.nodup_cons] at hn
      simp only [List.foldlM_cons, bind, Except.bind] at h
      cases h1 : cell0 keep a c with
      | error e => simp [h1] at h
      | ok a1 =>
        rw [h1] at h
        obtain ⟨u1, u2, u3⟩ := upd c.1 c.2 a
        unfold cell0 at h1
        simp only [bind, Except.bind, AF0.distribute] at h1
        set b := c.2.foldl (fun a l => a.update c.1 l) a with hb
        cases hc : b.cells c.1 with
        | none => simp [hc] at h1
        | some vs =>
          simp only [hc, Except.ok.injEq] at h1
          rw [hc, hE c (by simp), Option.getD_some, List.nil_append] at u3
          have hagg : a1.agg = a.agg ++ vs := by
            rw [← h1, ← u1]; cases keep <;> rfl
          have hcells : ∀ k, k ≠ c.1 → a1.cells k = a.cells k := by
            intro k hk
            rw [← u2 k hk, ← h1]
            cases keep <;> simp [AF0.clear, hk]
          have := ih a1 a' hn.2 (by
            intro c' hc'
            have hne : c'.1 ≠ c.1 := by
              intro he
              exact hn.1 (he ▸ List.mem_map.2 ⟨c', hc', rfl⟩)
            rw [hcells _ hne]; exact hE c' (by simp [hc'])) h
          rw [this, hagg, u3]
          simp only [List.sum_append, List.sum_flatten, List.map_cons, List.sum_cons]
          ring
  have := main cs AF0.new af hn (fun _ _ => rfl) h
  simpa [AF0.consolidate, AF0.new] using this

lemma total2_flat (cs : List (κ × List (Loc2 R))) (v x : ℕ → R) :
    total2 cs v x = ((cs.flatMap (·.2)).map fun l => localBilin l.tst l.trl l.mat v x).sum := by
  induction cs with
  | nil => rfl
  | cons c cs ih =>
    simp only [total2, List.map_cons, List.sum_cons, List.flatMap_cons, List.map_append,
      List.sum_append] at ih ⊢
    rw [ih]

lemma total1_flat (cs : List (κ × List (Loc1 R))) (v : ℕ → R) :
    total1 cs v = ((cs.flatMap (·.2)).map fun l => localLin l.tst l.vec v).sum := by
  induction cs with
  | nil => rfl
  | cons c cs ih =>
    simp only [total1, List.map_cons, List.sum_cons, List.flatMap_cons, List.map_append,
      List.sum_append] at ih ⊢
    rw [ih]

/-- **C35** The order in which cells and forms are visited does not matter: if two runs see the same
local forms (in any order, split over cells in any way), the matrices have the same row and column
dofs and the same entry for every pair of dofs. -/
theorem C35_order {C : Cons R} (hac : Acyclic C.hng) {keep keep' fuel fuel'}
    {cs cs' : List (κ × List (Loc2 R))} {af af' : AF2 κ R}
    (h : assemble2 C keep fuel cs = .ok af) (h' : assemble2 C keep' fuel' cs' = .ok af')
    (hp : (cs.flatMap (·.2)).Perm (cs'.flatMap (·.2)))
    {ord ord' : List ℕ → List ℕ} (ho : SetOrder ord) (ho' : SetOrder ord') {s s' : Sys2 R}
    (hs : af.consolidate ord = .ok s) (hs' : af'.consolidate ord' = .ok s') :
    s.urow.Perm s'.urow ∧ s.ucol.Perm s'.ucol ∧
    ∀ i j i' j', (hi : i < s.urow.length) → (hj : j < s.ucol.length) →
      (hi' : i' < s'.urow.length) → (hj' : j' < s'.ucol.length) →
      s.urow[i] = s'.urow[i'] → s.ucol[j] = s'.ucol[j'] → s.entry i j = s'.entry i' j' := by
  obtain ⟨n1, n2, m1, m2⟩ := C35_dofs h ho hs
  obtain ⟨n1', n2', m1', m2'⟩ := C35_dofs h' ho' hs'
  have mem : ∀ (p : Loc2 R → Prop), (∃ c ∈ cs, ∃ l ∈ c.2, p l) ↔ (∃ c ∈ cs', ∃ l ∈ c.2, p l) := by
    intro p
    have e : ∀ ds : List (κ × List (Loc2 R)), (∃ c ∈ ds, ∃ l ∈ c.2, p l)
        ↔ ∃ l ∈ ds.flatMap (·.2), p l := by
      intro ds
      simp only [List.mem_flatMap]
      constructor
      · rintro ⟨c, hc, l, hl, hp⟩; exact ⟨l, ⟨c, hc, hl⟩, hp⟩
      · rintro ⟨l, ⟨c, hc, hl⟩, hp⟩; exact ⟨c, hc, l, hl, hp⟩
    rw [e, e]
    constructor
    · rintro ⟨l, hl, h⟩; exact ⟨l, hp.subset hl, h⟩
    · rintro ⟨l, hl, h⟩; exact ⟨l, hp.symm.subset hl, h⟩
  refine ⟨?_, ?_, ?_⟩
  · rw [List.perm_ext_iff_of_nodup n1 n1']
    intro f
    rw [m1, m1', mem]
  · rw [List.perm_ext_iff_of_nodup n2 n2']
    intro f
    rw [m2, m2', mem]
  · intro i j i' j' hi hj hi' hj' e1 e2
    obtain ⟨P, hP⟩ := (C35_prolongation (dir := C.dir) hac).1
    rw [C35_matrix h ho hs hP hi hj, C35_matrix h' ho' hs' hP hi' hj', e1, e2, total2_flat,
      total2_flat]
    exact (hp.map _).sum_eq

/-- **C35** If `list(set(..))` is sorted and the forms couple at least one pair of free dofs,
`consolidate` succeeds (same dofs for test and trial). -/
theorem C35_consolidates_partial {C : Cons R} {keep fuel} {cs : List (κ × List (Loc2 R))}
    {af : AF2 κ R} (h : assemble2 C keep fuel cs = .ok af) (hb : SameBasis cs)
    {ord : List ℕ → List ℕ} (ho : SetOrder ord) (ha : Ascending ord)
    (hne : ∃ r f, Uses2 cs r ∧ Reach C.hng r f ∧ Free C.hng C.dir f) :
    ∃ s, af.consolidate ord = .ok s := by
  apply consolidate2_total ho ha _ (bnd_rows h hb)
  obtain ⟨r, f, ⟨c, hc, l, hl, hr⟩, h1, h2⟩ := hne
  obtain ⟨a, ha, _⟩ := (assemble2_pairs h f f).2 ⟨c, hc, l, hl, r, hr, r, (hb c hc l hl) ▸ hr,
    h2, h2, h1, h1⟩
  exact List.ne_nil_of_mem ha

/-! ### C36 -/

/-- **C36** (constant forms) `distribute(cell, clear_cellwise_data=False)` leaves the cellwise data
unchanged, so a second call adds the same values again. -/
theorem C36_constant_partial {af af' : AF0 κ R} {k : κ} (h : af.distribute false k = .ok af') :
    af'.cells = af.cells ∧ ∃ vs, af.cells k = some vs ∧ af'.agg = af.agg ++ vs ∧
      ∃ af'', af'.distribute false k = .ok af'' ∧ af''.agg = af.agg ++ vs ++ vs := by
  unfold AF0.distribute at h
  cases hc : af.cells k with
  | none => simp [hc] at h
  | some vs =>
    simp only [hc, Except.ok.injEq, Bool.false_eq_true, if_false] at h
    have hcells : af'.cells = af.cells := by
      rw [← h]
      simp only
      rw [← hc, Function.update_eq_self]
    refine ⟨hcells, vs, rfl, by rw [← h], ⟨Function.update af'.cells k (some vs), af'.agg ++ vs⟩, ?_, ?_⟩
    · unfold AF0.distribute
      rw [hcells, hc]; simp
    · rw [← h]

/-- **C36** Data of other cells is never touched, and with `clear_cellwise_data=True` the data of
the cell is gone. -/
theorem C36_other_cells {C : Cons R} {clear : Bool} {fuel : ℕ} :
    (∀ (af af' : AF2 κ R) k, af.distribute C clear fuel k = .ok af' →
      (∀ k', k' ≠ k → af'.cells k' = af.cells k') ∧ (clear = true → af'.cells k = none)) ∧
    (∀ (af af' : AF1 κ R) k, af.distribute C clear fuel k = .ok af' →
      (∀ k', k' ≠ k → af'.cells k' = af.cells k') ∧ (clear = true → af'.cells k = none)) ∧
    (∀ (af af' : AF0 κ R) k, af.distribute clear k = .ok af' →
      (∀ k', k' ≠ k → af'.cells k' = af.cells k') ∧ (clear = true → af'.cells k = none)) := by
  refine ⟨fun af af' k h => ?_, fun af af' k h => ?_, fun af af' k h => ?_⟩
  · unfold AF2.distribute at h
    cases hc : af.cells k with
    | none => simp [hc] at h
    | some stk =>
      rw [hc] at h
      simp only at h
      cases hl : loop2 C fuel ⟨stk, af.agg, af.bnd⟩ with
      | none => simp [hl] at h
      | some s =>
        simp only [hl, Except.ok.injEq] at h
        subst h
        exact ⟨fun k' hk' => by simp [hk'], fun hcl => by simp [hcl]⟩
  · unfold AF1.distribute at h
    cases hc : af.cells k with
    | none => simp [hc] at h
    | some stk =>
      rw [hc] at h
      simp only at h
      cases hl : loop1 C fuel ⟨stk, af.agg⟩ with
      | none => simp [hl] at h
      | some s =>
        simp only [hl, Except.ok.injEq] at h
        subst h
        exact ⟨fun k' hk' => by simp [hk'], fun hcl => by simp [hcl]⟩
  · unfold AF0.distribute at h
    cases hc : af.cells k with
    | none => simp [hc] at h
    | some stk =>
      simp only [hc, Except.ok.injEq] at h
      subst h
      exact ⟨fun k' hk' => by simp [hk'], fun hcl => by simp [hcl]⟩

/-- **C36** fails for linear and bilinear forms: although `clear_cellwise_data=False`, the data of
the cell is *always* empty after `distribute`. -/
theorem C36_violated {C : Cons R} {fuel : ℕ} :
    (∀ (af af' : AF2 κ R) k, af.distribute C false fuel k = .ok af' → af'.cells k = some []) ∧
    (∀ (af af' : AF1 κ R) k, af.distribute C false fuel k = .ok af' → af'.cells k = some []) := by
  refine ⟨fun af af' k h => ?_, fun af af' k h => ?_⟩
  · unfold AF2.distribute at h
    cases hc : af.cells k with
    | none => simp [hc] at h
    | some stk =>
      rw [hc] at h
      simp only at h
      cases hl : loop2 C fuel ⟨stk, af.agg, af.bnd⟩ with
      | none => simp [hl] at h
      | some s =>
        simp only [hl, Except.ok.injEq] at h
        subst h
        simp [loop2_stack _ _ _ hl]
  · unfold AF1.distribute at h
    cases hc : af.cells k with
    | none => simp [hc] at h
    | some stk =>
      rw [hc] at h
      simp only at h
      cases hl : loop1 C fuel ⟨stk, af.agg⟩ with
      | none => simp [hl] at h
      | some s =>
        simp only [hl, Except.ok.injEq] at h
        subst h
        simp [loop1_stack _ _ _ hl]

end Verif.Asm
