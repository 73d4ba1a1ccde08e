import Verif.Asm.Witness

/-!
# C54: `solve` returns an answer
-/

namespace Verif.Asm

variable {κ : Type} [DecidableEq κ]

/-- What a run of `assemble` and `solve` produces, for one solution `y` of the linear system. -/
structure Run {K : Type} [Field K] (C : Cons K) (n : ℕ) (hdofs ddofs : List ℕ) (keep : Bool) (fuel : ℕ) (cs2 : List (κ × List (Loc2 K)))
    (cs1 : List (κ × List (Loc1 K))) (ord : List ℕ → List ℕ) (y u : List K) : Prop where
  run : ∃ af2 af1 A ub b x0, assemble2 C keep fuel cs2 = .ok af2 ∧ assemble1 C keep fuel cs1 = .ok af1 ∧ af2.consolidate ord = .ok A ∧
    af1.consolidate ord = .ok (ub, b) ∧ A.x0 = some x0 ∧ y.length = A.ucol.length ∧ Solves A b x0 y ∧ finish C n hdofs ddofs A b y = .ok u

theorem solves_iff {K : Type} [Field K] (A : Sys2 K) (hc : A.ucol = A.urow) (b x0 y : List K) :
    Solves A b x0 y ↔ A.mat.mulVec (fun i => y.getD i.1 0) = fun i => b.getD i.1 0 - x0.getD i.1 0 := by
  have hsum : ∀ i : ℕ, ((List.range A.ucol.length).map fun j => A.entry i j * y.getD j 0).sum =
      ∑ j : Fin A.urow.length, A.entry i j * y.getD j 0 := by
    intro i
    rw [hc, ← List.map_coe_finRange_eq_range, List.map_map, ← List.ofFn_eq_map, List.sum_ofFn]
    rfl
  constructor
  · intro h
    funext i
    have := h i i.2
    rw [hsum] at this
    exact this
  · intro h i hi
    have := congrFun h ⟨i, hi⟩
    rw [hsum]
    exact this

/-- **C54** (an answer exists).  Constraints of the form `solve` needs, forms on the same dofs, a definite bilinear form and some local
form that couples a free dof with a Dirichlet dof: `assemble` and `solve` succeed, and the linear system in between has exactly one
solution. -/
theorem C54_total {K : Type} [Field K] {C : Cons K} {n : ℕ} {hdofs ddofs : List ℕ} (hO : OneLevel C.hng C.dir n hdofs ddofs)
    (keep : Bool) {cs2 : List (κ × List (Loc2 K))} {cs1 : List (κ × List (Loc1 K))} (hb : SameBasis cs2)
    (huse : ∀ r, Uses2 cs2 r ↔ Uses1 cs1 r) (hne2 : ∀ c ∈ cs2, c.2 ≠ []) (hne1 : ∀ c ∈ cs1, c.2 ≠ [])
    (hlt : ∀ r, Uses2 cs2 r → r < n) (hdl : ∀ d ∈ ddofs, d < n)
    (hdef : ∀ v, Test C.hng C.dir v → total2 cs2 v v = 0 → ∀ f r, Free C.hng C.dir f → Uses2 cs2 r → Reach C.hng r f → v f = 0)
    (hmix : ∃ c ∈ cs2, ∃ l ∈ c.2, ∃ r ∈ l.tst, ∃ q ∈ l.tst, ∃ f d, Free C.hng C.dir f ∧ Reach C.hng r f ∧ C.hng d = none ∧
      (C.dir d).isSome ∧ Reach C.hng q d)
    {ord : List ℕ → List ℕ} (ho : SetOrder ord) (ha : Ascending ord) :
    ∃ N, ∀ fuel ≥ N, (∃ y u, Run C n hdofs ddofs keep fuel cs2 cs1 ord y u) ∧
      ∀ y u y' u', Run C n hdofs ddofs keep fuel cs2 cs1 ord y u → Run C n hdofs ddofs keep fuel cs2 cs1 ord y' u' → y = y' ∧ u = u' := by
  obtain ⟨N, af2, af1, hN⟩ := C35_terminates hO.acyclic keep cs2 cs1 hne2 hne1
  refine ⟨N, fun fuel hf => ?_⟩
  obtain ⟨h2, h1⟩ := hN fuel hf
  obtain ⟨c0, hc0, l0, hl0, r0, hr0, q0, hq0, f0, d0, hf0, hrf0, hd0, hdd0, hqd0⟩ := hmix
  obtain ⟨A, hA⟩ := C35_consolidates_partial h2 hb ho ha ⟨r0, f0, ⟨c0, hc0, l0, hl0, hr0⟩, hrf0, hf0⟩
  have hrow1 := fun f => (fold1_ok cs1 _ _ empty1_new h1).2.2 f
  have hagg1 : af1.agg ≠ [] := by
    obtain ⟨c, hc, l, hl, hr⟩ := (huse r0).1 ⟨c0, hc0, l0, hl0, hr0⟩
    have : f0 ∈ af1.agg.map (·.row) := (hrow1 f0).2 (.inr ⟨c, hc, l, hl, r0, hr, hf0, hrf0⟩)
    intro h0
    rw [h0] at this
    cases this
  obtain ⟨ub, b, hB⟩ := consolidate1_total ho ha hagg1
  obtain ⟨hcol, hU⟩ := C54_solvable hO.acyclic hb h2 ho ha hA hdef
  obtain ⟨ir, ic, hir, hic, hur, huc, hcoo, hx, hbl⟩ := consolidate2_ok hA
  have hbnd : af2.bnd ≠ [] := by
    have : f0 ∈ af2.bnd.map (·.1) := (assemble2_bnd h2 f0).2 ⟨c0, hc0, l0, hl0, r0, hr0, q0, (hb c0 hc0 l0 hl0) ▸ hq0, hf0, hrf0, d0, hd0, hdd0, hqd0⟩
    intro h0
    rw [h0] at this
    cases this
  rw [if_neg hbnd] at hx
  obtain ⟨x0, hx0⟩ : ∃ x0, A.x0 = some x0 := ⟨_, hx⟩
  have hnd : A.urow.Nodup := hur ▸ (ho _).1
  have hidx := (mkIdx_ok hir (ho _).1).1
  have hx0l : x0.length = A.urow.length := by
    rw [hx0] at hx
    cases hx
    refine bincount_length (fun x hxm => ?_)
    obtain ⟨p, hp, rfl⟩ := List.mem_map.1 hxm
    have hm : p.1 ∈ ord (af2.agg.map (·.row)) := by
      rw [(ho _).2]
      exact bnd_rows h2 hb p hp
    obtain ⟨m, hm1, hm2⟩ := List.mem_iff_getElem.1 hm
    rw [← hm2, hidx m hm1, hur]
    exact hm1
  obtain ⟨_, hub, _⟩ := (consolidate1_ok hB).choose_spec
  have hubr : ub = A.urow := sorted_ext (hub ▸ ha _) (hur ▸ ha _) fun f => by
    rw [(uses_rows h2 hb ho hA f).1, hub, (ho _).2, hrow1]
    simp only [AF1.new, List.map_nil, List.not_mem_nil, false_or]
    constructor
    · rintro ⟨c, hc, l, hl, r, hr, hf, hre⟩
      exact ⟨hf, r, (huse r).2 ⟨c, hc, l, hl, hr⟩, hre⟩
    · rintro ⟨hf, r, hr, hre⟩
      obtain ⟨c, hc, l, hl, hr⟩ := (huse r).1 hr
      exact ⟨c, hc, l, hl, r, hr, hf, hre⟩
  have hbl' : b.length = A.urow.length := by rw [(vec_eq ho hB).1, hubr]
  have hreach : ∀ r f, r < n → Reach C.hng r f → f < n := by
    intro r f hr h
    induction h with
    | refl => exact hr
    | tail _ hst _ =>
      obtain ⟨S, hS, w, hw⟩ := hst
      exact (hO.below _ S hS).2 _ (List.of_mem_zip hw).1
  have hrlt : ∀ f ∈ A.urow, f < n := by
    intro f hf
    obtain ⟨_, r, hr, hre⟩ := ((uses_rows h2 hb ho hA f).1).1 hf
    exact hreach r f (hlt r hr) hre
  have hfin : ∀ y : List K, y.length = A.ucol.length → ∃ u, finish C n hdofs ddofs A b y = .ok u := by
    intro y hy
    have hs1 : scatter (List.replicate n 0) A.urow y = .ok ((A.urow.zip y).foldl (fun a p => a.set p.1 p.2) (List.replicate n 0)) := by
      unfold scatter
      rw [if_pos]
      simp only [List.all_eq_true, decide_eq_true_eq, List.length_replicate]
      exact hrlt
    obtain ⟨l1, _⟩ := scatter_ok hs1 hnd (by rw [hy, hcol])
    have hs2 : scatter ((A.urow.zip y).foldl (fun a p => a.set p.1 p.2) (List.replicate n (0 : K))) ddofs (ddofs.map fun d => (C.dir d).getD 0) =
        .ok ((ddofs.zip (ddofs.map fun d => (C.dir d).getD 0)).foldl (fun a p => a.set p.1 p.2)
          ((A.urow.zip y).foldl (fun a p => a.set p.1 p.2) (List.replicate n 0))) := by
      unfold scatter
      rw [if_pos]
      simp only [List.all_eq_true, decide_eq_true_eq]
      intro d hd
      rw [l1, List.length_replicate]
      exact hdl d hd
    unfold finish
    simp only [hx0]
    rw [if_pos ⟨hbl'.trans hx0l.symm, hbl', by rw [hcol], hy⟩, hs1]
    simp only [bind, Except.bind, hs2]
    exact ⟨_, rfl⟩
  refine ⟨?_, ?_⟩
  · obtain ⟨z, hz⟩ := (Matrix.mulVec_surjective_iff_isUnit.2 hU) (fun i => b.getD i.1 0 - x0.getD i.1 0)
    have hzl : (List.ofFn z).length = A.ucol.length := by rw [List.length_ofFn, hcol]
    obtain ⟨u, hu⟩ := hfin (List.ofFn z) hzl
    refine ⟨List.ofFn z, u, ⟨af2, af1, A, ub, b, x0, h2, h1, hA, hB, hx0, hzl, (solves_iff A hcol b x0 _).2 ?_, hu⟩⟩
    rw [← hz]
    congr 1
    funext i
    simp
  · rintro y u y' u' ⟨a2, a1, A1, u1, b1, x1, g2, g1, gA, gB, gx, gl, gs, gf⟩ ⟨a2', a1', A2, u2, b2, x2, g2', g1', gA', gB', gx', gl', gs', gf'⟩
    rw [h2] at g2 g2'
    rw [h1] at g1 g1'
    cases g2; cases g2'; cases g1; cases g1'
    rw [hA] at gA gA'
    rw [hB] at gB gB'
    cases gA; cases gA'; cases gB; cases gB'
    rw [hx0] at gx gx'
    cases gx; cases gx'
    rw [solves_iff A hcol] at gs gs'
    have := (Matrix.mulVec_injective_iff_isUnit.2 hU) (gs.trans gs'.symm)
    have hy : y = y' := by
      apply List.ext_getElem (gl.trans gl'.symm)
      intro i hi hi'
      have := congrFun this ⟨i, by rw [← hcol, ← gl]; exact hi⟩
      simpa [List.getD_eq_getElem?_getD, List.getElem?_eq_getElem hi, List.getElem?_eq_getElem hi'] using this
    subst hy
    rw [gf] at gf'
    exact ⟨rfl, Except.ok.inj gf'⟩

end Verif.Asm
