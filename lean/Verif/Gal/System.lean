import Verif.Gal.Solve

/-!
# The same with `LinearSystem`
-/

namespace Verif.Gal
open Verif.Mesh Verif.Dof Verif.Quad Verif.Fem Verif.Form Verif.Asm Verif.Phys Verif.Bnd Verif.Reg Verif.Dir Verif.Gauss

section
variable {κ' : Type} [DecidableEq κ']

theorem sum_getD (L M : List ℕ) (E : ℕ → ℕ → ℝ) (v x : ℕ → ℝ) :
    (∑ i : Fin L.length, ∑ j : Fin M.length, v L[i] * E i j * x M[j]) =
      ∑ i ∈ Finset.range L.length, ∑ j ∈ Finset.range M.length, v (L.getD i 0) * E i j * x (M.getD j 0) := by
  rw [← Fin.sum_univ_eq_sum_range (fun i => ∑ j ∈ Finset.range M.length, v (L.getD i 0) * E i j * x (M.getD j 0))]
  refine Finset.sum_congr rfl (fun i _ => ?_)
  rw [← Fin.sum_univ_eq_sum_range (fun j => v (L.getD i 0) * E i j * x (M.getD j 0))]
  refine Finset.sum_congr rfl (fun j _ => ?_)
  simp

/-- Without constraints: the matrix of the assembled form. -/
theorem plain_matrix {keep fuel} {cs : List (κ' × List (Loc2 ℝ))} {af : AF2 κ' ℝ} (h : assemble2 (consOf [] []) keep fuel cs = .ok af)
    (hb : SameBasis cs) {ord : List ℕ → List ℕ} (ho : SetOrder ord) (ha : Ascending ord) {A : Sys2 ℝ} (hA : af.consolidate ord = .ok A) {N : Nat}
    (hN : ∀ r, Uses2 cs r ↔ r < N) (v x : ℕ → ℝ) :
    A.urow = List.range N ∧ A.ucol = List.range N ∧ ∑ i : Fin N, ∑ j : Fin N, v i * A.entry i j * x j = total2 cs v x := by
  have hfree : ∀ f, Asm.Free (consOf ([] : List (Linsys.Con ℝ)) []).hng (consOf [] []).dir f := fun f => ⟨rfl, rfl⟩
  have hmem : ∀ f, (f ∈ A.urow ↔ f < N) ∧ (f ∈ A.ucol ↔ f < N) := by
    intro f
    have key : (Asm.Free (consOf ([] : List (Linsys.Con ℝ)) []).hng (consOf [] []).dir f ∧
        ∃ r, Uses2 cs r ∧ Asm.Reach (consOf ([] : List (Linsys.Con ℝ)) []).hng r f) ↔ f < N := by
      constructor
      · rintro ⟨_, r, hr, hre⟩
        rw [reach_none rfl] at hre
        exact hre ▸ (hN r).1 hr
      · intro hf
        exact ⟨hfree f, f, (hN f).2 hf, .refl⟩
    obtain ⟨u1, u2⟩ := uses_rows h hb ho hA f
    exact ⟨u1.trans key, u2.trans key⟩
  obtain ⟨_, _, _, _, hur, huc, _, hx0, _⟩ := consolidate2_ok hA
  have e1 : A.urow = List.range N := sorted_ext (hur ▸ ha _) List.pairwise_lt_range (fun f => by rw [(hmem f).1, List.mem_range])
  have e2 : A.ucol = List.range N := sorted_ext (huc ▸ ha _) List.pairwise_lt_range (fun f => by rw [(hmem f).2, List.mem_range])
  refine ⟨e1, e2, ?_⟩
  have hv : Asm.Test (consOf ([] : List (Linsys.Con ℝ)) []).hng (consOf [] []).dir v := ⟨(fun h S hS => by cases hS), (fun d g _ hd => by cases hd)⟩
  have hx : Asm.Trial (consOf ([] : List (Linsys.Con ℝ)) []).hng (consOf [] []).dir x := ⟨(fun h S hS => by cases hS), (fun d g _ hd => by cases hd)⟩
  have key := C35_galerkin_partial h hb ho hA hv hx
  have hc : ∀ i, corr A i = 0 := by
    have hb : af.bnd = [] := by
      cases hb : af.bnd with
      | nil => rfl
      | cons p bs =>
        obtain ⟨_, _, _, _, _, _, _, _, _, _, d, _, h2, _⟩ := (assemble2_bnd h p.1).1 (by simp [hb])
        cases h2
    rw [if_pos hb] at hx0
    intro i
    simp [corr, hx0]
  simp only [hc, mul_zero, Finset.sum_const_zero, add_zero] at key
  rw [← key, sum_getD, e1, e2, List.length_range,
    ← Fin.sum_univ_eq_sum_range (fun i => ∑ j ∈ Finset.range N, v ((List.range N).getD i 0) * A.entry i j * x ((List.range N).getD j 0))]
  refine Finset.sum_congr rfl (fun i _ => ?_)
  rw [← Fin.sum_univ_eq_sum_range (fun j => v ((List.range N).getD i 0) * A.entry i j * x ((List.range N).getD j 0))]
  refine Finset.sum_congr rfl (fun j _ => ?_)
  simp

/-- Without constraints: the vector of the assembled form. -/
theorem plain_vector {keep fuel} {cs : List (κ' × List (Loc1 ℝ))} {af : AF1 κ' ℝ} (h : assemble1 (consOf [] []) keep fuel cs = .ok af)
    {ord : List ℕ → List ℕ} (ho : SetOrder ord) (ha : Ascending ord) {ub : List ℕ} {b : List ℝ} (hA : af.consolidate ord = .ok (ub, b)) {N : Nat}
    (hN : ∀ r, Uses1 cs r ↔ r < N) (v : ℕ → ℝ) : b.length = N ∧ ∑ i : Fin N, v i * b.getD i 0 = total1 cs v := by
  have hlin := fold1_ok cs _ _ empty1_new h
  obtain ⟨_, hub, _⟩ := (consolidate1_ok hA).choose_spec
  have e1 : ub = List.range N := sorted_ext (hub ▸ ha _) List.pairwise_lt_range (fun f => by
    rw [hub, (ho _).2, hlin.2.2, List.mem_range, ← hN]
    simp only [AF1.new, List.map_nil, List.not_mem_nil, false_or]
    constructor
    · rintro ⟨c, hc, l, hl, r, hr, _, hre⟩
      rw [reach_none rfl] at hre
      exact ⟨c, hc, l, hl, hre ▸ hr⟩
    · rintro ⟨c, hc, l, hl, hr⟩
      exact ⟨c, hc, l, hl, f, hr, ⟨rfl, rfl⟩, .refl⟩)
  have hv : Asm.Test (consOf ([] : List (Linsys.Con ℝ)) []).hng (consOf [] []).dir v := ⟨(fun h S hS => by cases hS), (fun d g _ hd => by cases hd)⟩
  have hL : total1 cs v = val1 v af.agg := by
    rw [hlin.2.1 v hv]; simp [AF1.new]
  have hl := (vec_eq ho hA).1
  rw [e1, List.length_range] at hl
  refine ⟨hl, ?_⟩
  rw [hL, ← vec_val ho hA v]
  subst e1
  have h1 : (∑ i : Fin (List.range N).length, v (List.range N)[i] * b.getD i 0) =
      ∑ i ∈ Finset.range (List.range N).length, v ((List.range N).getD i 0) * b.getD i 0 := by
    rw [← Fin.sum_univ_eq_sum_range (fun i => v ((List.range N).getD i 0) * b.getD i 0)]
    refine Finset.sum_congr rfl (fun i _ => ?_)
    rw [List.getD_eq_getElem?_getD (l := List.range N), List.getElem?_eq_getElem i.2]
    rfl
  rw [h1, List.length_range, ← Fin.sum_univ_eq_sum_range (fun i => v ((List.range N).getD i 0) * b.getD i 0)]
  refine Finset.sum_congr rfl (fun i _ => ?_)
  simp
end

section
variable {close : Pt ℝ → Pt ℝ → Bool} {B : Base ℝ} {e : ET} {sf : Bool} {s : St ℝ} {D : DH} {V : DV ℝ} {rect : Nat → Bool}
variable {n n1 j : Nat} {rc : List ((ℝ × ℝ) × ℝ)} {re : List (ℝ × ℝ)} {k kf : Kernel (Pt ℝ)} {κ p : Poly}

theorem zero_load (h : Setting close B e sf s D V rect) (hrc : Gauss.rule2 n = .ok rc) (hre : Gauss.rule1 n1 = .ok re) (hf : IsPoly kf j 0) (v : ℕ → ℝ) :
    total1 (loads e (source kf) rc re j (meshCells rect sf s D)) v = 0 := by
  rw [total1_leaves h.wf h.plain h.ready.ready]
  apply List.sum_eq_zero
  intro x hx
  obtain ⟨c, _, rfl⟩ := List.mem_map.1 hx
  obtain ⟨S, hS, hk⟩ := hf
  unfold linC
  rw [lin_field (t := ⟨e, [0]⟩) hrc hre hS (Or.inl rfl)]
  apply List.sum_eq_zero
  intro x hx
  obtain ⟨q, _, rfl⟩ := List.mem_map.1 hx
  rw [hk]
  simp [ev]

/-- **With a `LinearSystem`**: matrix and right-hand side assembled without constraints, then hanging nodes and the values of `p` on the
boundary as constraints. -/
theorem system (h : Setting close B e false s D V rect) (hd : Data B e n n1 j rc re k kf κ p) (h1 : OneBoundary B) {m : Nat}
    (hm : 4 * s.cells.length ≤ m) {H C C' : List (Linsys.Con ℝ)} (hh : setHanging false s e D [] = some (H, C))
    (hC : addDirichlet none true false B.n s m e D V (fun x => ev p (x.x, x.y)) C = some C')
    {keep fuel fuel'} {af2 : AF2 CN ℝ} {af1 : AF1 CN ℝ}
    (h2 : assemble2 (consOf [] []) keep fuel (contribs e (laplace k) rc re j (meshCells rect false s D)) = .ok af2)
    (h3 : assemble1 (consOf [] []) keep fuel' (loads e (source kf) rc re j (meshCells rect false s D)) = .ok af1)
    {ord : List ℕ → List ℕ} (ho : SetOrder ord) (ha : Ascending ord)
    {A : Sys2 ℝ} {ub : List ℕ} {b : List ℝ} (hA : af2.consolidate ord = .ok A) (hb : af1.consolidate ord = .ok (ub, b))
    (hload : H.length ≤ 1 ∨ diffuse κ p = 0) (factor : Bool) (s' : Linsys.St ℝ D.count 1)
    (hs' : Linsys.Solve (Linsys.init (List.range D.count) C' (Matrix.of fun i j => A.entry i j) none) (some (Matrix.of fun i _ => b.getD i 0))
      factor s') :
    ∃ u, s'.u = some u ∧ ∀ c ∈ leaves false s, ∀ z, feFn e D (Linsys.colOf u 0) c z = ev p (F (cellQ s c) z) := by
  have hR := h.ready.ready
  have hN : ∀ r, (∃ c ∈ leaves false s, ∃ i < nd2 e, dofAt D c i = r) ↔ r < D.count := by
    intro r
    rw [C62_leaf_dofs h.wf h.plain h.cont hR r]
    constructor
    · rintro ⟨c, hc, i, hi, rfl⟩
      exact ⟨c, hc, i, hi, (row_leaf h.wf h.plain hR hc).2.2 i hi⟩
    · rintro ⟨c, hc, i, hi, hv⟩
      refine ⟨c, hc, i, hi, ?_⟩
      unfold dofAt
      rw [hv]
      rfl
  have hM := plain_matrix h2 (contribs_same _ _ _ _ _ _) ho ha hA (fun r => (uses2_iff h k r).trans (hN r))
  have hV := plain_vector h3 ho ha hb (fun r => (uses1_iff h kf r).trans (hN r))
  obtain ⟨hHC, hnd, h5⟩ := setHanging_spec h.wf h.plain h.cont hR hh
  subst hHC
  have hsnd := (hR.uses.uses.snd h.wf h.plain).2.1
  obtain ⟨u, k1, k2⟩ := C66_whole_boundary h.wf h.plain h.cont h.ready h.roots h.full hm h1 _ hh hC (Matrix.of fun i j => A.entry i j) none
    (Matrix.of fun i _ => b.getD i 0) _ factor (.inl rfl) s' hs'
  obtain ⟨ds, g1, g2', g2⟩ := C66_constraints (F := ℝ) h.wf h.plain h.cont h.ready h.roots h.full hm h1 none (fun x => ev p (x.x, x.y)) H
  rw [g1] at hC
  cases hC
  have W := C62_well_formed h.wf h.plain h.cont hR hh ds (fun x hx => by
      obtain ⟨c, p, a, hm, ha, rfl⟩ := (g2 x).1 hx
      exact hsnd.lt (c, ⟨p, hm.2.1⟩) a ha)
    (fun x hx => by
      obtain ⟨c, p, a, hm, ha, rfl⟩ := (g2 x).1 hx
      rfl)
    (fun x hx x' hx' => by
      obtain ⟨c, p, a, hm, ha, rfl⟩ := (g2 x').1 hx'
      exact C66_not_hanging h.wf h.plain h.cont hR hh c p a hm.2.1 ha (hm.bnd h.wf hR.uses.uses.reach) x hx)
    (fun x hx x' hx' hxx => by
      have := List.inj_on_of_nodup_map g2' hx hx' hxx
      rw [this])
  obtain ⟨u', k1', k3⟩ := Linsys.C37_solve W (Matrix.of fun i j => A.entry i j) none (Matrix.of fun i _ => b.getD i 0) _ factor (.inl rfl) s' hs'
  rw [k1] at k1'
  cases k1'
  refine ⟨u, k1, fun c hc z => (reproduces h hd (k2 0).1 ?_ ?_ c hc).2 z⟩
  · intro c hc a ha hb
    have := (k2 0).2 c hc a ha hb
    unfold feFn at this
    rwa [cellFn_node _ _ ha] at this
  · intro v hv hz
    have hfull : (false : Bool) = false ∨ FullFlag s := .inl rfl
    have hdir : Linsys.Direction (H ++ ds) v := by
      intro x hx
      rcases List.mem_append.1 hx with hx | hx
      · have := (C62_continuous h.wf h.plain h.cont hR hfull hh v).2 hv x hx
        rw [this, aff_zero h hh x hx, add_zero]
      · obtain ⟨c, i, a, hm', hva, rfl⟩ := (g2 x).1 hx
        have := hz c hm'.1 i hm'.2.1 (hm'.bnd h.wf hR.uses.uses.reach)
        unfold dofAt at this
        rw [hva] at this
        simpa using this
    have key := (k3 0).2 v hdir
    have hbz : ∀ i : Fin D.count, Linsys.dropLoads H.tail (Matrix.of fun (i : Fin D.count) (_ : Fin 1) => b.getD i 0) i 0 = b.getD i 0 := by
      intro i
      unfold Linsys.dropLoads
      rcases hload with hl | hl
      · have : H.tail = [] := by
          rcases H with _ | ⟨a, _ | ⟨b, H⟩⟩
          · rfl
          · rfl
          · simp at hl
        rw [this]
        simp
      · have hb0 : b.getD i 0 = 0 := by
          have := (hV (fun a => if a = i then 1 else 0)).2
          rw [zero_load h hd.rule2 hd.rule1 (by rw [← hl]; exact hd.load)] at this
          refine Eq.trans ?_ this
          simp [← Fin.ext_iff]
        split_ifs
        · exact hb0.symm
        · rfl
    simp only [hbz, mul_sub, Finset.sum_sub_distrib, Matrix.of_apply] at key
    rw [(hV v).2, sub_eq_zero] at key
    rw [← key, ← (hM v (Linsys.colOf u 0)).2.2]
    refine Finset.sum_congr rfl (fun i _ => ?_)
    rw [Finset.mul_sum]
    refine Finset.sum_congr rfl (fun j _ => ?_)
    ring

end
end Verif.Gal
