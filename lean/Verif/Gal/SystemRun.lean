import Verif.Gal.System
import Verif.Gal.Total

/-!
# The `LinearSystem` of a problem on a mesh has a solution
-/

namespace Verif.Gal
open Verif.Mesh Verif.Dof Verif.Quad Verif.Fem Verif.Form Verif.Asm Verif.Phys Verif.Bnd Verif.Reg Verif.Dir Verif.Gauss

section
variable {close : Pt ℝ → Pt ℝ → Bool} {B : Base ℝ} {e : ET} {s : St ℝ} {D : DH} {V : DV ℝ} {rect : Nat → Bool}
variable {n n1 j : Nat} {rc : List ((ℝ × ℝ) × ℝ)} {re : List (ℝ × ℝ)} {k kf : Kernel (Pt ℝ)} {κ p : Poly}

theorem uses_count (h : Setting close B e false s D V rect) (r : Nat) : (∃ c ∈ leaves false s, ∃ i < nd2 e, dofAt D c i = r) ↔ r < D.count := by
  rw [C62_leaf_dofs h.wf h.plain h.cont h.ready.ready r]
  constructor
  · rintro ⟨c, hc, i, hi, rfl⟩
    exact ⟨c, hc, i, hi, (row_leaf h.wf h.plain h.ready.ready hc).2.2 i hi⟩
  · rintro ⟨c, hc, i, hi, hv⟩
    refine ⟨c, hc, i, hi, ?_⟩
    unfold dofAt
    rw [hv]
    rfl

theorem total2_nonneg (h : Setting close B e false s D V rect) (hrc : Gauss.rule2 (n ^ 2) = .ok rc) (hre : Gauss.rule1 n1 = .ok re)
    {S : Nat} (hS : sampleSize k = .ok S) (hk : ∀ x : Pt ℝ, (x.x, x.y) ∈ Dom B → 0 < k.eval S x j) (w : Nat → ℝ) :
    0 ≤ total2 (contribs e (laplace k) rc re j (meshCells rect false s D)) w w := by
  have hs := h.ready.ready.uses.uses.reach
  have hi := hs.inv h.wf
  rw [total2_leaves h.wf h.plain h.ready.ready]
  refine List.sum_nonneg (fun x hx => ?_)
  obtain ⟨c, hc, rfl⟩ := List.mem_map.1 hx
  have hcx : ConvexCCW (cellQ s c) := Fn.cell_convex h.wf h.convex hs ((hi.mem c).2 ((Dof.mem_leaves hi c).1 hc).1)
  refine add_nonneg ?_ ?_
  · exact C56_psd hrc hre k S hS ⟨e, [1, 0]⟩ (Or.inr (Or.inl ⟨0, by omega, rfl⟩)) .dx none (qcell rect s c) hcx j (fun x hx => (hk x (leaf_region h hc hx)).le) _
  · exact C56_psd hrc hre k S hS ⟨e, [1, 1]⟩ (Or.inr (Or.inl ⟨1, by omega, rfl⟩)) .dx none (qcell rect s c) hcx j (fun x hx => (hk x (leaf_region h hc hx)).le) _

theorem bilC_symm (hrc : Gauss.rule2 (n ^ 2) = .ok rc) (hre : Gauss.rule1 n1 = .ok re) (q : QCell) (v x : Nat → ℝ) :
    bilC e k rc re j q v x = bilC e k rc re j q x v := by
  unfold bilC
  congr 1
  · rw [Finset.sum_comm]
    refine Finset.sum_congr rfl (fun a ha => Finset.sum_congr rfl (fun i hi => ?_))
    rw [C56_symmetric hrc hre k ⟨e, [1, 0]⟩ (Or.inr (Or.inl ⟨0, by omega, rfl⟩)) .dx none q i a (Finset.mem_range.1 hi) (Finset.mem_range.1 ha) j]
    ring
  · rw [Finset.sum_comm]
    refine Finset.sum_congr rfl (fun a ha => Finset.sum_congr rfl (fun i hi => ?_))
    rw [C56_symmetric hrc hre k ⟨e, [1, 1]⟩ (Or.inr (Or.inl ⟨1, by omega, rfl⟩)) .dx none q i a (Finset.mem_range.1 hi) (Finset.mem_range.1 ha) j]
    ring

theorem total2_symm (h : Setting close B e false s D V rect) (hrc : Gauss.rule2 (n ^ 2) = .ok rc) (hre : Gauss.rule1 n1 = .ok re) (v x : Nat → ℝ) :
    total2 (contribs e (laplace k) rc re j (meshCells rect false s D)) v x = total2 (contribs e (laplace k) rc re j (meshCells rect false s D)) x v := by
  rw [total2_leaves h.wf h.plain h.ready.ready, total2_leaves h.wf h.plain h.ready.ready]
  congr 1
  exact List.map_congr_left (fun c _ => bilC_symm hrc hre _ _ _)

/-- The constraints of `set_hanging_nodes` and `add_dirichlet_constraint` on the whole boundary. -/
theorem system_cons (h : Setting close B e false s D V rect) (h1 : OneBoundary B) {m : Nat} (hm : 4 * s.cells.length ≤ m) (g : Pt ℝ → ℝ)
    {H C : List (Linsys.Con ℝ)} (hh : setHanging false s e D [] = some (H, C)) :
    ∃ ds, addDirichlet none true false B.n s m e D V g C = some (H ++ ds) ∧ ((H ++ ds).map (·.dof)).Nodup ∧ Linsys.WellFormed D.count H ds ∧
      ∀ v, Linsys.Direction (H ++ ds) v → Single B false s e D v ∧ ZeroBnd B false s e D v := by
  have hR := h.ready.ready
  obtain ⟨hHC, hnd, h5⟩ := setHanging_spec h.wf h.plain h.cont hR hh
  subst hHC
  have hsnd := (hR.uses.uses.snd h.wf h.plain).2.1
  obtain ⟨ds, g1, g2', g2⟩ := C66_constraints (F := ℝ) h.wf h.plain h.cont h.ready h.roots h.full hm h1 none g H
  have hdisj : ∀ x ∈ H, ∀ x' ∈ ds, x.dof ≠ x'.dof := fun x hx x' hx' => by
    obtain ⟨c, p, a, hm, ha, rfl⟩ := (g2 x').1 hx'
    exact C66_not_hanging h.wf h.plain h.cont hR hh c p a hm.2.1 ha (hm.bnd h.wf hR.uses.uses.reach) x hx
  refine ⟨ds, g1, ?_, ?_, fun v hv => ⟨?_, fun c hc i hi hb => ?_⟩⟩
  · rw [List.map_append]
    refine hnd.append g2' (fun a ha ha' => ?_)
    obtain ⟨x, hx, rfl⟩ := List.mem_map.1 ha
    obtain ⟨x', hx', he⟩ := List.mem_map.1 ha'
    exact hdisj x hx x' hx' he.symm
  · exact C62_well_formed h.wf h.plain h.cont hR hh ds (fun x hx => by
      obtain ⟨c, p, a, hm, ha, rfl⟩ := (g2 x).1 hx
      exact hsnd.lt (c, ⟨p, hm.2.1⟩) a ha)
      (fun x hx => by
        obtain ⟨c, p, a, hm, ha, rfl⟩ := (g2 x).1 hx
        rfl) hdisj
      (fun x hx x' hx' hxx => by
        have := List.inj_on_of_nodup_map g2' hx hx' hxx
        rw [this])
  · refine (C62_continuous h.wf h.plain h.cont hR (.inl rfl) hh v).1 (fun x hx => ?_)
    rw [hv x (List.mem_append_left _ hx), aff_zero h hh x hx, add_zero]
  · obtain ⟨c', p', hm', hv', hpl⟩ := bnd_marked h.wf h.plain h.cont h.ready h.roots h.full h1 hc hi hb
    have ha := (row_leaf h.wf h.plain hR hc).2.2 i hi
    have := hv _ (List.mem_append_right _ ((g2 _).2 ⟨c', p', dofAt D c i, hm', by rw [hv']; exact ha, rfl⟩))
    simpa using this

/-- **The whole computation with a `LinearSystem` succeeds** on every mesh: matrix, right-hand side, constraints, solution. -/
theorem system_runs (h : Setting close B e false s D V rect) (hB : 0 < B.n) (hrc : Gauss.rule2 (n ^ 2) = .ok rc) (hre : Gauss.rule1 n1 = .ok re)
    (hn : deg e < n) {S : Nat} (hS : sampleSize k = .ok S) (hk : ∀ x : Pt ℝ, (x.x, x.y) ∈ Dom B → 0 < k.eval S x j) (kf : Kernel (Pt ℝ)) (h1 : OneBoundary B) {m : Nat}
    (hm : 4 * s.cells.length ≤ m) (g : Pt ℝ → ℝ) {H C : List (Linsys.Con ℝ)} (hh : setHanging false s e D [] = some (H, C)) (keep : Bool)
    {ord : List ℕ → List ℕ} (ho : SetOrder ord) (ha : Ascending ord) :
    ∃ C' N af2 af1 A ub b, addDirichlet none true false B.n s m e D V g C = some C' ∧
      (∀ fuel ≥ N, assemble2 (consOf [] []) keep fuel (contribs e (laplace k) rc re j (meshCells rect false s D)) = .ok af2 ∧
        assemble1 (consOf [] []) keep fuel (loads e (source kf) rc re j (meshCells rect false s D)) = .ok af1) ∧
      af2.consolidate ord = .ok A ∧ af1.consolidate ord = .ok (ub, b) ∧ ∀ factor, ∃ s' : Linsys.St ℝ D.count 1,
        Linsys.Solve (Linsys.init (List.range D.count) C' (Matrix.of fun i j => A.entry i j) none) (some (Matrix.of fun i _ => b.getD i 0))
          factor s' := by
  obtain ⟨ds, g1, g2, W, g3⟩ := system_cons h h1 hm g hh
  have hac : Asm.Acyclic (consOf ([] : List (Linsys.Con ℝ)) []).hng := ⟨fun _ => 0, (fun a S hS => by cases hS)⟩
  obtain ⟨N, af2, af1, hN⟩ := C35_terminates hac keep (contribs e (laplace k) rc re j (meshCells rect false s D))
    (loads e (source kf) rc re j (meshCells rect false s D))
    (fun c hc => by
      obtain ⟨d, _, rfl⟩ := List.mem_map.1 hc
      simp [laplace])
    (fun c hc => by
      obtain ⟨d, _, rfl⟩ := List.mem_map.1 hc
      simp [source])
  obtain ⟨h2, h3⟩ := hN N le_rfl
  have hi := h.ready.ready.uses.uses.reach.inv h.wf
  obtain ⟨c0, hc0⟩ : ∃ c0, c0 ∈ leaves false s := by
    obtain ⟨c', h4, _⟩ := leaf_cover h.wf h.ready.ready.uses.uses.reach (sf := false) (.inl rfl) (0, []) hB (.inl rfl) (0, 0)
      ⟨le_rfl, zero_le_one, le_rfl, zero_le_one⟩
    exact ⟨c', h4⟩
  have hu0 : Uses2 (contribs e (laplace k) rc re j (meshCells rect false s D)) (dofAt D c0 0) := (uses2_iff h k _).2 ⟨c0, hc0, 0, Phys.nd2_pos e, rfl⟩
  have hu1 : Uses1 (loads e (source kf) rc re j (meshCells rect false s D)) (dofAt D c0 0) := (uses1_iff h kf _).2 ⟨c0, hc0, 0, Phys.nd2_pos e, rfl⟩
  obtain ⟨A, hA⟩ := C35_consolidates_partial h2 (contribs_same _ _ _ _ _ _) ho ha ⟨_, _, hu0, .refl, rfl, rfl⟩
  have hagg1 : af1.agg ≠ [] := by
    obtain ⟨c, hc, l, hl, hr⟩ := hu1
    have : dofAt D c0 0 ∈ af1.agg.map (·.row) := ((fold1_ok _ _ _ empty1_new h3).2.2 _).2 (.inr ⟨c, hc, l, hl, _, hr, ⟨rfl, rfl⟩, .refl⟩)
    intro h0
    rw [h0] at this
    cases this
  obtain ⟨ub, b, hb⟩ := consolidate1_total ho ha hagg1
  refine ⟨_, N, af2, af1, A, ub, b, g1, hN, hA, hb, fun factor => ?_⟩
  have hM := plain_matrix h2 (contribs_same _ _ _ _ _ _) ho ha hA (fun r => (uses2_iff h k r).trans (uses_count h r))
  have hent : ∀ a c : Fin D.count, A.entry a c = total2 (contribs e (laplace k) rc re j (meshCells rect false s D))
      (fun x => if x = a then 1 else 0) (fun x => if x = c then 1 else 0) := by
    intro a c
    rw [← (hM _ _).2.2]
    simp [← Fin.ext_iff]
  refine Linsys.C37_solvable_directions W g2 _ (fun a c => ?_) (fun v hv hne => ?_) none _ _ factor (.inl rfl)
  · show A.entry a c = A.entry c a
    rw [hent, hent, total2_symm h hrc hre]
  · obtain ⟨k1, k2⟩ := g3 v hv
    have e1 : (∑ i : Fin D.count, v i * ∑ l : Fin D.count, (Matrix.of fun i j : Fin D.count => A.entry i j) i l * v l) =
        total2 (contribs e (laplace k) rc re j (meshCells rect false s D)) v v := by
      rw [← (hM v v).2.2]
      refine Finset.sum_congr rfl (fun i _ => ?_)
      rw [Finset.mul_sum]
      refine Finset.sum_congr rfl (fun l _ => ?_)
      simp only [Matrix.of_apply]
      ring
    rw [e1]
    refine lt_of_le_of_ne (total2_nonneg h hrc hre hS hk v) (fun h0 => ?_)
    obtain ⟨i, hi', hvi⟩ := hne
    obtain ⟨c, hc, a, ha', rfl⟩ := (uses_count h i).2 hi'
    exact hvi (definite h hrc hre hn hS hk k1 k2 h0.symm c hc a ha')

end
end Verif.Gal
