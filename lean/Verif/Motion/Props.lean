import Verif.Motion.Core

/-!
# C103: the answer moves with the mesh

`assembler.py` 2340-2440, 3711-3776 (assemble, solve).
-/

namespace Verif.Motion
open Verif.Mesh Verif.Dof Verif.Quad Verif.Fem Verif.Form Verif.Asm Verif.Phys Verif.Bnd Verif.Reg Verif.Dir Verif.Gauss Verif.Gal Verif.Cea Verif.Super

section
variable {close close' : Pt ℝ → Pt ℝ → Bool} {B : Base ℝ} {e : ET} {sf sf' : Bool} {s s' : St ℝ} {D D' : DH} {V V' : DV ℝ} {rect rect' : Nat → Bool}
variable {n n1 j : Nat} {rc : List ((ℝ × ℝ) × ℝ)} {re : List (ℝ × ℝ)} {κ κ' f f' g g' : Pt ℝ → ℝ} {u u' : List ℝ}

theorem samePt_moved (m : Sim) (B : Base ℝ) {R : Type} [Field R] [LinearOrder R] : (SamePt (moved m B) : Nat × (R × R) → Nat × (R × R) → Prop) = SamePt B := rfl

theorem bndPt_moved (m : Sim) (B : Base ℝ) : BndPt (moved m B) = BndPt B := rfl

/-- Values can be carried over to the numbers of the other mesh. -/
theorem carry (m : Sim) (h : Setting close B e sf s D V rect) (h' : Setting close' (moved m B) e sf' s' D' V' rect') (hl : SameLeaves sf s sf' s') (U : Nat → ℝ) :
    ∃ W : Nat → ℝ, ∀ c ∈ leaves sf s, ∀ a < nd2 e, W (dofAt D' c a) = U (dofAt D c a) := by
  classical
  refine ⟨fun b => if hb : ∃ x : CN × Nat, x.1 ∈ leaves sf s ∧ x.2 < nd2 e ∧ dofAt D' x.1 x.2 = b then U (dofAt D hb.choose.1 hb.choose.2) else 0, fun c hc a ha => ?_⟩
  have hb : ∃ x : CN × Nat, x.1 ∈ leaves sf s ∧ x.2 < nd2 e ∧ dofAt D' x.1 x.2 = dofAt D' c a := ⟨(c, a), hc, ha, rfl⟩
  simp only [dif_pos hb]
  obtain ⟨g1, g2, g3⟩ := hb.choose_spec
  congr 1
  have r1 := (row_leaf h.wf h.plain h.ready.ready hc).2.2 a ha
  have r2 := (row_leaf h.wf h.plain h.ready.ready g1).2.2 _ g2
  have r1' := (row_leaf h'.wf h'.plain h'.ready.ready ((hl c).1 hc)).2.2 a ha
  have r2' := (row_leaf h'.wf h'.plain h'.ready.ready ((hl _).1 g1)).2.2 _ g2
  exact ((h.ready.ready.rdy h.wf h.plain h.cont).shared _ _ _ _ _ _ g2 ha r2 r1).2
    (((h'.ready.ready.rdy h'.wf h'.plain h'.cont).shared _ _ _ _ _ _ g2 ha r2' r1').1 g3)

theorem carry' (m : Sim) (h : Setting close B e sf s D V rect) (h' : Setting close' (moved m B) e sf' s' D' V' rect') (hl : SameLeaves sf s sf' s') (U : Nat → ℝ) :
    ∃ W : Nat → ℝ, ∀ c ∈ leaves sf s, ∀ a < nd2 e, W (dofAt D c a) = U (dofAt D' c a) := by
  classical
  refine ⟨fun b => if hb : ∃ x : CN × Nat, x.1 ∈ leaves sf s ∧ x.2 < nd2 e ∧ dofAt D x.1 x.2 = b then U (dofAt D' hb.choose.1 hb.choose.2) else 0, fun c hc a ha => ?_⟩
  have hb : ∃ x : CN × Nat, x.1 ∈ leaves sf s ∧ x.2 < nd2 e ∧ dofAt D x.1 x.2 = dofAt D c a := ⟨(c, a), hc, ha, rfl⟩
  simp only [dif_pos hb]
  obtain ⟨g1, g2, g3⟩ := hb.choose_spec
  congr 1
  have r1 := (row_leaf h.wf h.plain h.ready.ready hc).2.2 a ha
  have r2 := (row_leaf h.wf h.plain h.ready.ready g1).2.2 _ g2
  have r1' := (row_leaf h'.wf h'.plain h'.ready.ready ((hl c).1 hc)).2.2 a ha
  have r2' := (row_leaf h'.wf h'.plain h'.ready.ready ((hl _).1 g1)).2.2 _ g2
  exact ((h'.ready.ready.rdy h'.wf h'.plain h'.cont).shared _ _ _ _ _ _ g2 ha r2' r1').2
    (((h.ready.ready.rdy h.wf h.plain h.cont).shared _ _ _ _ _ _ g2 ha r2 r1).1 g3)

theorem sum_same (m : Sim) (h : Setting close B e sf s D V rect) (h' : Setting close' (moved m B) e sf' s' D' V' rect') (hl : SameLeaves sf s sf' s') (F : CN → ℝ) :
    ((leaves sf s).map F).sum = ((leaves sf' s').map F).sum := by
  have : List.Perm (leaves sf s) (leaves sf' s') :=
    (List.perm_ext_iff_of_nodup (leaves_nodup h.wf h.ready.ready.uses.uses.reach sf) (leaves_nodup h'.wf h'.ready.ready.uses.uses.reach sf')).2 hl
  exact (this.map F).sum_eq

/-- The cells of the moved mesh are the moved cells. -/
theorem cell_moved (m : Sim) (h : Setting close B e sf s D V rect) (h' : Setting close' (moved m B) e sf' s' D' V' rect') {c : CN} (hc : c ∈ leaves sf s)
    (hc' : c ∈ leaves sf' s') (z : Pt ℝ) : toPhys (cellQ s' c) z = m.at (toPhys (cellQ s c) z) := by
  have e1 := same_cell h hc
  have e2 := same_cell h' hc'
  rw [quad_moved] at e2
  rw [← phys_mv]
  obtain ⟨a0, a1, a2, a3⟩ := e1
  obtain ⟨b0, b1, b2, b3⟩ := e2
  simp only [toPhys, mv] at b0 b1 b2 b3 ⊢
  rw [b0, b1, b2, b3, a0, a1, a2, a3]

/-- The solution of the moved problem, carried back, solves the given one. -/
theorem Solves.back (m : Sim) (h : Setting close B e sf s D V rect) (h' : Setting close' (moved m B) e sf' s' D' V' rect') (hl : SameLeaves sf s sf' s')
    (hrc : Gauss.rule2 (n ^ 2) = .ok rc)
    (hk : ∀ x : Pt ℝ, (x.x, x.y) ∈ Dom B → κ' (m.at x) = κ x) (hf : ∀ x : Pt ℝ, (x.x, x.y) ∈ Dom B → m.sc * f' (m.at x) = f x)
    (hg : ∀ x : Pt ℝ, (x.x, x.y) ∈ Dom B → g' (m.at x) = g x) {U : Nat → ℝ} (hU : Solves (moved m B) rect' e rc re κ' f' g' sf' s' D' U) :
    ∃ W, (∀ c ∈ leaves sf s, ∀ a < nd2 e, W (dofAt D c a) = U (dofAt D' c a)) ∧ Solves B rect e rc re κ f g sf s D W := by
  obtain ⟨W, hW⟩ := carry' m h h' hl U
  refine ⟨W, hW, ⟨?_, ?_⟩, ?_⟩
  · intro c hc c' hc' z z' hz hz' hsame
    rw [fe_congr (hW c hc), fe_congr (hW c' hc')]
    exact hU.adm.single c ((hl c).1 hc) c' ((hl c').1 hc') z z' hz hz' hsame
  · intro c hc a ha hb
    have e1 : place s' e c a = m.at (place s e c a) := cell_moved m h h' hc ((hl c).1 hc) _
    rw [hW c hc a ha, hU.adm.bnd c ((hl c).1 hc) a ha hb, e1, hg _ (place_dom h hc ha)]
  · intro v hv hz
    obtain ⟨v', hv'⟩ := carry m h h' hl v
    have e1 := hU.eqn v' (fun c hc c' hc' z z' hz hz' hsame => by
        rw [fe_congr (hv' c ((hl c).2 hc)), fe_congr (hv' c' ((hl c').2 hc'))]
        exact hv c ((hl c).2 hc) c' ((hl c').2 hc') z z' hz hz' hsame)
      (fun c hc a ha hb => by rw [hv' c ((hl c).2 hc) a ha]; exact hz c ((hl c).2 hc) a ha hb)
    rw [← sum_same m h h' hl, ← sum_same m h h' hl] at e1
    have c1 : ∀ c ∈ leaves sf s, bq B rect e rc re κ c (fun a => v (dofAt D c a)) (fun a => W (dofAt D c a)) =
        bq (moved m B) rect' e rc re κ' c (fun a => v' (dofAt D' c a)) (fun a => U (dofAt D' c a)) := by
      intro c hc
      rw [bq_mv m h h' hrc hk hc ((hl c).1 hc)]
      unfold bq
      refine congrArg List.sum (List.map_congr_left (fun p _ => ?_))
      rw [field_congr _ ⟨e, [1, 0]⟩ (fun a ha => (hv' c hc a ha).symm), field_congr _ ⟨e, [1, 0]⟩ (fun a ha => hW c hc a ha),
        field_congr _ ⟨e, [1, 1]⟩ (fun a ha => (hv' c hc a ha).symm), field_congr _ ⟨e, [1, 1]⟩ (fun a ha => hW c hc a ha)]
    have c2 : ∀ c ∈ leaves sf s, lq B rect e rc re f c (fun a => v (dofAt D c a)) = lq (moved m B) rect' e rc re f' c (fun a => v' (dofAt D' c a)) := by
      intro c hc
      rw [lq_mv (rect := rect) m h hrc hf hc]
      unfold lq
      refine congrArg List.sum (List.map_congr_left (fun p _ => ?_))
      rw [field_congr _ ⟨e, [0]⟩ (fun a ha => (hv' c hc a ha).symm)]
    rw [List.map_congr_left c1, List.map_congr_left c2]
    exact e1

/-- **C103.**  A mesh is rotated, scaled by `√(a² + b²)` and translated; coefficient and boundary values move with it, and the load is divided by the square of the
scale.  Then the answer moves with it: the two answers agree at corresponding points of corresponding cells.  The meshes may have been refined in different order and
numbered differently, and different cells may be treated as rectangles (each mesh has its own `rect`). -/
theorem C103_motion (m : Sim) (hrc : Gauss.rule2 (n ^ 2) = .ok rc) (hre : Gauss.rule1 n1 = .ok re) (hn : deg e < n)
    (hpos : ∀ x : Pt ℝ, (x.x, x.y) ∈ Dom B → 0 < κ x) (h1 : Answer B rect e rc re κ f g sf s D u)
    (h2 : Answer (moved m B) rect' e rc re κ' f' g' sf' s' D' u') (hl : SameLeaves sf s sf' s')
    (hk : ∀ x : Pt ℝ, (x.x, x.y) ∈ Dom B → κ' (m.at x) = κ x) (hf : ∀ x : Pt ℝ, (x.x, x.y) ∈ Dom B → m.sc * f' (m.at x) = f x)
    (hg : ∀ x : Pt ℝ, (x.x, x.y) ∈ Dom B → g' (m.at x) = g x) {c : CN} (hc : c ∈ leaves sf s) (z : ℝ × ℝ) :
    fn e D' u' c z = fn e D u c z ∧ toPhys (cellQ s' c) ⟨z.1, z.2⟩ = m.at (toPhys (cellQ s c) ⟨z.1, z.2⟩) := by
  obtain ⟨close', V', h'⟩ := h2.setting
  have r1 := h1.solves hrc hre
  obtain ⟨close, V, k, kf, j, S, Sf, H, C, d, keep, fuel, ord, y, h, hS, hSf, hk', _⟩ := h1
  obtain ⟨W, w1, r2⟩ := Solves.back m h h' hl hrc hk hf hg (h2.solves hrc hre)
  have hu := Solves.unique h hrc hre hn hS hk' hpos r1 r2
  refine ⟨?_, cell_moved m h h' hc ((hl c).1 hc) _⟩
  unfold fn
  rw [fe_congr (D' := D) (W := W) (D := D) (U := fun a => u.getD a 0) (fun a ha => hu c hc a ha), fe_congr (W := fun a => u'.getD a 0) (w1 c hc)]

/-- **C103** (initial mesh).  The moved mesh meets the assumptions on initial meshes, and its domain contains the image of the domain. -/
theorem C103_base (m : Sim) (hB : B.WF) (hP : Plain B) (hc : Fn.Convex B) : (moved m B).WF ∧ Plain (moved m B) ∧ Fn.Convex (moved m B) ∧
    ∀ x : Pt ℝ, (x.x, x.y) ∈ Dom B → ((m.at x).x, (m.at x).y) ∈ Dom (moved m B) :=
  ⟨⟨hB.inv, hB.irr, hB.lt, hB.chain⟩, ⟨hP.1, hP.2⟩, fun f hf => convex_mv m (hc f hf), fun _ => dom_mv m hc⟩

end
end Verif.Motion
