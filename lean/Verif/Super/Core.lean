import Verif.Cea.Core
import Verif.Gal.Ex

/-!
# What the answer depends on

The discrete problem of C69 (`Assembler.assemble`, `solve`; assembler.py 2340-2440, 3711-3776), written without reference to the way in which mesh and numbers came
about.
-/

namespace Verif.Super
open Verif.Mesh Verif.Dof Verif.Quad Verif.Fem Verif.Form Verif.Asm Verif.Phys Verif.Bnd Verif.Reg Verif.Dir Verif.Gauss Verif.Gal Verif.Cea

/-! ## Specification -/

/-- The two meshes have the same leaves. -/
def SameLeaves (sf : Bool) (s : St ℝ) (sf' : Bool) (s' : St ℝ) : Prop := ∀ c, c ∈ leaves sf s ↔ c ∈ leaves sf' s'

/-! ## The forms -/

/-- A cell, from the initial mesh. -/
noncomputable def rcell (B : Base ℝ) (rect : Nat → Bool) (c : CN) : QCell := ⟨quadAt B c.1 c.2, rect c.1, fun _ => ∅, fun _ => ∅⟩

noncomputable def bq (B : Base ℝ) (rect : Nat → Bool) (e : ET) (rc : List ((ℝ × ℝ) × ℝ)) (re : List (ℝ × ℝ)) (κ : Pt ℝ → ℝ) (c : CN) (v x : Nat → ℝ) : ℝ :=
  ((qps .dx none rc re (rcell B rect c)).map (fun p => (fieldAt (rcell B rect c) ⟨e, [1, 0]⟩ v p.ref * fieldAt (rcell B rect c) ⟨e, [1, 0]⟩ x p.ref +
    fieldAt (rcell B rect c) ⟨e, [1, 1]⟩ v p.ref * fieldAt (rcell B rect c) ⟨e, [1, 1]⟩ x p.ref) * (p.w * κ p.x))).sum

noncomputable def lq (B : Base ℝ) (rect : Nat → Bool) (e : ET) (rc : List ((ℝ × ℝ) × ℝ)) (re : List (ℝ × ℝ)) (f : Pt ℝ → ℝ) (c : CN) (v : Nat → ℝ) : ℝ :=
  ((qps .dx none rc re (rcell B rect c)).map (fun p => fieldAt (rcell B rect c) ⟨e, [0]⟩ v p.ref * (p.w * f p.x))).sum

theorem qps_same {a b : QD ℝ} (h : SameVerts a b) (r : Bool) (rc : List ((ℝ × ℝ) × ℝ)) (re : List (ℝ × ℝ)) :
    qps .dx none rc re ⟨a, r, fun _ => ∅, fun _ => ∅⟩ = qps .dx none rc re ⟨b, r, fun _ => ∅, fun _ => ∅⟩ := by
  obtain ⟨a0, a1, a2, a3, fa⟩ := a
  obtain ⟨b0, b1, b2, b3, fb⟩ := b
  obtain ⟨h0, h1, h2, h3⟩ := h
  simp only at h0 h1 h2 h3
  subst h0 h1 h2 h3
  rfl

theorem field_same {a b : QD ℝ} (h : SameVerts a b) (r : Bool) (t : Basis) (v : Nat → ℝ) (z : ℝ × ℝ) :
    fieldAt ⟨a, r, fun _ => ∅, fun _ => ∅⟩ t v z = fieldAt ⟨b, r, fun _ => ∅, fun _ => ∅⟩ t v z := by
  obtain ⟨a0, a1, a2, a3, fa⟩ := a
  obtain ⟨b0, b1, b2, b3, fb⟩ := b
  obtain ⟨h0, h1, h2, h3⟩ := h
  simp only at h0 h1 h2 h3
  subst h0 h1 h2 h3
  rfl

theorem field_congr (q : QCell) (t : Basis) {v w : Nat → ℝ} (h : ∀ a < nd2 t.e, v a = w a) (z : ℝ × ℝ) : fieldAt q t v z = fieldAt q t w z := by
  unfold fieldAt
  exact Finset.sum_congr rfl (fun a ha => by rw [h a (Finset.mem_range.1 ha)])

theorem fe_congr {e : ET} {D D' : DH} {U W : Nat → ℝ} {c : CN} (h : ∀ a < nd2 e, U (dofAt D c a) = W (dofAt D' c a)) (z : ℝ × ℝ) :
    feFn e D U c z = feFn e D' W c z := by
  rw [show feFn e D U c z = interp2 e (fun a => U (dofAt D c a)) z from rfl, show feFn e D' W c z = interp2 e (fun a => W (dofAt D' c a)) z from rfl,
    interp_sum, interp_sum]
  exact Finset.sum_congr rfl (fun a ha => by rw [h a (Finset.mem_range.1 ha)])

theorem field_add (q : QCell) (t : Basis) (α β : ℝ) (v w : Nat → ℝ) (z : ℝ × ℝ) :
    fieldAt q t (fun a => α * v a + β * w a) z = α * fieldAt q t v z + β * fieldAt q t w z := by
  unfold fieldAt
  rw [Finset.mul_sum, Finset.mul_sum, ← Finset.sum_add_distrib]
  exact Finset.sum_congr rfl (fun a _ => by ring)

section
variable {close close' : Pt ℝ → Pt ℝ → Bool} {B : Base ℝ} {e : ET} {sf sf' : Bool} {s s' : St ℝ} {D D' : DH} {V V' : DV ℝ} {rect : Nat → Bool}
variable {n n1 j : Nat} {rc : List ((ℝ × ℝ) × ℝ)} {re : List (ℝ × ℝ)} {k kf : Kernel (Pt ℝ)} {g : Pt ℝ → ℝ} {κ f : Pt ℝ → ℝ}

theorem same_cell (h : Setting close B e sf s D V rect) {c : CN} (hc : c ∈ leaves sf s) : SameVerts (cellQ s c) (quadAt B c.1 c.2) :=
  cellQ_eq h.wf h.ready.ready.uses.uses.reach c (leaf_mem h hc)

theorem total2_q (h : Setting close B e sf s D V rect) (hrc : Gauss.rule2 (n ^ 2) = .ok rc) (hre : Gauss.rule1 n1 = .ok re) {S : Nat}
    (hS : sampleSize k = .ok S) (v x : Nat → ℝ) : total2 (contribs e (laplace k) rc re j (meshCells rect sf s D)) v x =
      ((leaves sf s).map (fun c => bq B rect e rc re (fun y => k.eval S y j) c (fun a => v (dofAt D c a)) (fun a => x (dofAt D c a)))).sum := by
  rw [total2_leaves h.wf h.plain h.ready.ready]
  congr 1
  refine List.map_congr_left (fun c hc => ?_)
  have hv : ∀ i < 2, ValidDer (Basis.mk e [1, i]).der := fun i hi => Or.inr (Or.inl ⟨i, hi, rfl⟩)
  unfold bilC
  rw [bil_fields hrc hre hS (hv 0 (by omega)) (hv 0 (by omega)), bil_fields hrc hre hS (hv 1 (by omega)) (hv 1 (by omega)), ← List.sum_map_add]
  unfold bq qcell rcell
  rw [qps_same (same_cell h hc)]
  congr 1
  refine List.map_congr_left (fun p _ => ?_)
  rw [field_same (same_cell h hc), field_same (same_cell h hc), field_same (same_cell h hc), field_same (same_cell h hc)]
  ring

theorem total1_q (h : Setting close B e sf s D V rect) (hrc : Gauss.rule2 (n ^ 2) = .ok rc) (hre : Gauss.rule1 n1 = .ok re) {S : Nat}
    (hS : sampleSize kf = .ok S) (v : Nat → ℝ) : total1 (loads e (source kf) rc re j (meshCells rect sf s D)) v =
      ((leaves sf s).map (fun c => lq B rect e rc re (fun y => kf.eval S y j) c (fun a => v (dofAt D c a)))).sum := by
  rw [total1_leaves h.wf h.plain h.ready.ready]
  congr 1
  refine List.map_congr_left (fun c hc => ?_)
  unfold linC
  rw [lin_field hrc hre hS (t := ⟨e, [0]⟩) (.inl rfl)]
  unfold lq qcell rcell
  rw [qps_same (same_cell h hc)]
  refine congrArg List.sum (List.map_congr_left (fun p _ => ?_))
  show _ = fieldAt _ _ _ _ * _
  rw [← field_same (same_cell h hc)]

theorem mem_same {a b : QD ℝ} (hv : SameVerts a b) (r : Bool) (hrc : Gauss.rule2 n = .ok rc) (hre : Gauss.rule1 n1 = .ok re)
    {p : QP} (hp : p ∈ qps .dx none rc re ⟨b, r, fun _ => ∅, fun _ => ∅⟩) (hc : ConvexCCW a) : (p.x.x, p.x.y) ∈ Quad.region a := by
  rw [← qps_same hv] at hp
  exact mem_qps_region hrc hre hc hp

/-- The points of the rule are in the domain. -/
theorem point_dom (h : Setting close B e sf s D V rect) (hrc : Gauss.rule2 (n ^ 2) = .ok rc) (hre : Gauss.rule1 n1 = .ok re) {c : CN} (hc : c ∈ leaves sf s)
    {p : QP} (hp : p ∈ qps .dx none rc re (rcell B rect c)) : (p.x.x, p.x.y) ∈ Dom B := by
  have h1 : (p.x.x, p.x.y) ∈ Quad.region (cellQ s c) := mem_same (same_cell h hc) (rect c.1) hrc hre hp (leaf_convex h hc)
  exact leaf_region h hc h1

/-- The solution of the discrete problem, without reference to numbers: values `u c a` at the nodes `a` of the leaves `c`. -/
structure Solves (B : Base ℝ) (rect : Nat → Bool) (e : ET) (rc : List ((ℝ × ℝ) × ℝ)) (re : List (ℝ × ℝ)) (κ f g : Pt ℝ → ℝ) (sf : Bool) (s : St ℝ) (D : DH)
    (W : Nat → ℝ) : Prop where
  adm : Admissible B sf s e D g W
  eqn : ∀ v, Single B sf s e D v → ZeroBnd B sf s e D v →
    ((leaves sf s).map (fun c => bq B rect e rc re κ c (fun a => v (dofAt D c a)) (fun a => W (dofAt D c a)))).sum =
      ((leaves sf s).map (fun c => lq B rect e rc re f c (fun a => v (dofAt D c a)))).sum

theorem solves (h : Setting close B e sf s D V rect) (hrc : Gauss.rule2 (n ^ 2) = .ok rc) (hre : Gauss.rule1 n1 = .ok re) {S Sf : Nat}
    (hS : sampleSize k = .ok S) (hSf : sampleSize kf = .ok Sf) {H C : List (Linsys.Con ℝ)} (hh : setHanging sf s e D [] = some (H, C)) {d : List (Nat × ℝ)}
    (hD : BndDict B sf s e D g d) {keep fuel} {ord : List ℕ → List ℕ} (ho : SetOrder ord) (ha : Ascending ord) {y u : List ℝ}
    (hr : Solved e k kf rc re j rect sf s D H d keep fuel ord y u) :
    Solves B rect e rc re (fun y => k.eval S y j) (fun y => kf.eval Sf y j) g sf s D (fun a => u.getD a 0) := by
  obtain ⟨h1, h2⟩ := galerkin h hh hD ho ha hr
  refine ⟨h1, fun v hv hz => ?_⟩
  have := h2 v hv hz
  rwa [total2_q h hrc hre hS, total1_q h hrc hre hSf] at this

/-! ### Another mesh with the same leaves, other numbers -/

theorem place_root (h : Setting close B e sf s D V rect) {c : CN} (hc : c ∈ leaves sf s) (a : Nat) :
    place s e c a = phys (rootQ B (rootPt c (castPt ℝ (node e a))).1) (rootPt c (castPt ℝ (node e a))).2 := cell_phys h hc _

theorem place_dom (h : Setting close B e sf s D V rect) {c : CN} (hc : c ∈ leaves sf s) {a : Nat} (ha : a < nd2 e) :
    ((place s e c a).x, (place s e c a).y) ∈ Dom B := by
  have hz : Dof.InSq (castPt ℝ (node e a)) := by
    have : Dof.InSq (node e a) := node_insq e ⟨a, ha⟩
    obtain ⟨h1, h2, h3, h4⟩ := this
    refine ⟨?_, ?_, ?_, ?_⟩ <;> simp only [castPt] <;> exact_mod_cast ‹_›
  have := leaf_dom h hc hz
  rwa [F_phys] at this

/-- Values can be carried over to other numbers. -/
theorem carry (h : Setting close B e sf s D V rect) (h' : Setting close' B e sf' s' D' V' rect) (hl : SameLeaves sf s sf' s') (U : Nat → ℝ) :
    ∃ W : Nat → ℝ, ∀ c ∈ leaves sf s, ∀ a < nd2 e, W (dofAt D' c a) = U (dofAt D c a) := by
  classical
  refine ⟨fun b => if hb : ∃ x : CN × Nat, x.1 ∈ leaves sf s ∧ x.2 < nd2 e ∧ dofAt D' x.1 x.2 = b then U (dofAt D hb.choose.1 hb.choose.2) else 0, fun c hc a ha => ?_⟩
  have hb : ∃ x : CN × Nat, x.1 ∈ leaves sf s ∧ x.2 < nd2 e ∧ dofAt D' x.1 x.2 = dofAt D' c a := ⟨(c, a), hc, ha, rfl⟩
  simp only [dif_pos hb]
  obtain ⟨g1, g2, g3⟩ := hb.choose_spec
  congr 1
  have r1 := (row_leaf h.wf h.plain h.ready.ready hc).2.2 a ha
  have r2 := (row_leaf h.wf h.plain h.ready.ready g1).2.2 _ g2
  have r1' := (row_leaf h'.wf h'.plain h'.ready.ready ((hl c).1 hc)).2.2 a ha
  have r2' := (row_leaf h'.wf h'.plain h'.ready.ready ((hl _).1 g1)).2.2 _ g2
  exact ((h.ready.ready.rdy h.wf h.plain h.cont).shared _ _ _ _ _ _ g2 ha r2 r1).2
    (((h'.ready.ready.rdy h'.wf h'.plain h'.cont).shared _ _ _ _ _ _ g2 ha r2' r1').1 g3)

theorem sum_same (h : Setting close B e sf s D V rect) (h' : Setting close' B e sf' s' D' V' rect) (hl : SameLeaves sf s sf' s') (F : CN → ℝ) :
    ((leaves sf s).map F).sum = ((leaves sf' s').map F).sum := by
  have : List.Perm (leaves sf s) (leaves sf' s') :=
    (List.perm_ext_iff_of_nodup (leaves_nodup h.wf h.ready.ready.uses.uses.reach sf) (leaves_nodup h'.wf h'.ready.ready.uses.uses.reach sf')).2 hl
  exact (this.map F).sum_eq

theorem Solves.carry (h : Setting close B e sf s D V rect) (h' : Setting close' B e sf' s' D' V' rect) (hl : SameLeaves sf s sf' s') {U : Nat → ℝ}
    (hU : Solves B rect e rc re κ f g sf s D U) : ∃ W, (∀ c ∈ leaves sf s, ∀ a < nd2 e, W (dofAt D' c a) = U (dofAt D c a)) ∧
      Solves B rect e rc re κ f g sf' s' D' W := by
  obtain ⟨W, hW⟩ := Super.carry h h' hl U
  refine ⟨W, hW, ⟨?_, ?_⟩, ?_⟩
  · intro c hc c' hc' z z' hz hz' hsame
    rw [fe_congr (hW c ((hl c).2 hc)), fe_congr (hW c' ((hl c').2 hc'))]
    exact hU.adm.single c ((hl c).2 hc) c' ((hl c').2 hc') z z' hz hz' hsame
  · intro c hc a ha hb
    rw [hW c ((hl c).2 hc) a ha, hU.adm.bnd c ((hl c).2 hc) a ha hb, place_root h ((hl c).2 hc), place_root h' hc]
  · intro v hv hz
    obtain ⟨v', hv'⟩ := Super.carry h' h (fun c => (hl c).symm) v
    have e1 := hU.eqn v' (fun c hc c' hc' z z' hz hz' hsame => by
        rw [fe_congr (hv' c ((hl c).1 hc)), fe_congr (hv' c' ((hl c').1 hc'))]
        exact hv c ((hl c).1 hc) c' ((hl c').1 hc') z z' hz hz' hsame)
      (fun c hc a ha hb => by rw [hv' c ((hl c).1 hc) a ha]; exact hz c ((hl c).1 hc) a ha hb)
    rw [sum_same h h' hl, sum_same h h' hl] at e1
    have c1 : ∀ c ∈ leaves sf' s', bq B rect e rc re κ c (fun a => v (dofAt D' c a)) (fun a => W (dofAt D' c a)) =
        bq B rect e rc re κ c (fun a => v' (dofAt D c a)) (fun a => U (dofAt D c a)) := by
      intro c hc
      unfold bq
      congr 1
      refine List.map_congr_left (fun p _ => ?_)
      rw [field_congr _ ⟨e, [1, 0]⟩ (fun a ha => (hv' c hc a ha).symm), field_congr _ ⟨e, [1, 0]⟩ (fun a ha => hW c ((hl c).2 hc) a ha),
        field_congr _ ⟨e, [1, 1]⟩ (fun a ha => (hv' c hc a ha).symm), field_congr _ ⟨e, [1, 1]⟩ (fun a ha => hW c ((hl c).2 hc) a ha)]
    have c2 : ∀ c ∈ leaves sf' s', lq B rect e rc re f c (fun a => v (dofAt D' c a)) = lq B rect e rc re f c (fun a => v' (dofAt D c a)) := by
      intro c hc
      unfold lq
      congr 1
      refine List.map_congr_left (fun p _ => ?_)
      rw [field_congr _ ⟨e, [0]⟩ (fun a ha => (hv' c hc a ha).symm)]
    rw [List.map_congr_left c1, List.map_congr_left c2]
    exact e1

end
end Verif.Super
