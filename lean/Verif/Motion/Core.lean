import Verif.Super.Props

/-!
# Moving and scaling the mesh

The discrete problem of C69 (`Assembler.assemble`, `solve`; assembler.py 2340-2440, 3711-3776) on two meshes, one a similar image of the other.
-/

namespace Verif.Motion
open Verif.Mesh Verif.Dof Verif.Quad Verif.Fem Verif.Form Verif.Asm Verif.Phys Verif.Bnd Verif.Reg Verif.Dir Verif.Gauss Verif.Gal Verif.Cea Verif.Super

/-! ## Specification -/

/-- Rotation, scaling by `√(a² + b²)` and translation. -/
structure Sim where
  a : ℝ
  b : ℝ
  t : Pt ℝ
  pos : 0 < a ^ 2 + b ^ 2

/-- The image of a point. -/
def Sim.at (m : Sim) (x : Pt ℝ) : Pt ℝ := ⟨m.a * x.x - m.b * x.y + m.t.x, m.b * x.x + m.a * x.y + m.t.y⟩

/-- The square of the scale. -/
def Sim.sc (m : Sim) : ℝ := m.a ^ 2 + m.b ^ 2

/-- The initial mesh with the coordinates of its vertices replaced by their images (mesh.py 6930-7056: connectivity and coordinates are separate inputs). -/
def moved (m : Sim) (B : Base ℝ) : Base ℝ := { B with xy := fun k => m.at (B.xy k) }

/-! ## Geometry -/

def mv (m : Sim) (q : QD ℝ) : QD ℝ := ⟨m.at q.v0, m.at q.v1, m.at q.v2, m.at q.v3, q.flags⟩

theorem mv_child (m : Sim) (q : QD ℝ) (fl : Finset Nat) (k : Fin 4) : (mv m q).child fl k = mv m (q.child fl k) := by
  fin_cases k <;> simp [QD.child, QD.childVerts, ofVerts, mv, QD.v, QD.m, QD.center, List.rotateRight, Sim.at, mid] <;> (repeat' constructor) <;> ring

theorem quad_moved (m : Sim) (B : Base ℝ) (f : Nat) (p : List (Fin 4)) : quadAt (moved m B) f p = mv m (quadAt B f p) := by
  induction p with
  | nil => rfl
  | cons k p ih => rw [quadAt, quadAt, ih, mv_child]

theorem phys_mv (m : Sim) (q : QD ℝ) (r : Pt ℝ) : toPhys (mv m q) r = m.at (toPhys q r) := by
  simp only [toPhys, mv, Sim.at]
  ext <;> simp <;> ring

theorem jac_mv (m : Sim) (q : QD ℝ) (r : Pt ℝ) : jxs (mv m q) r = m.a * jxs q r - m.b * jys q r ∧ jys (mv m q) r = m.b * jxs q r + m.a * jys q r ∧
    jxt (mv m q) r = m.a * jxt q r - m.b * jyt q r ∧ jyt (mv m q) r = m.b * jxt q r + m.a * jyt q r := by
  simp only [jxs, jys, jxt, jyt, mv, Sim.at]
  refine ⟨?_, ?_, ?_, ?_⟩ <;> ring

theorem det_mv (m : Sim) (q : QD ℝ) (r : Pt ℝ) : det (mv m q) r = m.sc * det q r := by
  obtain ⟨h1, h2, h3, h4⟩ := jac_mv m q r
  unfold Quad.det Sim.sc
  rw [h1, h2, h3, h4]
  ring

/-- The gradients of a function and its image. -/
theorem grad_mv (m : Sim) {q : QD ℝ} {r : ℝ × ℝ} (hd : det q ⟨r.1, r.2⟩ ≠ 0) (e : ET) (v x : Nat → ℝ) :
    m.sc * (gx (mv m q) e v r * gx (mv m q) e x r + gy (mv m q) e v r * gy (mv m q) e x r) = gx q e v r * gx q e x r + gy q e v r * gy q e x r := by
  have hs : m.sc ≠ 0 := m.pos.ne'
  have hd' : det (mv m q) ⟨r.1, r.2⟩ ≠ 0 := by rw [det_mv]; exact mul_ne_zero hs hd
  have key : ∀ v, m.sc * gx (mv m q) e v r = m.a * gx q e v r - m.b * gy q e v r ∧ m.sc * gy (mv m q) e v r = m.b * gx q e v r + m.a * gy q e v r := by
    intro v
    obtain ⟨a1, a2⟩ := det_gx hd e v
    obtain ⟨b1, b2⟩ := det_gx hd' e v
    obtain ⟨h1, h2, h3, h4⟩ := jac_mv m q ⟨r.1, r.2⟩
    rw [det_mv, h4, h2] at b1
    rw [det_mv, h1, h3] at b2
    constructor
    · apply mul_left_cancel₀ hd
      linear_combination b1 - m.a * a1 + m.b * a2
    · apply mul_left_cancel₀ hd
      linear_combination b2 - m.b * a1 - m.a * a2
  obtain ⟨v1, v2⟩ := key v
  obtain ⟨x1, x2⟩ := key x
  apply mul_left_cancel₀ hs
  have e1 : m.sc * (m.sc * (gx (mv m q) e v r * gx (mv m q) e x r + gy (mv m q) e v r * gy (mv m q) e x r)) =
      (m.sc * gx (mv m q) e v r) * (m.sc * gx (mv m q) e x r) + (m.sc * gy (mv m q) e v r) * (m.sc * gy (mv m q) e x r) := by ring
  rw [e1, v1, v2, x1, x2]
  unfold Sim.sc
  ring

theorem convex_mv (m : Sim) {q : QD ℝ} (h : ConvexCCW q) : ConvexCCW (mv m q) := by
  have key : ∀ A Bq C : Pt ℝ, tri (m.at A) (m.at Bq) (m.at C) = m.sc * tri A Bq C := by
    intro A Bq C
    simp only [tri, Sim.at, Sim.sc]
    ring
  obtain ⟨h1, h2, h3, h4⟩ := h
  have hp : 0 < m.sc := m.pos
  refine ⟨?_, ?_, ?_, ?_⟩ <;> simp only [mv] <;> rw [key] <;> positivity

theorem insq_dom {B : Base ℝ} {p : Pt ℝ} : (p.x, p.y) ∈ Dom B ↔ ∃ f < B.n, (p.x, p.y) ∈ Quad.region (rootQ B f) := Iff.rfl

/-- The image of the domain is the domain of the image. -/
theorem dom_mv (m : Sim) {B : Base ℝ} (hc : Fn.Convex B) {x : Pt ℝ} (hx : (x.x, x.y) ∈ Dom B) : ((m.at x).x, (m.at x).y) ∈ Dom (moved m B) := by
  obtain ⟨f, hf, hr⟩ := hx
  refine ⟨f, hf, ?_⟩
  have e0 : rootQ (moved m B) f = mv m (rootQ B f) := rfl
  rw [← image_F _ (hc f hf)] at hr
  rw [e0, ← image_F _ (convex_mv m (hc f hf))]
  obtain ⟨z, hz, e1⟩ := hr
  refine ⟨z, hz, ?_⟩
  simp only [F, Prod.mk.injEq] at e1 ⊢
  rw [phys_mv]
  simp only [Sim.at]
  rw [e1.1, e1.2]
  exact ⟨rfl, rfl⟩

/-! ## The forms -/

theorem convex_same {a b : QD ℝ} (h : SameVerts a b) (hc : ConvexCCW a) : ConvexCCW b := by
  obtain ⟨h0, h1, h2, h3⟩ := h
  unfold ConvexCCW at *
  rwa [h0, h1, h2, h3] at hc

theorem upright_same {a b : QD ℝ} (h : SameVerts a b) (hc : Upright a) : Upright b := by
  obtain ⟨h0, h1, h2, h3⟩ := h
  unfold Upright at *
  rwa [h0, h1, h2, h3] at hc

section
variable {close close' : Pt ℝ → Pt ℝ → Bool} {B : Base ℝ} {e : ET} {sf sf' : Bool} {s s' : St ℝ} {D D' : DH} {V V' : DV ℝ} {rect rect' : Nat → Bool}
variable {n n1 j : Nat} {rc : List ((ℝ × ℝ) × ℝ)} {re : List (ℝ × ℝ)} {κ κ' f f' g g' : Pt ℝ → ℝ}

theorem rc_open (hrc : Gauss.rule2 (n ^ 2) = .ok rc) {p : (ℝ × ℝ) × ℝ} (hp : p ∈ rc) : InOpen p.1 := by
  obtain ⟨_, a, b, c, d⟩ := (C32_weights2 _ _ hrc).2 p hp
  exact ⟨a, b, c, d⟩

theorem bq_rc (h : Setting close B e sf s D V rect) (hrc : Gauss.rule2 (n ^ 2) = .ok rc) {c : CN} (hc : c ∈ leaves sf s) (v x : Nat → ℝ) :
    bq B rect e rc re κ c v x = (rc.map fun p => (gx (quadAt B c.1 c.2) e v p.1 * gx (quadAt B c.1 c.2) e x p.1 +
      gy (quadAt B c.1 c.2) e v p.1 * gy (quadAt B c.1 c.2) e x p.1) * (p.2 * det (quadAt B c.1 c.2) ⟨p.1.1, p.1.2⟩ * κ (toPhys (quadAt B c.1 c.2) ⟨p.1.1, p.1.2⟩))).sum := by
  have hq : qps .dx none rc re (rcell B rect c) = points rc re (rcell B rect c) .cell := by simp [qps, regions, marked]
  have hcx : ConvexCCW (rcell B rect c).q := convex_same (same_cell h hc) (leaf_convex h hc)
  have hup : (rcell B rect c).rect = true → Upright (rcell B rect c).q := fun hr =>
    upright_same (same_cell h hc) (upright_cell h.wf h.rect h.ready.ready.uses.uses.reach (leaf_mem h hc) hr)
  unfold bq
  rw [hq]
  simp only [points, List.map_map]
  refine congrArg List.sum (List.map_congr_left (fun p hp => ?_))
  have ho := rc_open hrc hp
  simp only [Function.comp]
  rw [(field_gx _ hcx hup e v ho).1, (field_gx _ hcx hup e v ho).2, (field_gx _ hcx hup e x ho).1, (field_gx _ hcx hup e x ho).2, detJ_eq]
  rfl

theorem lq_rc (hrc : Gauss.rule2 (n ^ 2) = .ok rc) (c : CN) (v : Nat → ℝ) :
    lq B rect e rc re f c v = (rc.map fun p => interp2 e v p.1 * (p.2 * det (quadAt B c.1 c.2) ⟨p.1.1, p.1.2⟩ * f (toPhys (quadAt B c.1 c.2) ⟨p.1.1, p.1.2⟩))).sum := by
  have hq : qps .dx none rc re (rcell B rect c) = points rc re (rcell B rect c) .cell := by simp [qps, regions, marked]
  unfold lq
  rw [hq]
  simp only [points, List.map_map]
  refine congrArg List.sum (List.map_congr_left (fun p hp => ?_))
  have ho := rc_open hrc hp
  simp only [Function.comp]
  rw [field_val _ e v ho, detJ_eq]
  rfl

theorem phys_dom (h : Setting close B e sf s D V rect) {c : CN} (hc : c ∈ leaves sf s) {r : ℝ × ℝ} (hr : InOpen r) :
    ((toPhys (quadAt B c.1 c.2) ⟨r.1, r.2⟩).x, (toPhys (quadAt B c.1 c.2) ⟨r.1, r.2⟩).y) ∈ Dom B := by
  have h1 : F (cellQ s c) r ∈ Dom B := leaf_dom h hc (open_sq hr)
  rw [F_same (same_cell h hc)] at h1
  exact h1

/-- The forms of the two problems agree. -/
theorem bq_mv (m : Sim) (h : Setting close B e sf s D V rect) (h' : Setting close' (moved m B) e sf' s' D' V' rect') (hrc : Gauss.rule2 (n ^ 2) = .ok rc)
    (hk : ∀ x : Pt ℝ, (x.x, x.y) ∈ Dom B → κ' (m.at x) = κ x) {c : CN} (hc : c ∈ leaves sf s) (hc' : c ∈ leaves sf' s') (v x : Nat → ℝ) :
    bq (moved m B) rect' e rc re κ' c v x = bq B rect e rc re κ c v x := by
  rw [bq_rc h hrc hc, bq_rc h' hrc hc']
  refine congrArg List.sum (List.map_congr_left (fun p hp => ?_))
  have ho := rc_open hrc hp
  have hd := det_ne (convex_same (same_cell h hc) (leaf_convex h hc)) ho
  rw [quad_moved, ← grad_mv m hd, det_mv, phys_mv, hk _ (phys_dom h hc ho)]
  ring

theorem lq_mv (m : Sim) (h : Setting close B e sf s D V rect) (hrc : Gauss.rule2 (n ^ 2) = .ok rc)
    (hf : ∀ x : Pt ℝ, (x.x, x.y) ∈ Dom B → m.sc * f' (m.at x) = f x) {c : CN} (hc : c ∈ leaves sf s) (v : Nat → ℝ) :
    lq (moved m B) rect' e rc re f' c v = lq B rect e rc re f c v := by
  rw [lq_rc hrc, lq_rc hrc]
  refine congrArg List.sum (List.map_congr_left (fun p hp => ?_))
  have ho := rc_open hrc hp
  rw [quad_moved, det_mv, phys_mv, ← hf _ (phys_dom h hc ho)]
  ring

end
end Verif.Motion
