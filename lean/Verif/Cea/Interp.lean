import Verif.Cea.Geo
import Verif.Cea.Taylor
import Verif.Gal.Ex

/-!
# The interpolant on a mesh with hanging nodes
-/

namespace Verif.Cea
open Verif.Mesh Verif.Dof Verif.Quad Verif.Fem Verif.Form Verif.Asm Verif.Phys Verif.Bnd Verif.Reg Verif.Dir Verif.Gauss Verif.Gal Verif.Linsys MeasureTheory

section
variable {close : Pt ℝ → Pt ℝ → Bool} {B : Base ℝ} {e : ET} {sf : Bool} {s : St ℝ} {D : DH} {V : DV ℝ} {rect : Nat → Bool}

/-- The physical point of node `a` of the leaf `c`. -/
theorem place_F (e : ET) (c : CN) (s : St ℝ) (a : Nat) :
    ((place s e c a).x, (place s e c a).y) = F (cellQ s c) (castPt ℝ (node e a)) := by
  rfl

/-- The interpolant: the values of `g` at the nodes that are not hanging, and the constraints at the others. -/
theorem interpolant (h : Setting close B e sf s D V rect) {H C : List (Linsys.Con ℝ)} (hh : setHanging sf s e D [] = some (H, C)) (g : Pt ℝ → ℝ) :
    ∃ v : Nat → ℝ, Admissible B sf s e D g v ∧ Feasible H v ∧
      ∀ c ∈ leaves sf s, ∀ a < nd2 e, (∀ x ∈ H, x.dof ≠ dofAt D c a) → v (dofAt D c a) = g (place s e c a) := by
  obtain ⟨d, hd⟩ := dict_exists h g
  have hO := dict_level h hh hd
  obtain ⟨v, v1, v2, v3⟩ := exists_conforming (dir := (consOf H d).dir) (level_acyclic hO) (fun a => ((getVert V a).map g).getD 0) 1
  obtain ⟨s1, s2, s3⟩ := setHanging_spec h.wf h.plain h.cont h.ready.ready hh
  have hF : Feasible H v := conforms_iff H d s2 (aff_zero h hh) v v1
  have hval : ∀ c ∈ leaves sf s, ∀ a < nd2 e, (∀ x ∈ H, x.dof ≠ dofAt D c a) → v (dofAt D c a) = g (place s e c a) := by
    intro c hc a ha hn
    have hv := (row_leaf h.wf h.plain h.ready.ready hc).2.2 a ha
    have hnone : (consOf H d).hng (dofAt D c a) = none := by
      show Option.map _ _ = _
      rw [Option.map_eq_none_iff, List.find?_eq_none]
      intro x hx
      simpa using hn x hx
    cases hdir : (consOf H d).dir (dofAt D c a) with
    | none =>
      rw [v3 _ ⟨hnone, hdir⟩]
      rw [vert_of h.wf h.plain h.ready hc ha hv]
      rfl
    | some y =>
      rw [v2 _ y hnone hdir, one_mul]
      obtain ⟨c', hc', i, hi, hv', hb, rfl⟩ := (hd.2 _ y).1 hdir
      have e1 := vert_of h.wf h.plain h.ready hc ha hv
      rw [vert_of h.wf h.plain h.ready hc' hi hv'] at e1
      rw [Option.some.inj e1]
  refine ⟨v, ⟨(C62_continuous h.wf h.plain h.cont h.ready.ready (h.full.imp id (·.2)) hh v).1 hF, fun c hc a ha hb => ?_⟩, hF, hval⟩
  have hv := (row_leaf h.wf h.plain h.ready.ready hc).2.2 a ha
  exact hval c hc a ha (C66_not_hanging h.wf h.plain h.cont h.ready.ready hh c a _ ha hv hb)

/-- A leaf with a hanging node is at most one level finer than the leaf on whose side the node hangs, and the node is a point of that leaf. -/
theorem hang_level (h : Setting close B e sf s D V rect) {c P : CN} {i l : Fin 4} {b : Bool} {m a : Nat} (g : Hangs B e sf s D c i P l b m a)
    {c' : CN} (hc' : c' ∈ leaves sf s) {q : Nat} (hq : q < nd2 e) (hv : Dof.val D c' q = some a) :
    level c' ≤ level c + 1 ∧ ∃ z, Dof.InSq z ∧ F (cellQ s c) z = F (cellQ s c') (castPt ℝ (node e q)) := by
  have hR := h.ready.ready
  have hi := hR.uses.uses.reach.inv h.wf
  obtain ⟨t0, t1⟩ := g.mem h.cont
  have hS := g.same h.wf h.cont (hR.rdy h.wf h.plain h.cont)
  have hS' := (C34_shared h.wf h.plain h.cont hR.uses _ _ _ _ a a (side_node e h.cont l m g.lt).1 hq g.dof hv).1 rfl
  have hS2 : SamePt B (rootPt c (E i (1 - halfT e b m))) (rootPt c' (node e q)) := .trans _ _ _ hS hS'
  have hz : Dof.InSq (E i (1 - halfT e b m)) := E_insq i (by linarith) (by linarith)
  constructor
  · rcases le_total (level c) (level c') with hl | hl
    · rcases Dof.meet h.wf hi hR.flag hR.bal g.side.leaf hc' hl hz (node_insq e ⟨q, hq⟩) hS2 (g.notcorner h.cont) with
        ⟨rfl, _⟩ | ⟨k, k', r, _, _, hvt, _⟩ | ⟨k, k', P', b', t, hco, rfl, _⟩
      · omega
      · have := vt_level _ _ hvt
        rw [owner_side, owner_side] at this
        simp only at this
        omega
      · have := vt_level _ _ hco.face
        rw [owner_side, owner_side] at this
        simp only at this
        rw [level_child]
        omega
    · omega
  · refine ⟨castPt ℝ (E i (1 - halfT e b m)), insq_cast hz, ?_⟩
    have := samePt_up (F := ℝ) B hS2
    rw [castRoot_pt, castRoot_pt] at this
    rw [F_phys, F_phys, cell_phys h g.side.leaf, cell_phys h hc', same_phys h.wf h.plain this]

/-- The error of the interpolant at the nodes of a leaf, compared with a polynomial `p` of the degree of the element. -/
theorem node_error (h : Setting close B e sf s D V rect) {H C : List (Linsys.Con ℝ)} (hh : setHanging sf s e D [] = some (H, C)) {u : ℝ × ℝ → ℝ}
    {v : Nat → ℝ} (hF : Feasible H v)
    (hv : ∀ c ∈ leaves sf s, ∀ a < nd2 e, (∀ x ∈ H, x.dof ≠ dofAt D c a) → v (dofAt D c a) = u ((place s e c a).x, (place s e c a).y))
    {p : Poly} (hp : p.totalDegree ≤ deg e) {c' : CN} (hc' : c' ∈ leaves sf s) {Φ E₀ : ℝ} (h0 : 0 ≤ E₀)
    (hΦ : ∀ n < nd2 e, ∀ z, Dof.InSq z → |Fem.val (phi2 e n z)| ≤ Φ)
    (hE : ∀ c ∈ leaves sf s, level c' ≤ level c + 1 → (∃ z z', Dof.InSq z ∧ Dof.InSq z' ∧ F (cellQ s c) z = F (cellQ s c') z') → ∀ z, Dof.InSq z →
      |u (F (cellQ s c) z) - ev p (F (cellQ s c) z)| ≤ E₀) {q : Nat} (hq : q < nd2 e) :
    |v (dofAt D c' q) - coeffs V p (dofAt D c' q)| ≤ (1 + (dpe2 e + 2) * Φ) * E₀ := by
  have hR := h.ready.ready
  obtain ⟨s1, s2, s3⟩ := setHanging_spec h.wf h.plain h.cont hR hh
  have hG : Feasible H (coeffs V p) := (C62_continuous h.wf h.plain h.cont hR (h.full.imp id (·.2)) hh _).2 (coeffs_single h hp)
  have hΦ0 : 0 ≤ Φ := (abs_nonneg _).trans (hΦ 0 (Phys.nd2_pos e) (0, 0) (by simp [Dof.InSq]))
  have hcoef : ∀ c ∈ leaves sf s, ∀ a < nd2 e, coeffs V p (dofAt D c a) = ev p (F (cellQ s c) (castPt ℝ (node e a))) := by
    intro c hc a ha
    have := (row_leaf h.wf h.plain hR hc).2.2 a ha
    unfold coeffs
    rw [vert_of h.wf h.plain h.ready hc ha this]
    rfl
  by_cases hn : ∀ x ∈ H, x.dof ≠ dofAt D c' q
  · rw [hv c' hc' q hq hn, hcoef c' hc' q hq]
    have h1 := hE c' hc' (by omega) ⟨_, _, insq_cast (node_insq e ⟨q, hq⟩), insq_cast (node_insq e ⟨q, hq⟩), rfl⟩ _ (insq_cast (node_insq e ⟨q, hq⟩))
    refine le_trans h1 ?_
    have : 0 ≤ ((dpe2 e : ℝ) + 2) * Φ * E₀ := by positivity
    nlinarith
  · push Not at hn
    obtain ⟨x, hx, hxa⟩ := hn
    obtain ⟨c, i, P, l, b, m, a, g, rfl⟩ := (s3 x).1 hx
    have hxa : a = dofAt D c' q := hxa
    have hva : Dof.val D c' q = some a := by rw [hxa]; exact (row_leaf h.wf h.plain hR hc').2.2 q hq
    obtain ⟨hlev, z, hz, hzz⟩ := hang_level h g hc' hq hva
    have e1 := hF _ hx
    have e2 := hG _ hx
    rw [← hxa]
    simp only [conOf, List.map_map, Function.comp_def, add_zero] at e1 e2
    rw [e1, e2, ← Gal.map_sub]
    obtain ⟨t0, t1⟩ := g.mem h.cont
    have hterm : ∀ n ∈ sideDofs e l, |Fem.val (phi2 e n (castPt ℝ (E l (halfT e b m)))) * v (dofAt D P n) -
        Fem.val (phi2 e n (castPt ℝ (E l (halfT e b m)))) * coeffs V p (dofAt D P n)| ≤ Φ * E₀ := by
      intro n hn
      have hlt := sideDofs_mem_lt h.cont l n hn
      obtain ⟨q', hq', e3⟩ := hang_supp h g n hn
      have hnh : ∀ x ∈ H, x.dof ≠ dofAt D c q' := by
        intro x hx' he
        obtain ⟨c2, i2, P2, l2, b2, m2, a2, g2, rfl⟩ := (s3 x).1 hx'
        have he : a2 = dofAt D c q' := he
        obtain ⟨m', hm', rfl⟩ := List.mem_iff_getElem.1 hn
        have hm2 : m' < dpe2 e + 2 := by rwa [sideDofs_len] at hm'
        refine g.no_chain g2 h.wf h.cont (hR.rdy h.wf h.plain h.cont) m' hm2 ?_
        rw [List.getD_eq_getElem?_getD, List.getElem?_eq_getElem hm', he, e3]
        simp only [Option.getD_some]
        obtain ⟨y, hy⟩ := Option.ne_none_iff_exists'.1 (hR.val h.wf g.side.ex g.side.sub _ hlt)
        unfold dofAt
        rw [hy]
        rfl
      rw [← e3, hv c g.side.leaf q' hq' hnh, hcoef c g.side.leaf q' hq', ← mul_sub, abs_mul]
      refine mul_le_mul (hΦ n hlt _ (insq_cast (E_insq l t0.le t1.le))) ?_ (abs_nonneg _) hΦ0
      exact hE c g.side.leaf hlev ⟨z, _, hz, insq_cast (node_insq e ⟨q, hq⟩), hzz⟩ _ (insq_cast (node_insq e ⟨q', hq'⟩))
    have hsum : ∀ (L : List Nat) (f : Nat → ℝ), (∀ n ∈ L, |f n| ≤ Φ * E₀) → |(L.map f).sum| ≤ L.length * (Φ * E₀) := by
      intro L f hL
      induction L with
      | nil => simp
      | cons n L ih =>
        rw [List.map_cons, List.sum_cons, List.length_cons]
        have h1 := hL n (by simp)
        have h2 := ih (fun n hn => hL n (by simp [hn]))
        have h3 := abs_add_le (f n) ((L.map f).sum)
        push_cast
        linarith
    refine (hsum _ _ hterm).trans ?_
    rw [sideDofs_len]
    push_cast
    nlinarith

end
end Verif.Cea
