import Verif.Cea.Interp
import Verif.Cea.Best

/-!
# C79: the order of convergence
-/

namespace Verif.Cea
open Verif.Mesh Verif.Dof Verif.Quad Verif.Fem Verif.Form Verif.Asm Verif.Phys Verif.Bnd Verif.Reg Verif.Dir Verif.Gauss Verif.Gal Verif.Linsys MeasureTheory

/-! ### The constants -/

/-- The constants of the estimate: the size of the initial cells, the derivatives of order `N` of `u`, the shape functions, and `κ`. -/
structure Bounds (B : Base ℝ) (e : ET) (κ : Poly) (u : ℝ × ℝ → ℝ) (N : ℕ) (A M Φ Ψ Kκ : ℝ) (K : Set (ℝ × ℝ)) : Prop where
  A0 : 0 ≤ A
  size : ∀ f < B.n, ∀ p, Sized (quadAt B f p) (A * (1 / 2) ^ p.length) (A * 2 ^ p.length)
  conv : Convex ℝ K
  dom : Dom B ⊆ K
  M0 : 0 ≤ M
  jet : ∀ i j, i + j = N → ∀ p ∈ K, |jet u i j p| ≤ M
  phi : ∀ n < nd2 e, ∀ z, Dof.InSq z → |Fem.val (phi2 e n z)| ≤ Φ
  Ψ0 : 0 ≤ Ψ
  der : ∀ n < nd2 e, ∀ z, Dof.InSq z → |Ns e n z| ≤ Ψ ∧ |Nt e n z| ≤ Ψ
  kap : ∀ p ∈ K, |ev κ p| ≤ Kκ

theorem compact_bound {K : Set (ℝ × ℝ)} (hK : IsCompact K) {f : ℝ × ℝ → ℝ} (hf : Continuous f) : ∃ M, 0 ≤ M ∧ ∀ p ∈ K, |f p| ≤ M := by
  obtain ⟨M, hM⟩ := hK.exists_bound_of_continuousOn hf.continuousOn
  exact ⟨max M 0, le_max_right _ _, fun p hp => (hM p hp).trans (le_max_left _ _)⟩

theorem sq_in {z : ℝ × ℝ} (hz : Dof.InSq z) : z ∈ Gauss.sq := ⟨⟨hz.1, hz.2.1⟩, hz.2.2.1, hz.2.2.2⟩
theorem sq_of {z : ℝ × ℝ} (hz : z ∈ Gauss.sq) : Dof.InSq z := ⟨hz.1.1, hz.1.2, hz.2.1, hz.2.2⟩
theorem sq_compact : IsCompact Gauss.sq := isCompact_Icc.prod isCompact_Icc

theorem dom_bounded {B : Base ℝ} (hc : Fn.Convex B) : ∃ ρ, Dom B ⊆ Metric.closedBall 0 ρ := by
  obtain ⟨ρ, _, h⟩ := bound_ex B.n (fun f x => ∀ p ∈ Quad.region (rootQ B f), ‖p‖ ≤ x) (fun f x y h hxy p hp => (h p hp).trans hxy) (fun f hf => by
    have hcpt : IsCompact (Quad.region (rootQ B f)) := by
      rw [← image_F _ (hc f hf)]
      exact sq_compact.image (cont_F _)
    obtain ⟨M, h0, hM⟩ := compact_bound hcpt continuous_norm
    exact ⟨M, h0, fun p hp => by simpa using hM p hp⟩)
  refine ⟨ρ, ?_⟩
  rintro p ⟨f, hf, hp⟩
  simpa using h f hf p hp

theorem bounds_ex {B : Base ℝ} (hc : Fn.Convex B) (hA : Par B) (e : ET) (κ : Poly) {u : ℝ × ℝ → ℝ} {N : ℕ} (hu : ContDiff ℝ N u) :
    ∃ A M Φ Ψ Kκ K, Bounds B e κ u N A M Φ Ψ Kκ K := by
  obtain ⟨A, A0, size⟩ := sized_mesh hA
  obtain ⟨ρ, dom⟩ := dom_bounded hc
  have hcpt : IsCompact (Metric.closedBall (0 : ℝ × ℝ) ρ) := isCompact_closedBall _ _
  obtain ⟨M, M0, hM⟩ := bound_ex (N + 1) (fun i x => ∀ p ∈ Metric.closedBall (0 : ℝ × ℝ) ρ, |jet u i (N - i) p| ≤ x)
    (fun f x y h hxy p hp => (h p hp).trans hxy) (fun i hi => compact_bound hcpt
      (jet_smooth (d := 0) (by rw [show 0 + i + (N - i) = N by omega]; exact hu)).continuous)
  obtain ⟨Φ, _, hΦ⟩ := bound_ex (nd2 e) (fun n x => ∀ z ∈ Gauss.sq, |Fem.val (phi2 e n z)| ≤ x)
    (fun f x y h hxy p hp => (h p hp).trans hxy) (fun n hn => compact_bound sq_compact (W_cont (phi_mem e n hn)))
  obtain ⟨Ψ, Ψ0, hΨ⟩ := bound_ex (nd2 e) (fun n x => ∀ z ∈ Gauss.sq, |Ns e n z| ≤ x ∧ |Nt e n z| ≤ x)
    (fun f x y h hxy p hp => ⟨(h p hp).1.trans hxy, (h p hp).2.trans hxy⟩) (fun n hn => by
      obtain ⟨M1, h1, hM1⟩ := compact_bound sq_compact (W_cont (Ns_mem e n hn))
      obtain ⟨M2, h2, hM2⟩ := compact_bound sq_compact (W_cont (Nt_mem e n hn))
      exact ⟨max M1 M2, le_max_of_le_left h1, fun z hz => ⟨(hM1 z hz).trans (le_max_left _ _), (hM2 z hz).trans (le_max_right _ _)⟩⟩)
  obtain ⟨Kκ, _, hκ⟩ := compact_bound hcpt (ev_cont κ)
  refine ⟨A, M, Φ, Ψ, Kκ, _, A0, size, convex_closedBall _ _, dom, M0, ?_, fun n hn z hz => hΦ n hn z (sq_in hz), Ψ0,
    fun n hn z hz => hΨ n hn z (sq_in hz), hκ⟩
  intro i j hij p hp
  have := hM i (by omega) p hp
  rwa [show N - i = j by omega] at this

section
variable {close : Pt ℝ → Pt ℝ → Bool} {B : Base ℝ} {e : ET} {sf : Bool} {s : St ℝ} {D : DH} {V : DV ℝ} {rect : Nat → Bool}

theorem leaf_sized {κ : Poly} {u : ℝ × ℝ → ℝ} {N : ℕ} {A M Φ Ψ Kκ : ℝ} {K : Set (ℝ × ℝ)} (b : Bounds B e κ u N A M Φ Ψ Kκ K)
    (h : Setting close B e sf s D V rect) {c : CN} (hc : c ∈ leaves sf s) : Sized (cellQ s c) (A * (1 / 2) ^ level c) (A * 2 ^ level c) :=
  (b.size c.1 (leaf_root h hc) c.2).same (cellQ_eq h.wf h.ready.ready.uses.uses.reach c (leaf_mem h hc))

/-- The gradient of a finite element function with small dof values. -/
theorem grad_small {q : QD ℝ} {A G X Ψ : ℝ} (hs : Sized q A G) (hG : 0 ≤ G) (hx : hDx q = 0) (hy : hDy q = 0) {v : Nat → ℝ} (hX : 0 ≤ X)
    (hv : ∀ a < nd2 e, |v a| ≤ X) (hΨ0 : 0 ≤ Ψ) (hΨ : ∀ n < nd2 e, ∀ z, Dof.InSq z → |Ns e n z| ≤ Ψ ∧ |Nt e n z| ≤ Ψ) {r : ℝ × ℝ} (hr : Dof.InSq r) :
    |gx q e v r| ≤ 2 * (nd2 e * (X * Ψ)) * G ∧ |gy q e v r| ≤ 2 * (nd2 e * (X * Ψ)) * G := by
  have key : ∀ (N : Nat → ℝ × ℝ → ℝ), (∀ n < nd2 e, |N n r| ≤ Ψ) → |∑ n ∈ Finset.range (nd2 e), v n * N n r| ≤ nd2 e * (X * Ψ) := by
    intro N hN
    refine (Finset.abs_sum_le_sum_abs _ _).trans ?_
    refine (Finset.sum_le_card_nsmul _ _ (X * Ψ) (fun n hn => ?_)).trans (le_of_eq (by simp))
    rw [abs_mul]
    exact mul_le_mul (hv n (Finset.mem_range.1 hn)) (hN n (Finset.mem_range.1 hn)) (abs_nonneg _) hX
  have hs1 : |Vs e v r| ≤ nd2 e * (X * Ψ) := key (Ns e) (fun n hn => (hΨ n hn r hr).1)
  have ht1 : |Vt e v r| ≤ nd2 e * (X * Ψ) := key (Nt e) (fun n hn => (hΨ n hn r hr).2)
  have h0 : 0 ≤ nd2 e * (X * Ψ) := by positivity
  have two : ∀ x y a b : ℝ, |x| ≤ nd2 e * (X * Ψ) → |y| ≤ nd2 e * (X * Ψ) → |a| ≤ G → |b| ≤ G → |x * a + y * b| ≤ 2 * (nd2 e * (X * Ψ)) * G := by
    intro x y a b h1 h2 h3 h4
    calc |x * a + y * b| ≤ |x * a| + |y * b| := abs_add_le _ _
      _ = |x| * |a| + |y| * |b| := by rw [abs_mul, abs_mul]
      _ ≤ nd2 e * (X * Ψ) * G + nd2 e * (X * Ψ) * G := add_le_add (mul_le_mul h1 h3 (abs_nonneg _) h0) (mul_le_mul h2 h4 (abs_nonneg _) h0)
      _ = 2 * (nd2 e * (X * Ψ)) * G := by ring
  unfold gx gy
  rw [(par_det hx hy ⟨r.1, r.2⟩).2]
  exact ⟨two _ _ _ _ hs1 ht1 hs.i11 hs.i21, two _ _ _ _ hs1 ht1 hs.i12 hs.i22⟩

/-- The gradient of a polynomial of the degree of the element. -/
theorem grad_poly (h : Setting close B e sf s D V rect) {p : Poly} (hp : p.totalDegree ≤ deg e) {c : CN} (hc : c ∈ leaves sf s) {r : ℝ × ℝ} (hr : Dof.InSq r) :
    gx (cellQ s c) e (fun a => coeffs V p (dofAt D c a)) r = ev (dx p) (F (cellQ s c) r) ∧
    gy (cellQ s c) e (fun a => coeffs V p (dofAt D c a)) r = ev (dy p) (F (cellQ s c) r) := by
  have hd : det (cellQ s c) ⟨r.1, r.2⟩ ≠ 0 := (C21_det_pos _ (leaf_convex h hc) ⟨r.1, r.2⟩ hr.1 hr.2.1 hr.2.2.1 hr.2.2.2).ne'
  have h1 := grad_physical (cellQ s c) r hd (grad_fe e (fun a => coeffs V p (dofAt D c a)) r) (u := ev p)
    (Filter.Eventually.of_forall (fun z => (coeffs_fn h hp hc z).symm))
  have h2 := grad_px h1
  have h3 := grad_px (grad_ev p (F (cellQ s c) r))
  exact ⟨h2.1.symm.trans h3.1, h2.2.symm.trans h3.2⟩

/-- The constant of the estimate of the gradient. -/
noncomputable def rateK (e : ET) (A M Φ Ψ : ℝ) : ℝ :=
  2 * (nd2 e * ((1 + (dpe2 e + 2) * Φ) * (M * (12 * A) ^ (deg e + 1)) * Ψ)) * A + M * (4 * A) ^ deg e

/-- The gradient of the error of the interpolant. -/
theorem grad_error {κ : Poly} {u : ℝ × ℝ → ℝ} {A M Φ Ψ Kκ : ℝ} {K : Set (ℝ × ℝ)} (hu : ContDiff ℝ (deg e + 1 : ℕ) u) (b : Bounds B e κ u (deg e + 1) A M Φ Ψ Kκ K)
    (hA : Par B) (h : Setting close B e sf s D V rect) {H C : List (Linsys.Con ℝ)} (hh : setHanging sf s e D [] = some (H, C))
    {v : Nat → ℝ} (hF : Feasible H v)
    (hv : ∀ c ∈ leaves sf s, ∀ a < nd2 e, (∀ x ∈ H, x.dof ≠ dofAt D c a) → v (dofAt D c a) = u ((place s e c a).x, (place s e c a).y))
    {c : CN} (hc : c ∈ leaves sf s) {r : ℝ × ℝ} (hr : Dof.InSq r) :
    |gx (cellQ s c) e (fun a => v (dofAt D c a)) r - px u (F (cellQ s c) r)| ≤ rateK e A M Φ Ψ * ((1 / 2) ^ level c) ^ deg e ∧
    |gy (cellQ s c) e (fun a => v (dofAt D c a)) r - py u (F (cellQ s c) r)| ≤ rateK e A M Φ Ψ * ((1 / 2) ^ level c) ^ deg e := by
  have hA0 := b.A0
  have hM0 := b.M0
  set η : ℝ := (1 / 2) ^ level c with hη
  have hη0 : 0 ≤ η := by positivity
  have hS := leaf_sized b h hc
  have hreach := h.ready.ready.uses.uses.reach
  obtain ⟨hx, hy⟩ := par_cell h.wf hA hreach (leaf_mem h hc)
  have hmid : Dof.InSq ((1 / 2, 1 / 2) : ℝ × ℝ) := by unfold Dof.InSq; norm_num
  set z0 := F (cellQ s c) (1 / 2, 1 / 2) with hz0
  have hz0K : z0 ∈ K := b.dom (leaf_dom h hc hmid)
  set p := taylor u z0 (deg e + 1) 0 0 with hp
  have hpd : p.totalDegree ≤ deg e := taylor_deg _ _ _ _ _
  -- the values at the nodes
  have hE : ∀ c' ∈ leaves sf s, level c ≤ level c' + 1 → (∃ z z', Dof.InSq z ∧ Dof.InSq z' ∧ F (cellQ s c') z = F (cellQ s c) z') → ∀ z, Dof.InSq z →
      |u (F (cellQ s c') z) - ev p (F (cellQ s c') z)| ≤ M * (12 * A * η) ^ (deg e + 1) := by
    rintro c' hc' hlev ⟨y, y', hy1, hy2, hyy⟩ z hz
    have hS' := leaf_sized b h hc'
    obtain ⟨hx', hy'⟩ := par_cell h.wf hA hreach (leaf_mem h hc')
    have h1 := sized_dist hS' (by positivity) hx' hy' hz hy1
    have h2 := sized_dist hS (by positivity) hx hy hy2 hmid
    have h3 : (1 / 2 : ℝ) ^ level c' ≤ 2 * η := by
      have : (1 / 2 : ℝ) ^ (level c' + 1) ≤ (1 / 2) ^ level c := pow_le_pow_of_le_one (by norm_num) (by norm_num) hlev
      rw [pow_succ] at this
      linarith
    have h4 : ‖F (cellQ s c') z - z0‖ ≤ 6 * A * η := by
      have e1 : F (cellQ s c') z - z0 = (F (cellQ s c') z - F (cellQ s c') y) + (F (cellQ s c) y' - z0) := by rw [hyy]; abel
      rw [e1]
      refine (norm_add_le _ _).trans ?_
      have := mul_le_mul_of_nonneg_left h3 hA0
      linarith
    refine (taylor_bound hu b.conv b.jet hz0K (deg e + 1) 0 0 (by omega) (b.dom (leaf_dom h hc' hz))).trans ?_
    refine mul_le_mul_of_nonneg_left (pow_le_pow_left₀ (by positivity) ?_ _) hM0
    linarith
  have hΦ0 : 0 ≤ Φ := (abs_nonneg _).trans (b.phi 0 (Phys.nd2_pos e) (0, 0) (by simp [Dof.InSq]))
  have hnode : ∀ a < nd2 e, |(fun a => v (dofAt D c a) - coeffs V p (dofAt D c a)) a| ≤ (1 + (dpe2 e + 2) * Φ) * (M * (12 * A * η) ^ (deg e + 1)) := by
    intro a ha
    exact node_error h hh hF hv hpd hc (by positivity) b.phi hE ha
  -- the two parts of the gradient
  have hΨ0 := b.Ψ0
  obtain ⟨g1, g2⟩ := grad_small hS (by positivity) hx hy (by positivity) hnode b.Ψ0 b.der hr
  obtain ⟨g3, g4⟩ := gx_sub (cellQ s c) e (fun a => v (dofAt D c a)) (fun a => coeffs V p (dofAt D c a)) r
  obtain ⟨g5, g6⟩ := grad_poly h hpd hc hr
  rw [g3, g5] at g1
  rw [g4, g6] at g2
  rw [hp, dx_taylor] at g1
  rw [hp, dy_taylor] at g2
  have hrK := b.dom (leaf_dom h hc hr)
  have h1 := taylor_bound hu b.conv b.jet hz0K (deg e) 1 0 (by omega) hrK
  have h2 := taylor_bound hu b.conv b.jet hz0K (deg e) 0 1 (by omega) hrK
  have hd := sized_dist hS (by positivity) hx hy hr hmid
  have hT : M * (2 * ‖F (cellQ s c) r - z0‖) ^ deg e ≤ M * (4 * A) ^ deg e * η ^ deg e := by
    rw [mul_assoc, ← mul_pow]
    refine mul_le_mul_of_nonneg_left (pow_le_pow_left₀ (by positivity) ?_ _) hM0
    linarith
  have hG : 2 * (nd2 e * ((1 + (dpe2 e + 2) * Φ) * (M * (12 * A * η) ^ (deg e + 1)) * Ψ)) * (A * 2 ^ level c) =
      2 * (nd2 e * ((1 + (dpe2 e + 2) * Φ) * (M * (12 * A) ^ (deg e + 1)) * Ψ)) * A * η ^ deg e := by
    have : η * 2 ^ level c = 1 := by
      rw [hη, ← mul_pow]
      norm_num
    rw [mul_pow, pow_succ η]
    linear_combination (2 * (nd2 e * ((1 + (dpe2 e + 2) * Φ) * (M * (12 * A) ^ (deg e + 1)) * Ψ)) * A * η ^ deg e) * this
  rw [hG] at g1 g2
  have px1 : jet u (0 + 1) 0 = px u := rfl
  have py1 : jet u 0 (0 + 1) = py u := rfl
  unfold rateK
  rw [add_mul]
  have tri : ∀ a b c : ℝ, |a - c| ≤ |a - b| + |c - b| := fun a b c => by
    have := abs_sub_le a b c
    rwa [abs_sub_comm b c] at this
  constructor
  · refine (tri _ (ev (taylor u z0 (deg e) (0 + 1) 0) (F (cellQ s c) r)) _).trans (add_le_add g1 ?_)
    exact h1.trans hT
  · refine (tri _ (ev (taylor u z0 (deg e) 0 (0 + 1)) (F (cellQ s c) r)) _).trans (add_le_add g2 ?_)
    exact h2.trans hT

end
end Verif.Cea
