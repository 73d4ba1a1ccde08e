import Verif.Fem.Shape

/-! # C55: theorems -/

namespace Verif.Fem

open Verif.Quad Topology

/-- The Hessian handed to `shape`: `reference_map` returns zeros on rectangles (mesh.py 4052-4056). -/
noncomputable def refHess (rect : Bool) (q : QD ℝ) (r : Pt ℝ) : (ℝ × ℝ × ℝ) × (ℝ × ℝ × ℝ) :=
  if rect then ((0, 0, 0), (0, 0, 0)) else hessP2R q r

/-- An axis-parallel rectangle whose first edge is horizontal. -/
def Upright (q : QD ℝ) : Prop :=
  q.v0.y = q.v1.y ∧ q.v1.x = q.v2.x ∧ q.v2.y = q.v3.y ∧ q.v3.x = q.v0.x

/-- First derivatives of basis function `n` in reference coordinates. -/
noncomputable def Ns (e : ET) (n : Nat) (s : ℝ × ℝ) : ℝ := val (dphi2 e n s 0)
noncomputable def Nt (e : ET) (n : Nat) (s : ℝ × ℝ) : ℝ := val (dphi2 e n s 1)

theorem grad_phi (e : ET) (n : Nat) (hn : n < nd2 e) (r : ℝ × ℝ) :
    HasGrad (fun s => val (phi2 e n s)) (Ns e n r) (Nt e n r) r := by
  obtain ⟨h1, h2⟩ := bix_lt e n hn
  simp only [phi2_tb e n hn, Ns, Nt, dphi2_tb0 e n hn, dphi2_tb1 e n hn, val]
  exact HasGrad.tensor (tb_deriv e _ h1 r.1) (tb_deriv e _ h2 r.2)

theorem grad_Ns (e : ET) (n : Nat) (hn : n < nd2 e) (r : ℝ × ℝ) :
    HasGrad (Ns e n) (val (d2phi2 e n r 0 0)) (val (d2phi2 e n r 0 1)) r := by
  obtain ⟨h1, h2⟩ := bix_lt e n hn
  obtain ⟨a, b, c, d⟩ := d2phi2_tb e n hn r
  unfold Ns
  rw [a, b]
  simp only [dphi2_tb0 e n hn, val]
  exact HasGrad.tensor (tb_deriv2 e _ h1 r.1) (tb_deriv e _ h2 r.2)

theorem grad_Nt (e : ET) (n : Nat) (hn : n < nd2 e) (r : ℝ × ℝ) :
    HasGrad (Nt e n) (val (d2phi2 e n r 0 1)) (val (d2phi2 e n r 1 1)) r := by
  obtain ⟨h1, h2⟩ := bix_lt e n hn
  obtain ⟨a, b, c, d⟩ := d2phi2_tb e n hn r
  unfold Nt
  rw [b, d]
  simp only [dphi2_tb1 e n hn, val]
  exact HasGrad.tensor (tb_deriv e _ h1 r.1) (tb_deriv2 e _ h2 r.2)

/-- First physical derivative in terms of reference coordinates. -/
noncomputable def D1 (q : QD ℝ) (e : ET) (n v : Nat) (s : ℝ × ℝ) : ℝ :=
  if v = 0 then Ns e n s * (jacP2R q ⟨s.1, s.2⟩).1.1 + Nt e n s * (jacP2R q ⟨s.1, s.2⟩).2.1
  else Ns e n s * (jacP2R q ⟨s.1, s.2⟩).1.2 + Nt e n s * (jacP2R q ⟨s.1, s.2⟩).2.2

theorem partial_mapped (q : QD ℝ) (e : ET) (n : Nat) (hn : n < nd2 e) (r : ℝ × ℝ)
    (hd : det q ⟨r.1, r.2⟩ ≠ 0) (u : ℝ × ℝ → ℝ) (hu : IsMapped q e n r u) (v : Nat) (hv : v < 2) :
    IsPartial u v (D1 q e n v r) (F q r) := by
  have := grad_physical q r hd (grad_phi e n hn r) hu
  interval_cases v
  · exact this.partial_x
  · exact this.partial_y

theorem partial_unique {u : ℝ × ℝ → ℝ} {v : Nat} {a b : ℝ} {p : ℝ × ℝ} (h1 : IsPartial u v a p)
    (h2 : IsPartial u v b p) : a = b := by
  unfold IsPartial at h1 h2
  split at h1
  · exact HasDerivAt.unique h1 h2
  · exact HasDerivAt.unique h1 h2
  · exact h1.elim

theorem continuous_det (q : QD ℝ) : Continuous fun s : ℝ × ℝ => det q ⟨s.1, s.2⟩ := by
  simp only [det, jxs, jyt, jxt, jys]
  fun_prop

/-- The second physical derivative as `shape` computes it on a non-rectangular cell. -/
noncomputable def D2 (q : QD ℝ) (e : ET) (n v w : Nat) (r : ℝ × ℝ) : ℝ :=
  let J := jacP2R q ⟨r.1, r.2⟩
  let H := hessP2R q ⟨r.1, r.2⟩
  val (d2phi2 e n r 0 0) * val (ent J 0 w) * val (ent J 0 v)
    + val (d2phi2 e n r 0 1) * val (ent J 1 w) * val (ent J 0 v) + Ns e n r * val (hent H v w 0)
    + val (d2phi2 e n r 0 1) * val (ent J 0 w) * val (ent J 1 v)
    + val (d2phi2 e n r 1 1) * val (ent J 1 w) * val (ent J 1 v) + Nt e n r * val (hent H v w 1)

theorem grad_D1 (q : QD ℝ) (e : ET) (n : Nat) (hn : n < nd2 e) (r : ℝ × ℝ)
    (hd : det q ⟨r.1, r.2⟩ ≠ 0) (v : Nat) (hv : v < 2) :
    ∃ a b, HasGrad (D1 q e n v) a b r ∧
      D2 q e n v 0 r = a * (jacP2R q ⟨r.1, r.2⟩).1.1 + b * (jacP2R q ⟨r.1, r.2⟩).2.1 ∧
      D2 q e n v 1 r = a * (jacP2R q ⟨r.1, r.2⟩).1.2 + b * (jacP2R q ⟨r.1, r.2⟩).2.2 := by
  have hs := grad_Ns e n hn r
  have ht := grad_Nt e n hn r
  have hdet := grad_det q r
  have eD : det q ⟨r.1, r.2⟩ = jxs q ⟨r.1, r.2⟩ * jyt q ⟨r.1, r.2⟩ - jxt q ⟨r.1, r.2⟩ * jys q ⟨r.1, r.2⟩ := rfl
  interval_cases v
  · refine ⟨_, _, ((hs.mul ((grad_jyt q r).div hdet hd)).add
      (ht.mul (((grad_jys q r).neg).div hdet hd))), ?_, ?_⟩
    all_goals
      simp only [D2, ent, hent, val, jacP2R, hessP2R]
      generalize jxs q _ = xs at *
      generalize jyt q _ = yt at *
      generalize jxt q _ = xt at *
      generalize jys q _ = ys at *
      generalize det q _ = D at *
      field_simp
      rw [eD]
      ring
  · refine ⟨_, _, ((hs.mul (((grad_jxt q r).neg).div hdet hd)).add
      (ht.mul ((grad_jxs q r).div hdet hd))), ?_, ?_⟩
    all_goals
      simp only [D2, ent, hent, val, jacP2R, hessP2R]
      generalize jxs q _ = xs at *
      generalize jyt q _ = yt at *
      generalize jxt q _ = xt at *
      generalize jys q _ = ys at *
      generalize det q _ = D at *
      field_simp
      rw [eD]
      ring

/-- The partial derivative of a function in physical coordinates, near `F r`, in reference coordinates. -/
theorem second_mapped (q : QD ℝ) (e : ET) (n : Nat) (hn : n < nd2 e) (r : ℝ × ℝ)
    (hd : det q ⟨r.1, r.2⟩ ≠ 0) (u : ℝ × ℝ → ℝ) (hu : IsMapped q e n r u) (v w : Nat) (hv : v < 2)
    (hw : w < 2) (g : ℝ × ℝ → ℝ) (hg : ∀ᶠ p in 𝓝 (F q r), IsPartial u v (g p) p) :
    IsPartial g w (D2 q e n v w r) (F q r) := by
  have h1 : ∀ᶠ s in 𝓝 r, IsMapped q e n s u := hu.eventually_nhds
  have h2 : ∀ᶠ s in 𝓝 r, det q ⟨s.1, s.2⟩ ≠ 0 := (continuous_det q).continuousAt.eventually_ne hd
  have h3 : ∀ᶠ s in 𝓝 r, IsPartial u v (g (F q s)) (F q s) :=
    (hasFDerivAt_F q r).continuousAt.eventually hg
  have hgD : ∀ᶠ s in 𝓝 r, g (F q s) = D1 q e n v s := by
    filter_upwards [h1, h2, h3] with s e1 e2 e3
    exact partial_unique e3 (partial_mapped q e n hn s e2 u e1 v hv)
  obtain ⟨a, b, hG, e0, e1⟩ := grad_D1 q e n hn r hd v hv
  have := grad_physical q r hd hG hgD
  rw [← e0, ← e1] at this
  interval_cases w
  · exact this.partial_x
  · exact this.partial_y

theorem first_exists (q : QD ℝ) (e : ET) (n : Nat) (hn : n < nd2 e) (r : ℝ × ℝ)
    (hd : det q ⟨r.1, r.2⟩ ≠ 0) (u : ℝ × ℝ → ℝ) (hu : IsMapped q e n r u) (v : Nat) (hv : v < 2) :
    ∃ g : ℝ × ℝ → ℝ, ∀ᶠ p in 𝓝 (F q r), IsPartial u v (g p) p := by
  have h1 : ∀ᶠ s in 𝓝 r, IsMapped q e n s u := hu.eventually_nhds
  have h2 : ∀ᶠ s in 𝓝 r, det q ⟨s.1, s.2⟩ ≠ 0 := (continuous_det q).continuousAt.eventually_ne hd
  have h3 : ∀ᶠ s in 𝓝 r, ∃ d, IsPartial u v d (F q s) := by
    filter_upwards [h1, h2] with s e1 e2
    exact ⟨_, partial_mapped q e n hn s e2 u e1 v hv⟩
  have hs : HasStrictFDerivAt (F q) (eF q r hd : ℝ × ℝ →L[ℝ] ℝ × ℝ) r := strict_F q r
  have hmap := hs.map_nhds_eq_of_equiv
  have h4 : ∀ᶠ p in 𝓝 (F q r), ∃ d, IsPartial u v d p := by
    rw [← hmap]; exact h3
  classical
  refine ⟨fun p => if h : ∃ d, IsPartial u v d p then h.choose else 0, ?_⟩
  filter_upwards [h4] with p hp
  rw [dif_pos hp]
  exact hp.choose_spec

/-! ## The value returned -/

theorem dphi_ok (e : ET) (n : Nat) (hn : n < nd2 e) (r : ℝ × ℝ) :
    dphi2 e n r 0 = .ok (Ns e n r) ∧ dphi2 e n r 1 = .ok (Nt e n r) := by
  simp only [Ns, Nt, dphi2_tb0 e n hn, dphi2_tb1 e n hn, val, and_self]

theorem d2phi_ok (e : ET) (n : Nat) (hn : n < nd2 e) (r : ℝ × ℝ) (v w : Nat) (hv : v < 2) (hw : w < 2) :
    d2phi2 e n r v w = .ok (val (d2phi2 e n r v w)) := by
  obtain ⟨a, b, c, d⟩ := d2phi2_tb e n hn r
  interval_cases v <;> interval_cases w <;> simp only [a, b, c, d, val]

theorem shape_first (q : QD ℝ) (e : ET) (n : Nat) (hn : n < nd2 e) (r : ℝ × ℝ)
    (hr : 0 ≤ r.1 ∧ r.1 ≤ 1 ∧ 0 ≤ r.2 ∧ r.2 ≤ 1) (rect : Bool) (hrect : rect = true → Upright q)
    (v : Nat) (hv : v < 2) (hess : Option ((ℝ × ℝ × ℝ) × (ℝ × ℝ × ℝ))) :
    shape2 e r (some rect) [1, v] (some (jacP2R q ⟨r.1, r.2⟩)) hess n = .ok (D1 q e n v r) := by
  obtain ⟨h0, h1, h2, h3⟩ := hr
  obtain ⟨e0, e1⟩ := dphi_ok e n hn r
  have c1 : ¬ ¬ (0 ≤ r.1 ∧ 0 ≤ r.2) := by tauto
  have c2 : ¬ ¬ (r.1 ≤ 1 ∧ r.2 ≤ 1) := by tauto
  unfold shape2
  rw [if_neg c1, if_neg c2]
  cases rect with
  | false =>
    interval_cases v <;>
      simp [ent, e0, e1, D1, bind, Except.bind, pure, Except.pure]
  | true =>
    obtain ⟨k1, k2, k3, k4⟩ := hrect rfl
    have z1 : jxt q ⟨r.1, r.2⟩ = 0 := by simp only [jxt, k2, k4]; ring
    have z2 : jys q ⟨r.1, r.2⟩ = 0 := by simp only [jys, k1, k3]; ring
    interval_cases v <;>
      simp [ent, e0, e1, D1, bind, Except.bind, pure, Except.pure, jacP2R, z1, z2, mul_comm]

theorem shape_second (q : QD ℝ) (e : ET) (n : Nat) (hn : n < nd2 e) (r : ℝ × ℝ)
    (hr : 0 ≤ r.1 ∧ r.1 ≤ 1 ∧ 0 ≤ r.2 ∧ r.2 ≤ 1) (rect : Bool) (hrect : rect = true → Upright q)
    (v w : Nat) (hv : v < 2) (hw : w < 2) :
    shape2 e r (some rect) [2, v, w] (some (jacP2R q ⟨r.1, r.2⟩)) (some (refHess rect q ⟨r.1, r.2⟩)) n
      = .ok (D2 q e n v w r) := by
  obtain ⟨h0, h1, h2, h3⟩ := hr
  obtain ⟨e0, e1⟩ := dphi_ok e n hn r
  have d00 := d2phi_ok e n hn r 0 0 (by omega) (by omega)
  have d01 := d2phi_ok e n hn r 0 1 (by omega) (by omega)
  have d11 := d2phi_ok e n hn r 1 1 (by omega) (by omega)
  have d10 : d2phi2 e n r 1 0 = .ok (val (d2phi2 e n r 0 1)) := by
    obtain ⟨a, b, c, d⟩ := d2phi2_tb e n hn r
    rw [c, b]; rfl
  have c1 : ¬ ¬ (0 ≤ r.1 ∧ 0 ≤ r.2) := by tauto
  have c2 : ¬ ¬ (r.1 ≤ 1 ∧ r.2 ≤ 1) := by tauto
  unfold shape2
  rw [if_neg c1, if_neg c2]
  cases rect with
  | false =>
    simp only [refHess, D2, Bool.false_eq_true, if_false]
    generalize val (d2phi2 e n r 0 0) = A at *
    generalize val (d2phi2 e n r 0 1) = B at *
    generalize val (d2phi2 e n r 1 1) = C at *
    interval_cases v <;> interval_cases w <;>
      simp [ent, hent, e0, e1, d00, d01, d11, bind, Except.bind, pure, Except.pure, val]
  | true =>
    obtain ⟨k1, k2, k3, k4⟩ := hrect rfl
    have z1 : jxt q ⟨r.1, r.2⟩ = 0 := by simp only [jxt, k2, k4]; ring
    have z2 : jys q ⟨r.1, r.2⟩ = 0 := by simp only [jys, k1, k3]; ring
    have z3 : hDx q = 0 := by simp only [hDx, k2, k4]; ring
    have z4 : hDy q = 0 := by simp only [hDy, k1, k3]; ring
    simp only [refHess, D2, if_true]
    generalize val (d2phi2 e n r 0 0) = A at *
    generalize val (d2phi2 e n r 0 1) = B at *
    generalize val (d2phi2 e n r 1 1) = C at *
    interval_cases v <;> interval_cases w <;>
      simp [ent, hent, d00, d01, d10, d11, bind, Except.bind, pure, Except.pure, val, jacP2R,
        hessP2R, z1, z2, z3, z4] <;> ring

/-! ## C55 -/

/-- **C55 (values and first derivatives).** On a convex cell -- with `is_rectangle()` true only for
axis-parallel rectangles with horizontal first edge -- `shape` with the inverse Jacobian of
`reference_map` returns the value of the mapped basis function and its partial derivatives with respect
to the physical coordinates. -/
theorem C55_first (q : QD ℝ) (hq : ConvexCCW q) (e : ET) (n : Nat) (hn : n < nd2 e) (r : ℝ × ℝ)
    (hr : 0 ≤ r.1 ∧ r.1 ≤ 1 ∧ 0 ≤ r.2 ∧ r.2 ≤ 1) (rect : Bool) (hrect : rect = true → Upright q)
    (u : ℝ × ℝ → ℝ) (hu : IsMapped q e n r u) (hess : Option ((ℝ × ℝ × ℝ) × (ℝ × ℝ × ℝ))) :
    shape2 e r (some rect) [0] (some (jacP2R q ⟨r.1, r.2⟩)) hess n = .ok (u (F q r)) ∧
    ∀ v < 2, ∃ d, shape2 e r (some rect) [1, v] (some (jacP2R q ⟨r.1, r.2⟩)) hess n = .ok d ∧
      IsPartial u v d (F q r) := by
  have hd := (C21_det_pos q hq ⟨r.1, r.2⟩ hr.1 hr.2.1 hr.2.2.1 hr.2.2.2).ne'
  constructor
  · have c1 : ¬ ¬ (0 ≤ r.1 ∧ 0 ≤ r.2) := by tauto
    have c2 : ¬ ¬ (r.1 ≤ 1 ∧ r.2 ≤ 1) := by tauto
    unfold shape2
    rw [if_neg c1, if_neg c2, hu.self_of_nhds]
    simp only [phi2_tb e n hn, val]
  · intro v hv
    exact ⟨_, shape_first q e n hn r hr rect hrect v hv hess, partial_mapped q e n hn r hd u hu v hv⟩

/-- **C55 (second derivatives).** With inverse Jacobian and Hessian of `reference_map`, `shape` returns
the second partial derivatives: the first derivative exists near the point, and the result is its
derivative. -/
theorem C55_second (q : QD ℝ) (hq : ConvexCCW q) (e : ET) (n : Nat) (hn : n < nd2 e) (r : ℝ × ℝ)
    (hr : 0 ≤ r.1 ∧ r.1 ≤ 1 ∧ 0 ≤ r.2 ∧ r.2 ≤ 1) (rect : Bool) (hrect : rect = true → Upright q)
    (u : ℝ × ℝ → ℝ) (hu : IsMapped q e n r u) (v w : Nat) (hv : v < 2) (hw : w < 2) :
    ∃ d, shape2 e r (some rect) [2, v, w] (some (jacP2R q ⟨r.1, r.2⟩))
        (some (refHess rect q ⟨r.1, r.2⟩)) n = .ok d ∧
      (∃ g : ℝ × ℝ → ℝ, ∀ᶠ p in 𝓝 (F q r), IsPartial u v (g p) p) ∧
      ∀ g : ℝ × ℝ → ℝ, (∀ᶠ p in 𝓝 (F q r), IsPartial u v (g p) p) → IsPartial g w d (F q r) := by
  have hd := (C21_det_pos q hq ⟨r.1, r.2⟩ hr.1 hr.2.1 hr.2.2.1 hr.2.2.2).ne'
  exact ⟨_, shape_second q e n hn r hr rect hrect v w hv hw, first_exists q e n hn r hd u hu v hv,
    fun g hg => second_mapped q e n hn r hd u hu v w hv hw g hg⟩

/-- The mapped basis function exists on every convex cell (so the hypothesis `IsMapped` can be met). -/
theorem C55_mapped_exists (q : QD ℝ) (hq : ConvexCCW q) (e : ET) (n : Nat) (r : ℝ × ℝ)
    (hr : 0 ≤ r.1 ∧ r.1 ≤ 1 ∧ 0 ≤ r.2 ∧ r.2 ≤ 1) : ∃ u, IsMapped q e n r u := by
  have hd := (C21_det_pos q hq ⟨r.1, r.2⟩ hr.1 hr.2.1 hr.2.2.1 hr.2.2.2).ne'
  have hs : HasStrictFDerivAt (F q) (eF q r hd : ℝ × ℝ →L[ℝ] ℝ × ℝ) r := strict_F q r
  refine ⟨fun p => val (phi2 e n (hs.localInverse (F q) (eF q r hd) r p)), ?_⟩
  filter_upwards [hs.eventually_left_inverse] with s h
  exact congrArg _ (congrArg _ h)

/-- **C55 without a cell**: reference derivatives. -/
theorem C55_reference (e : ET) (n : Nat) (hn : n < nd2 e) (r : ℝ × ℝ)
    (hr : 0 ≤ r.1 ∧ r.1 ≤ 1 ∧ 0 ≤ r.2 ∧ r.2 ≤ 1) (jac) (hess) (v w : Nat) (hv : v < 2) (hw : w < 2) :
    shape2 e r none [0] jac hess n = phi2 e n r ∧
    (∃ d, shape2 e r none [1, v] jac hess n = .ok d ∧ IsPartial (fun s => val (phi2 e n s)) v d r) ∧
    ∃ d, shape2 e r none [2, v, w] jac hess n = .ok d ∧
      IsPartial (fun s => val (dphi2 e n s v)) w d r := by
  have c1 : ¬ ¬ (0 ≤ r.1 ∧ 0 ≤ r.2) := by tauto
  have c2 : ¬ ¬ (r.1 ≤ 1 ∧ r.2 ≤ 1) := by tauto
  obtain ⟨e0, e1⟩ := dphi_ok e n hn r
  unfold shape2
  rw [if_neg c1, if_neg c2, if_neg c1, if_neg c2, if_neg c1, if_neg c2]
  refine ⟨rfl, ?_, ?_⟩
  · obtain ⟨g1, g2⟩ := C29_gradient2 e n hn r.1 r.2
    interval_cases v
    · exact ⟨_, e0, g1⟩
    · exact ⟨_, e1, g2⟩
  · obtain ⟨g1, g2⟩ := C29_hessian2 e n hn r.1 r.2 v hv
    refine ⟨_, d2phi_ok e n hn r v w hv hw, ?_⟩
    interval_cases w
    · exact g1
    · exact g2

/-- **C55 in one dimension.** -/
theorem C55_interval (d : OneD.Itv ℝ) (hd : d.lo < d.hi) (e : ET) (n : Nat) (hn : n < nd1 e) (r : ℝ)
    (h0 : 0 ≤ r) (h1 : r ≤ 1) (u : ℝ → ℝ) (hu : ∀ᶠ s in 𝓝 r, u (OneD.toPhys d s) = val (phi1 e n s)) :
    shape1 e r [0] none none n = .ok (u (OneD.toPhys d r)) ∧
    (∃ a, shape1 e r [1, 0] (some (OneD.jacP2R d)) none n = .ok a ∧
      HasDerivAt u a (OneD.toPhys d r)) ∧
    ∃ b, shape1 e r [2, 0, 0] (some (OneD.jacP2R d)) (some 0) n = .ok b ∧
      HasDerivAt (deriv u) b (OneD.toPhys d r) := by
  have hL : d.hi - d.lo ≠ 0 := (sub_pos.mpr hd).ne'
  have hG : ∀ p, HasDerivAt (OneD.toRef d) (OneD.jacP2R d) p := by
    intro p
    have := ((hasDerivAt_id p).sub_const d.lo).div_const (d.hi - d.lo)
    exact this
  have hinv : ∀ p, OneD.toPhys d (OneD.toRef d p) = p := by
    intro p; simp only [OneD.toPhys, OneD.toRef]; field_simp; ring
  have hinv' : ∀ s, OneD.toRef d (OneD.toPhys d s) = s := by
    intro p; simp only [OneD.toPhys, OneD.toRef]; field_simp; ring
  have hev : ∀ᶠ p in 𝓝 (OneD.toPhys d r), u p = val (phi1 e n (OneD.toRef d p)) := by
    have hc : Filter.Tendsto (OneD.toRef d) (𝓝 (OneD.toPhys d r)) (𝓝 r) := by
      have := (hG (OneD.toPhys d r)).continuousAt
      rw [ContinuousAt, hinv'] at this; exact this
    filter_upwards [hc.eventually hu] with p hp
    rw [← hp, hinv]
  have hder : ∀ p, HasDerivAt (fun p => val (phi1 e n (OneD.toRef d p)))
      (val (dphi1 e n (OneD.toRef d p)) * OneD.jacP2R d) p := fun p =>
    HasDerivAt.comp p (C29_derivatives1 e n hn _).1 (hG p)
  have hd1 : ∀ᶠ p in 𝓝 (OneD.toPhys d r), HasDerivAt u
      (val (dphi1 e n (OneD.toRef d p)) * OneD.jacP2R d) p := by
    filter_upwards [hev.eventually_nhds] with p hp
    exact (hder p).congr_of_eventuallyEq hp
  obtain ⟨⟨y0, hy0⟩, ⟨y1, hy1⟩, ⟨y2, hy2⟩⟩ := C28_defined1 e n hn r
  refine ⟨?_, ?_, ?_⟩
  · rw [hu.self_of_nhds]
    simp [shape1, h0, h1, hy0, val]
  · refine ⟨OneD.jacP2R d * y1, by simp [shape1, h0, h1, hy1, bind, Except.bind, pure, Except.pure], ?_⟩
    have := hd1.self_of_nhds
    rw [hinv', hy1] at this
    rw [mul_comm]; exact this
  · refine ⟨OneD.jacP2R d ^ 2 * y2, by
      simp [shape1, h0, h1, hy2, bind, Except.bind, pure, Except.pure], ?_⟩
    have h2 : HasDerivAt (fun p => val (dphi1 e n (OneD.toRef d p)) * OneD.jacP2R d)
        (val (d2phi1 e n (OneD.toRef d (OneD.toPhys d r))) * OneD.jacP2R d * OneD.jacP2R d)
        (OneD.toPhys d r) :=
      (HasDerivAt.comp (OneD.toPhys d r) (C29_derivatives1 e n hn _).2 (hG _)).mul_const _
    rw [hinv', hy2] at h2
    have h3 : deriv u =ᶠ[𝓝 (OneD.toPhys d r)]
        fun p => val (dphi1 e n (OneD.toRef d p)) * OneD.jacP2R d := by
      filter_upwards [hd1] with p hp using hp.deriv
    have := h2.congr_of_eventuallyEq h3
    refine this.congr_deriv ?_
    simp only [val]; ring

/-- **C55 (points outside)**: a reference point outside the unit square (interval) is refused, whatever the
element, derivative and cell. -/
theorem C55_outside (e : ET) (r : ℝ × ℝ) (hr : ¬ (0 ≤ r.1 ∧ r.1 ≤ 1 ∧ 0 ≤ r.2 ∧ r.2 ≤ 1)) (cell) (der) (jac)
    (hess) (n : Nat) (x : ℝ) (hx : ¬ (0 ≤ x ∧ x ≤ 1)) (jac1) (hess1) :
    shape2 e r cell der jac hess n = .error .assertion ∧ shape1 e x der jac1 hess1 n = .error .assertion := by
  constructor
  · unfold shape2
    by_cases h : 0 ≤ r.1 ∧ 0 ≤ r.2
    · rw [if_neg (by tauto), if_pos (by tauto)]
    · rw [if_pos h]
  · unfold shape1
    by_cases h : 0 ≤ x
    · rw [if_neg (by tauto), if_pos (by tauto)]
    · rw [if_pos h]

/-! ## Violations -/

/-- The unit square whose first edge is the vertical one (counter-clockwise: start at (1,0)). -/
def turned : QD ℝ := ⟨⟨1, 0⟩, ⟨1, 1⟩, ⟨0, 1⟩, ⟨0, 0⟩, ∅⟩

/-- **C55 fails** for rectangles whose first edge is vertical: `is_rectangle()` answers `True`, only the
diagonal of the inverse Jacobian is used, and the derivative of a non-constant function comes out 0. -/
theorem C55_vertical_rectangle_violated :
    ConvexCCW turned ∧ isRect (1 / 10 ^ 12) turned = true ∧
    ∀ u, IsMapped turned .Q1 0 (1 / 2, 1 / 2) u →
      shape2 .Q1 ((1 / 2, 1 / 2) : ℝ × ℝ) (some true) [1, 0] (some (jacP2R turned ⟨1 / 2, 1 / 2⟩)) none 0
        = .ok 0 ∧ ¬ IsPartial u 0 0 (F turned (1 / 2, 1 / 2)) := by
  have hc : ConvexCCW turned := by
    simp only [ConvexCCW, turned, tri]; norm_num
  refine ⟨hc, ?_, fun u hu => ⟨?_, fun hp => ?_⟩⟩
  · simp [isRect, turned, QD.edges]
  · simp [shape2, ent, jacP2R, jyt, jxt, jxs, jys, turned, det, bind, Except.bind, pure, Except.pure,
      dphi2, nd2, dpv, dpe2, dpc2, bi2, pxTab, pTab, look, mulE]
    norm_num
  · have hd := (C21_det_pos turned hc ⟨1 / 2, 1 / 2⟩ (by norm_num) (by norm_num) (by norm_num)
      (by norm_num)).ne'
    have := partial_unique hp (partial_mapped turned .Q1 0 (by decide) (1 / 2, 1 / 2) hd u hu 0 (by decide))
    simp [D1, Ns, Nt, jacP2R, jyt, jxt, jxs, jys, turned, det,
      dphi2, nd2, dpv, dpe2, dpc2, bi2, pxTab, pTab, look, mulE, val] at this
    norm_num at this

/-- **C55 fails** without a cell in one dimension: a derivative at two points raises an exception. -/
theorem C55_interval_reference_violated (e : ET) (n : Nat) (a b : ℝ) (c : List ℝ)
    (h : ∀ x ∈ a :: b :: c, 0 ≤ x ∧ x ≤ 1) : shape1Free e (a :: b :: c) n = .error .value := by
  unfold shape1Free
  rw [if_neg, if_neg]
  · simp only [List.any_eq_true, not_exists, not_and, decide_eq_true_eq]
    intro x hx; simpa using (h x hx).2
  · simp only [List.any_eq_true, not_exists, not_and, decide_eq_true_eq]
    intro x hx; simpa using (h x hx).1

/-! ## Examples -/

/-- A skew cell. -/
def skewR : QD ℝ := ⟨⟨0, 0⟩, ⟨2, 0⟩, ⟨3, 2⟩, ⟨0, 1⟩, ∅⟩

example : ConvexCCW skewR ∧ (∃ u, IsMapped skewR .Q2 4 (1 / 3, 1 / 4) u) ∧
    isRect (1 / 10 ^ 12) skewR = false := by
  have hc : ConvexCCW skewR := by simp only [ConvexCCW, skewR, tri]; norm_num
  refine ⟨hc, C55_mapped_exists skewR hc .Q2 4 (1 / 3, 1 / 4) (by norm_num), ?_⟩
  simp [isRect, skewR, QD.edges]
  norm_num

example : Upright (⟨⟨0, 0⟩, ⟨2, 0⟩, ⟨2, 1⟩, ⟨0, 1⟩, ∅⟩ : QD ℝ) := by simp [Upright]

end Verif.Fem
