import Verif.Gal.Poly

/-!
# One cell: stiffness matrix times nodal values minus load vector

is the flux through the sides, when the nodal values come from a polynomial.
-/

set_option linter.unusedSimpArgs false

namespace Verif.Gal
open Verif.Quad Verif.Fem Verif.Gauss Verif.Form MeasureTheory

/-! ### Finite element functions and their gradients -/

/-- The derivatives in reference coordinates. -/
noncomputable def Vs (e : ET) (v : Nat → ℝ) (r : ℝ × ℝ) : ℝ := ∑ n ∈ Finset.range (nd2 e), v n * Ns e n r
noncomputable def Vt (e : ET) (v : Nat → ℝ) (r : ℝ × ℝ) : ℝ := ∑ n ∈ Finset.range (nd2 e), v n * Nt e n r

theorem interp_sum (e : ET) (v : Nat → ℝ) (r : ℝ × ℝ) : interp2 e v r = ∑ n ∈ Finset.range (nd2 e), v n * val (phi2 e n r) := by
  unfold interp2
  rw [range_sum]

theorem grad_sum (s : Finset Nat) (f a b : Nat → ℝ × ℝ → ℝ) (r : ℝ × ℝ) (h : ∀ n ∈ s, HasGrad (f n) (a n r) (b n r) r) :
    HasGrad (fun z => ∑ n ∈ s, f n z) (∑ n ∈ s, a n r) (∑ n ∈ s, b n r) r := by
  classical
  induction s using Finset.induction_on with
  | empty =>
    unfold HasGrad
    simp
    exact hasFDerivAt_const _ _
  | insert i s hi ih =>
    simp only [Finset.sum_insert hi]
    exact (h i (Finset.mem_insert_self ..)).add (ih (fun n hn => h n (Finset.mem_insert_of_mem hn)))

theorem grad_const (c : ℝ) (r : ℝ × ℝ) : HasGrad (fun _ => c) 0 0 r := by
  unfold HasGrad
  simp
  exact hasFDerivAt_const c r

theorem grad_fe (e : ET) (v : Nat → ℝ) (r : ℝ × ℝ) : HasGrad (interp2 e v) (Vs e v r) (Vt e v r) r := by
  have h : interp2 e v = fun z => ∑ n ∈ Finset.range (nd2 e), v n * val (phi2 e n z) := funext (interp_sum e v)
  rw [h]
  refine grad_sum _ (fun n z => v n * val (phi2 e n z)) (fun n z => v n * Ns e n z) (fun n z => v n * Nt e n z) r (fun n hn => ?_)
  refine ((grad_const (v n) r).mul (grad_phi e n (Finset.mem_range.1 hn) r)).congr ?_ ?_ <;> ring

theorem fe_mem (e : ET) (v : Nat → ℝ) : interp2 e v ∈ W (deg e) (deg e) := by
  have h : interp2 e v = fun z => ∑ n ∈ Finset.range (nd2 e), v n * val (phi2 e n z) := funext (interp_sum e v)
  rw [h]
  exact W_sum _ (fun n z => v n * val (phi2 e n z)) (fun n hn => W_smul (v n) (phi_mem e n (Finset.mem_range.1 hn)))

theorem dtb_poly' (e : ET) (i : Nat) (hi : i < np e) :
    ∃ P : Polynomial ℝ, P.natDegree ≤ deg e - 1 ∧ ∀ x, tb (pxTab e) i x = P.eval x := by
  obtain ⟨P, h1, h2⟩ := tb_poly e i hi
  refine ⟨P.derivative, (Polynomial.natDegree_derivative_le P).trans (by omega), fun x => ?_⟩
  have := tb_deriv e i hi x
  rw [show tb (pTab e) i = fun x => P.eval x from funext h2] at this
  exact this.unique (P.hasDerivAt x)

theorem tensor_mem' {A B : ℝ → ℝ} {d d' : Nat} (hA : ∃ P : Polynomial ℝ, P.natDegree ≤ d ∧ ∀ x, A x = P.eval x)
    (hB : ∃ P : Polynomial ℝ, P.natDegree ≤ d' ∧ ∀ x, B x = P.eval x) : (fun p : ℝ × ℝ => A p.1 * B p.2) ∈ W d d' := by
  obtain ⟨P, hP, eP⟩ := hA
  obtain ⟨Q, hQ, eQ⟩ := hB
  have := W_mul (poly_fst_mem P d 0 hP) (poly_snd_mem Q d' 0 hQ)
  simp only [Nat.add_zero, Nat.zero_add] at this
  simp only [eP, eQ]
  exact this

theorem Vs_mem (e : ET) (v : Nat → ℝ) : Vs e v ∈ W (deg e - 1) (deg e) := by
  refine W_sum _ (fun n z => v n * Ns e n z) (fun n hn => W_smul (v n) ?_)
  have hn := Finset.mem_range.1 hn
  obtain ⟨h1, h2⟩ := bix_lt e n hn
  have : Ns e n = fun p => tb (pxTab e) (bix e n).1 p.1 * tb (pTab e) (bix e n).2 p.2 := by
    funext p; simp only [Ns, dphi2_tb0 e n hn, val]
  rw [this]
  exact tensor_mem' (dtb_poly' e _ h1) (tb_poly e _ h2)

theorem Vt_mem (e : ET) (v : Nat → ℝ) : Vt e v ∈ W (deg e) (deg e - 1) := by
  refine W_sum _ (fun n z => v n * Nt e n z) (fun n hn => W_smul (v n) ?_)
  have hn := Finset.mem_range.1 hn
  obtain ⟨h1, h2⟩ := bix_lt e n hn
  have : Nt e n = fun p => tb (pTab e) (bix e n).1 p.1 * tb (pxTab e) (bix e n).2 p.2 := by
    funext p; simp only [Nt, dphi2_tb1 e n hn, val]
  rw [this]
  exact tensor_mem' (tb_poly e _ h1) (dtb_poly' e _ h2)

theorem j_mem (q : QD ℝ) : (fun r : ℝ × ℝ => jxs q ⟨r.1, r.2⟩) ∈ W 0 1 ∧ (fun r : ℝ × ℝ => jys q ⟨r.1, r.2⟩) ∈ W 0 1 ∧
    (fun r : ℝ × ℝ => jxt q ⟨r.1, r.2⟩) ∈ W 1 0 ∧ (fun r : ℝ × ℝ => jyt q ⟨r.1, r.2⟩) ∈ W 1 0 := by
  have a1 : ∀ a b : ℝ, (fun r : ℝ × ℝ => a + b * r.1) ∈ W 1 0 := fun a b => W_add (W_const 1 0 a) (W_smul b (W_fst 0))
  have a2 : ∀ a b : ℝ, (fun r : ℝ × ℝ => a + b * r.2) ∈ W 0 1 := fun a b => W_add (W_const 0 1 a) (W_smul b (W_snd 0))
  refine ⟨?_, ?_, ?_, ?_⟩
  · convert a2 (q.v1.x - q.v0.x) (hDx q) using 1; funext r; simp only [jxs, hDx]; ring
  · convert a2 (q.v1.y - q.v0.y) (hDy q) using 1; funext r; simp only [jys, hDy]; ring
  · convert a1 (q.v3.x - q.v0.x) (hDx q) using 1; funext r; simp only [jxt, hDx]; ring
  · convert a1 (q.v3.y - q.v0.y) (hDy q) using 1; funext r; simp only [jyt, hDy]; ring

/-! ### What the forms see at a quadrature point -/

theorem sub_eq_add_neg_one_mul (a b : ℝ) : a - b = a + (-1) * b := by ring

theorem field_val (c : QCell) (e : ET) (v : Nat → ℝ) {r : ℝ × ℝ} (hr : InOpen r) : fieldAt c ⟨e, [0]⟩ v r = interp2 e v r := by
  rw [interp_sum]
  unfold fieldAt
  refine Finset.sum_congr rfl (fun n _ => ?_)
  obtain ⟨h0, h1, h2, h3⟩ := hr
  have c1 : ¬ ¬ (0 ≤ r.1 ∧ 0 ≤ r.2) := not_not.2 ⟨h0.le, h2.le⟩
  have c2 : ¬ ¬ (r.1 ≤ 1 ∧ r.2 ≤ 1) := not_not.2 ⟨h1.le, h3.le⟩
  simp only [shapeAt, shape2]
  rw [if_neg c1, if_neg c2]

theorem shape_D1 (c : QCell) (hrect : c.rect = true → Upright c.q) (e : ET) (n : Nat) (hn : n < nd2 e) (v : Nat) (hv : v < 2) {r : ℝ × ℝ}
    (hr : InOpen r) : val (shapeAt c ⟨e, [1, v]⟩ r n) = D1 c.q e n v r := by
  obtain ⟨h0, h1, h2, h3⟩ := hr
  simp only [shapeAt]
  rw [shape_first c.q e n hn r ⟨h0.le, h1.le, h2.le, h3.le⟩ c.rect hrect v hv none, val_ok]

theorem field_x (c : QCell) (hc : ConvexCCW c.q) (hrect : c.rect = true → Upright c.q) (e : ET) (v : Nat → ℝ) {r : ℝ × ℝ} (hr : InOpen r) :
    det c.q ⟨r.1, r.2⟩ * fieldAt c ⟨e, [1, 0]⟩ v r = Vs e v r * jyt c.q ⟨r.1, r.2⟩ - Vt e v r * jys c.q ⟨r.1, r.2⟩ := by
  have hd := (C21_det_pos c.q hc ⟨r.1, r.2⟩ hr.1.le hr.2.1.le hr.2.2.1.le hr.2.2.2.le).ne'
  unfold fieldAt Vs Vt
  rw [Finset.mul_sum, Finset.sum_mul, Finset.sum_mul, ← Finset.sum_sub_distrib]
  refine Finset.sum_congr rfl (fun n hn => ?_)
  rw [shape_D1 c hrect e n (Finset.mem_range.1 hn) 0 (by omega) hr]
  simp only [D1, jacP2R, if_true]
  field_simp
  ring

theorem field_y (c : QCell) (hc : ConvexCCW c.q) (hrect : c.rect = true → Upright c.q) (e : ET) (v : Nat → ℝ) {r : ℝ × ℝ} (hr : InOpen r) :
    det c.q ⟨r.1, r.2⟩ * fieldAt c ⟨e, [1, 1]⟩ v r = Vt e v r * jxs c.q ⟨r.1, r.2⟩ - Vs e v r * jxt c.q ⟨r.1, r.2⟩ := by
  have hd := (C21_det_pos c.q hc ⟨r.1, r.2⟩ hr.1.le hr.2.1.le hr.2.2.1.le hr.2.2.2.le).ne'
  unfold fieldAt Vs Vt
  rw [Finset.mul_sum, Finset.sum_mul, Finset.sum_mul, ← Finset.sum_sub_distrib]
  refine Finset.sum_congr rfl (fun n hn => ?_)
  rw [shape_D1 c hrect e n (Finset.mem_range.1 hn) 1 (by omega) hr]
  simp only [D1, jacP2R, one_ne_zero, if_false]
  field_simp
  ring

/-- The nodal values of a polynomial. -/
noncomputable def nodal (q : QD ℝ) (e : ET) (p : Poly) (n : Nat) : ℝ := ev p (F q ((nodes2 e).getD n (0, 0)))

theorem grad_unique {g : ℝ × ℝ → ℝ} {a b a' b' : ℝ} {r : ℝ × ℝ} (h : HasGrad g a b r) (h' : HasGrad g a' b' r) : a = a' ∧ b = b' := by
  have := HasFDerivAt.unique h h'
  have h1 := congrArg (fun L : ℝ × ℝ →L[ℝ] ℝ => L (1, 0)) this
  have h2 := congrArg (fun L : ℝ × ℝ →L[ℝ] ℝ => L (0, 1)) this
  simp at h1 h2
  exact ⟨h1, h2⟩

theorem nodal_grad (q : QD ℝ) (e : ET) {p : Poly} (hp : p.totalDegree ≤ deg e) (r : ℝ × ℝ) :
    Vs e (nodal q e p) r = ev (dx p) (F q r) * jxs q ⟨r.1, r.2⟩ + ev (dy p) (F q r) * jys q ⟨r.1, r.2⟩ ∧
    Vt e (nodal q e p) r = ev (dx p) (F q r) * jxt q ⟨r.1, r.2⟩ + ev (dy p) (F q r) * jyt q ⟨r.1, r.2⟩ := by
  have h1 := grad_fe e (nodal q e p) r
  have h2 : interp2 e (nodal q e p) = fun r => ev p (F q r) := funext (interp_ev q e hp)
  rw [h2] at h1
  exact grad_unique h1 (grad_comp q (grad_ev p (F q r)))

/-- At a quadrature point the forms see the gradient of the polynomial. -/
theorem nodal_field (c : QCell) (hc : ConvexCCW c.q) (hrect : c.rect = true → Upright c.q) (e : ET) {p : Poly} (hp : p.totalDegree ≤ deg e)
    {r : ℝ × ℝ} (hr : InOpen r) : fieldAt c ⟨e, [1, 0]⟩ (nodal c.q e p) r = ev (dx p) (F c.q r) ∧
      fieldAt c ⟨e, [1, 1]⟩ (nodal c.q e p) r = ev (dy p) (F c.q r) := by
  have hd := (C21_det_pos c.q hc ⟨r.1, r.2⟩ hr.1.le hr.2.1.le hr.2.2.1.le hr.2.2.2.le).ne'
  obtain ⟨h1, h2⟩ := nodal_grad c.q e hp r
  have hx := field_x c hc hrect e (nodal c.q e p) hr
  have hy := field_y c hc hrect e (nodal c.q e p) hr
  rw [h1, h2] at hx hy
  constructor
  · apply mul_left_cancel₀ hd
    rw [hx]
    simp only [det]
    ring
  · apply mul_left_cancel₀ hd
    rw [hy]
    simp only [det]
    ring

section
variable {n n1 : Nat} {rc : List ((ℝ × ℝ) × ℝ)} {re : List (ℝ × ℝ)}

theorem lin_field (hrc : rule2 n2 = .ok rc) (hre : rule1 n1 = .ok re) {k : Kernel (Pt ℝ)} {S : Nat}
    (hS : sampleSize k = .ok S) {t : Basis} (ht : ValidDer t.der) (dmu : Dmu) (flag : Option Nat) (c : QCell) (s : Nat) (v : Nat → ℝ) :
    ∑ a ∈ Finset.range (nd2 t.e), v a * val (evalLin k t dmu flag rc re c a s) =
      ((qps dmu flag rc re c).map (fun p => fieldAt c t v p.ref * (p.w * k.eval S p.x s))).sum := by
  have : ∀ a ∈ Finset.range (nd2 t.e), v a * val (evalLin k t dmu flag rc re c a s) =
      ((qps dmu flag rc re c).map (fun p => v a * val (shapeAt c t p.ref a) * (p.w * k.eval S p.x s))).sum := by
    intro a ha
    rw [evalLin_eq hrc hre hS ht dmu flag c (Finset.mem_range.1 ha) s, val_ok, ← List.sum_map_mul_left]
    congr 1
    refine List.map_congr_left (fun p _ => ?_)
    ring
  rw [Finset.sum_congr rfl this, sum_finset_list]
  congr 1
  refine List.map_congr_left (fun p _ => ?_)
  rw [fieldAt, Finset.sum_mul]

/-- The quadrature sum of a polynomial in reference coordinates is its integral. -/
theorem cell_int (hrc : rule2 (n ^ 2) = .ok rc) (h5 : n ≤ 5) {flag : Option Nat} {c : QCell} (hm : marked flag c.q.flags = true)
    (f : QP → ℝ) (G : ℝ × ℝ → ℝ) (hG : G ∈ W (2 * n - 1) (2 * n - 1))
    (h : ∀ r w, InOpen r → f ⟨r, toPhys c.q ⟨r.1, r.2⟩, w * det c.q ⟨r.1, r.2⟩⟩ = w * G r) :
    ((qps .dx flag rc re c).map f).sum = ∫ r in Gauss.sq, G r := by
  have h1 := order_le hrc
  rw [← tensor_exact_W (rule01 n) (2 * n - 1) (rule01_exact_le5 n h1 h5) hG]
  have hq : qps .dx flag rc re c = points rc re c .cell := by simp [qps, regions, hm]
  obtain ⟨m, _, _, hm', hrc'⟩ := rule2_sq hrc
  have : m = n := (Nat.pow_left_injective (n := 2) (by omega) hm').symm
  subst this
  rw [hq]
  simp only [points, List.map_map, apply, ← hrc']
  congr 1
  refine List.map_congr_left (fun p hp => ?_)
  obtain ⟨_, a, b, d, e⟩ := (C32_weights2 _ _ hrc).2 p hp
  simp only [Function.comp]
  exact h p.1 p.2 ⟨a, b, d, e⟩

set_option maxHeartbeats 400000 in
/-- **One cell.**  Stiffness matrix times the nodal values of `p`, minus the load vector of `f`, tested with `v`, is the flux of
`κ ∇p` through the sides, if `f = −div(κ∇p)`. -/
theorem cell_consistent (hrc : rule2 (n ^ 2) = .ok rc) (h5 : n ≤ 5) (hre : rule1 n1 = .ok re) (e : ET) (h1 : 1 ≤ deg e) (hn : deg e < n)
    {k kf : Kernel (Pt ℝ)} {S Sf s : Nat} (hS : sampleSize k = .ok S) (hSf : sampleSize kf = .ok Sf) {κ p : Poly} (hp : p.totalDegree ≤ deg e)
    (hκ : κ.totalDegree + 2 * deg e ≤ 2 * n) (hk : ∀ x, k.eval S x s = ev κ (x.x, x.y))
    (hf : ∀ x, kf.eval Sf x s = ev (-(dx (κ * dx p) + dy (κ * dy p))) (x.x, x.y))
    (c : QCell) (hc : ConvexCCW c.q) (hrect : c.rect = true → Upright c.q) (v : Nat → ℝ) :
    (∑ a ∈ Finset.range (nd2 e), ∑ i ∈ Finset.range (nd2 e), v a * val (evalBil k ⟨e, [1, 0]⟩ ⟨e, [1, 0]⟩ .dx none rc re c a i s) * nodal c.q e p i) +
    (∑ a ∈ Finset.range (nd2 e), ∑ i ∈ Finset.range (nd2 e), v a * val (evalBil k ⟨e, [1, 1]⟩ ⟨e, [1, 1]⟩ .dx none rc re c a i s) * nodal c.q e p i) -
    (∑ a ∈ Finset.range (nd2 e), v a * val (evalLin kf ⟨e, [0]⟩ .dx none rc re c a s)) =
      ∑ i : Fin 4, sideFlux c.q (ev (κ * dx p)) (ev (κ * dy p)) (interp2 e v) i := by
  have hv0 : ValidDer (Basis.mk e [0]).der := Or.inl rfl
  have hv1 : ∀ j < 2, ValidDer (Basis.mk e [1, j]).der := fun j hj => Or.inr (Or.inl ⟨j, hj, rfl⟩)
  rw [bil_fields hrc hre hS (hv1 0 (by omega)) (hv1 0 (by omega)), bil_fields hrc hre hS (hv1 1 (by omega)) (hv1 1 (by omega)),
    lin_field hrc hre hSf hv0]
  obtain ⟨j1, j2, j3, j4⟩ := j_mem c.q
  have hpx : (dx p).totalDegree ≤ deg e - 1 := (pderiv_deg 0 p).trans (by omega)
  have hpy : (dy p).totalDegree ≤ deg e - 1 := (pderiv_deg 1 p).trans (by omega)
  have hkx : (κ * dx p).totalDegree ≤ κ.totalDegree + (deg e - 1) := (MvPolynomial.totalDegree_mul _ _).trans (by omega)
  have hky : (κ * dy p).totalDegree ≤ κ.totalDegree + (deg e - 1) := (MvPolynomial.totalDegree_mul _ _).trans (by omega)
  have hfd : (-(dx (κ * dx p) + dy (κ * dy p))).totalDegree ≤ κ.totalDegree + (deg e - 1) - 1 := by
    rw [MvPolynomial.totalDegree_neg]
    refine (MvPolynomial.totalDegree_add _ _).trans (max_le ?_ ?_)
    · exact (pderiv_deg 0 _).trans (by omega)
    · exact (pderiv_deg 1 _).trans (by omega)
  have gx : (fun r => Vs e v r * jyt c.q ⟨r.1, r.2⟩ + (-1) * (Vt e v r * jys c.q ⟨r.1, r.2⟩)) ∈ W (deg e) (deg e) := by
    refine W_add ?_ (W_smul _ ?_)
    · exact W_mono (by omega) (by omega) (W_mul (Vs_mem e v) j4)
    · exact W_mono (by omega) (by omega) (W_mul (Vt_mem e v) j2)
  have gy : (fun r => Vt e v r * jxs c.q ⟨r.1, r.2⟩ + (-1) * (Vs e v r * jxt c.q ⟨r.1, r.2⟩)) ∈ W (deg e) (deg e) := by
    refine W_add ?_ (W_smul _ ?_)
    · exact W_mono (by omega) (by omega) (W_mul (Vt_mem e v) j1)
    · exact W_mono (by omega) (by omega) (W_mul (Vs_mem e v) j3)
  have gd : (fun r : ℝ × ℝ => jxs c.q ⟨r.1, r.2⟩ * jyt c.q ⟨r.1, r.2⟩ + (-1) * (jxt c.q ⟨r.1, r.2⟩ * jys c.q ⟨r.1, r.2⟩)) ∈ W 1 1 :=
    W_add (W_mono (M := 0 + 1) (N := 1 + 0) (by omega) (by omega) (W_mul j1 j4)) (W_smul (-1) (W_mono (M := 1 + 0) (N := 0 + 1) (by omega) (by omega) (W_mul j3 j2)))
  have mx : (fun r => ev (κ * dx p) (F c.q r) * (Vs e v r * jyt c.q ⟨r.1, r.2⟩ + (-1) * (Vt e v r * jys c.q ⟨r.1, r.2⟩))) ∈ W (2 * n - 1) (2 * n - 1) :=
    W_mono (by omega) (by omega) (W_mul (ev_F_mem c.q hkx) gx)
  have my : (fun r => ev (κ * dy p) (F c.q r) * (Vt e v r * jxs c.q ⟨r.1, r.2⟩ + (-1) * (Vs e v r * jxt c.q ⟨r.1, r.2⟩))) ∈ W (2 * n - 1) (2 * n - 1) :=
    W_mono (by omega) (by omega) (W_mul (ev_F_mem c.q hky) gy)
  have mf : (fun r => ev (-(dx (κ * dx p) + dy (κ * dy p))) (F c.q r) * interp2 e v r *
      (jxs c.q ⟨r.1, r.2⟩ * jyt c.q ⟨r.1, r.2⟩ + (-1) * (jxt c.q ⟨r.1, r.2⟩ * jys c.q ⟨r.1, r.2⟩))) ∈ W (2 * n - 1) (2 * n - 1) :=
    W_mono (by omega) (by omega) (W_mul (W_mul (ev_F_mem c.q hfd) (fe_mem e v)) gd)
  rw [cell_int hrc h5 rfl _ _ mx, cell_int hrc h5 rfl _ _ my, cell_int hrc h5 rfl _ _ mf]
  · rw [← integral_add (cont_int (W_cont mx)) (cont_int (W_cont my)),
      ← integral_sub (cont_int (W_cont (W_add mx my))) (cont_int (W_cont mf)),
      ← cell_flux c.q (grad_ev (κ * dx p)) (grad_ev (κ * dy p)) (grad_fe e v) (ev_cont _) (ev_cont _) (W_cont (Vs_mem e v)) (W_cont (Vt_mem e v))]
    congr 1
    funext r
    simp only [ev_neg, ev_add, det]
    ring
  · intro r w hr
    rw [hf, field_val c e v hr]
    simp only [F, det]
    ring
  · intro r w hr
    have h2 := field_y c hc hrect e v hr
    rw [hk, (nodal_field c hc hrect e hp hr).2, ev_mul, ← sub_eq_add_neg_one_mul, ← h2]
    simp only [F]
    ring
  · intro r w hr
    have h2 := field_x c hc hrect e v hr
    rw [hk, (nodal_field c hc hrect e hp hr).1, ev_mul, ← sub_eq_add_neg_one_mul, ← h2]
    simp only [F]
    ring
end
end Verif.Gal
