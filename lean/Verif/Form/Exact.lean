import Verif.Form.Definite
import Mathlib.Analysis.Calculus.Deriv.Polynomial

/-!
# C56: `Form.eval` computes the integrals exactly when the rule has enough points
-/

namespace Verif.Form

open Verif.Quad Verif.Fem Verif.Gauss MeasureTheory Topology

/-! ## Specification -/

/-- A point of the open unit square. -/
def InOpen (r : ℝ × ℝ) : Prop := 0 < r.1 ∧ r.1 < 1 ∧ 0 < r.2 ∧ r.2 < 1

/-- `u` is basis function `n` on the physical cell `q`: its value at the image of a reference point is
the value of the reference basis function there. -/
def OnCell (q : QD ℝ) (e : ET) (n : Nat) (u : ℝ × ℝ → ℝ) : Prop :=
  ∀ r, InOpen r → u (F q r) = val (phi2 e n r)

/-- `g` is, inside the cell `q`, the derivative of basis function `n` that the basis `b` stands for
(`der = [0]`: the function, `[1,v]`: first, `[2,v,w]`: second partial derivative in physical
coordinates). -/
def IsShape (q : QD ℝ) (b : Basis) (n : Nat) (g : ℝ × ℝ → ℝ) : Prop :=
  match b.der with
  | [0] => OnCell q b.e n g
  | [1, v] => ∃ u, OnCell q b.e n u ∧ ∀ r, InOpen r → IsPartial u v (g (F q r)) (F q r)
  | [2, v, w] => ∃ u u', OnCell q b.e n u ∧ (∀ r, InOpen r → IsPartial u v (u' (F q r)) (F q r)) ∧
      ∀ r, InOpen r → IsPartial u' w (g (F q r)) (F q r)
  | _ => False

/-! ## The shape functions -/

theorem isOpen_inOpen : IsOpen {r : ℝ × ℝ | InOpen r} := by
  have : {r : ℝ × ℝ | InOpen r} = Set.Ioo (0 : ℝ) 1 ×ˢ Set.Ioo (0 : ℝ) 1 := by
    ext r; simp [InOpen, and_assoc]
  rw [this]
  exact isOpen_Ioo.prod isOpen_Ioo

theorem onCell_mapped {q : QD ℝ} {e : ET} {n : Nat} {u : ℝ × ℝ → ℝ} (h : OnCell q e n u) {r : ℝ × ℝ}
    (hr : InOpen r) : IsMapped q e n r u := by
  filter_upwards [isOpen_inOpen.mem_nhds hr] with s hs using h s hs

/-- The value `shape_eval` uses is the derivative of the basis function at the quadrature point. -/
theorem shapeAt_spec (c : QCell) (hc : ConvexCCW c.q) (hrect : c.rect = true → Upright c.q) (b : Basis)
    (hb : ValidDer b.der) (n : Nat) (hn : n < nd2 b.e) (g : ℝ × ℝ → ℝ) (hg : IsShape c.q b n g) (r : ℝ × ℝ)
    (hr : InOpen r) : val (shapeAt c b r n) = g (F c.q r) := by
  obtain ⟨h0, h1, h2, h3⟩ := hr
  have hsq : 0 ≤ r.1 ∧ r.1 ≤ 1 ∧ 0 ≤ r.2 ∧ r.2 ≤ 1 := ⟨h0.le, h1.le, h2.le, h3.le⟩
  have hd := (C21_det_pos c.q hc ⟨r.1, r.2⟩ h0.le h1.le h2.le h3.le).ne'
  obtain ⟨e', der⟩ := b
  simp only at hb hn
  rcases hb with rfl | ⟨v, hv, rfl⟩ | ⟨v, hv, w, hw, rfl⟩
  · have c1 : ¬ ¬ (0 ≤ r.1 ∧ 0 ≤ r.2) := not_not.2 ⟨h0.le, h2.le⟩
    have c2 : ¬ ¬ (r.1 ≤ 1 ∧ r.2 ≤ 1) := not_not.2 ⟨h1.le, h3.le⟩
    simp only [IsShape] at hg
    rw [hg r ⟨h0, h1, h2, h3⟩]
    simp only [shapeAt, shape2]
    rw [if_neg c1, if_neg c2]
  · simp only [IsShape] at hg
    obtain ⟨u, hu, hp⟩ := hg
    have hm := onCell_mapped hu (r := r) ⟨h0, h1, h2, h3⟩
    simp only [shapeAt]
    rw [shape_first c.q e' n hn r hsq c.rect hrect v hv none, val_ok]
    exact partial_unique (partial_mapped c.q e' n hn r hd u hm v hv) (hp r ⟨h0, h1, h2, h3⟩)
  · simp only [IsShape] at hg
    obtain ⟨u, u', hu, hp, hp2⟩ := hg
    have hm := onCell_mapped hu (r := r) ⟨h0, h1, h2, h3⟩
    simp only [shapeAt]
    rw [shape_second c.q e' n hn r hsq c.rect hrect v w hv hw, val_ok]
    refine partial_unique (second_mapped c.q e' n hn r hd u hm v w hv hw u' ?_) (hp2 r ⟨h0, h1, h2, h3⟩)
    have hs : HasStrictFDerivAt (F c.q) (eF c.q r hd : ℝ × ℝ →L[ℝ] ℝ × ℝ) r := strict_F c.q r
    rw [← hs.map_nhds_eq_of_equiv]
    have : ∀ᶠ s in 𝓝 r, IsPartial u v (u' (F c.q s)) (F c.q s) := by
      filter_upwards [isOpen_inOpen.mem_nhds (show InOpen r from ⟨h0, h1, h2, h3⟩)] with s hs using hp s hs
    exact this

/-! ## Polynomial spaces -/

theorem poly_fst_mem (P : Polynomial ℝ) (d N : Nat) (h : P.natDegree ≤ d) :
    (fun p : ℝ × ℝ => P.eval p.1) ∈ W d N := by
  have e : (fun p : ℝ × ℝ => P.eval p.1) = fun p => ∑ k ∈ Finset.range (d + 1), P.coeff k * (p.1 ^ k * p.2 ^ 0) := by
    funext p
    rw [Polynomial.eval_eq_sum_range' (n := d + 1) (by omega)]
    simp
  rw [e]
  exact W_sum _ _ (fun k hk => W_smul _ (mono_mem d N k 0 (by have := Finset.mem_range.1 hk; omega) (Nat.zero_le _)))

theorem poly_snd_mem (P : Polynomial ℝ) (d N : Nat) (h : P.natDegree ≤ d) :
    (fun p : ℝ × ℝ => P.eval p.2) ∈ W N d := by
  have e : (fun p : ℝ × ℝ => P.eval p.2) = fun p => ∑ k ∈ Finset.range (d + 1), P.coeff k * (p.1 ^ 0 * p.2 ^ k) := by
    funext p
    rw [Polynomial.eval_eq_sum_range' (n := d + 1) (by omega)]
    simp
  rw [e]
  exact W_sum _ _ (fun k hk => W_smul _ (mono_mem N d 0 k (Nat.zero_le _) (by have := Finset.mem_range.1 hk; omega)))

theorem dtb_poly (e : ET) (i : Nat) (hi : i < np e) :
    ∃ P : Polynomial ℝ, P.natDegree ≤ deg e ∧ ∀ x, tb (pxTab e) i x = P.eval x := by
  obtain ⟨P, h1, h2⟩ := tb_poly e i hi
  refine ⟨P.derivative, (Polynomial.natDegree_derivative_le P).trans (by omega), fun x => ?_⟩
  have := tb_deriv e i hi x
  rw [show tb (pTab e) i = fun x => P.eval x from funext h2] at this
  exact this.unique (P.hasDerivAt x)

theorem ddtb_poly (e : ET) (i : Nat) (hi : i < np e) :
    ∃ P : Polynomial ℝ, P.natDegree ≤ deg e ∧ ∀ x, tb (pxxTab e) i x = P.eval x := by
  obtain ⟨P, h1, h2⟩ := dtb_poly e i hi
  refine ⟨P.derivative, (Polynomial.natDegree_derivative_le P).trans (by omega), fun x => ?_⟩
  have := tb_deriv2 e i hi x
  rw [show tb (pxTab e) i = fun x => P.eval x from funext h2] at this
  exact this.unique (P.hasDerivAt x)

theorem tensor_mem {A B : ℝ → ℝ} {d : Nat} (hA : ∃ P : Polynomial ℝ, P.natDegree ≤ d ∧ ∀ x, A x = P.eval x)
    (hB : ∃ P : Polynomial ℝ, P.natDegree ≤ d ∧ ∀ x, B x = P.eval x) : (fun p : ℝ × ℝ => A p.1 * B p.2) ∈ W d d := by
  obtain ⟨P, hP, eP⟩ := hA
  obtain ⟨Q, hQ, eQ⟩ := hB
  have := W_mul (poly_fst_mem P d 0 hP) (poly_snd_mem Q d 0 hQ)
  simp only [Nat.add_zero, Nat.zero_add] at this
  simp only [eP, eQ]
  exact this

theorem phi_mem (e : ET) (n : Nat) (hn : n < nd2 e) : (fun p => val (phi2 e n p)) ∈ W (deg e) (deg e) := by
  obtain ⟨h1, h2⟩ := bix_lt e n hn
  simp only [phi2_tb e n hn, val]
  exact tensor_mem (tb_poly e _ h1) (tb_poly e _ h2)

theorem Ns_mem (e : ET) (n : Nat) (hn : n < nd2 e) : Ns e n ∈ W (deg e) (deg e) := by
  obtain ⟨h1, h2⟩ := bix_lt e n hn
  have : Ns e n = fun p => tb (pxTab e) (bix e n).1 p.1 * tb (pTab e) (bix e n).2 p.2 := by
    funext p; simp only [Ns, dphi2_tb0 e n hn, val]
  rw [this]
  exact tensor_mem (dtb_poly e _ h1) (tb_poly e _ h2)

theorem Nt_mem (e : ET) (n : Nat) (hn : n < nd2 e) : Nt e n ∈ W (deg e) (deg e) := by
  obtain ⟨h1, h2⟩ := bix_lt e n hn
  have : Nt e n = fun p => tb (pTab e) (bix e n).1 p.1 * tb (pxTab e) (bix e n).2 p.2 := by
    funext p; simp only [Nt, dphi2_tb1 e n hn, val]
  rw [this]
  exact tensor_mem (tb_poly e _ h1) (dtb_poly e _ h2)

theorem d2_mem (e : ET) (n : Nat) (hn : n < nd2 e) (v w : Nat) (hv : v < 2) (hw : w < 2) :
    (fun p => val (d2phi2 e n p v w)) ∈ W (deg e) (deg e) := by
  obtain ⟨h1, h2⟩ := bix_lt e n hn
  have h : ∀ p : ℝ × ℝ, _ := fun p => d2phi2_tb e n hn p
  interval_cases v <;> interval_cases w
  · simp only [(h _).1, val]; exact tensor_mem (ddtb_poly e _ h1) (tb_poly e _ h2)
  · simp only [(h _).2.1, val]; exact tensor_mem (dtb_poly e _ h1) (dtb_poly e _ h2)
  · simp only [(h _).2.2.1, val]; exact tensor_mem (dtb_poly e _ h1) (dtb_poly e _ h2)
  · simp only [(h _).2.2.2, val]; exact tensor_mem (tb_poly e _ h1) (ddtb_poly e _ h2)

/-! ## Quadrature equals integral -/

theorem sq_ae : (Set.Ioo (0 : ℝ) 1 ×ˢ Set.Ioo (0 : ℝ) 1 : Set (ℝ × ℝ)) =ᵐ[volume]
    (Set.Icc (0 : ℝ) 1 ×ˢ Set.Icc (0 : ℝ) 1 : Set (ℝ × ℝ)) :=
  Measure.set_prod_ae_eq Ioo_ae_eq_Icc Ioo_ae_eq_Icc

/-- If the integrand, pulled back to the reference square, is a polynomial that the rule integrates
exactly, then quadrature on the cell gives the integral over the cell. -/
theorem quad_exact (q : QD ℝ) (hq : ConvexCCW q) (n N : Nat) (h1 : 1 ≤ n) (h6 : n ≤ 6)
    (hE : Exact (rule01 n) N) (g G : ℝ × ℝ → ℝ)
    (hG : G ∈ W N N) (h : ∀ r, InOpen r → Quad.det q ⟨r.1, r.2⟩ * g (F q r) = G r) :
    apply (tensor (rule01 n)) (fun r => Quad.det q ⟨r.1, r.2⟩ * g (F q r)) = ∫ p in Quad.region q, g p := by
  have e1 : apply (tensor (rule01 n)) (fun r => Quad.det q ⟨r.1, r.2⟩ * g (F q r)) = apply (tensor (rule01 n)) G := by
    unfold apply
    congr 1
    refine List.map_congr_left (fun p hp => ?_)
    obtain ⟨rc, hrc⟩ := (C32_orders (n ^ 2)).2.2 ⟨n, h1, h6, rfl⟩
    obtain ⟨m, _, _, hm, rfl⟩ := rule2_sq hrc
    have : m = n := (Nat.pow_left_injective (n := 2) (by omega) hm).symm
    subst this
    obtain ⟨_, a, b, c, d⟩ := (C32_weights2 _ _ hrc).2 p hp
    exact congrArg (p.2 * ·) (h p.1 ⟨a, b, c, d⟩)
  rw [e1, tensor_exact_W _ N hE hG, C21_change_of_variables q hq g]
  unfold Gauss.sq
  rw [← setIntegral_congr_set sq_ae, ← setIntegral_congr_set sq_ae]
  refine setIntegral_congr_fun (measurableSet_Ioo.prod measurableSet_Ioo) ?_
  rintro r ⟨⟨a, b⟩, d, f⟩
  exact (h r ⟨a, b, d, f⟩).symm

/-- The quadrature sum over a cell as the reference rule applied to the pulled back integrand. -/
theorem cell_sum {n : Nat} {rc : List ((ℝ × ℝ) × ℝ)} {re : List (ℝ × ℝ)} (hrc : rule2 (n ^ 2) = .ok rc)
    {flag : Option Nat} {c : QCell} (hm : marked flag c.q.flags = true) (f : QP → ℝ) (g : ℝ × ℝ → ℝ)
    (h : ∀ r w, InOpen r → f ⟨r, toPhys c.q ⟨r.1, r.2⟩, w⟩ = w * g (F c.q r)) :
    ((qps .dx flag rc re c).map f).sum =
      apply (tensor (rule01 n)) (fun r => Quad.det c.q ⟨r.1, r.2⟩ * g (F c.q r)) := by
  have hq : qps .dx flag rc re c = points rc re c .cell := by simp [qps, regions, hm]
  obtain ⟨m, _, _, hm', hrc'⟩ := rule2_sq hrc
  have : m = n := (Nat.pow_left_injective (n := 2) (by omega) hm').symm
  subst this
  rw [hq]
  simp only [points, List.map_map, apply, ← hrc']
  congr 1
  refine List.map_congr_left (fun p hp => ?_)
  obtain ⟨_, a, b, d, e⟩ := (C32_weights2 _ _ hrc).2 p hp
  simp only [Function.comp]
  rw [h p.1 _ ⟨a, b, d, e⟩, detJ_eq]
  ring

section
variable {n n1 : Nat} {rc : List ((ℝ × ℝ) × ℝ)} {re : List (ℝ × ℝ)}

theorem order_le (hrc : rule2 (n ^ 2) = .ok rc) : 1 ≤ n := by
  obtain ⟨m, h1, _, hm, _⟩ := rule2_sq hrc
  have : m = n := (Nat.pow_left_injective (n := 2) (by omega) hm).symm
  omega

/-- **C56 (exact mass matrices).** On every convex quadrilateral, with the `n`×`n` Gauss rule (`n ≤ 5`),
the entries of a form without derivatives whose kernel is a polynomial of total degree `m` are the exact
integrals `∫ κ ψ_a φ_i` over the cell, provided `deg ψ + deg φ + m + 2 ≤ 2n`.  With the default rule
(`n = 4`) this covers the mass matrices of all element types. -/
theorem C56_exact_mass (hrc : rule2 (n ^ 2) = .ok rc) (h5 : n ≤ 5) (hre : rule1 n1 = .ok re)
    (k : Kernel (Pt ℝ)) (S : Nat) (hS : sampleSize k = .ok S) (e1 e2 : ET) (m : Nat)
    (hd : deg e1 + deg e2 + m + 2 ≤ 2 * n) (flag : Option Nat) (c : QCell)
    (hm : marked flag c.q.flags = true) (hc : ConvexCCW c.q) (s : Nat) (κ : Nat → Nat → ℝ)
    (hk : ∀ x, k.eval S x s = totpoly m κ x.x x.y) (a i : Nat) (ha : a < nd2 e1) (hi : i < nd2 e2)
    (ψ φ : ℝ × ℝ → ℝ) (hψ : OnCell c.q e1 a ψ) (hφ : OnCell c.q e2 i φ) :
    evalBil k ⟨e1, [0]⟩ ⟨e2, [0]⟩ .dx flag rc re c a i s =
      .ok (∫ p in Quad.region c.q, totpoly m κ p.1 p.2 * ψ p * φ p) := by
  have h1 := order_le hrc
  rw [evalBil_eq (t := ⟨e1, [0]⟩) (u := ⟨e2, [0]⟩) hrc hre hS (Or.inl rfl) (Or.inl rfl) .dx flag c ha hi s]
  have hv : ∀ (e : ET) (j : Nat) (r : ℝ × ℝ), InOpen r → val (shapeAt c ⟨e, [0]⟩ r j) = val (phi2 e j r) := by
    rintro e j r ⟨h0, h1, h2, h3⟩
    have c1 : ¬ ¬ (0 ≤ r.1 ∧ 0 ≤ r.2) := not_not.2 ⟨h0.le, h2.le⟩
    have c2 : ¬ ¬ (r.1 ≤ 1 ∧ r.2 ≤ 1) := not_not.2 ⟨h1.le, h3.le⟩
    simp only [shapeAt, shape2]
    rw [if_neg c1, if_neg c2]
  refine congrArg Except.ok ((cell_sum hrc hm _ (fun p => totpoly m κ p.1 p.2 * ψ p * φ p) ?_).trans
    (quad_exact c.q hc n (2 * n - 1) h1 (by omega) (rule01_exact_le5 n h1 h5)
      (fun p => totpoly m κ p.1 p.2 * ψ p * φ p)
      (fun r => (Quad.det c.q ⟨r.1, r.2⟩ * totpoly m κ (F c.q r).1 (F c.q r).2) *
        (val (phi2 e1 a r) * val (phi2 e2 i r))) ?_ ?_))
  rotate_left
  · refine W_mono ?_ ?_ (W_mul (pull_mem c.q m κ) (W_mul (phi_mem e1 a ha) (phi_mem e2 i hi))) <;> omega
  · intro r hr
    rw [hψ r hr, hφ r hr]; ring
  · intro r w hr
    simp only
    rw [hv e1 a r hr, hv e2 i r hr, hk, hψ r hr, hφ r hr]
    simp only [F]; ring

/-- **C56 (exact load vectors).** -/
theorem C56_exact_load (hrc : rule2 (n ^ 2) = .ok rc) (h5 : n ≤ 5) (hre : rule1 n1 = .ok re)
    (k : Kernel (Pt ℝ)) (S : Nat) (hS : sampleSize k = .ok S) (e1 : ET) (m : Nat)
    (hd : deg e1 + m + 2 ≤ 2 * n) (flag : Option Nat) (c : QCell)
    (hm : marked flag c.q.flags = true) (hc : ConvexCCW c.q) (s : Nat) (κ : Nat → Nat → ℝ)
    (hk : ∀ x, k.eval S x s = totpoly m κ x.x x.y) (a : Nat) (ha : a < nd2 e1)
    (ψ : ℝ × ℝ → ℝ) (hψ : OnCell c.q e1 a ψ) :
    evalLin k ⟨e1, [0]⟩ .dx flag rc re c a s =
      .ok (∫ p in Quad.region c.q, totpoly m κ p.1 p.2 * ψ p) := by
  have h1 := order_le hrc
  rw [evalLin_eq (t := ⟨e1, [0]⟩) hrc hre hS (Or.inl rfl) .dx flag c ha s]
  have hv : ∀ (e : ET) (j : Nat) (r : ℝ × ℝ), InOpen r → val (shapeAt c ⟨e, [0]⟩ r j) = val (phi2 e j r) := by
    rintro e j r ⟨h0, h1, h2, h3⟩
    have c1 : ¬ ¬ (0 ≤ r.1 ∧ 0 ≤ r.2) := not_not.2 ⟨h0.le, h2.le⟩
    have c2 : ¬ ¬ (r.1 ≤ 1 ∧ r.2 ≤ 1) := not_not.2 ⟨h1.le, h3.le⟩
    simp only [shapeAt, shape2]
    rw [if_neg c1, if_neg c2]
  refine congrArg Except.ok ((cell_sum hrc hm _ (fun p => totpoly m κ p.1 p.2 * ψ p) ?_).trans
    (quad_exact c.q hc n (2 * n - 1) h1 (by omega) (rule01_exact_le5 n h1 h5)
      (fun p => totpoly m κ p.1 p.2 * ψ p)
      (fun r => (Quad.det c.q ⟨r.1, r.2⟩ * totpoly m κ (F c.q r).1 (F c.q r).2) * val (phi2 e1 a r)) ?_ ?_))
  rotate_left
  · refine W_mono ?_ ?_ (W_mul (pull_mem c.q m κ) (phi_mem e1 a ha)) <;> omega
  · intro r hr
    rw [hψ r hr]; ring
  · intro r w hr
    simp only
    rw [hv e1 a r hr, hk, hψ r hr]
    simp only [F]; ring

/-- The shape function (or derivative) on a parallelogram is a polynomial in reference coordinates. -/
theorem shape_mem (c : QCell) (hc : ConvexCCW c.q) (hx : hDx c.q = 0) (hy : hDy c.q = 0)
    (hrect : c.rect = true → Upright c.q) (b : Basis) (hb : ValidDer b.der) (n : Nat) (hn : n < nd2 b.e) :
    ∃ G ∈ W (deg b.e) (deg b.e), ∀ r, InOpen r → val (shapeAt c b r n) = G r := by
  have hj : ∀ r : Pt ℝ, jacP2R c.q r = jacP2R c.q ⟨0, 0⟩ := by
    intro r
    have a1 : jxs c.q r = jxs c.q ⟨0, 0⟩ := by
      simp only [jxs, hDx] at hx ⊢; linear_combination r.y * hx
    have a2 : jys c.q r = jys c.q ⟨0, 0⟩ := by
      simp only [jys, hDy] at hy ⊢; linear_combination r.y * hy
    have a3 : jxt c.q r = jxt c.q ⟨0, 0⟩ := by
      simp only [jxt, hDx] at hx ⊢; linear_combination r.x * hx
    have a4 : jyt c.q r = jyt c.q ⟨0, 0⟩ := by
      simp only [jyt, hDy] at hy ⊢; linear_combination r.x * hy
    simp only [jacP2R, Quad.det, a1, a2, a3, a4]
  have hh : ∀ r : Pt ℝ, hessP2R c.q r = ((0, 0, 0), (0, 0, 0)) := by
    intro r
    simp [hessP2R, hx, hy]
  obtain ⟨e', der⟩ := b
  simp only at hb hn ⊢
  rcases hb with rfl | ⟨v, hv, rfl⟩ | ⟨v, hv, w, hw, rfl⟩
  · refine ⟨_, phi_mem e' n hn, ?_⟩
    rintro r ⟨h0, h1, h2, h3⟩
    have c1 : ¬ ¬ (0 ≤ r.1 ∧ 0 ≤ r.2) := not_not.2 ⟨h0.le, h2.le⟩
    have c2 : ¬ ¬ (r.1 ≤ 1 ∧ r.2 ≤ 1) := not_not.2 ⟨h1.le, h3.le⟩
    simp only [shapeAt, shape2]
    rw [if_neg c1, if_neg c2]
  · refine ⟨fun r => D1 c.q e' n v r, ?_, ?_⟩
    · simp only [D1, hj]
      split_ifs
      · simp only [mul_comm (Ns e' n _), mul_comm (Nt e' n _)]
        exact W_add (W_smul _ (Ns_mem e' n hn)) (W_smul _ (Nt_mem e' n hn))
      · simp only [mul_comm (Ns e' n _), mul_comm (Nt e' n _)]
        exact W_add (W_smul _ (Ns_mem e' n hn)) (W_smul _ (Nt_mem e' n hn))
    · rintro r ⟨h0, h1, h2, h3⟩
      simp only [shapeAt]
      rw [shape_first c.q e' n hn r ⟨h0.le, h1.le, h2.le, h3.le⟩ c.rect hrect v hv none, val_ok]
  · refine ⟨fun r => D2 c.q e' n v w r, ?_, ?_⟩
    · have e : (fun r : ℝ × ℝ => D2 c.q e' n v w r) = fun r =>
          (val (ent (jacP2R c.q ⟨0, 0⟩) 0 w) * val (ent (jacP2R c.q ⟨0, 0⟩) 0 v)) * val (d2phi2 e' n r 0 0) +
          (val (ent (jacP2R c.q ⟨0, 0⟩) 1 w) * val (ent (jacP2R c.q ⟨0, 0⟩) 0 v) +
            val (ent (jacP2R c.q ⟨0, 0⟩) 0 w) * val (ent (jacP2R c.q ⟨0, 0⟩) 1 v)) * val (d2phi2 e' n r 0 1) +
          (val (ent (jacP2R c.q ⟨0, 0⟩) 1 w) * val (ent (jacP2R c.q ⟨0, 0⟩) 1 v)) * val (d2phi2 e' n r 1 1) := by
        funext r
        have z : ∀ k, val (hent (((0, 0, 0), (0, 0, 0)) : (ℝ × ℝ × ℝ) × (ℝ × ℝ × ℝ)) v w k) = 0 := by
          intro k
          match k with
          | 0 => interval_cases v <;> interval_cases w <;> rfl
          | 1 => interval_cases v <;> interval_cases w <;> rfl
          | k + 2 => rfl
        simp only [D2, hj, hh, z]
        ring
      rw [e]
      exact W_add (W_add (W_smul _ (d2_mem e' n hn 0 0 (by omega) (by omega)))
        (W_smul _ (d2_mem e' n hn 0 1 (by omega) (by omega)))) (W_smul _ (d2_mem e' n hn 1 1 (by omega) (by omega)))
    · rintro r ⟨h0, h1, h2, h3⟩
      simp only [shapeAt]
      rw [shape_second c.q e' n hn r ⟨h0.le, h1.le, h2.le, h3.le⟩ c.rect hrect v w hv hw, val_ok]

theorem totpoly_mem (q : QD ℝ) (m : Nat) (κ : Nat → Nat → ℝ) :
    (fun p => totpoly m κ (F q p).1 (F q p).2) ∈ W m m := by
  unfold totpoly
  refine W_sum _ _ (fun a ha => W_sum _ _ (fun b hb => ?_))
  have ha := Finset.mem_range.1 ha
  have hb := Finset.mem_range.1 hb
  have := W_smul (κ a b) (W_mul (W_pow (Fx_mem q) a) (W_pow (Fy_mem q) b))
  simp only [mul_assoc]
  refine W_mono ?_ ?_ this <;> omega

/-- **C56 (exact matrices on parallelograms).** On a parallelogram (in particular an axis-parallel
rectangle) the entries of every bilinear form -- values, first or second derivatives of test and trial
function -- with polynomial kernel are the exact integrals, provided `deg ψ + deg φ + m + 1 ≤ 2n`. -/
theorem C56_exact_parallelogram (hrc : rule2 (n ^ 2) = .ok rc) (h5 : n ≤ 5) (hre : rule1 n1 = .ok re)
    (k : Kernel (Pt ℝ)) (S : Nat) (hS : sampleSize k = .ok S) (t u : Basis) (ht : ValidDer t.der)
    (hu : ValidDer u.der) (m : Nat) (hd : deg t.e + deg u.e + m + 1 ≤ 2 * n) (flag : Option Nat) (c : QCell)
    (hm : marked flag c.q.flags = true) (hc : ConvexCCW c.q) (hrect : c.rect = true → Upright c.q)
    (hx : hDx c.q = 0) (hy : hDy c.q = 0) (s : Nat) (κ : Nat → Nat → ℝ)
    (hk : ∀ x, k.eval S x s = totpoly m κ x.x x.y) (a i : Nat) (ha : a < nd2 t.e) (hi : i < nd2 u.e)
    (ψ φ : ℝ × ℝ → ℝ) (hψ : IsShape c.q t a ψ) (hφ : IsShape c.q u i φ) :
    evalBil k t u .dx flag rc re c a i s =
      .ok (∫ p in Quad.region c.q, totpoly m κ p.1 p.2 * ψ p * φ p) := by
  have h1 := order_le hrc
  rw [evalBil_eq hrc hre hS ht hu .dx flag c ha hi s]
  obtain ⟨G1, hG1, e1⟩ := shape_mem c hc hx hy hrect t ht a ha
  obtain ⟨G2, hG2, e2⟩ := shape_mem c hc hx hy hrect u hu i hi
  have s1 : ∀ r, InOpen r → val (shapeAt c t r a) = ψ (F c.q r) := fun r hr =>
    shapeAt_spec c hc hrect t ht a ha ψ hψ r hr
  have s2 : ∀ r, InOpen r → val (shapeAt c u r i) = φ (F c.q r) := fun r hr =>
    shapeAt_spec c hc hrect u hu i hi φ hφ r hr
  have hdet : ∀ r : Pt ℝ, Quad.det c.q r = Quad.det c.q ⟨0, 0⟩ := by
    intro r
    have a1 : jxs c.q r = jxs c.q ⟨0, 0⟩ := by
      simp only [jxs, hDx] at hx ⊢; linear_combination r.y * hx
    have a2 : jys c.q r = jys c.q ⟨0, 0⟩ := by
      simp only [jys, hDy] at hy ⊢; linear_combination r.y * hy
    have a3 : jxt c.q r = jxt c.q ⟨0, 0⟩ := by
      simp only [jxt, hDx] at hx ⊢; linear_combination r.x * hx
    have a4 : jyt c.q r = jyt c.q ⟨0, 0⟩ := by
      simp only [jyt, hDy] at hy ⊢; linear_combination r.x * hy
    simp only [Quad.det, a1, a2, a3, a4]
  refine congrArg Except.ok ((cell_sum hrc hm _ (fun p => totpoly m κ p.1 p.2 * ψ p * φ p) ?_).trans
    (quad_exact c.q hc n (2 * n - 1) h1 (by omega) (rule01_exact_le5 n h1 h5)
      (fun p => totpoly m κ p.1 p.2 * ψ p * φ p)
      (fun r => Quad.det c.q ⟨0, 0⟩ * (totpoly m κ (F c.q r).1 (F c.q r).2 * (G1 r * G2 r))) ?_ ?_))
  rotate_left
  · refine W_smul _ (W_mono ?_ ?_ (W_mul (totpoly_mem c.q m κ) (W_mul hG1 hG2))) <;> omega
  · intro r hr
    rw [← s1 r hr, ← s2 r hr, e1 r hr, e2 r hr, hdet]; ring
  · intro r w hr
    simp only
    rw [s1 r hr, s2 r hr, hk]
    simp only [F]; ring

/-- **C56 (exact convection matrices).** One first derivative, on any convex quadrilateral: the
determinant of the map cancels, and the entries are exact under the same condition as for mass
matrices. -/
theorem C56_exact_convection (hrc : rule2 (n ^ 2) = .ok rc) (h5 : n ≤ 5) (hre : rule1 n1 = .ok re)
    (k : Kernel (Pt ℝ)) (S : Nat) (hS : sampleSize k = .ok S) (e1 e2 : ET) (v : Nat) (hv : v < 2) (m : Nat)
    (hd : deg e1 + deg e2 + m + 2 ≤ 2 * n) (flag : Option Nat) (c : QCell)
    (hm : marked flag c.q.flags = true) (hc : ConvexCCW c.q) (hrect : c.rect = true → Upright c.q)
    (s : Nat) (κ : Nat → Nat → ℝ) (hk : ∀ x, k.eval S x s = totpoly m κ x.x x.y) (a i : Nat)
    (ha : a < nd2 e1) (hi : i < nd2 e2) (ψ φ : ℝ × ℝ → ℝ) (hψ : OnCell c.q e1 a ψ)
    (hφ : IsShape c.q ⟨e2, [1, v]⟩ i φ) :
    evalBil k ⟨e1, [0]⟩ ⟨e2, [1, v]⟩ .dx flag rc re c a i s =
      .ok (∫ p in Quad.region c.q, totpoly m κ p.1 p.2 * ψ p * φ p) := by
  have h1 := order_le hrc
  have hvd : ValidDer (Basis.mk e2 [1, v]).der := Or.inr (Or.inl ⟨v, hv, rfl⟩)
  have hv0 : ValidDer (Basis.mk e1 [0]).der := Or.inl rfl
  rw [evalBil_eq (t := ⟨e1, [0]⟩) (u := ⟨e2, [1, v]⟩) hrc hre hS hv0 hvd .dx flag c ha hi s]
  have s1 : ∀ r, InOpen r → val (shapeAt c ⟨e1, [0]⟩ r a) = ψ (F c.q r) := fun r hr =>
    shapeAt_spec c hc hrect ⟨e1, [0]⟩ hv0 a ha ψ hψ r hr
  have s2 : ∀ r, InOpen r → val (shapeAt c ⟨e2, [1, v]⟩ r i) = φ (F c.q r) := fun r hr =>
    shapeAt_spec c hc hrect ⟨e2, [1, v]⟩ hvd i hi φ hφ r hr
  have aff : ∀ a b d : ℝ, (fun r : ℝ × ℝ => a + b * r.1 + d * r.2) ∈ W 1 1 := fun a b d =>
    W_add (W_add (W_const 1 1 a) (W_smul b (W_fst 1))) (W_smul d (W_snd 1))
  have key : ∃ G ∈ W (deg e2 + 1) (deg e2 + 1), ∀ r, InOpen r → Quad.det c.q ⟨r.1, r.2⟩ * φ (F c.q r) = G r := by
    have hval : ∀ r, InOpen r → φ (F c.q r) = D1 c.q e2 i v r := by
      rintro r ⟨h0, h1, h2, h3⟩
      rw [← s2 r ⟨h0, h1, h2, h3⟩]
      simp only [shapeAt]
      rw [shape_first c.q e2 i hi r ⟨h0.le, h1.le, h2.le, h3.le⟩ c.rect hrect v hv none, val_ok]
    have hx1 : (fun r : ℝ × ℝ => jxs c.q ⟨r.1, r.2⟩) ∈ W 1 1 := by
      have := aff (c.q.v1.x - c.q.v0.x) 0 (hDx c.q)
      convert this using 1; funext r; simp only [jxs, hDx]; ring
    have hy1 : (fun r : ℝ × ℝ => jys c.q ⟨r.1, r.2⟩) ∈ W 1 1 := by
      have := aff (c.q.v1.y - c.q.v0.y) 0 (hDy c.q)
      convert this using 1; funext r; simp only [jys, hDy]; ring
    have hx2 : (fun r : ℝ × ℝ => jxt c.q ⟨r.1, r.2⟩) ∈ W 1 1 := by
      have := aff (c.q.v3.x - c.q.v0.x) (hDx c.q) 0
      convert this using 1; funext r; simp only [jxt, hDx]; ring
    have hy2 : (fun r : ℝ × ℝ => jyt c.q ⟨r.1, r.2⟩) ∈ W 1 1 := by
      have := aff (c.q.v3.y - c.q.v0.y) (hDy c.q) 0
      convert this using 1; funext r; simp only [jyt, hDy]; ring
    interval_cases v
    · refine ⟨fun r => Ns e2 i r * jyt c.q ⟨r.1, r.2⟩ + (-1) * (Nt e2 i r * jys c.q ⟨r.1, r.2⟩), ?_, ?_⟩
      · exact W_add (W_mul (Ns_mem e2 i hi) hy2) (W_smul _ (W_mul (Nt_mem e2 i hi) hy1))
      · intro r hr
        have hd := (C21_det_pos c.q hc ⟨r.1, r.2⟩ hr.1.le hr.2.1.le hr.2.2.1.le hr.2.2.2.le).ne'
        rw [hval r hr]
        simp only [D1, jacP2R, if_true]
        field_simp
    · refine ⟨fun r => Nt e2 i r * jxs c.q ⟨r.1, r.2⟩ + (-1) * (Ns e2 i r * jxt c.q ⟨r.1, r.2⟩), ?_, ?_⟩
      · exact W_add (W_mul (Nt_mem e2 i hi) hx1) (W_smul _ (W_mul (Ns_mem e2 i hi) hx2))
      · intro r hr
        have hd := (C21_det_pos c.q hc ⟨r.1, r.2⟩ hr.1.le hr.2.1.le hr.2.2.1.le hr.2.2.2.le).ne'
        rw [hval r hr]
        simp only [D1, jacP2R, one_ne_zero, if_false]
        field_simp
        ring
  obtain ⟨G, hG, eG⟩ := key
  refine congrArg Except.ok ((cell_sum hrc hm _ (fun p => totpoly m κ p.1 p.2 * ψ p * φ p) ?_).trans
    (quad_exact c.q hc n (2 * n - 1) h1 (by omega) (rule01_exact_le5 n h1 h5)
      (fun p => totpoly m κ p.1 p.2 * ψ p * φ p)
      (fun r => totpoly m κ (F c.q r).1 (F c.q r).2 * (val (phi2 e1 a r) * G r)) ?_ ?_))
  rotate_left
  · refine W_mono ?_ ?_ (W_mul (totpoly_mem c.q m κ) (W_mul (phi_mem e1 a ha) hG)) <;> omega
  · intro r hr
    rw [hψ r hr, ← eG r hr]; ring
  · intro r w hr
    simp only
    rw [s1 r hr, s2 r hr, hk]
    simp only [F]; ring

end

end Verif.Form
