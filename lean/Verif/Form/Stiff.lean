import Verif.Form.Exact

/-!
# C56: the kernel of the stiffness matrix
-/

namespace Verif.Form

open Verif.Quad Verif.Fem Verif.Gauss

/-! ## Polynomials that vanish on a tensor grid -/

theorem W_slice1 {M N : Nat} {f : ℝ × ℝ → ℝ} (hf : f ∈ W M N) (y : ℝ) :
    ∃ P : Polynomial ℝ, P.natDegree ≤ M ∧ ∀ x, f (x, y) = P.eval x := by
  unfold W at hf
  induction hf using Submodule.span_induction with
  | mem f h =>
    obtain ⟨a, b, ha, hb, rfl⟩ := h
    refine ⟨Polynomial.C (y ^ b) * Polynomial.X ^ a, ?_, fun x => by simp [mul_comm]⟩
    exact (Polynomial.natDegree_C_mul_le _ _).trans (by simpa using ha)
  | zero => exact ⟨0, by simp, by simp⟩
  | add f g _ _ hf hg =>
    obtain ⟨P, hP, eP⟩ := hf
    obtain ⟨Q, hQ, eQ⟩ := hg
    exact ⟨P + Q, (Polynomial.natDegree_add_le _ _).trans (max_le hP hQ), fun x => by simp [eP, eQ]⟩
  | smul c f _ hf =>
    obtain ⟨P, hP, eP⟩ := hf
    exact ⟨Polynomial.C c * P, (Polynomial.natDegree_C_mul_le _ _).trans hP, fun x => by simp [eP]⟩

theorem W_slice2 {M N : Nat} {f : ℝ × ℝ → ℝ} (hf : f ∈ W M N) (x : ℝ) :
    ∃ P : Polynomial ℝ, P.natDegree ≤ N ∧ ∀ y, f (x, y) = P.eval y := by
  unfold W at hf
  induction hf using Submodule.span_induction with
  | mem f h =>
    obtain ⟨a, b, ha, hb, rfl⟩ := h
    refine ⟨Polynomial.C (x ^ a) * Polynomial.X ^ b, ?_, fun y => by simp⟩
    exact (Polynomial.natDegree_C_mul_le _ _).trans (by simpa using hb)
  | zero => exact ⟨0, by simp, by simp⟩
  | add f g _ _ hf hg =>
    obtain ⟨P, hP, eP⟩ := hf
    obtain ⟨Q, hQ, eQ⟩ := hg
    exact ⟨P + Q, (Polynomial.natDegree_add_le _ _).trans (max_le hP hQ), fun x => by simp [eP, eQ]⟩
  | smul c f _ hf =>
    obtain ⟨P, hP, eP⟩ := hf
    exact ⟨Polynomial.C c * P, (Polynomial.natDegree_C_mul_le _ _).trans hP, fun x => by simp [eP]⟩

/-- A polynomial of degree less than `n` in each variable that vanishes at the nodes of the `n`×`n` rule
vanishes everywhere. -/
theorem grid_zero {n N : Nat} (h1 : 1 ≤ n) (h6 : n ≤ 6) (hN : N < n) {f : ℝ × ℝ → ℝ} (hf : f ∈ W N N)
    (h : ∀ p ∈ rule01 n, ∀ q ∈ rule01 n, f (p.1, q.1) = 0) (r : ℝ × ℝ) : f r = 0 := by
  have hx : ∀ q ∈ rule01 n, ∀ x, f (x, q.1) = 0 := by
    intro q hq x
    obtain ⟨P, hP, hE⟩ := W_slice1 hf q.1
    rw [hE]
    exact rule_zero n h1 h6 P (by omega) (fun p hp => by rw [← hE]; exact h p hp q hq) x
  obtain ⟨P, hP, hE⟩ := W_slice2 hf r.1
  have := rule_zero n h1 h6 P (by omega) (fun q hq => by rw [← hE]; exact hx q hq r.1) r.2
  rw [← hE] at this
  exact this

/-- A finite element function with zero gradient has equal coefficients. -/
theorem const_of_grad (e : ET) (v : Nat → ℝ)
    (hs : ∀ r, ∑ a ∈ Finset.range (nd2 e), v a * Ns e a r = 0)
    (ht : ∀ r, ∑ a ∈ Finset.range (nd2 e), v a * Nt e a r = 0) :
    ∀ a < nd2 e, ∀ i < nd2 e, v a = v i := by
  set u : ℝ × ℝ → ℝ := fun r => ∑ a ∈ Finset.range (nd2 e), v a * val (phi2 e a r) with hu
  have d1 : ∀ x y, HasDerivAt (fun x => u (x, y)) 0 x := by
    intro x y
    have : HasDerivAt (fun x => ∑ a ∈ Finset.range (nd2 e), v a * val (phi2 e a (x, y)))
        (∑ a ∈ Finset.range (nd2 e), v a * Ns e a (x, y)) x :=
      HasDerivAt.fun_sum (fun a ha => ((C29_gradient2 e a (Finset.mem_range.1 ha) x y).1).const_mul (v a))
    rw [hs] at this
    exact this
  have d2 : ∀ x y, HasDerivAt (fun y => u (x, y)) 0 y := by
    intro x y
    have : HasDerivAt (fun y => ∑ a ∈ Finset.range (nd2 e), v a * val (phi2 e a (x, y)))
        (∑ a ∈ Finset.range (nd2 e), v a * Nt e a (x, y)) y :=
      HasDerivAt.fun_sum (fun a ha => ((C29_gradient2 e a (Finset.mem_range.1 ha) x y).2).const_mul (v a))
    rw [ht] at this
    exact this
  have c : ∀ r, u r = u (0, 0) := by
    intro r
    have e1 := is_const_of_deriv_eq_zero (f := fun x => u (x, r.2)) (fun x => (d1 x r.2).differentiableAt)
      (fun x => (d1 x r.2).deriv) r.1 0
    have e2 := is_const_of_deriv_eq_zero (f := fun y => u (0, y)) (fun y => (d2 0 y).differentiableAt)
      (fun y => (d2 0 y).deriv) r.2 0
    exact e1.trans e2
  intro a ha i hi
  rw [← C30_unisolvent e v a ha, ← C30_unisolvent e v i hi]
  unfold interp2
  rw [range_sum, range_sum]
  exact (c _).trans (c _).symm

section
variable {n n1 : Nat} {rc : List ((ℝ × ℝ) × ℝ)} {re : List (ℝ × ℝ)}

/-- **C56 (kernel of the stiffness matrix).** On a convex cell, for a positive kernel and a tensor rule
with more points per direction than the degree of the element, the energy
`vᵀ (∫ κ ∇ψ·∇φ) v` of a coefficient vector is zero exactly if all coefficients are equal. -/
theorem C56_stiffness_kernel (hrc : rule2 (n ^ 2) = .ok rc)
    (hre : rule1 n1 = .ok re) (e : ET) (hn : deg e < n) (k : Kernel (Pt ℝ)) (S : Nat)
    (hS : sampleSize k = .ok S) (flag : Option Nat) (c : QCell) (hm : marked flag c.q.flags = true)
    (hc : ConvexCCW c.q) (hrect : c.rect = true → Upright c.q) (s : Nat) (hk : ∀ x : Pt ℝ, (x.x, x.y) ∈ Quad.region c.q → 0 < k.eval S x s)
    (v : Nat → ℝ) :
    (∑ a ∈ Finset.range (nd2 e), ∑ i ∈ Finset.range (nd2 e),
      v a * (val (evalBil k ⟨e, [1, 0]⟩ ⟨e, [1, 0]⟩ .dx flag rc re c a i s) +
        val (evalBil k ⟨e, [1, 1]⟩ ⟨e, [1, 1]⟩ .dx flag rc re c a i s)) * v i = 0) ↔
    ∀ a < nd2 e, ∀ i < nd2 e, v a = v i := by
  have hb0 : ValidDer (Basis.mk e [1, 0]).der := Or.inr (Or.inl ⟨0, by omega, rfl⟩)
  have hb1 : ValidDer (Basis.mk e [1, 1]).der := Or.inr (Or.inl ⟨1, by omega, rfl⟩)
  have split : (∑ a ∈ Finset.range (nd2 e), ∑ i ∈ Finset.range (nd2 e),
      v a * (val (evalBil k ⟨e, [1, 0]⟩ ⟨e, [1, 0]⟩ .dx flag rc re c a i s) +
        val (evalBil k ⟨e, [1, 1]⟩ ⟨e, [1, 1]⟩ .dx flag rc re c a i s)) * v i) =
      (∑ a ∈ Finset.range (nd2 e), ∑ i ∈ Finset.range (nd2 e),
        v a * val (evalBil k ⟨e, [1, 0]⟩ ⟨e, [1, 0]⟩ .dx flag rc re c a i s) * v i) +
      ∑ a ∈ Finset.range (nd2 e), ∑ i ∈ Finset.range (nd2 e),
        v a * val (evalBil k ⟨e, [1, 1]⟩ ⟨e, [1, 1]⟩ .dx flag rc re c a i s) * v i := by
    simp only [mul_add, add_mul, Finset.sum_add_distrib]
  rw [split]
  have p0 := C56_psd hrc hre k S hS ⟨e, [1, 0]⟩ hb0 .dx flag c hc s (fun x hx => (hk x hx).le) v
  have p1 := C56_psd hrc hre k S hS ⟨e, [1, 1]⟩ hb1 .dx flag c hc s (fun x hx => (hk x hx).le) v
  have q0 := bil_fields (t := ⟨e, [1, 0]⟩) (u := ⟨e, [1, 0]⟩) hrc hre hS hb0 hb0 .dx flag c s v v
  have q1 := bil_fields (t := ⟨e, [1, 1]⟩) (u := ⟨e, [1, 1]⟩) hrc hre hS hb1 hb1 .dx flag c s v v
  simp only at p0 p1 q0 q1
  constructor
  · intro h0
    obtain ⟨n', h1, h6, hn', hrc'⟩ := rule2_sq hrc
    obtain rfl : n' = n := (Nat.pow_left_injective (n := 2) (by omega) hn').symm
    have z0 : _ = (0 : ℝ) := q0.symm.trans (by linarith)
    have z1 : _ = (0 : ℝ) := q1.symm.trans (by linarith)
    have hq : qps .dx flag rc re c = points rc re c .cell := by simp [qps, regions, hm]
    rw [hq] at z0 z1
    have w0 := sum_zero _ _ (fun p hp => mul_nonneg (mul_self_nonneg _)
      (mul_nonneg (points_weight hrc hre c hc .cell p hp) (hk _ (points_region hrc hre hc hp)).le)) z0
    have w1 := sum_zero _ _ (fun p hp => mul_nonneg (mul_self_nonneg _)
      (mul_nonneg (points_weight hrc hre c hc .cell p hp) (hk _ (points_region hrc hre hc hp)).le)) z1
    have key : ∀ p ∈ rule01 n', ∀ q ∈ rule01 n',
        ∑ a ∈ Finset.range (nd2 e), v a * Ns e a (p.1, q.1) = 0 ∧
        ∑ a ∈ Finset.range (nd2 e), v a * Nt e a (p.1, q.1) = 0 := by
      intro p hp q hq
      have hmem : ((p.1, q.1), p.2 * q.2) ∈ rc := by
        rw [hrc']
        simp only [tensor, List.mem_flatMap, List.mem_map]
        exact ⟨p, hp, q, hq, rfl⟩
      obtain ⟨w, a, b, d, f⟩ := (C32_weights2 _ rc hrc).2 _ hmem
      have hdet := C21_det_pos c.q hc ⟨p.1, q.1⟩ a.le b.le d.le f.le
      have hpt : (⟨(p.1, q.1), toPhys c.q ⟨p.1, q.1⟩, p.2 * q.2 * detJ c.q ⟨p.1, q.1⟩⟩ : QP) ∈
          points rc re c .cell := by
        simp only [points, List.mem_map]
        exact ⟨_, hmem, rfl⟩
      have hpos : 0 < p.2 * q.2 * detJ c.q ⟨p.1, q.1⟩ * k.eval S (toPhys c.q ⟨p.1, q.1⟩) s :=
        mul_pos (mul_pos w hdet) (hk _ (points_region hrc hre hc hpt))
      have f0 : fieldAt c ⟨e, [1, 0]⟩ v (p.1, q.1) = 0 := by
        rcases mul_eq_zero.1 (w0 _ hpt) with h | h
        · exact mul_self_eq_zero.1 h
        · exact absurd h hpos.ne'
      have f1 : fieldAt c ⟨e, [1, 1]⟩ v (p.1, q.1) = 0 := by
        rcases mul_eq_zero.1 (w1 _ hpt) with h | h
        · exact mul_self_eq_zero.1 h
        · exact absurd h hpos.ne'
      set As := ∑ a ∈ Finset.range (nd2 e), v a * Ns e a (p.1, q.1) with hAs
      set At := ∑ a ∈ Finset.range (nd2 e), v a * Nt e a (p.1, q.1) with hAt
      set J := jacP2R c.q ⟨p.1, q.1⟩ with hJ
      have g0 : As * J.1.1 + At * J.2.1 = 0 := by
        rw [← f0, fieldAt, hAs, hAt, Finset.sum_mul, Finset.sum_mul, ← Finset.sum_add_distrib]
        refine Finset.sum_congr rfl (fun m hm => ?_)
        simp only [shapeAt]
        rw [shape_first c.q e m (Finset.mem_range.1 hm) (p.1, q.1) ⟨a.le, b.le, d.le, f.le⟩ c.rect hrect 0
          (by omega) none, val_ok]
        simp only [D1, if_true]
        ring
      have g1 : As * J.1.2 + At * J.2.2 = 0 := by
        rw [← f1, fieldAt, hAs, hAt, Finset.sum_mul, Finset.sum_mul, ← Finset.sum_add_distrib]
        refine Finset.sum_congr rfl (fun m hm => ?_)
        simp only [shapeAt]
        rw [shape_first c.q e m (Finset.mem_range.1 hm) (p.1, q.1) ⟨a.le, b.le, d.le, f.le⟩ c.rect hrect 1
          (by omega) none, val_ok]
        simp only [D1, one_ne_zero, if_false]
        ring
      have hD := hdet.ne'
      simp only [hJ, jacP2R] at g0 g1
      set D := Quad.det c.q ⟨p.1, q.1⟩ with hDD
      have hDe : D = jxs c.q ⟨p.1, q.1⟩ * jyt c.q ⟨p.1, q.1⟩ - jxt c.q ⟨p.1, q.1⟩ * jys c.q ⟨p.1, q.1⟩ := by
        rw [hDD, Quad.det]
      have g0' : As * jyt c.q ⟨p.1, q.1⟩ - At * jys c.q ⟨p.1, q.1⟩ = 0 := by
        field_simp at g0; linarith
      have g1' : -(As * jxt c.q ⟨p.1, q.1⟩) + At * jxs c.q ⟨p.1, q.1⟩ = 0 := by
        field_simp at g1; linarith
      constructor
      · have : As * D = 0 := by
          rw [hDe]; linear_combination jxs c.q ⟨p.1, q.1⟩ * g0' + jys c.q ⟨p.1, q.1⟩ * g1'
        exact (mul_eq_zero.1 this).resolve_right hD
      · have : At * D = 0 := by
          rw [hDe]; linear_combination jxt c.q ⟨p.1, q.1⟩ * g0' + jyt c.q ⟨p.1, q.1⟩ * g1'
        exact (mul_eq_zero.1 this).resolve_right hD
    refine const_of_grad e v ?_ ?_
    · refine grid_zero h1 h6 hn (W_sum _ _ (fun a ha => W_smul (v a) (Ns_mem e a (Finset.mem_range.1 ha))))
        (fun p hp q hq => (key p hp q hq).1)
    · refine grid_zero h1 h6 hn (W_sum _ _ (fun a ha => W_smul (v a) (Nt_mem e a (Finset.mem_range.1 ha))))
        (fun p hp q hq => (key p hp q hq).2)
  · intro hv
    have z : ∀ b : Basis, ValidDer b.der → b.e = e → b.der ≠ [0] → ∑ a ∈ Finset.range (nd2 e),
        ∑ i ∈ Finset.range (nd2 e), v a * val (evalBil k b b .dx flag rc re c a i s) * v i = 0 := by
      intro b hb he hne
      refine Finset.sum_eq_zero (fun a ha => ?_)
      have ha := Finset.mem_range.1 ha
      have := C56_constants_derivative hrc hre k S hS b b hb hb hne .dx flag c a (he ▸ ha) s
      rw [he] at this
      calc _ = ∑ i ∈ Finset.range (nd2 e), v a * v a * val (evalBil k b b .dx flag rc re c a i s) := by
            refine Finset.sum_congr rfl (fun i hi => ?_)
            rw [hv a ha i (Finset.mem_range.1 hi)]; ring
        _ = 0 := by rw [← Finset.mul_sum, this, mul_zero]
    rw [z ⟨e, [1, 0]⟩ hb0 rfl (by simp), z ⟨e, [1, 1]⟩ hb1 rfl (by simp), add_zero]

end

end Verif.Form
