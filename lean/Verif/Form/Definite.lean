import Verif.Form.Props

/-!
# C56: mass matrices are positive definite
-/

namespace Verif.Form

open Verif.Quad Verif.Fem Verif.Gauss Polynomial

/-- A polynomial of degree less than `n` that vanishes at the nodes of the `n`-point rule is zero. -/
theorem rule_zero (n : Nat) (h1 : 1 ≤ n) (h6 : n ≤ 6) (P : ℝ[X]) (hP : P.natDegree < n)
    (h : ∀ q ∈ rule01 n, P.eval q.1 = 0) (x : ℝ) : P.eval x = 0 := by
  by_cases h5 : n ≤ 5
  · have hex := rule01_exact_le5 n h1 h5 (P * P) (by
      refine le_trans natDegree_mul_le ?_; omega)
    have h0 : apply (rule01 n) (fun x => (P * P).eval x) = 0 := by
      unfold apply
      refine List.sum_eq_zero ?_
      simp only [List.mem_map]
      rintro y ⟨q, hq, rfl⟩
      rw [eval_mul, h q hq]; ring
    rw [h0] at hex
    have hz : ∀ c ∈ Set.Icc (0 : ℝ) 1, P.eval c = 0 := by
      intro c hc
      by_contra hne
      have := intervalIntegral.integral_pos (a := 0) (b := 1) (f := fun x => (P * P).eval x) zero_lt_one
        (P * P).continuous.continuousOn (fun x _ => by rw [eval_mul]; exact mul_self_nonneg _)
        ⟨c, hc, by rw [eval_mul]; exact mul_self_pos.2 hne⟩
      rw [← hex] at this
      exact lt_irrefl _ this
    have : P = 0 := by
      refine Polynomial.eq_zero_of_infinite_isRoot P ((Set.Icc_infinite (zero_lt_one (α := ℝ))).mono ?_)
      intro c hc
      exact hz c hc
    rw [this, eval_zero]
  · have : n = 6 := by omega
    subst this
    refine poly_zero P 5 (by omega) ((rule01 6).map (·.1)) ?_ ?_ ?_ x
    · simp only [rule01, raw, List.map_cons, List.map_nil]
      simp only [List.nodup_cons, List.mem_cons, List.not_mem_nil, or_false, not_or, not_false_eq_true,
        List.nodup_nil, and_true]
      norm_num
    · simp [rule01, raw]
    · intro y hy
      simp only [List.mem_map] at hy
      obtain ⟨q, hq, rfl⟩ := hy
      exact h q hq

theorem rule2_sq {m : Nat} {rc : List ((ℝ × ℝ) × ℝ)} (h : rule2 m = .ok rc) :
    ∃ n, 1 ≤ n ∧ n ≤ 6 ∧ m = n ^ 2 ∧ rc = tensor (rule01 n) := by
  obtain ⟨k, h1, h6, rfl⟩ := (C32_orders m).2.1 ⟨rc, h⟩
  unfold rule2 at h
  split_ifs at h with hm
  refine ⟨k, h1, h6, rfl, ?_⟩
  rw [← Except.ok.inj h, show Gauss.isqrt (k ^ 2) = k from Nat.sqrt_eq' k]

theorem sum_zero {α : Type} (l : List α) (f : α → ℝ) (h : ∀ p ∈ l, 0 ≤ f p) (h0 : (l.map f).sum = 0) :
    ∀ p ∈ l, f p = 0 := by
  induction l with
  | nil => simp
  | cons a l ih =>
    simp only [List.map_cons, List.sum_cons] at h0
    have h1 := h a (by simp)
    have h2 : 0 ≤ (l.map f).sum := List.sum_nonneg (by
      simp only [List.mem_map]; rintro y ⟨p, hp, rfl⟩; exact h p (by simp [hp]))
    intro p hp
    rcases List.mem_cons.1 hp with rfl | hp
    · linarith
    · exact ih (fun p hp => h p (by simp [hp])) (by linarith) p hp

/-- **C56 (positive definite mass matrix).** On a convex cell, for every element type, every positive
kernel and every tensor Gauss rule with more points per direction than the polynomial degree (the default
16-point rule serves all element types), the local mass matrix is positive definite. -/
theorem C56_mass_pd {n n1 : Nat} {rc : List ((ℝ × ℝ) × ℝ)} {re : List (ℝ × ℝ)} (hrc : rule2 (n ^ 2) = .ok rc)
    (hre : rule1 n1 = .ok re) (e : ET) (hn : deg e < n) (k : Kernel (Pt ℝ)) (S : Nat)
    (hS : sampleSize k = .ok S) (flag : Option Nat) (c : QCell) (hm : marked flag c.q.flags = true)
    (hc : ConvexCCW c.q) (s : Nat) (hk : ∀ x : Pt ℝ, (x.x, x.y) ∈ Quad.region c.q → 0 < k.eval S x s) (v : Nat → ℝ)
    (hv : ∃ a < nd2 e, v a ≠ 0) :
    0 < ∑ a ∈ Finset.range (nd2 e), ∑ i ∈ Finset.range (nd2 e),
      v a * val (evalBil k ⟨e, [0]⟩ ⟨e, [0]⟩ .dx flag rc re c a i s) * v i := by
  have hb : ValidDer (Basis.mk e [0]).der := Or.inl rfl
  refine lt_of_le_of_ne (C56_psd hrc hre k S hS ⟨e, [0]⟩ hb .dx flag c hc s (fun x hx => (hk x hx).le) v) ?_
  intro h0
  rw [bil_fields (t := ⟨e, [0]⟩) (u := ⟨e, [0]⟩) hrc hre hS hb hb] at h0
  obtain ⟨n', h1, h6, hn', hrc'⟩ := rule2_sq hrc
  have : n' = n := by
    have := Nat.pow_left_injective (n := 2) (by omega) hn'
    exact this.symm
  subst this
  have hq : qps .dx flag rc re c = points rc re c .cell := by simp [qps, regions, hm]
  rw [hq] at h0
  have hz : ∀ p ∈ points rc re c .cell,
      fieldAt c ⟨e, [0]⟩ v p.ref * fieldAt c ⟨e, [0]⟩ v p.ref * (p.w * k.eval S p.x s) = 0 :=
    sum_zero _ _ (fun p hp => mul_nonneg (mul_self_nonneg _)
      (mul_nonneg (points_weight hrc hre c hc .cell p hp) (hk _ (points_region hrc hre hc hp)).le)) h0.symm
  set g : ℝ × ℝ → ℝ := fun r => ∑ n ∈ Finset.range (nd2 e), v n * val (phi2 e n r) with hg
  have hnode : ∀ p ∈ rule01 n', ∀ q ∈ rule01 n', g (p.1, q.1) = 0 := by
    intro p hp q hq
    have hmem : ((p.1, q.1), p.2 * q.2) ∈ rc := by
      rw [hrc']
      simp only [tensor, List.mem_flatMap, List.mem_map]
      exact ⟨p, hp, q, hq, rfl⟩
    obtain ⟨w, a, b, d, f⟩ := (C32_weights2 _ rc hrc).2 _ hmem
    have hdet := C21_det_pos c.q hc ⟨p.1, q.1⟩ a.le b.le d.le f.le
    have hpt : (⟨(p.1, q.1), toPhys c.q ⟨p.1, q.1⟩, p.2 * q.2 * detJ c.q ⟨p.1, q.1⟩⟩ : QP) ∈
        points rc re c .cell := by
      simp only [points, List.mem_map]
      exact ⟨_, hmem, rfl⟩
    have h1 := hz _ hpt
    have hpos : 0 < p.2 * q.2 * detJ c.q ⟨p.1, q.1⟩ * k.eval S (toPhys c.q ⟨p.1, q.1⟩) s :=
      mul_pos (mul_pos w hdet) (hk _ (points_region hrc hre hc hpt))
    have h2 : fieldAt c ⟨e, [0]⟩ v (p.1, q.1) = 0 := by
      rcases mul_eq_zero.1 h1 with h | h
      · exact mul_self_eq_zero.1 h
      · exact absurd h hpos.ne'
    rw [← h2, hg, fieldAt]
    refine Finset.sum_congr rfl (fun m _ => ?_)
    have c1 : ¬ ¬ (0 ≤ p.1 ∧ 0 ≤ q.1) := not_not.2 ⟨a.le, d.le⟩
    have c2 : ¬ ¬ (p.1 ≤ 1 ∧ q.1 ≤ 1) := not_not.2 ⟨b.le, f.le⟩
    simp only [shapeAt, shape2]
    rw [if_neg c1, if_neg c2]
  have hx : ∀ q ∈ rule01 n', ∀ x, g (x, q.1) = 0 := by
    intro q hq x
    obtain ⟨P, hP, hE⟩ := interp_poly1 e v q.1
    have := rule_zero n' h1 h6 P (by omega) (fun p hp => by rw [← hE]; exact hnode p hp q hq) x
    rw [← hE] at this
    exact this
  have hxy : ∀ x y, g (x, y) = 0 := by
    intro x y
    obtain ⟨P, hP, hE⟩ := interp_poly2 e v x
    have := rule_zero n' h1 h6 P (by omega) (fun q hq => by rw [← hE]; exact hx q hq x) y
    rw [← hE] at this
    exact this
  obtain ⟨a, ha, hva⟩ := hv
  refine hva ?_
  rw [← C30_unisolvent e v a ha]
  unfold interp2
  rw [range_sum]
  exact hxy _ _

/-- The hypotheses are met: the default rule, a skew cell, the cubic element, the kernel 1. -/
example : ∃ rc re, rule2 16 = .ok rc ∧ rule1 4 = .ok re ∧ deg .Q3 < 4 ∧ ConvexCCW skewR ∧
    sampleSize (X := Pt ℝ) ⟨[⟨1, fun _ _ => 1⟩], fun l => l.headD 0⟩ = .ok 1 ∧
    ∀ x, 0 < (Kernel.mk [⟨1, fun (_ : Pt ℝ) _ => 1⟩] fun l => l.headD 0).eval 1 x 0 := by
  refine ⟨_, _, by unfold rule2; rw [if_pos (by decide)], by unfold rule1; rw [if_pos (by decide)],
    by decide, ?_, ?_, ?_⟩
  · simp only [ConvexCCW, skewR, tri]; norm_num
  · rw [C56_sample_size]; simp
  · intro x; simp [Kernel.eval]

end Verif.Form
