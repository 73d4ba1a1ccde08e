import Verif.Gauss.Spaces
import Verif.OneD.Props

/-! # C33: mapped and scaled rules -/

namespace Verif.Gauss

open MeasureTheory Polynomial

/-! ### Intervals -/

theorem map1_exact (n N : Nat) (h : Exact (rule01 n) N) (d : OneD.Itv ℝ) (P : ℝ[X]) (hP : P.natDegree ≤ N) :
    apply (map1 d (rule01 n)) (fun x => P.eval x) = ∫ x in d.lo..d.hi, P.eval x := by
  have hd : (P.comp (C d.lo + C (d.hi - d.lo) * X : ℝ[X])).natDegree ≤ N := by
    refine le_trans natDegree_comp_le ?_
    have : (C d.lo + C (d.hi - d.lo) * X : ℝ[X]).natDegree ≤ 1 := by compute_degree
    calc _ ≤ P.natDegree * 1 := Nat.mul_le_mul_left _ this
      _ ≤ N := by omega
  have e1 : apply (map1 d (rule01 n)) (fun x => P.eval x) =
      (d.hi - d.lo) * apply (rule01 n) (fun x => (P.comp (C d.lo + C (d.hi - d.lo) * X)).eval x) := by
    rw [← apply_smul]
    simp only [apply, map1, OneD.toPhys, OneD.jacR2P, List.map_map, Function.comp_def, eval_comp, eval_add, eval_C,
      eval_mul, eval_X]
    congr 1
    apply List.map_congr_left
    intro q _
    ring
  rw [e1, h _ hd]
  by_cases hz : d.hi - d.lo = 0
  · have : d.hi = d.lo := by linarith
    rw [this]
    simp
  · simp only [eval_comp, eval_add, eval_C, eval_mul, eval_X]
    have h3 : ∀ x : ℝ, d.lo + (d.hi - d.lo) * x = (d.hi - d.lo) * x + d.lo := fun x => by ring
    simp only [h3]
    rw [intervalIntegral.integral_comp_mul_add (fun y => P.eval y) hz d.lo, smul_eq_mul]
    rw [← mul_assoc, mul_inv_cancel₀ hz, one_mul]
    congr 1 <;> ring

/-- A rule mapped to an interval is exact for the polynomials on that interval. -/
theorem C33_interval (n : Nat) (h1 : 1 ≤ n) (h5 : n ≤ 5) (d : OneD.Itv ℝ) : ∃ r, rule1 n = .ok r ∧
    ∀ P : ℝ[X], P.natDegree ≤ 2 * n - 1 →
      ((map1 d r).map (fun q => q.2 * P.eval q.1)).sum = ∫ x in d.lo..d.hi, P.eval x := by
  refine ⟨rule01 n, ?_, map1_exact n _ (rule01_exact_le5 n h1 h5) d⟩
  unfold rule1
  rw [if_pos]
  interval_cases n <;> decide

/-! ### Half-edges -/

/-- A polynomial in two variables of total degree at most `m`. -/
noncomputable def totpoly (m : Nat) (c : Nat → Nat → ℝ) (x y : ℝ) : ℝ :=
  ∑ a ∈ Finset.range (m + 1), ∑ b ∈ Finset.range (m + 1 - a), c a b * x ^ a * y ^ b

/-- A rule mapped to a half-edge from `a` to `b` gives the line integral (with arc length) of polynomials of total degree
at most `2n-1`. -/
theorem C33_half_edge (n : Nat) (h1 : 1 ≤ n) (h5 : n ≤ 5) (a b : Quad.Pt ℝ) : ∃ r, rule1 n = .ok r ∧
    ∀ c : Nat → Nat → ℝ,
      ((mapE a b r).map (fun q => q.2 * totpoly (2 * n - 1) c q.1.x q.1.y)).sum =
      ∫ t in (0 : ℝ)..1, totpoly (2 * n - 1) c (a.x + t * (b.x - a.x)) (a.y + t * (b.y - a.y)) *
        √((b.x - a.x) ^ 2 + (b.y - a.y) ^ 2) := by
  refine ⟨rule01 n, by unfold rule1; rw [if_pos]; interval_cases n <;> decide, fun c => ?_⟩
  have hex := rule01_exact_le5 n h1 h5
  generalize 2 * n - 1 = N at *
  let P : ℝ[X] := ∑ i ∈ Finset.range (N + 1), ∑ j ∈ Finset.range (N + 1 - i),
    C (c i j) * (C a.x + C (b.x - a.x) * X) ^ i * (C a.y + C (b.y - a.y) * X) ^ j
  have hP : ∀ t, P.eval t = totpoly N c (a.x + t * (b.x - a.x)) (a.y + t * (b.y - a.y)) := by
    intro t
    simp only [P, totpoly, eval_finsetSum, eval_mul, eval_pow, eval_add, eval_C, eval_X]
    refine Finset.sum_congr rfl (fun i _ => Finset.sum_congr rfl (fun j _ => ?_))
    rw [mul_comm t, mul_comm t]
  have hd : P.natDegree ≤ N := by
    refine natDegree_sum_le_of_forall_le _ _ (fun i hi => natDegree_sum_le_of_forall_le _ _ (fun j hj => ?_))
    have hi' := Finset.mem_range.1 hi
    have hj' := Finset.mem_range.1 hj
    have l1 : (C a.x + C (b.x - a.x) * X : ℝ[X]).natDegree ≤ 1 := by compute_degree
    have l2 : (C a.y + C (b.y - a.y) * X : ℝ[X]).natDegree ≤ 1 := by compute_degree
    have p1 := natDegree_pow_le_of_le i l1
    have p2 := natDegree_pow_le_of_le j l2
    have := natDegree_mul_le_of_le (natDegree_mul_le_of_le (natDegree_C (c i j)).le p1) p2
    omega
  rw [intervalIntegral.integral_mul_const]
  simp only [← hP]
  rw [← hex P hd, mul_comm, ← apply_smul]
  simp only [apply, mapE, List.map_map, Function.comp_def]
  congr 1
  apply List.map_congr_left
  intro q _
  rw [hP]
  ring

/-! ### Quadrilaterals -/

theorem Fx_mem (q : Quad.QD ℝ) : (fun p => (Quad.F q p).1) ∈ W 1 1 := by
  have e : (fun p => (Quad.F q p).1) = fun p : ℝ × ℝ => q.v0.x + (q.v1.x - q.v0.x) * p.1 + ((q.v3.x - q.v0.x) * p.2 +
      (q.v0.x - q.v1.x + q.v2.x - q.v3.x) * (p.1 ^ 1 * p.2 ^ 1)) := by
    funext p; simp only [Quad.F, Quad.toPhys]; ring
  rw [e]
  exact W_add (W_add (W_const _ _ _) (W_smul _ (W_fst _))) (W_add (W_smul _ (W_snd _)) (W_smul _ (mono_mem 1 1 1 1 le_rfl le_rfl)))

theorem Fy_mem (q : Quad.QD ℝ) : (fun p => (Quad.F q p).2) ∈ W 1 1 := by
  have e : (fun p => (Quad.F q p).2) = fun p : ℝ × ℝ => q.v0.y + (q.v1.y - q.v0.y) * p.1 + ((q.v3.y - q.v0.y) * p.2 +
      (q.v0.y - q.v1.y + q.v2.y - q.v3.y) * (p.1 ^ 1 * p.2 ^ 1)) := by
    funext p; simp only [Quad.F, Quad.toPhys]; ring
  rw [e]
  exact W_add (W_add (W_const _ _ _) (W_smul _ (W_fst _))) (W_add (W_smul _ (W_snd _)) (W_smul _ (mono_mem 1 1 1 1 le_rfl le_rfl)))

theorem detJ_eq (q : Quad.QD ℝ) (r : Quad.Pt ℝ) : detJ q r = Quad.det q r := rfl

theorem det_mem (q : Quad.QD ℝ) : (fun p : ℝ × ℝ => Quad.det q ⟨p.1, p.2⟩) ∈ W 1 1 := by
  have e : (fun p : ℝ × ℝ => Quad.det q ⟨p.1, p.2⟩) = fun p : ℝ × ℝ =>
      ((q.v1.x - q.v0.x) * (q.v3.y - q.v0.y) - (q.v3.x - q.v0.x) * (q.v1.y - q.v0.y)) +
      ((q.v1.x - q.v0.x) * Quad.hDy q - Quad.hDx q * (q.v1.y - q.v0.y)) * p.1 +
      (Quad.hDx q * (q.v3.y - q.v0.y) - (q.v3.x - q.v0.x) * Quad.hDy q) * p.2 := by
    funext p
    simp only [Quad.det, Quad.jxs, Quad.jxt, Quad.jys, Quad.jyt, Quad.hDx, Quad.hDy]; ring
  rw [e]
  exact W_add (W_add (W_const _ _ _) (W_smul _ (W_fst _))) (W_smul _ (W_snd _))

theorem pull_mem (q : Quad.QD ℝ) (m : Nat) (c : Nat → Nat → ℝ) :
    (fun p => Quad.det q ⟨p.1, p.2⟩ * totpoly m c (Quad.F q p).1 (Quad.F q p).2) ∈ W (m + 1) (m + 1) := by
  rw [Nat.add_comm]
  refine W_mul (det_mem q) ?_
  unfold totpoly
  refine W_sum _ _ (fun a ha => W_sum _ _ (fun b hb => ?_))
  have ha' := Finset.mem_range.1 ha
  have hb' := Finset.mem_range.1 hb
  have h1 := W_pow (Fx_mem q) a
  have h2 := W_pow (Fy_mem q) b
  have h := W_smul (c a b) (W_mul h1 h2)
  have h' := W_mono (M' := m) (N' := m) (by omega) (by omega) h
  convert h' using 2
  ring

theorem apply_map2 (q : Quad.QD ℝ) (r : List ((ℝ × ℝ) × ℝ)) (f : ℝ → ℝ → ℝ) :
    apply (map2 q r) (fun p => f p.x p.y) = apply r (fun p => Quad.det q ⟨p.1, p.2⟩ * f (Quad.F q p).1 (Quad.F q p).2) := by
  simp only [apply, map2, List.map_map, Function.comp_def, detJ_eq]
  congr 1
  apply List.map_congr_left
  intro p _
  simp only [Quad.F]
  ring

theorem map2_exact (q : Quad.QD ℝ) (hq : Quad.ConvexCCW q) (r : List (ℝ × ℝ)) (m : Nat) (h : Exact r (m + 1))
    (c : Nat → Nat → ℝ) :
    apply (map2 q (tensor r)) (fun p => totpoly m c p.x p.y) = ∫ p in Quad.region q, totpoly m c p.1 p.2 := by
  rw [apply_map2 q (tensor r) (totpoly m c), tensor_exact_W r (m + 1) h (pull_mem q m c),
    Quad.C21_change_of_variables q hq (fun p => totpoly m c p.1 p.2)]
  rfl

/-- A rule with `n^2` points mapped to a convex quadrilateral gives the integral over the cell of every polynomial
of total degree at most `2n-2`. -/
theorem C33_quadrilateral (n : Nat) (h1 : 1 ≤ n) (h5 : n ≤ 5) (q : Quad.QD ℝ) (hq : Quad.ConvexCCW q) :
    ∃ r, rule2 (n ^ 2) = .ok r ∧ ∀ c : Nat → Nat → ℝ,
      ((map2 q r).map (fun p => p.2 * totpoly (2 * n - 2) c p.1.x p.1.y)).sum =
        ∫ p in Quad.region q, totpoly (2 * n - 2) c p.1 p.2 := by
  refine ⟨tensor (rule01 n), ?_, ?_⟩
  · unfold rule2
    rw [show isqrt (n ^ 2) = n from Nat.sqrt_eq' n, if_pos]
    interval_cases n <;> decide
  · refine map2_exact q hq _ _ ?_
    have := rule01_exact_le5 n h1 h5
    rwa [show 2 * n - 1 = 2 * n - 2 + 1 by omega] at this

/-- The rectangle `[x0,x1] x [y0,y1]`. -/
def rect (x0 x1 y0 y1 : ℝ) (fl : Finset Nat) : Quad.QD ℝ := ⟨⟨x0, y0⟩, ⟨x1, y0⟩, ⟨x1, y1⟩, ⟨x0, y1⟩, fl⟩

theorem rect_region (x0 x1 y0 y1 : ℝ) (hx : x0 < x1) (hy : y0 < y1) (fl : Finset Nat) :
    Quad.region (rect x0 x1 y0 y1 fl) = Set.Icc x0 x1 ×ˢ Set.Icc y0 y1 := by
  ext p
  simp only [Quad.region, Set.mem_setOf_eq, Quad.contains_iff, Quad.left, rect, Set.mem_prod, Set.mem_Icc, neg_zero]
  constructor
  · rintro ⟨a, b, c, d⟩
    refine ⟨⟨?_, ?_⟩, ?_, ?_⟩ <;> nlinarith
  · rintro ⟨⟨a, b⟩, c, d⟩
    refine ⟨?_, ?_, ?_, ?_⟩ <;> nlinarith

theorem rect_convex (x0 x1 y0 y1 : ℝ) (hx : x0 < x1) (hy : y0 < y1) (fl : Finset Nat) :
    Quad.ConvexCCW (rect x0 x1 y0 y1 fl) := by
  simp only [Quad.ConvexCCW, Quad.tri, rect]
  have := mul_pos (sub_pos.2 hx) (sub_pos.2 hy)
  refine ⟨?_, ?_, ?_, ?_⟩ <;> linarith

/-- On rectangles the degree in each variable may be up to `2n-1`. -/
theorem C33_rectangle (n : Nat) (h1 : 1 ≤ n) (h5 : n ≤ 5) (x0 x1 y0 y1 : ℝ) (hx : x0 < x1) (hy : y0 < y1)
    (fl : Finset Nat) :
    ∃ r, rule2 (n ^ 2) = .ok r ∧ ∀ c : Nat → Nat → ℝ,
      ((map2 (rect x0 x1 y0 y1 fl) r).map (fun p => p.2 * bipoly (2 * n - 1) c p.1.x p.1.y)).sum =
        ∫ p in Set.Icc x0 x1 ×ˢ Set.Icc y0 y1, bipoly (2 * n - 1) c p.1 p.2 := by
  refine ⟨tensor (rule01 n), ?_, fun c => ?_⟩
  · unfold rule2
    rw [show isqrt (n ^ 2) = n from Nat.sqrt_eq' n, if_pos]
    interval_cases n <;> decide
  · have hex := rule01_exact_le5 n h1 h5
    generalize 2 * n - 1 = N at *
    rw [← rect_region x0 x1 y0 y1 hx hy fl]
    have e := Quad.C21_change_of_variables _ (rect_convex x0 x1 y0 y1 hx hy fl) (fun p => bipoly N c p.1 p.2)
    rw [e]
    have hdet : ∀ p : ℝ × ℝ, Quad.det (rect x0 x1 y0 y1 fl) ⟨p.1, p.2⟩ = (x1 - x0) * (y1 - y0) := by
      intro p; simp only [Quad.det, Quad.jxs, Quad.jyt, Quad.jxt, Quad.jys, rect]; ring
    have hF : ∀ p : ℝ × ℝ, Quad.F (rect x0 x1 y0 y1 fl) p = (x0 + (x1 - x0) * p.1, y0 + (y1 - y0) * p.2) := by
      intro p; simp only [Quad.F, Quad.toPhys, rect]; ext <;> ring
    have hm : (fun p => Quad.det (rect x0 x1 y0 y1 fl) ⟨p.1, p.2⟩ *
        bipoly N c (Quad.F (rect x0 x1 y0 y1 fl) p).1 (Quad.F (rect x0 x1 y0 y1 fl) p).2) ∈ W N N := by
      simp only [hdet, hF]
      refine W_smul _ ?_
      unfold bipoly
      refine W_sum _ _ (fun a ha => W_sum _ _ (fun b hb => ?_))
      have ha' := Finset.mem_range.1 ha
      have hb' := Finset.mem_range.1 hb
      have h1 := W_pow (W_add (W_const 1 0 x0) (W_smul (x1 - x0) (W_fst 0))) a
      have h2 := W_pow (W_add (W_const 0 1 y0) (W_smul (y1 - y0) (W_snd 0))) b
      have h := W_smul (c a b) (W_mul h1 h2)
      have h' := W_mono (M' := N) (N' := N) (by omega) (by omega) h
      convert h' using 2
      ring
    have := apply_map2 (rect x0 x1 y0 y1 fl) (tensor (rule01 n)) (bipoly N c)
    rw [tensor_exact_W _ N hex hm] at this
    exact this

/-- The mapped weights sum to the area of the cell , for every quadrilateral. -/
theorem C33_area (n : Nat) (h1 : 1 ≤ n) (h5 : n ≤ 5) (q : Quad.QD ℝ) :
    ∃ r, rule2 (n ^ 2) = .ok r ∧ ((map2 q r).map (·.2)).sum = q.area := by
  refine ⟨tensor (rule01 n), ?_, ?_⟩
  · unfold rule2
    rw [show isqrt (n ^ 2) = n from Nat.sqrt_eq' n, if_pos]
    interval_cases n <;> decide
  · have h := apply_map2 q (tensor (rule01 n)) (fun _ _ => 1)
    simp only [mul_one] at h
    have hex := rule01_exact_le5 n h1 h5
    have hm : (fun p : ℝ × ℝ => Quad.det q ⟨p.1, p.2⟩) ∈ W (2 * n - 1) (2 * n - 1) :=
      W_mono (by omega) (by omega) (det_mem q)
    rw [tensor_exact_W _ _ hex hm] at h
    simp only [apply, mul_one] at h
    rw [h]
    have e : (fun p : ℝ × ℝ => Quad.det q ⟨p.1, p.2⟩) = fun p : ℝ × ℝ =>
      (((q.v1.x - q.v0.x) * (q.v3.y - q.v0.y) - (q.v3.x - q.v0.x) * (q.v1.y - q.v0.y)) * (p.1 ^ 0 * p.2 ^ 0) +
      ((q.v1.x - q.v0.x) * Quad.hDy q - Quad.hDx q * (q.v1.y - q.v0.y)) * (p.1 ^ 1 * p.2 ^ 0)) +
      (Quad.hDx q * (q.v3.y - q.v0.y) - (q.v3.x - q.v0.x) * Quad.hDy q) * (p.1 ^ 0 * p.2 ^ 1) := by
      funext p
      simp only [Quad.det, Quad.jxs, Quad.jxt, Quad.jys, Quad.jyt, Quad.hDx, Quad.hDy]; ring
    rw [e, integral_add (cont_int (by fun_prop)) (cont_int (by fun_prop)),
      integral_add (cont_int (by fun_prop)) (cont_int (by fun_prop)), integral_const_mul, integral_const_mul,
      integral_const_mul, mono_int, mono_int, mono_int, integral_pow, integral_pow]
    simp only [Quad.QD.area, Quad.QD.edges, List.foldl, Quad.hDx, Quad.hDy]
    norm_num
    ring

end Verif.Gauss
