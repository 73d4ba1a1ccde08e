import Verif.Ell.Forms

/-!
# The lumped mass is positive

The integral of every shape function over a convex cell is positive.
-/

set_option linter.unusedSectionVars false

namespace Verif.Ell
open Verif.Mesh Verif.Dof Verif.Quad Verif.Fem Verif.Form Verif.Asm Verif.Phys Verif.Gal Verif.Sum Verif.Dir Verif.Gauss Matrix Polynomial

theorem int4 (a b c d : ℝ) (p q r s : ℕ) : ∫ x in (0:ℝ)..1, (a * x ^ p + b * x ^ q + c * x ^ r + d * x ^ s) =
    a / (p + 1) + b / (q + 1) + c / (r + 1) + d / (s + 1) := by
  have I : ∀ f : ℝ → ℝ, Continuous f → IntervalIntegrable f MeasureTheory.volume 0 1 := fun f hf => hf.intervalIntegrable _ _
  rw [intervalIntegral.integral_add (I _ (by fun_prop)) (I _ (by fun_prop)), intervalIntegral.integral_add (I _ (by fun_prop)) (I _ (by fun_prop)),
    intervalIntegral.integral_add (I _ (by fun_prop)) (I _ (by fun_prop))]
  simp
  ring

/-- The moments of the one dimensional shape functions. -/
theorem moments {n : Nat} (h5 : n ≤ 5) (e : ET) (hn : deg e < n) {i : Nat} (hi : i < np e) :
    0 < apply (rule01 n) (tb (pTab e) i) ∧ 0 ≤ apply (rule01 n) (fun x => x * tb (pTab e) i x) ∧
      apply (rule01 n) (fun x => x * tb (pTab e) i x) ≤ apply (rule01 n) (tb (pTab e) i) := by
  have hex := rule01_exact_le5 n (by omega) h5
  have key : ∀ (P : ℝ[X]) (f : ℝ → ℝ) (a b : ℝ), P.natDegree + 1 ≤ 2 * n - 1 → (∀ x, f x = P.eval x) → (∫ x in (0:ℝ)..1, P.eval x) = a →
      (∫ x in (0:ℝ)..1, x * P.eval x) = b → 0 < a → 0 ≤ b → b ≤ a →
      0 < apply (rule01 n) f ∧ 0 ≤ apply (rule01 n) (fun x => x * f x) ∧ apply (rule01 n) (fun x => x * f x) ≤ apply (rule01 n) f := by
    intro P f a b hP hf ha hb h1 h2 h3
    have e1 : apply (rule01 n) f = a := by
      rw [← ha, ← hex P (by omega)]
      exact congrArg _ (_root_.funext hf)
    have e2 : apply (rule01 n) (fun x => x * f x) = b := by
      rw [← hb]
      have := hex (X * P) (by refine natDegree_mul_le.trans ?_; rw [natDegree_X]; omega)
      simp only [eval_mul, eval_X] at this
      rw [← this]
      exact congrArg _ (_root_.funext (fun x => by rw [hf]))
    rw [e1, e2]
    exact ⟨h1, h2, h3⟩
  obtain ⟨P, hd, hP⟩ := tb_poly e i hi
  obtain ⟨a, b, c, d, hc, h1, h2, h3⟩ : ∃ a b c d : ℝ, (∀ x, tb (pTab e) i x = a * x ^ 3 + b * x ^ 2 + c * x + d) ∧ 0 < a / 4 + b / 3 + c / 2 + d ∧
      0 ≤ a / 5 + b / 4 + c / 3 + d / 2 ∧ a / 5 + b / 4 + c / 3 + d / 2 ≤ a / 4 + b / 3 + c / 2 + d := by
    refine ⟨((pc e).getD i 0).1, ((pc e).getD i 0).2.1, ((pc e).getD i 0).2.2.1, ((pc e).getD i 0).2.2.2, fun x => ?_, ?_⟩
    · cases e <;> simp only [np, deg] at hi <;> interval_cases i <;> simp [tb, pTab, pc] <;> ring
    · cases e <;> simp only [np, deg] at hi <;> interval_cases i <;> simp [pc] <;> norm_num
  refine key P _ _ _ (by omega) hP ?_ ?_ h1 h2 h3
  · have h4 := int4 a b c d 3 2 1 0
    norm_num at h4
    rw [← h4]
    exact congrArg (fun f : ℝ → ℝ => ∫ x in (0:ℝ)..1, f x) (_root_.funext (fun x => by rw [← hP, hc]))
  · have h4 := int4 a b c d 4 3 2 1
    norm_num at h4
    rw [← h4]
    exact congrArg (fun f : ℝ → ℝ => ∫ x in (0:ℝ)..1, f x) (_root_.funext (fun x => by rw [← hP, hc]; ring))

theorem apply_lin {X : Type} (r : List (X × ℝ)) (a b : ℝ) (f g : X → ℝ) :
    apply r (fun x => a * f x + b * g x) = a * apply r f + b * apply r g := by
  unfold apply
  rw [← List.sum_map_mul_left, ← List.sum_map_mul_left, ← List.sum_map_add]
  congr 1
  exact List.map_congr_left (fun q _ => by ring)

/-- The load of the kernel 1 at one shape function. -/
theorem load_pos {n n1 : Nat} {rc : List ((ℝ × ℝ) × ℝ)} {re : List (ℝ × ℝ)} (hrc : Gauss.rule2 (n ^ 2) = .ok rc) (h5 : n ≤ 5)
    (hre : Gauss.rule1 n1 = .ok re) (e : ET) (hn : deg e < n) (c : QCell) (hc : ConvexCCW c.q) (j : Nat) {a : Nat} (ha : a < nd2 e) :
    0 < Fem.val (evalLin (Form.one (Pt ℝ)) ⟨e, [0]⟩ .dx none rc re c a j) := by
  rw [evalLin_eq (t := ⟨e, [0]⟩) hrc hre (one_size _) (Or.inl rfl) .dx none c ha j, Form.val_ok]
  have hq : qps .dx none rc re c = points rc re c .cell := by simp [qps, regions, marked]
  rw [hq]
  obtain ⟨n', _, _, hn', hrc'⟩ := rule2_sq hrc
  have : n' = n := (Nat.pow_left_injective (n := 2) (by omega) hn').symm
  subst this
  obtain ⟨b1, b2⟩ := bix_lt e a ha
  obtain ⟨f1, f2, f3⟩ := moments h5 e hn b1
  obtain ⟨g1, g2, g3⟩ := moments h5 e hn b2
  set f := tb (pTab (K := ℝ) e) (bix e a).1 with hf
  set g := tb (pTab (K := ℝ) e) (bix e a).2 with hg
  have e1 : ((points rc re c .cell).map (fun p => val (shapeAt c ⟨e, [0]⟩ p.ref a) * (p.w * (Form.one (Pt ℝ)).eval 1 p.x j))).sum =
      (rc.map (fun p => f p.1.1 * g p.1.2 * (p.2 * detJ c.q ⟨p.1.1, p.1.2⟩))).sum := by
    simp only [points, List.map_map]
    congr 1
    refine List.map_congr_left (fun p hp => ?_)
    obtain ⟨w, h0, h1, h2, h3⟩ := (C32_weights2 _ rc hrc).2 _ hp
    have c1 : ¬ ¬ (0 ≤ p.1.1 ∧ 0 ≤ p.1.2) := not_not.2 ⟨h0.le, h2.le⟩
    have c2 : ¬ ¬ (p.1.1 ≤ 1 ∧ p.1.2 ≤ 1) := not_not.2 ⟨h1.le, h3.le⟩
    have hk : (Form.one (Pt ℝ)).eval 1 (toPhys c.q ⟨p.1.1, p.1.2⟩) j = 1 := by simp [Kernel.eval, Form.one]
    simp only [Function.comp, shapeAt, shape2]
    rw [if_neg c1, if_neg c2, hk, mul_one]
    rw [phi2_tb e a ha, Form.val_ok]
  rw [e1, hrc']
  obtain ⟨A, B, C, hdet⟩ : ∃ A B C, ∀ x y, detJ c.q ⟨x, y⟩ = A + B * x + C * y := by
    refine ⟨detJ c.q ⟨0, 0⟩, detJ c.q ⟨1, 0⟩ - detJ c.q ⟨0, 0⟩, detJ c.q ⟨0, 1⟩ - detJ c.q ⟨0, 0⟩, fun x y => ?_⟩
    simp only [detJ, jacR2P, jxs, jyt, jxt, jys]
    ring
  have e2 : ((tensor (rule01 n')).map (fun p => f p.1.1 * g p.1.2 * (p.2 * detJ c.q ⟨p.1.1, p.1.2⟩))).sum =
      apply (rule01 n') f * apply (rule01 n') g * A + B * apply (rule01 n') (fun x => x * f x) * apply (rule01 n') g +
        C * apply (rule01 n') f * apply (rule01 n') (fun x => x * g x) := by
    unfold tensor
    rw [← sum_flatMap]
    simp only [List.map_map, Function.comp_def]
    have : ∀ p : ℝ × ℝ, ((rule01 n').map (fun q => f p.1 * g q.1 * (p.2 * q.2 * detJ c.q ⟨p.1, q.1⟩))).sum =
        p.2 * (f p.1 * (A + B * p.1)) * apply (rule01 n') g + p.2 * (f p.1) * C * apply (rule01 n') (fun x => x * g x) := by
      intro p
      unfold apply
      rw [← List.sum_map_mul_left, ← List.sum_map_mul_left, ← List.sum_map_add]
      congr 1
      refine List.map_congr_left (fun q _ => ?_)
      rw [hdet]
      ring
    simp only [this]
    unfold apply
    rw [List.sum_map_add, List.sum_map_mul_right, List.sum_map_mul_right]
    have h1 : ((rule01 n').map (fun p => p.2 * (f p.1 * (A + B * p.1)))).sum =
        A * ((rule01 n').map (fun p => p.2 * f p.1)).sum + B * ((rule01 n').map (fun p => p.2 * (p.1 * f p.1))).sum := by
      rw [← List.sum_map_mul_left, ← List.sum_map_mul_left, ← List.sum_map_add]
      congr 1
      exact List.map_congr_left (fun q _ => by ring)
    rw [h1, List.sum_map_mul_right]
    ring
  rw [e2]
  set F0 := apply (rule01 n') f
  set F1 := apply (rule01 n') (fun x => x * f x)
  set G0 := apply (rule01 n') g
  set G1 := apply (rule01 n') (fun x => x * g x)
  have hp := C21_det_pos c.q hc ⟨F1 / F0, G1 / G0⟩ (div_nonneg f2 f1.le) ((div_le_one f1).2 f3) (div_nonneg g2 g1.le) ((div_le_one g1).2 g3)
  have hp' : 0 < A + B * (F1 / F0) + C * (G1 / G0) := by rw [← hdet]; exact hp
  have : F0 * G0 * A + B * F1 * G0 + C * F0 * G1 = F0 * G0 * (A + B * (F1 / F0) + C * (G1 / G0)) := by
    field_simp
  rw [this]
  exact mul_pos (mul_pos f1 g1) hp'

end Verif.Ell
