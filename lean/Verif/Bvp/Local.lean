import Verif.Bvp.Leaves
import Mathlib.MeasureTheory.Integral.IntervalIntegral.IntegrationByParts

/-!
# One interval: the local forms
-/

namespace Verif.Bvp
open Verif.Line Verif.OneD Verif.Fem Verif.Form Verif.Asm Verif.Geom Verif.Gauss
open MeasureTheory

/-- The function with nodal values `w` on the interval `d`. -/
noncomputable def loc (d : Itv ℝ) (e : ET) (w : Nat → ℝ) (x : ℝ) : ℝ := ∑ a ∈ Finset.range (nd1 e), w a * tb (pTab e) a (toRef d x)

/-- Its derivative. -/
noncomputable def dloc (d : Itv ℝ) (e : ET) (w : Nat → ℝ) (x : ℝ) : ℝ := ∑ a ∈ Finset.range (nd1 e), w a * (jacP2R d * tb (pxTab e) a (toRef d x))

theorem loc_deriv (d : Itv ℝ) (e : ET) (w : Nat → ℝ) (x : ℝ) : HasDerivAt (loc d e w) (dloc d e w x) x := by
  unfold loc dloc
  refine HasDerivAt.fun_sum (fun a ha => ?_)
  have ha' : a < np e := by rw [← nd1_eq]; exact Finset.mem_range.1 ha
  refine HasDerivAt.const_mul _ ?_
  have h1 : HasDerivAt (toRef d) (jacP2R d) x := by
    have := ((hasDerivAt_id x).sub_const d.lo).div_const (d.hi - d.lo)
    exact this
  have := (tb_deriv e a ha' (toRef d x)).comp x h1
  rw [mul_comm]
  exact this

theorem toRef_toPhys {d : Itv ℝ} (hd : d.lo < d.hi) (r : ℝ) : toRef d (toPhys d r) = r := by
  have : d.hi - d.lo ≠ 0 := by linarith
  simp only [toRef, toPhys]
  field_simp
  ring

/-- In the reference coordinate the function is a polynomial. -/
theorem loc_poly {d : Itv ℝ} (hd : d.lo < d.hi) (e : ET) (w : Nat → ℝ) : PD (deg e) (fun r => loc d e w (toPhys d r)) := by
  have hp : ∀ a : Nat, ∃ P : Polynomial ℝ, a < nd1 e → P.natDegree ≤ deg e ∧ ∀ x, tb (pTab e) a x = P.eval x := by
    intro a
    by_cases ha : a < nd1 e
    · obtain ⟨P, h1, h2⟩ := tb_poly e a (by rw [← nd1_eq]; exact ha)
      exact ⟨P, fun _ => ⟨h1, h2⟩⟩
    · exact ⟨0, fun h => absurd h ha⟩
  choose P hP using hp
  refine ⟨∑ a ∈ Finset.range (nd1 e), Polynomial.C (w a) * P a, ?_, fun r => ?_⟩
  · refine Polynomial.natDegree_sum_le_of_forall_le _ _ (fun a ha => ?_)
    exact (Polynomial.natDegree_C_mul_le _ _).trans (hP a (Finset.mem_range.1 ha)).1
  · simp only [loc]
    rw [toRef_toPhys hd, Polynomial.eval_finset_sum]
    refine Finset.sum_congr rfl (fun a ha => ?_)
    rw [Polynomial.eval_mul, Polynomial.eval_C, (hP a (Finset.mem_range.1 ha)).2]

theorem dloc_poly {d : Itv ℝ} (hd : d.lo < d.hi) (e : ET) (w : Nat → ℝ) : PD (deg e - 1) (fun r => dloc d e w (toPhys d r)) := by
  obtain ⟨P, h1, h2⟩ := loc_poly hd e w
  have hL : d.hi - d.lo ≠ 0 := by linarith
  refine ⟨Polynomial.C (jacP2R d) * P.derivative, ?_, fun r => ?_⟩
  · exact (Polynomial.natDegree_C_mul_le _ _).trans ((Polynomial.natDegree_derivative_le P).trans (by omega))
  · have hphys : HasDerivAt (toPhys d) (d.hi - d.lo) r := by
      have := ((hasDerivAt_id r).const_mul (d.hi - d.lo)).const_add d.lo
      rw [mul_one] at this
      exact this
    have h3 := (loc_deriv d e w (toPhys d r)).comp r hphys
    have h4 : HasDerivAt (loc d e w ∘ toPhys d) (P.derivative.eval r) r := by
      have : loc d e w ∘ toPhys d = fun r => P.eval r := by
        funext r
        exact h2 r
      rw [this]
      exact P.hasDerivAt r
    have h5 := h3.unique h4
    rw [Polynomial.eval_mul, Polynomial.eval_C, ← h5]
    simp only [jacP2R]
    field_simp

theorem loc_cont (d : Itv ℝ) (e : ET) (w : Nat → ℝ) : Continuous (loc d e w) :=
  continuous_iff_continuousAt.2 (fun x => (loc_deriv d e w x).continuousAt)

theorem pd_cont {n : Nat} {f : ℝ → ℝ} (h : PD n f) : Continuous f := by
  obtain ⟨P, _, hP⟩ := h
  have : f = fun x => P.eval x := funext hP
  rw [this]
  exact P.continuous

theorem dloc_cont {d : Itv ℝ} (hd : d.lo < d.hi) (e : ET) (w : Nat → ℝ) : Continuous (dloc d e w) := by
  have h1 := pd_cont (dloc_poly hd e w)
  have hL : d.hi - d.lo ≠ 0 := by linarith
  have h2 : Continuous (toRef d) := by unfold toRef; fun_prop
  have h3 := h1.comp h2
  have : (fun r => dloc d e w (toPhys d r)) ∘ toRef d = dloc d e w := by
    funext x
    simp only [Function.comp]
    congr 1
    simp only [toPhys, toRef]
    field_simp
    ring
  rwa [this] at h3

theorem tb_nodal (e : ET) (a p : Nat) (ha : a < nd1 e) (hp : p < nd1 e) {z : ℝ} (hz : (nodes1 e)[p]? = some z) :
    tb (pTab e) a z = if a = p then 1 else 0 := by
  have := C28_nodal1 e a p ha hp z hz
  rw [phi1_tb e a ha] at this
  have h2 := Except.ok.inj this
  rw [h2]
  simp only [eq_comm]

/-- The nodal values. -/
theorem loc_node {d : Itv ℝ} (hd : d.lo < d.hi) (e : ET) (w : Nat → ℝ) {p : Nat} (hp : p < nd1 e) {z : ℝ} (hz : (nodes1 e)[p]? = some z) :
    loc d e w (toPhys d z) = w p := by
  unfold loc
  rw [toRef_toPhys hd, Finset.sum_eq_single p]
  · rw [tb_nodal e p p hp hp hz, if_pos rfl, mul_one]
  · intro a ha hne
    rw [tb_nodal e a p (Finset.mem_range.1 ha) hp hz, if_neg hne, mul_zero]
  · intro h
    exact absurd (Finset.mem_range.2 hp) h

theorem node_at (e : ET) (he : torn e = false) : (nodes1 e : List ℝ)[0]? = some 0 ∧ (nodes1 e : List ℝ)[1]? = some 1 := by
  cases e <;> first | (simp [torn] at he; done) | simp [nodes1, dpv, dpe1, intDofs]

theorem loc_lo {d : Itv ℝ} (hd : d.lo < d.hi) {e : ET} (he : torn e = false) (w : Nat → ℝ) : loc d e w d.lo = w 0 := by
  have h := loc_node hd e w (p := 0) (by cases e <;> simp_all [torn, nd1, dpv, dpe1]) (node_at e he).1
  simpa [toPhys] using h

theorem loc_hi {d : Itv ℝ} (hd : d.lo < d.hi) {e : ET} (he : torn e = false) (w : Nat → ℝ) : loc d e w d.hi = w 1 := by
  have h := loc_node hd e w (p := 1) (by cases e <;> simp_all [torn, nd1, dpv, dpe1]) (node_at e he).2
  simpa [toPhys] using h

/-! ### The entries -/

theorem list_swap {α : Type} (l : List α) (s : Finset Nat) (f : Nat → α → ℝ) :
    ∑ a ∈ s, (l.map (f a)).sum = (l.map (fun q => ∑ a ∈ s, f a q)).sum := by
  induction l with
  | nil => simp
  | cons q l ih => simp only [List.map_cons, List.sum_cons, Finset.sum_add_distrib, ih]

theorem bil_entry {n : Nat} {re : List (ℝ × ℝ)} (hre : rule1 n = .ok re) {k : Kernel ℝ} {S : Nat} (hS : sampleSize k = .ok S) {d : Itv ℝ}
    (hd : d.lo < d.hi) (e : ET) (j : Nat) {a i : Nat} (ha : a < nd1 e) (hi : i < nd1 e) :
    Fem.val (evalBil1 k ⟨e, [1, 0]⟩ ⟨e, [1, 0]⟩ none re d a i j) = ((points1 re d).map (fun p => jacP2R d * tb (pxTab e) a (toRef d p.2.1) *
      (jacP2R d * tb (pxTab e) i (toRef d p.2.1) * (p.2.2 * k.eval S p.2.1 j)))).sum := by
  unfold evalBil1
  rw [hS]
  simp only [bind, Except.bind, marked, if_true]
  rw [sumE_ok _ _ (fun p => jacP2R d * tb (pxTab e) a (toRef d p.2.1) * (jacP2R d * tb (pxTab e) i (toRef d p.2.1) * (p.2.2 * k.eval S p.2.1 j)))]
  · rfl
  · intro p hp
    simp only [points1, List.mem_map] at hp
    obtain ⟨q, hq, rfl⟩ := hp
    obtain ⟨_, h0, h1⟩ := (C32_weights1 n re hre).2 q hq
    simp [shapeAt1, shape1, h0.le, h1.le, dphi1_tb e a ha, dphi1_tb e i hi, toRef_toPhys hd, bind, Except.bind, pure, Except.pure]

/-- The local bilinear form is a quadrature sum. -/
theorem bil_quad {n : Nat} {re : List (ℝ × ℝ)} (hre : rule1 n = .ok re) {k : Kernel ℝ} {S : Nat} (hS : sampleSize k = .ok S) {d : Itv ℝ}
    (hd : d.lo < d.hi) (e : ET) (j : Nat) (v w : Nat → ℝ) :
    ∑ a ∈ Finset.range (nd1 e), ∑ i ∈ Finset.range (nd1 e), v a * Fem.val (evalBil1 k ⟨e, [1, 0]⟩ ⟨e, [1, 0]⟩ none re d a i j) * w i =
      ((points1 re d).map (fun p => p.2.2 * (k.eval S p.2.1 j * dloc d e v p.2.1 * dloc d e w p.2.1))).sum := by
  have h1 : ∀ a ∈ Finset.range (nd1 e), ∑ i ∈ Finset.range (nd1 e), v a * Fem.val (evalBil1 k ⟨e, [1, 0]⟩ ⟨e, [1, 0]⟩ none re d a i j) * w i =
      ((points1 re d).map (fun p => v a * (jacP2R d * tb (pxTab e) a (toRef d p.2.1)) * (p.2.2 * (k.eval S p.2.1 j * dloc d e w p.2.1)))).sum := by
    intro a ha
    have h2 : ∀ i ∈ Finset.range (nd1 e), v a * Fem.val (evalBil1 k ⟨e, [1, 0]⟩ ⟨e, [1, 0]⟩ none re d a i j) * w i =
        ((points1 re d).map (fun p => v a * (jacP2R d * tb (pxTab e) a (toRef d p.2.1)) *
          (p.2.2 * (k.eval S p.2.1 j * (w i * (jacP2R d * tb (pxTab e) i (toRef d p.2.1))))))).sum := by
      intro i hi
      rw [bil_entry hre hS hd e j (Finset.mem_range.1 ha) (Finset.mem_range.1 hi), ← List.sum_map_mul_left, ← List.sum_map_mul_right]
      congr 1
      refine List.map_congr_left (fun p _ => ?_)
      ring
    rw [Finset.sum_congr rfl h2, list_swap]
    congr 1
    refine List.map_congr_left (fun p _ => ?_)
    simp only [dloc, Finset.mul_sum]
  rw [Finset.sum_congr rfl h1, list_swap]
  congr 1
  refine List.map_congr_left (fun p _ => ?_)
  rw [← Finset.sum_mul]
  simp only [dloc]
  ring

/-- The local load is a quadrature sum. -/
theorem lin_quad {n : Nat} {re : List (ℝ × ℝ)} (hre : rule1 n = .ok re) {k : Kernel ℝ} {S : Nat} (hS : sampleSize k = .ok S) {d : Itv ℝ}
    (hd : d.lo < d.hi) (e : ET) (j : Nat) (v : Nat → ℝ) :
    ∑ a ∈ Finset.range (nd1 e), v a * Fem.val (evalLin1 k ⟨e, [0]⟩ none re d a j) =
      ((points1 re d).map (fun p => p.2.2 * (k.eval S p.2.1 j * loc d e v p.2.1))).sum := by
  have h1 : ∀ a ∈ Finset.range (nd1 e), v a * Fem.val (evalLin1 k ⟨e, [0]⟩ none re d a j) =
      ((points1 re d).map (fun p => p.2.2 * (k.eval S p.2.1 j * (v a * tb (pTab e) a (toRef d p.2.1))))).sum := by
    intro a ha
    have ha' := Finset.mem_range.1 ha
    unfold evalLin1
    rw [hS]
    simp only [bind, Except.bind, marked, if_true]
    rw [sumE_ok _ _ (fun p => tb (pTab e) a (toRef d p.2.1) * (p.2.2 * k.eval S p.2.1 j))]
    · show v a * (List.map _ _).sum = _
      rw [← List.sum_map_mul_left]
      congr 1
      refine List.map_congr_left (fun p _ => ?_)
      ring
    · intro p hp
      simp only [points1, List.mem_map] at hp
      obtain ⟨q, hq, rfl⟩ := hp
      obtain ⟨_, h0, h1⟩ := (C32_weights1 n re hre).2 q hq
      simp [shapeAt1, shape1, h0.le, h1.le, phi1_tb e a ha', toRef_toPhys hd, pure, Except.pure]
  rw [Finset.sum_congr rfl h1, list_swap]
  congr 1
  refine List.map_congr_left (fun p _ => ?_)
  simp only [loc, Finset.mul_sum]

/-- The vertex loads. -/
theorem vert_sum {k : Kernel ℝ} {S : Nat} (hS : sampleSize k = .ok S) {d : Itv ℝ} (hd : d.lo < d.hi) {e : ET} (he : torn e = false)
    (mk : Fin 2 → Bool) (j : Nat) (v : Nat → ℝ) : ∑ a ∈ Finset.range (nd1 e), v a * Fem.val (evalLinV k ⟨e, [0]⟩ mk d a j) =
      (if mk 0 then v 0 * k.eval S d.lo j else 0) + if mk 1 then v 1 * k.eval S d.hi j else 0 := by
  have h1 : ∀ a ∈ Finset.range (nd1 e), v a * Fem.val (evalLinV k ⟨e, [0]⟩ mk d a j) =
      (((List.finRange 2).filter mk).map (fun i => k.eval S (toPhys d (i.1 : ℝ)) j * (v a * tb (pTab e) a (toRef d (toPhys d (i.1 : ℝ)))))).sum := by
    intro a ha
    have ha' := Finset.mem_range.1 ha
    unfold evalLinV
    rw [hS]
    simp only [bind, Except.bind]
    rw [sumE_ok _ _ (fun i : Fin 2 => tb (pTab e) a (toRef d (toPhys d (i.1 : ℝ))) * (1 * k.eval S (toPhys d (i.1 : ℝ)) j))]
    · show v a * (List.map _ _).sum = _
      rw [← List.sum_map_mul_left]
      congr 1
      refine List.map_congr_left (fun p _ => ?_)
      ring
    · intro i _
      have h0 : (0 : ℝ) ≤ (i.1 : ℝ) := Nat.cast_nonneg _
      have h1 : ((i.1 : ℝ)) ≤ 1 := by exact_mod_cast (by omega : i.1 ≤ 1)
      simp [shapeAt1, shape1, h1, phi1_tb e a ha', toRef_toPhys hd, pure, Except.pure]
  rw [Finset.sum_congr rfl h1, list_swap]
  have h2 : ∀ i : Fin 2, ∑ a ∈ Finset.range (nd1 e), k.eval S (toPhys d (i.1 : ℝ)) j * (v a * tb (pTab e) a (toRef d (toPhys d (i.1 : ℝ)))) =
      v i * k.eval S (if i = 0 then d.lo else d.hi) j := by
    intro i
    rw [← Finset.mul_sum]
    have h3 : ∑ a ∈ Finset.range (nd1 e), v a * tb (pTab e) a (toRef d (toPhys d (i.1 : ℝ))) = loc d e v (toPhys d (i.1 : ℝ)) := rfl
    rw [h3]
    fin_cases i
    · have e1 : toPhys d (((0 : Fin 2).1 : ℕ) : ℝ) = d.lo := by simp [toPhys]
      show k.eval S (toPhys d (((0 : Fin 2).1 : ℕ) : ℝ)) j * loc d e v (toPhys d (((0 : Fin 2).1 : ℕ) : ℝ)) = v 0 * k.eval S d.lo j
      rw [e1, loc_lo hd he]
      ring
    · have e1 : toPhys d (((1 : Fin 2).1 : ℕ) : ℝ) = d.hi := by simp [toPhys]
      show k.eval S (toPhys d (((1 : Fin 2).1 : ℕ) : ℝ)) j * loc d e v (toPhys d (((1 : Fin 2).1 : ℕ) : ℝ)) = v 1 * k.eval S d.hi j
      rw [e1, loc_hi hd he]
      ring
  simp only [h2]
  have h4 : List.finRange 2 = [0, 1] := rfl
  rw [h4]
  cases h5 : mk 0 <;> cases h6 : mk 1 <;> simp [h5, h6]

/-! ### Exact quadrature -/

theorem poly_phys {d : Itv ℝ} (κ : Polynomial ℝ) : PD κ.natDegree (fun r => κ.eval (toPhys d r)) := by
  have := PD.affine (⟨κ, le_rfl, fun _ => rfl⟩ : PD κ.natDegree (fun x => κ.eval x)) d.lo (d.hi - d.lo)
  simpa only [toPhys, mul_comm] using this

theorem bil_exact {n : Nat} {re : List (ℝ × ℝ)} (hre : rule1 n = .ok re) (h5 : n ≤ 5) {k : Kernel ℝ} {S : Nat} (hS : sampleSize k = .ok S) {d : Itv ℝ}
    (hd : d.lo < d.hi) {e : ET} (he : torn e = false) {j : Nat} {κ : Polynomial ℝ} (hk : ∀ x, k.eval S x j = κ.eval x)
    (hdeg : κ.natDegree + 2 * deg e ≤ 2 * n + 1) (v w : Nat → ℝ) :
    ∑ a ∈ Finset.range (nd1 e), ∑ i ∈ Finset.range (nd1 e), v a * Fem.val (evalBil1 k ⟨e, [1, 0]⟩ ⟨e, [1, 0]⟩ none re d a i j) * w i =
      ∫ x in d.lo..d.hi, κ.eval x * dloc d e v x * dloc d e w x := by
  have h1 : 1 ≤ deg e := by cases e <;> simp_all [torn, deg]
  rw [bil_quad hre hS hd]
  refine itv_sum hre h5 d hd _ _ (fun r => κ.eval (toPhys d r) * dloc d e v (toPhys d r) * dloc d e w (toPhys d r)) ?_ (fun _ _ _ => rfl) ?_
  · exact (((poly_phys κ).mul (dloc_poly hd e v)).mul (dloc_poly hd e w)).mono (by omega)
  · intro r w' _ _
    simp only
    rw [hk]

theorem lin_exact {n : Nat} {re : List (ℝ × ℝ)} (hre : rule1 n = .ok re) (h5 : n ≤ 5) {k : Kernel ℝ} {S : Nat} (hS : sampleSize k = .ok S) {d : Itv ℝ}
    (hd : d.lo < d.hi) (e : ET) {j : Nat} {f : Polynomial ℝ} (hk : ∀ x, k.eval S x j = f.eval x)
    (hdeg : f.natDegree + deg e ≤ 2 * n - 1) (v : Nat → ℝ) :
    ∑ a ∈ Finset.range (nd1 e), v a * Fem.val (evalLin1 k ⟨e, [0]⟩ none re d a j) = ∫ x in d.lo..d.hi, f.eval x * loc d e v x := by
  rw [lin_quad hre hS hd]
  refine itv_sum hre h5 d hd _ _ (fun r => f.eval (toPhys d r) * loc d e v (toPhys d r)) ?_ (fun _ _ _ => rfl) ?_
  · exact ((poly_phys f).mul (loc_poly hd e v)).mono hdeg
  · intro r w' _ _
    simp only
    rw [hk]

/-! ### Integration by parts -/

theorem by_parts {d : Itv ℝ} (hd : d.lo < d.hi) {e : ET} (he : torn e = false) (v : Nat → ℝ) {q f : ℝ → ℝ} (hf : Continuous f)
    (hq : ∀ x, d.lo ≤ x → x ≤ d.hi → HasDerivAt q (-f x) x) :
    ∫ x in d.lo..d.hi, q x * dloc d e v x = q d.hi * v 1 - q d.lo * v 0 + ∫ x in d.lo..d.hi, f x * loc d e v x := by
  have hu : Set.uIcc d.lo d.hi = Set.Icc d.lo d.hi := Set.uIcc_of_le hd.le
  have h := intervalIntegral.integral_mul_deriv_eq_deriv_mul (a := d.lo) (b := d.hi) (u := q) (v := loc d e v) (u' := fun x => -f x) (v' := dloc d e v)
    (fun x hx => by rw [hu] at hx; exact hq x hx.1 hx.2) (fun x _ => loc_deriv d e v x) (hf.neg.intervalIntegrable _ _)
    ((dloc_cont hd e v).intervalIntegrable _ _)
  rw [h, loc_hi hd he, loc_lo hd he]
  have : ∫ x in d.lo..d.hi, -f x * loc d e v x = -∫ x in d.lo..d.hi, f x * loc d e v x := by
    rw [← intervalIntegral.integral_neg]
    simp only [neg_mul]
  rw [this]
  ring

/-! ### Definiteness -/

/-- If the quadrature of `κ (w')²` is zero, `w` is constant. -/
theorem phys_in {d : Itv ℝ} (hd : d.lo < d.hi) {r : ℝ} (h0 : 0 < r) (h1 : r < 1) : d.lo ≤ toPhys d r ∧ toPhys d r ≤ d.hi := by
  simp only [toPhys]
  constructor <;> nlinarith

theorem cell_const {n : Nat} {re : List (ℝ × ℝ)} (hre : rule1 n = .ok re) {d : Itv ℝ} (hd : d.lo < d.hi) {e : ET} (he : torn e = false) (hn : deg e ≤ n)
    {κ : ℝ → ℝ} (hk : ∀ x, d.lo ≤ x → x ≤ d.hi → 0 < κ x) {w : Nat → ℝ}
    (h0 : ((points1 re d).map (fun p => p.2.2 * (κ p.2.1 * dloc d e w p.2.1 * dloc d e w p.2.1))).sum = 0) :
    ∀ p < nd1 e, w p = w 0 := by
  have h1 : 1 ≤ deg e := by cases e <;> simp_all [torn, deg]
  have hw := (C32_weights1 n re hre).2
  have hL : 0 < jacR2P d := by simp only [jacR2P]; linarith
  have key := sum_zero _ _ (fun p hp => by
    simp only [points1, List.mem_map] at hp
    obtain ⟨q, hq, rfl⟩ := hp
    have := hw q hq
    simp only
    rw [mul_assoc (κ _)]
    exact mul_nonneg (mul_nonneg this.1.le hL.le) (mul_nonneg (hk _ (phys_in hd this.2.1 this.2.2).1 (phys_in hd this.2.1 this.2.2).2).le (mul_self_nonneg _))) h0
  obtain ⟨P, hP, eP⟩ := dloc_poly hd e w
  obtain ⟨hr, hn1⟩ := rule_eq hre
  have h6 : n ≤ 6 := by
    unfold rule1 at hre
    split_ifs at hre with h
    revert h
    simp only [List.mem_cons, List.not_mem_nil, or_false]
    omega
  have hz := rule_zero n hn1 h6 P (by omega) (fun q hq => by
    have hq' : q ∈ re := by rw [hr]; exact hq
    have h2 := key (q.1, toPhys d q.1, q.2 * jacR2P d) (by simp only [points1, List.mem_map]; exact ⟨q, hq', rfl⟩)
    simp only at h2
    rw [← eP]
    have h3 := hw q hq'
    rcases mul_eq_zero.1 h2 with h | h
    · exact absurd h (mul_pos h3.1 hL).ne'
    · rcases mul_eq_zero.1 h with h | h
      · rcases mul_eq_zero.1 h with h | h
        · exact absurd h (hk _ (phys_in hd h3.2.1 h3.2.2).1 (phys_in hd h3.2.1 h3.2.2).2).ne'
        · exact h
      · exact h)
  have hconst : ∀ x y, loc d e w x = loc d e w y := by
    refine is_const_of_deriv_eq_zero (fun x => (loc_deriv d e w x).differentiableAt) (fun x => ?_)
    rw [(loc_deriv d e w x).deriv]
    have hL' : d.hi - d.lo ≠ 0 := by linarith
    have : x = toPhys d (toRef d x) := by simp only [toPhys, toRef]; field_simp; ring
    rw [this]
    exact (eP _).trans (hz _)
  intro p hp
  obtain ⟨z, hz'⟩ : ∃ z, (nodes1 e : List ℝ)[p]? = some z := ⟨_, List.getElem?_eq_getElem (by rw [(C28_node_count e).1]; exact hp)⟩
  rw [← loc_node hd e w hp hz', hconst _ d.lo, loc_lo hd he]

end Verif.Bvp
