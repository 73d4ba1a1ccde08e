import Verif.Bvp.Props
import Mathlib.Analysis.Calculus.MeanValue

/-!
# C73: convergence

The finite element solutions converge to the solution of the boundary value problem as the leaves get smaller, at every point.
-/

namespace Verif.Bvp
open Verif.Line Verif.OneD Verif.Fem Verif.Form Verif.Asm Verif.Geom Verif.Gauss
open Verif.Dir (consOf look look_mem)
open MeasureTheory

theorem tiles_total {a b : ℝ} (W : ℝ → ℝ) (J : ℝ × ℝ → ℝ) : ∀ {bs : List (ℝ × ℝ)}, Tiles a b bs → (∀ u ∈ bs, |W u.2 - W u.1| ≤ J u) →
    |W b - W a| ≤ (bs.map J).sum := by
  intro bs
  induction bs generalizing a with
  | nil => intro h _; simp only [Tiles] at h; simp [h]
  | cons u bs ih =>
    rintro ⟨rfl, _, h2⟩ h
    have h3 := ih h2 (fun w hw => h w (List.mem_cons_of_mem _ hw))
    have h4 := h u List.mem_cons_self
    rw [List.map_cons, List.sum_cons]
    have : W b - W u.1 = (W u.2 - W u.1) + (W b - W u.2) := by ring
    rw [this]
    exact (abs_add_le _ _).trans (add_le_add h4 h3)

theorem tiles_var {a b : ℝ} (W : ℝ → ℝ) (J : ℝ × ℝ → ℝ) : ∀ {bs : List (ℝ × ℝ)}, Tiles a b bs → (∀ u ∈ bs, |W u.2 - W u.1| ≤ J u) →
    ∀ u ∈ bs, |W u.1 - W a| + |W b - W u.1| ≤ (bs.map J).sum := by
  intro bs
  induction bs generalizing a with
  | nil => intro _ _ u hu; cases hu
  | cons w bs ih =>
    rintro ⟨rfl, h1, h2⟩ h u hu
    rcases List.mem_cons.1 hu with rfl | hu
    · rw [sub_self, abs_zero, zero_add]
      exact tiles_total W J ⟨rfl, h1, h2⟩ h
    · have h3 := ih h2 (fun w hw => h w (List.mem_cons_of_mem _ hw)) u hu
      have h4 := h w List.mem_cons_self
      rw [List.map_cons, List.sum_cons]
      have h5 : W u.1 - W w.1 = (W w.2 - W w.1) + (W u.1 - W w.2) := by ring
      have h6 := abs_add_le (W w.2 - W w.1) (W u.1 - W w.2)
      rw [h5]
      linarith

theorem tiles_nodup {a b : ℝ} : ∀ {bs : List (ℝ × ℝ)}, Tiles a b bs → bs.Nodup := by
  intro bs
  induction bs generalizing a with
  | nil => intro _; exact List.nodup_nil
  | cons w bs ih =>
    rintro ⟨rfl, h1, h2⟩
    refine List.nodup_cons.2 ⟨fun hm => ?_, ih h2⟩
    have := ((tiles_mem h2).2 w hm).1
    linarith

section
variable {close : ℝ → ℝ → Bool} {xs : List ℝ} {e : ET} {sf : Option Nat} {m : Nat} {F : List (Cell ℝ)} {D : DH} {V : DV ℝ} {L : List IN}
variable {n j : Nat} {re : List (ℝ × ℝ)} {k kf kn : Kernel ℝ} {κ f : Polynomial ℝ} {dir neu : ℝ → Bool} {g gN : ℝ → ℝ} {mk : VX → Bool}

theorem sum_len (h : Setting close xs e sf m F D V L) {a b : ℝ} (ha : xs.head? = some a) (hb : xs.getLast? = some b) :
    (L.map (fun c => (dataAt F c).hi - (dataAt F c).lo)).sum = b - a := h.telescope (fun x => x) ha hb

theorem sum_le {α : Type} (l : List α) (p q : α → ℝ) (h : ∀ a ∈ l, p a ≤ q a) : (l.map p).sum ≤ (l.map q).sum := List.sum_le_sum h

theorem sum_mul {α : Type} (l : List α) (r : ℝ) (p : α → ℝ) : (l.map (fun a => r * p a)).sum = r * (l.map p).sum := by
  rw [List.sum_map_mul_left]

/-- The piecewise linear interpolant of the solution. -/
theorem interp_energy (h : Setting close xs e sf m F D V L) {u u' u'' : ℝ → ℝ} (hu : ∀ x, InDom xs x → HasDerivAt u (u' x) x)
    (hc' : ∀ c ∈ L, ContinuousOn u' (Set.Icc (dataAt F c).lo (dataAt F c).hi))
    (hu' : ∀ x, InDom xs x → HasDerivAt u' (u'' x) x) {M η K : ℝ} (hM : ∀ x, InDom xs x → |u'' x| ≤ M)
    (hη : ∀ c ∈ L, (dataAt F c).hi - (dataAt F c).lo ≤ η) (hK : ∀ x, InDom xs x → 0 ≤ κ.eval x ∧ κ.eval x ≤ K)
    {a b : ℝ} (ha : xs.head? = some a) (hb : xs.getLast? = some b) {w : Nat → ℝ}
    (hw : ∀ c ∈ L, ∀ x, loc (dataAt F c) e (fun a => w (dof D c a)) x =
      u (dataAt F c).lo + (u (dataAt F c).hi - u (dataAt F c).lo) / ((dataAt F c).hi - (dataAt F c).lo) * (x - (dataAt F c).lo)) :
    (L.map (fun c => ∫ x in (dataAt F c).lo..(dataAt F c).hi, κ.eval x * (u' x - dloc (dataAt F c) e (fun a => w (dof D c a)) x) ^ 2)).sum ≤
      K * (M * η) ^ 2 * (b - a) := by
  rw [← sum_len h ha hb, ← sum_mul]
  refine sum_le _ _ _ (fun c hc => ?_)
  have hp := h.pos hc
  set lo := (dataAt F c).lo with hlo
  set hi := (dataAt F c).hi with hhi
  have hin : ∀ x, lo ≤ x → x ≤ hi → InDom xs x := fun x h1 h2 => h.inside hc h1 h2
  have hdl : ∀ x, dloc (dataAt F c) e (fun a => w (dof D c a)) x = (u hi - u lo) / (hi - lo) := by
    intro x
    have h1 := loc_deriv (dataAt F c) e (fun a => w (dof D c a)) x
    rw [funext (hw c hc)] at h1
    have h3 : HasDerivAt (fun x => u lo + (u hi - u lo) / (hi - lo) * (x - lo)) ((u hi - u lo) / (hi - lo) * 1) x :=
      (((hasDerivAt_id x).sub_const _).const_mul _).const_add _
    rw [mul_one] at h3
    exact h1.unique h3
  obtain ⟨ξ, hξ, hs⟩ := exists_hasDerivAt_eq_slope u u' hp (fun x hx => (hu x (hin x hx.1 hx.2)).continuousAt.continuousWithinAt)
    (fun x hx => hu x (hin x hx.1.le hx.2.le))
  have hM0 : 0 ≤ M := (abs_nonneg _).trans (hM lo (hin lo le_rfl hp.le))
  have hpt : ∀ x, lo ≤ x → x ≤ hi → κ.eval x * (u' x - (u hi - u lo) / (hi - lo)) ^ 2 ≤ K * (M * η) ^ 2 := by
    intro x h1 h2
    have h3 : |u' x - u' ξ| ≤ M * η := by
      have h4 := (convex_Icc lo hi).norm_image_sub_le_of_norm_hasDerivWithin_le (f := u') (f' := u'') (C := M)
        (fun y hy => (hu' y (hin y hy.1 hy.2)).hasDerivWithinAt) (fun y hy => hM y (hin y hy.1 hy.2))
        (show ξ ∈ Set.Icc lo hi from ⟨hξ.1.le, hξ.2.le⟩) (show x ∈ Set.Icc lo hi from ⟨h1, h2⟩)
      refine h4.trans (mul_le_mul_of_nonneg_left ?_ hM0)
      have h5 : |x - ξ| ≤ hi - lo := by rw [abs_le]; constructor <;> linarith [hξ.1, hξ.2]
      exact h5.trans (hη c hc)
    rw [← hs]
    have hk := hK x (hin x h1 h2)
    have h6 : (u' x - u' ξ) ^ 2 ≤ (M * η) ^ 2 := by
      rw [← sq_abs]
      exact pow_le_pow_left₀ (abs_nonneg _) h3 2
    calc κ.eval x * (u' x - u' ξ) ^ 2 ≤ κ.eval x * (M * η) ^ 2 := mul_le_mul_of_nonneg_left h6 hk.1
      _ ≤ K * (M * η) ^ 2 := mul_le_mul_of_nonneg_right hk.2 (sq_nonneg _)
  simp only [hdl]
  have hI : Set.uIcc lo hi = Set.Icc lo hi := Set.uIcc_of_le hp.le
  have hint : IntervalIntegrable (fun x => κ.eval x * (u' x - (u hi - u lo) / (hi - lo)) ^ 2) volume lo hi := by
    refine ContinuousOn.intervalIntegrable ?_
    rw [hI]
    exact κ.continuous.continuousOn.mul (((hc' c hc).sub continuousOn_const).pow 2)
  have := intervalIntegral.integral_mono_on hp.le hint (by simp : IntervalIntegrable (fun _ => K * (M * η) ^ 2) volume lo hi)
    (fun x hx => hpt x hx.1 hx.2)
  refine this.trans (le_of_eq ?_)
  rw [intervalIntegral.integral_const, smul_eq_mul]
  ring

/-- A function that agrees with `u` at a Dirichlet end is close to it if its derivative is. -/
theorem sup_bound (h : Setting close xs e sf m F D V L) {u u' : ℝ → ℝ} (hu : ∀ x, InDom xs x → HasDerivAt u (u' x) x)
    (hc' : ∀ c ∈ L, ContinuousOn u' (Set.Icc (dataAt F c).lo (dataAt F c).hi)) {U : Nat → ℝ} {z : ℝ} (hz : IsEnd xs z) (hzv : atX F D L U z = u z)
    {A : ℝ} (hA : (L.map (fun c => ∫ x in (dataAt F c).lo..(dataAt F c).hi, |u' x - dloc (dataAt F c) e (fun a => U (dof D c a)) x|)).sum ≤ A)
    {c : IN} (hc : c ∈ L) {x : ℝ} (h1 : (dataAt F c).lo ≤ x) (h2 : x ≤ (dataAt F c).hi) :
    |loc (dataAt F c) e (fun a => U (dof D c a)) x - u x| ≤ 2 * A := by
  obtain ⟨a, b, bs, ha, hb, hab, ht, hpm⟩ := h.tiles
  set q : IN → ℝ → ℝ := fun c x => u' x - dloc (dataAt F c) e (fun a => U (dof D c a)) x with hq
  have hqc : ∀ c ∈ L, ContinuousOn (q c) (Set.Icc (dataAt F c).lo (dataAt F c).hi) := fun c hc =>
    (hc' c hc).sub (dloc_cont (h.pos hc) e _).continuousOn
  have hI : ∀ c ∈ L, Set.uIcc (dataAt F c).lo (dataAt F c).hi = Set.Icc (dataAt F c).lo (dataAt F c).hi := fun c hc => Set.uIcc_of_le (h.pos hc).le
  set J : IN → ℝ := fun c => ∫ x in (dataAt F c).lo..(dataAt F c).hi, |q c x| with hJ
  have hJ0 : ∀ c ∈ L, 0 ≤ J c := fun c hc => intervalIntegral.integral_nonneg (h.pos hc).le (fun x _ => abs_nonneg _)
  -- increments on a leaf
  have hinc : ∀ c ∈ L, ∀ y, (dataAt F c).lo ≤ y → y ≤ (dataAt F c).hi →
      |(u y - loc (dataAt F c) e (fun a => U (dof D c a)) y) - (u (dataAt F c).lo - U (dof D c 0))| ≤ J c := by
    intro c hc y h3 h4
    have i1 : ∫ x in (dataAt F c).lo..y, q c x = (u y - loc (dataAt F c) e (fun a => U (dof D c a)) y) -
        (u (dataAt F c).lo - loc (dataAt F c) e (fun a => U (dof D c a)) (dataAt F c).lo) := by
      refine intervalIntegral.integral_eq_sub_of_hasDerivAt (f := fun x => u x - loc (dataAt F c) e (fun a => U (dof D c a)) x) (fun x hx => ?_) ?_
      · rw [Set.uIcc_of_le h3] at hx
        exact (hu x (h.inside hc hx.1 (hx.2.trans h4))).sub (loc_deriv _ _ _ x)
      · refine ContinuousOn.intervalIntegrable ?_
        rw [Set.uIcc_of_le h3]
        exact (hqc c hc).mono (Set.Icc_subset_Icc_right h4)
    rw [loc_lo (h.pos hc) h.cont] at i1
    rw [← i1]
    refine (intervalIntegral.abs_integral_le_integral_abs h3).trans ?_
    have hia : ∀ y1 y2, (dataAt F c).lo ≤ y1 → y1 ≤ y2 → y2 ≤ (dataAt F c).hi → IntervalIntegrable (fun x => |q c x|) volume y1 y2 := by
      intro y1 y2 k1 k2 k3
      refine ContinuousOn.intervalIntegrable ?_
      rw [Set.uIcc_of_le k2]
      exact ((hqc c hc).abs).mono (Set.Icc_subset_Icc k1 k3)
    have hadd := intervalIntegral.integral_add_adjacent_intervals (hia _ y le_rfl h3 h4) (hia y _ h3 h4 le_rfl)
    have hnn : 0 ≤ ∫ x in y..(dataAt F c).hi, |q c x| := intervalIntegral.integral_nonneg h4 (fun x _ => abs_nonneg _)
    show (∫ x in (dataAt F c).lo..y, |q c x|) ≤ J c
    simp only [hJ]
    linarith
  -- the error at break points
  set W : ℝ → ℝ := fun y => u y - atX F D L U y with hW
  have hW0 : ∀ c ∈ L, W (dataAt F c).lo = u (dataAt F c).lo - U (dof D c 0) := by
    intro c hc
    simp only [hW]
    rw [h.atX U hc (i := 0) (x := (dataAt F c).lo) (by rw [h.coord hc]; rfl)]
    rfl
  have hW1 : ∀ c ∈ L, W (dataAt F c).hi = u (dataAt F c).hi - loc (dataAt F c) e (fun a => U (dof D c a)) (dataAt F c).hi := by
    intro c hc
    simp only [hW]
    rw [h.atX U hc (i := 1) (x := (dataAt F c).hi) (by rw [h.coord hc]; rfl), loc_hi (h.pos hc) h.cont]
    rfl
  have hWz : W z = 0 := by simp only [hW]; rw [hzv, sub_self]
  -- a bound for each break interval
  classical
  set T : ℝ × ℝ → ℝ := fun p => if hp : ∃ c ∈ L, ((dataAt F c).lo, (dataAt F c).hi) = p then J hp.choose else 0 with hT
  have hTi : ∀ c ∈ L, ∀ c' ∈ L, ((dataAt F c).lo, (dataAt F c).hi) = ((dataAt F c').lo, (dataAt F c').hi) → c = c' := by
    intro c hc c' hc' he
    have e1 : (dataAt F c).lo = (dataAt F c').lo := congrArg Prod.fst he
    have e2 : (dataAt F c).hi = (dataAt F c').hi := congrArg Prod.snd he
    have hnd : (L.map (fun c => ((dataAt F c).lo, (dataAt F c).hi))).Nodup := (hpm.nodup_iff).1 (tiles_nodup ht)
    exact List.inj_on_of_nodup_map hnd hc hc' (Prod.ext e1 e2)
  have hTc : ∀ c ∈ L, T ((dataAt F c).lo, (dataAt F c).hi) = J c := by
    intro c hc
    have hex : ∃ c' ∈ L, ((dataAt F c').lo, (dataAt F c').hi) = ((dataAt F c).lo, (dataAt F c).hi) := ⟨c, hc, rfl⟩
    simp only [hT]
    rw [dif_pos hex, hTi _ hex.choose_spec.1 c hc hex.choose_spec.2]
  have hsum : (bs.map T).sum = (L.map J).sum := by
    rw [(hpm.map T).sum_eq, List.map_map]
    congr 1
    exact List.map_congr_left (fun c hc => hTc c hc)
  have hstep : ∀ p ∈ bs, |W p.2 - W p.1| ≤ T p := by
    intro p hp
    obtain ⟨c, hc, rfl⟩ := List.mem_map.1 (hpm.mem_iff.1 hp)
    rw [hTc c hc]
    simp only []
    rw [hW0 c hc, hW1 c hc]
    exact hinc c hc _ (h.pos hc).le le_rfl
  have hlo : |W (dataAt F c).lo| ≤ A := by
    have h3 := tiles_var W T ht hstep _ (hpm.mem_iff.2 (List.mem_map.2 ⟨c, hc, rfl⟩))
    rw [hsum] at h3
    have h4 : (L.map J).sum ≤ A := hA
    simp only [] at h3
    rcases hz with h5 | h5
    · rw [ha] at h5
      have e1 : a = z := Option.some.inj h5
      rw [e1, hWz, sub_zero] at h3
      linarith [abs_nonneg (W b - W (dataAt F c).lo)]
    · rw [hb] at h5
      have e1 : b = z := Option.some.inj h5
      rw [e1, hWz, zero_sub, abs_neg] at h3
      linarith [abs_nonneg (W (dataAt F c).lo - W a)]
  have hJc : J c ≤ A := by
    refine le_trans ?_ hA
    exact List.single_le_sum (fun z hz => by obtain ⟨c, hc, rfl⟩ := List.mem_map.1 hz; exact hJ0 c hc) _ (List.mem_map.2 ⟨c, hc, rfl⟩)
  have h3 := hinc c hc x h1 h2
  rw [← hW0 c hc] at h3
  rw [abs_le] at h3 hlo ⊢
  constructor <;> linarith [h3.1, h3.2, hlo.1, hlo.2]

/-- The bound for the answer. -/
theorem rate (h : Setting close xs e sf m F D V L) (hd : Data xs e n j re k kf κ f) {S : Nat} (hS : sampleSize kn = .ok S) (hm : BndMark xs sf F neu mk)
    {z : ℝ} (hz : IsEnd xs z) (hdz : dir z = true) {u u' u'' : ℝ → ℝ}
    (hu : Classical xs (fun x => κ.eval x) (fun x => f.eval x) dir neu g (fun x => kn.eval S x j) u u')
    (hu' : ∀ x, InDom xs x → HasDerivAt u' (u'' x) x) {M η k0 K ρ : ℝ} (hM : ∀ x, InDom xs x → |u'' x| ≤ M) (hM0 : 0 < M)
    (hη : ∀ c ∈ L, (dataAt F c).hi - (dataAt F c).lo ≤ η) (hη0 : 0 < η) (hk0 : 0 < k0) (hρ : 0 < ρ)
    (hK : ∀ x, InDom xs x → k0 ≤ κ.eval x ∧ κ.eval x ≤ K) (hKρ : K ≤ ρ ^ 2 * k0)
    {a b : ℝ} (ha : xs.head? = some a) (hb : xs.getLast? = some b) {U : Nat → ℝ} (hU : Discrete xs e F D L j re k kf kn dir g mk U) :
    (L.map (fun c => ∫ x in (dataAt F c).lo..(dataAt F c).hi, κ.eval x * (u' x - dloc (dataAt F c) e (fun a => U (dof D c a)) x) ^ 2)).sum ≤
      K * (M * η) ^ 2 * (b - a) ∧
    ∀ c ∈ L, ∀ x, (dataAt F c).lo ≤ x → x ≤ (dataAt F c).hi → |loc (dataAt F c) e (fun a => U (dof D c a)) x - u x| ≤ 2 * (ρ * M * η * (b - a)) := by
  have hc' : ∀ c ∈ L, ContinuousOn u' (Set.Icc (dataAt F c).lo (dataAt F c).hi) := fun c hc => u'_cont h hd.pos hu hc
  obtain ⟨w, hw⟩ := interp h u
  have hwv : ∀ c ∈ L, ∀ (i : Fin 2) x, coord F c i = some x → w (dof D c i) = u x := by
    intro c hc i x hx
    rw [h.coord hc] at hx
    have hx' := Option.some.inj hx
    have hne : (dataAt F c).hi - (dataAt F c).lo ≠ 0 := by have := h.pos hc; linarith
    fin_cases i
    · have e1 : (dataAt F c).lo = x := hx'
      have := hw c hc (dataAt F c).lo
      rw [loc_lo (h.pos hc) h.cont, sub_self, mul_zero, add_zero, e1] at this
      exact this
    · have e1 : (dataAt F c).hi = x := hx'
      have := hw c hc (dataAt F c).hi
      rw [loc_hi (h.pos hc) h.cont, div_mul_cancel₀ _ hne] at this
      rw [← e1]
      refine this.trans ?_
      ring
  have hbest := best h hd hS hm hu hU (w := w) (fun x hx hdx => by
    obtain ⟨c, hc, i, hi⟩ := h.end_leaf hx
    rw [h.atX w hc hi, hwv c hc i x hi]
    exact hu.value x hx hdx)
  have hE := hbest.trans (interp_energy h hu.deriv hc' hu' hM hη (fun x hx => ⟨hk0.le.trans (hK x hx).1, (hK x hx).2⟩) ha hb hw)
  refine ⟨hE, fun c hc x h1 h2 => ?_⟩
  refine sup_bound h hu.deriv hc' hz (by rw [hU.value z hz hdz, hu.value z hz hdz]) ?_ hc h1 h2
  -- the first moment from the second
  set s := ρ * M * η with hs
  have hs0 : 0 < s := by positivity
  have hcell : ∀ c ∈ L, (∫ x in (dataAt F c).lo..(dataAt F c).hi, |u' x - dloc (dataAt F c) e (fun a => U (dof D c a)) x|) ≤
      (1 / (2 * k0 * s)) * (∫ x in (dataAt F c).lo..(dataAt F c).hi, κ.eval x * (u' x - dloc (dataAt F c) e (fun a => U (dof D c a)) x) ^ 2) +
        (s / 2) * ((dataAt F c).hi - (dataAt F c).lo) := by
    intro c hc
    have hp := h.pos hc
    have hI : Set.uIcc (dataAt F c).lo (dataAt F c).hi = Set.Icc (dataAt F c).lo (dataAt F c).hi := Set.uIcc_of_le hp.le
    have hqc : ContinuousOn (fun x => u' x - dloc (dataAt F c) e (fun a => U (dof D c a)) x) (Set.Icc (dataAt F c).lo (dataAt F c).hi) :=
      (hc' c hc).sub (dloc_cont hp e _).continuousOn
    have i1 : IntervalIntegrable (fun x => |u' x - dloc (dataAt F c) e (fun a => U (dof D c a)) x|) volume (dataAt F c).lo (dataAt F c).hi := by
      refine ContinuousOn.intervalIntegrable ?_
      rw [hI]
      exact hqc.abs
    have i2 : IntervalIntegrable (fun x => κ.eval x * (u' x - dloc (dataAt F c) e (fun a => U (dof D c a)) x) ^ 2) volume
        (dataAt F c).lo (dataAt F c).hi := by
      refine ContinuousOn.intervalIntegrable ?_
      rw [hI]
      exact κ.continuous.continuousOn.mul (hqc.pow 2)
    have i3 : IntervalIntegrable (fun x => (1 / (2 * k0 * s)) * (κ.eval x * (u' x - dloc (dataAt F c) e (fun a => U (dof D c a)) x) ^ 2) + s / 2)
        volume (dataAt F c).lo (dataAt F c).hi := (i2.const_mul _).add (by simp)
    have hmono := intervalIntegral.integral_mono_on hp.le i1 i3 (fun x hx => by
      set q := u' x - dloc (dataAt F c) e (fun a => U (dof D c a)) x with hq
      have hk := (hK x (h.inside hc hx.1 hx.2)).1
      have h3 : |q| ≤ q ^ 2 / (2 * s) + s / 2 := by
        rw [← sq_abs q]
        have h4 : 0 ≤ (|q| - s) ^ 2 := sq_nonneg _
        rw [div_add_div _ _ (by positivity) (by positivity), le_div_iff₀ (by positivity)]
        nlinarith
      have h5 : q ^ 2 / (2 * s) ≤ 1 / (2 * k0 * s) * (κ.eval x * q ^ 2) := by
        have e1 : q ^ 2 / (2 * s) = 1 / (2 * k0 * s) * (k0 * q ^ 2) := by field_simp
        rw [e1]
        exact mul_le_mul_of_nonneg_left (mul_le_mul_of_nonneg_right hk (sq_nonneg _)) (by positivity)
      linarith)
    rw [intervalIntegral.integral_add (i2.const_mul _) (by simp), intervalIntegral.integral_const_mul, intervalIntegral.integral_const, smul_eq_mul] at hmono
    linarith
  refine (sum_le _ _ _ hcell).trans ?_
  rw [List.sum_map_add, sum_mul, sum_mul, sum_len h ha hb]
  have hab : 0 ≤ b - a := by
    obtain ⟨a', b', bs, ha', hb', hab, _⟩ := h.tiles
    rw [ha] at ha'
    rw [hb] at hb'
    cases ha'
    cases hb'
    linarith
  have h6 : 1 / (2 * k0 * s) * (L.map (fun c => ∫ x in (dataAt F c).lo..(dataAt F c).hi,
      κ.eval x * (u' x - dloc (dataAt F c) e (fun a => U (dof D c a)) x) ^ 2)).sum ≤ 1 / (2 * k0 * s) * (ρ ^ 2 * k0 * (M * η) ^ 2 * (b - a)) := by
    refine mul_le_mul_of_nonneg_left (hE.trans ?_) (by positivity)
    exact mul_le_mul_of_nonneg_right (mul_le_mul_of_nonneg_right hKρ (sq_nonneg _)) hab
  have e2 : 1 / (2 * k0 * s) * (ρ ^ 2 * k0 * (M * η) ^ 2 * (b - a)) = s / 2 * (b - a) := by
    rw [hs]
    field_simp
  rw [e2] at h6
  linarith

/-- The second derivative of the solution exists and is bounded. -/
theorem second (hx : ∃ a b, xs.head? = some a ∧ xs.getLast? = some b ∧ a < b) (hpos : ∀ x, InDom xs x → 0 < κ.eval x) {u u' fN : ℝ → ℝ}
    (hu : Classical xs (fun x => κ.eval x) (fun x => f.eval x) dir neu g fN u u') :
    ∃ (u'' : ℝ → ℝ) (M : ℝ), 0 < M ∧ ∀ x, InDom xs x → HasDerivAt u' (u'' x) x ∧ |u'' x| ≤ M := by
  obtain ⟨a, b, ha, hb, hab⟩ := hx
  have hin : ∀ x, a ≤ x → x ≤ b → InDom xs x := fun x h1 h2 => ⟨a, b, ha, hb, h1, h2⟩
  have hout : ∀ x, InDom xs x → a ≤ x ∧ x ≤ b := by
    rintro x ⟨a', b', ha', hb', h1, h2⟩
    rw [ha] at ha'
    rw [hb] at hb'
    cases ha'
    cases hb'
    exact ⟨h1, h2⟩
  set w : ℝ → ℝ := fun x => (-f.eval x * κ.eval x - κ.eval x * u' x * κ.derivative.eval x) / κ.eval x ^ 2 with hw
  have hd : ∀ x, InDom xs x → HasDerivAt u' (w x) x := by
    intro x hx
    have h1 := (hu.flux x hx).div (κ.hasDerivAt x) (hpos x hx).ne'
    refine h1.congr_of_eventuallyEq ?_
    have h2 : ∀ᶠ y in nhds x, κ.eval y ≠ 0 := (κ.continuous.continuousAt.eventually_ne (hpos x hx).ne')
    filter_upwards [h2] with y hy
    show u' y = κ.eval y * u' y / κ.eval y
    field_simp
  have hwc : ContinuousOn w (Set.Icc a b) := by
    have hu'c : ContinuousOn u' (Set.Icc a b) := fun x hx => (hd x (hin x hx.1 hx.2)).continuousAt.continuousWithinAt
    refine ContinuousOn.div ?_ ((κ.continuous.pow 2).continuousOn) (fun x hx => pow_ne_zero 2 (hpos x (hin x hx.1 hx.2)).ne')
    exact ((f.continuous.neg.mul κ.continuous).continuousOn).sub ((κ.continuous.continuousOn.mul hu'c).mul κ.derivative.continuous.continuousOn)
  obtain ⟨M, hM⟩ := isCompact_Icc.exists_bound_of_continuousOn hwc
  refine ⟨w, max M 1, by positivity, fun x hx => ⟨hd x hx, ?_⟩⟩
  have := hM x ⟨(hout x hx).1, (hout x hx).2⟩
  exact this.trans (le_max_left _ _)

/-- **C73** (rate).  Dirichlet values at one end at least, `κ` between `k₀ > 0` and `K ≤ ρ²k₀`, `|u''| ≤ M`, leaves no longer than `η`: the energy of the
error is at most `K (Mη)² (b−a)`, and at every point the answer is within `2ρMη(b−a)` of the solution. -/
theorem C73_rate (h : Setting close xs e sf m F D V L) (hd : Data xs e n j re k kf κ f) {S : Nat} (hS : sampleSize kn = .ok S) (hm : BndMark xs sf F neu mk)
    {z : ℝ} (hz : IsEnd xs z) (hdz : dir z = true) {v v' v'' : ℝ → ℝ}
    (hu : Classical xs (fun x => κ.eval x) (fun x => f.eval x) dir neu g (fun x => kn.eval S x j) v v')
    (hu' : ∀ x, InDom xs x → HasDerivAt v' (v'' x) x) {M η k0 K ρ : ℝ} (hM : ∀ x, InDom xs x → |v'' x| ≤ M) (hM0 : 0 < M)
    (hη : ∀ c ∈ L, ∀ lo hi, coord F c 0 = some lo → coord F c 1 = some hi → hi - lo ≤ η) (hη0 : 0 < η) (hk0 : 0 < k0) (hρ : 0 < ρ)
    (hK : ∀ x, InDom xs x → k0 ≤ κ.eval x ∧ κ.eval x ≤ K) (hKρ : K ≤ ρ ^ 2 * k0)
    {a b : ℝ} (ha : xs.head? = some a) (hb : xs.getLast? = some b) {d : List (Nat × ℝ)} (hD : BndDict xs sf F D dir g d) {keep fuel}
    {ord : List ℕ → List ℕ} (ho : SetOrder ord) (hasc : Ascending ord) {y u : List ℝ} (hr : Solved e k kf kn mk re j F D L d keep fuel ord y u) :
    energy (fun x => κ.eval x) F L v' (fn e F D u) ≤ K * (M * η) ^ 2 * (b - a) ∧
    ∀ c ∈ L, ∀ x, On F c x → |fn e F D u c x - v x| ≤ 2 * (ρ * M * η * (b - a)) := by
  have hco : ∀ c ∈ L, coord F c 0 = some (dataAt F c).lo ∧ coord F c 1 = some (dataAt F c).hi := fun c hc =>
    ⟨by rw [h.coord hc]; rfl, by rw [h.coord hc]; rfl⟩
  obtain ⟨h1, h2⟩ := rate h hd hS hm hz hdz hu hu' hM hM0 (fun c hc => hη c hc _ _ (hco c hc).1 (hco c hc).2) hη0 hk0 hρ hK hKρ ha hb
    (discrete h hD ho hasc hr)
  rw [energy_eq h]
  refine ⟨h1, fun c hc x hx => ?_⟩
  obtain ⟨lo, hi, h3, h4, h5, h6⟩ := hx
  rw [(hco c hc).1] at h3
  rw [(hco c hc).2] at h4
  cases h3
  cases h4
  have := h2 c hc x h5 h6
  unfold fn
  rw [feFn_loc]
  exact this

/-- The part of a problem that does not depend on the mesh, the element and the quadrature: the interval `[a, b]`, the coefficient and the load, the
conditions at the ends, and the solution. -/
structure Problem (a b : ℝ) (κ f : Polynomial ℝ) (dir neu : ℝ → Bool) (g gN v v' : ℝ → ℝ) : Prop where
  ord : a < b
  pos : ∀ x, a ≤ x → x ≤ b → 0 < κ.eval x
  fixed : dir a = true ∨ dir b = true
  sol : Classical [a, b] (fun x => κ.eval x) (fun x => f.eval x) dir neu g gN v v'

theorem classical_ends {ys : List ℝ} {κ f : ℝ → ℝ} {v v' g gN gN' : ℝ → ℝ} (h1 : xs.head? = ys.head?) (h2 : xs.getLast? = ys.getLast?)
    (hg : ∀ x, IsEnd ys x → gN x = gN' x) (h : Classical xs κ f dir neu g gN v v') : Classical ys κ f dir neu g gN' v v' := by
  have hin : ∀ x, InDom ys x → InDom xs x := by
    rintro x ⟨a, b, ha, hb, hx⟩
    exact ⟨a, b, by rw [h1]; exact ha, by rw [h2]; exact hb, hx⟩
  refine ⟨fun x hx => h.deriv x (hin x hx), fun x hx => h.flux x (hin x hx), fun x hx => h.value x ?_, fun x hx hdx => ?_, fun x hx hdx => ?_⟩
  · unfold IsEnd at hx ⊢
    rw [h1, h2]
    exact hx
  · rw [h.left x (by rw [h1]; exact hx) hdx, hg x (.inl hx)]
  · rw [h.right x (by rw [h2]; exact hx) hdx, hg x (.inr hx)]

/-- **C73** (convergence).  For every problem and every `ε > 0` there is a `δ > 0` such that, whatever the mesh, its history, the continuous element and the
quadrature rule: if all leaves are shorter than `δ`, then what `solve` returns is within `ε` of the solution at every point. -/
theorem C73_converges {a b : ℝ} {v v' : ℝ → ℝ} (hP : Problem a b κ f dir neu g gN v v') {ε : ℝ} (hε : 0 < ε) :
    ∃ δ > 0, ∀ (close : ℝ → ℝ → Bool) (xs : List ℝ) (e : ET) (sf : Option Nat) (m : Nat) (F : List (Cell ℝ)) (D : DH) (V : DV ℝ) (L : List IN)
      (n j : Nat) (re : List (ℝ × ℝ)) (k kf kn : Kernel ℝ) (mk : VX → Bool) (d : List (Nat × ℝ)) (S : Nat) (keep : Bool) (fuel : Nat)
      (ord : List ℕ → List ℕ) (y u : List ℝ),
      xs.head? = some a → xs.getLast? = some b → Setting close xs e sf m F D V L → Data xs e n j re k kf κ f → BndMark xs sf F neu mk →
      BndDict xs sf F D dir g d → sampleSize kn = .ok S → (∀ x, IsEnd xs x → kn.eval S x j = gN x) → SetOrder ord → Ascending ord →
      (∀ c ∈ L, ∀ lo hi, coord F c 0 = some lo → coord F c 1 = some hi → hi - lo < δ) →
      Solved e k kf kn mk re j F D L d keep fuel ord y u →
      ∀ c ∈ L, ∀ x, On F c x → |fn e F D u c x - v x| ≤ ε := by
  have hab := hP.ord
  have hin : ∀ x, InDom [a, b] x → a ≤ x ∧ x ≤ b := by
    rintro x ⟨a', b', h1, h2, h3⟩
    cases h1
    cases h2
    exact h3
  obtain ⟨w, M, hM0, hM⟩ := second (xs := [a, b]) ⟨a, b, rfl, rfl, hab⟩ (fun x hx => hP.pos x (hin x hx).1 (hin x hx).2) hP.sol
  obtain ⟨xm, hxm, hmin⟩ := isCompact_Icc.exists_isMinOn (Set.nonempty_Icc.2 hab.le) (κ.continuous.continuousOn (s := Set.Icc a b))
  obtain ⟨xM, hxM, hmax⟩ := isCompact_Icc.exists_isMaxOn (Set.nonempty_Icc.2 hab.le) (κ.continuous.continuousOn (s := Set.Icc a b))
  set k0 := κ.eval xm with hk0
  set K := κ.eval xM with hK
  have hk0p : 0 < k0 := hP.pos xm hxm.1 hxm.2
  have hle : k0 ≤ K := hmin hxM
  set ρ := K / k0 with hρ
  have hρ1 : 1 ≤ ρ := (one_le_div hk0p).2 hle
  have hKρ : K ≤ ρ ^ 2 * k0 := by
    have e1 : K = ρ * k0 := by rw [hρ]; field_simp
    rw [e1]
    exact mul_le_mul_of_nonneg_right (by nlinarith) hk0p.le
  have hba : 0 < b - a := by linarith
  refine ⟨ε / (2 * ρ * M * (b - a)), by positivity, ?_⟩
  intro close xs e sf m F D V L n j re k kf kn mk d S keep fuel ord y u ha hb h hd hm hD hS hkn ho hasc hη hr c hc x hx
  have hInd : ∀ x, InDom xs x ↔ InDom [a, b] x := by
    intro x
    unfold InDom
    rw [ha, hb]
    rfl
  have hu : Classical xs (fun x => κ.eval x) (fun x => f.eval x) dir neu g (fun x => kn.eval S x j) v v' :=
    classical_ends (xs := [a, b]) (ys := xs) ha.symm hb.symm (fun x hx => (hkn x hx).symm) hP.sol
  have hz : ∃ z, IsEnd xs z ∧ dir z = true := by
    rcases hP.fixed with h1 | h1
    · exact ⟨a, .inl ha, h1⟩
    · exact ⟨b, .inr hb, h1⟩
  obtain ⟨z, hz, hdz⟩ := hz
  have hη0 : 0 < ε / (2 * ρ * M * (b - a)) := by positivity
  have := (C73_rate h hd hS hm hz hdz hu (v'' := w) (fun x hx => (hM x ((hInd x).1 hx)).1) (fun x hx => (hM x ((hInd x).1 hx)).2) hM0
    (fun c hc lo hi h1 h2 => (hη c hc lo hi h1 h2).le) hη0 hk0p (by linarith) (fun x hx => by
      have := hin x ((hInd x).1 hx)
      exact ⟨hmin ⟨this.1, this.2⟩, hmax ⟨this.1, this.2⟩⟩) hKρ ha hb hD ho hasc hr).2 c hc x hx
  refine this.trans (le_of_eq ?_)
  field_simp

end
end Verif.Bvp
