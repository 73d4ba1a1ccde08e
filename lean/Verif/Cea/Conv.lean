import Verif.Cea.Rate
import Verif.Cea.Ex
import Mathlib.Analysis.SpecificLimits.Basic

/-!
# C79: the finite element method converges, with the optimal order
-/

namespace Verif.Cea
open Verif.Mesh Verif.Dof Verif.Quad Verif.Fem Verif.Form Verif.Asm Verif.Phys Verif.Bnd Verif.Reg Verif.Dir Verif.Gauss Verif.Gal Verif.Linsys MeasureTheory

theorem sq_one : ∫ _ in Gauss.sq, (1 : ℝ) = 1 := by
  have h : ∫ r in Gauss.sq, det (⟨⟨0, 0⟩, ⟨1, 0⟩, ⟨1, 1⟩, ⟨0, 1⟩, ∅⟩ : QD ℝ) ⟨r.1, r.2⟩ = 1 := by
    rw [det_int]
    norm_num [QD.area, QD.edges]
  refine Eq.trans ?_ h
  refine setIntegral_congr_fun (measurableSet_Icc.prod measurableSet_Icc) (fun r _ => ?_)
  simp [Quad.det, jxs, jxt, jys, jyt]

theorem sq_const (x : ℝ) : ∫ _ in Gauss.sq, x = x := by
  have := int_mul x (fun _ => 1)
  rw [sq_one] at this
  simpa using this

/-- The area of a parallelogram. -/
theorem area_par {q : QD ℝ} (hc : ConvexCCW q) (hx : hDx q = 0) (hy : hDy q = 0) : volume.real (Quad.region q) = det q ⟨0, 0⟩ := by
  have h1 := cell_integral hc (fun _ => (1 : ℝ)) (fun _ => det q ⟨0, 0⟩) (fun r _ => by rw [(par_det hx hy _).1, mul_one])
  rw [sq_const] at h1
  rw [← h1]
  simp

section
variable {close : Pt ℝ → Pt ℝ → Bool} {B : Base ℝ} {e : ET} {sf : Bool} {s : St ℝ} {D : DH} {V : DV ℝ} {rect : Nat → Bool}

theorem errC_bound {q : QD ℝ} (hc : ConvexCCW q) (hx : hDx q = 0) (hy : hDy q = 0) {κ : Poly} {u : ℝ × ℝ → ℝ} (hu : ContDiff ℝ 1 u) {v : Nat → ℝ} {Kκ Y : ℝ}
    (hκ : ∀ r, Dof.InSq r → |ev κ (F q r)| ≤ Kκ)
    (hg : ∀ r, Dof.InSq r → |gx q e v r - px u (F q r)| ≤ Y ∧ |gy q e v r - py u (F q r)| ≤ Y) :
    errC κ u q e v ≤ 2 * Kκ * Y ^ 2 * volume.real (Quad.region q) := by
  rw [area_par hc hx hy, ← sq_const (2 * Kκ * Y ^ 2 * det q ⟨0, 0⟩)]
  unfold errC
  obtain ⟨c1, c2⟩ := cont_px hu
  have cF := cont_F q
  have ci : Continuous (fun r : ℝ × ℝ => det q ⟨r.1, r.2⟩ * ev κ (F q r) * ((gx q e v r - px u (F q r)) ^ 2 + (gy q e v r - py u (F q r)) ^ 2)) :=
    ((continuous_det _).mul ((ev_cont κ).comp cF)).mul ((((W_cont (gx_mem hx hy e v).1).sub (c1.comp cF)).pow 2).add
      (((W_cont (gx_mem hx hy e v).2).sub (c2.comp cF)).pow 2))
  refine setIntegral_mono_on (cont_int ci) (cont_int continuous_const) (measurableSet_Icc.prod measurableSet_Icc) (fun r hr => ?_)
  have hr := sq_of hr
  have hd := C21_det_pos q hc ⟨0, 0⟩ (by norm_num) (by norm_num) (by norm_num) (by norm_num)
  obtain ⟨h1, h2⟩ := hg r hr
  have hk := abs_le.1 (hκ r hr)
  have hk0 := (abs_nonneg _).trans (hκ r hr)
  have s1 := sq_le_sq' (abs_le.1 h1).1 (abs_le.1 h1).2
  have s2 := sq_le_sq' (abs_le.1 h2).1 (abs_le.1 h2).2
  show det q ⟨r.1, r.2⟩ * ev κ (F q r) * ((gx q e v r - px u (F q r)) ^ 2 + (gy q e v r - py u (F q r)) ^ 2) ≤ 2 * Kκ * Y ^ 2 * det q ⟨0, 0⟩
  rw [(par_det hx hy _).1]
  have h3 : ev κ (F q r) * ((gx q e v r - px u (F q r)) ^ 2 + (gy q e v r - py u (F q r)) ^ 2) ≤ Kκ * (2 * Y ^ 2) :=
    mul_le_mul hk.2 (by linarith) (by positivity) hk0
  have := mul_le_mul_of_nonneg_left h3 hd.le
  linarith

/-- The areas of the leaves add up to the area of the initial cells. -/
theorem area_sum (hA : Par B) (h : Setting close B e sf s D V rect) : ((leaves sf s).map (fun c => volume.real (Quad.region (cellQ s c)))).sum =
    ∑ f ∈ Finset.range B.n, volume.real (Quad.region (rootQ B f)) := by
  have hreach := h.ready.ready.uses.uses.reach
  have e1 : ((leaves sf s).map (fun c => volume.real (Quad.region (cellQ s c)))).sum = ((leaves sf s).map (fun c => det (quadAt B c.1 c.2) ⟨0, 0⟩)).sum := by
    congr 1
    refine List.map_congr_left (fun c hc => ?_)
    obtain ⟨hx, hy⟩ := par_cell h.wf hA hreach (leaf_mem h hc)
    rw [area_par (leaf_convex h hc) hx hy]
    obtain ⟨a1, a2, a3, a4⟩ := jac_same (cellQ_eq h.wf hreach c (leaf_mem h hc)) ⟨0, 0⟩
    unfold Quad.det
    rw [a1, a2, a3, a4]
  rw [e1, sum_leaves h.wf hreach h.roots h.full (fun c => det (quadAt B c.1 c.2) ⟨0, 0⟩) (fun c hc _ _ => ?_)]
  · refine Finset.sum_congr rfl (fun f hf => ?_)
    have hf := Finset.mem_range.1 hf
    rw [area_par (h.convex f hf) (hA f hf).1 (hA f hf).2]
    rfl
  · have hi := hreach.inv h.wf
    obtain ⟨hx, hy⟩ := par_at hA (CEx_root hi c.2 c.1 ((hi.mem c).1 hc)) c.2
    have : ∀ k : Fin 4, det (quadAt B (child c k).1 (child c k).2) ⟨0, 0⟩ = det (quadAt B c.1 c.2) ⟨0, 0⟩ / 4 := fun k => child_det hx hy k
    simp only [this, Finset.sum_const, Finset.card_univ, Fintype.card_fin]
    ring

/-- **C79** (error estimate on any mesh).  For every initial mesh of parallelograms, element of degree `k` from 1 to 3, polynomial `κ > 0`, and
function `u` with `k + 1` continuous derivatives there is a constant `K` such that: whatever the refinement — however uneven, with hanging nodes —
if `u` solves `−div(κ∇u) = f` and its values are prescribed at the boundary nodes, the square of the energy norm of the error of what `solve` returns is
at most `K` times the sum over the leaves of the area times `h²ᵏ`, `h = 2^−level`. -/
theorem C79_local (hc : Fn.Convex B) (hA : Par B) (e : ET) {κ : Poly} (hk : ∀ p ∈ Dom B, 0 < ev κ p) {u : ℝ × ℝ → ℝ}
    (hu : ContDiff ℝ (deg e + 1 : ℕ) u) : ∃ K, 0 ≤ K ∧ ∀ f sf s w, Classical κ f u (Dom B) → Computed B e κ f (fun x => u (x.x, x.y)) sf s w →
      errE κ sf s u w ≤ K * ((leaves sf s).map (fun c => ((1 / 2 : ℝ) ^ level c) ^ (2 * deg e) * volume.real (Quad.region (cellQ s c)))).sum := by
  obtain ⟨A, M, Φ, Ψ, Kκ, K, b⟩ := bounds_ex hc hA e κ hu
  refine ⟨2 * max Kκ 0 * rateK e A M Φ Ψ ^ 2, by positivity, ?_⟩
  rintro f sf s w hcl ⟨close, D, V, rect, n, n1, j, rc, re, k, kf, H, C, d, keep, fuel, ord, y, U, h, hp, hh, hD, ho, ha, hr, hw⟩
  obtain ⟨v, v1, v2, v3⟩ := interpolant h hh (fun x => u (x.x, x.y))
  obtain ⟨w', hw'⟩ := fn_exists h v
  refine (C78_best h hA hp hk hh hD ho ha hr hw hcl v w' v1 hw').2.trans ?_
  rw [errE_ref h hw', ← lsum_mul]
  refine List.sum_le_sum (fun c hc => ?_)
  obtain ⟨hx, hy⟩ := par_cell h.wf hA h.ready.ready.uses.uses.reach (leaf_mem h hc)
  refine (errC_bound (leaf_convex h hc) hx hy (hcl.smooth.of_le (by norm_num)) (Kκ := max Kκ 0)
    (fun r hr => (b.kap _ (b.dom (leaf_dom h hc hr))).trans (le_max_left _ _)) (fun r hr => grad_error hu b hA h hh v2 v3 hc hr)).trans (le_of_eq ?_)
  rw [mul_pow, ← pow_mul _ (deg e) 2, mul_comm (deg e) 2]
  ring

/-- **C79** (order of convergence).  If all leaves have level at least `R`, the energy norm of the error is at most `K 2^(−kR)`: the order `k` of the
element, whatever the hanging nodes. -/
theorem C79_rate (hc : Fn.Convex B) (hA : Par B) (e : ET) {κ : Poly} (hk : ∀ p ∈ Dom B, 0 < ev κ p) {u : ℝ × ℝ → ℝ}
    (hu : ContDiff ℝ (deg e + 1 : ℕ) u) : ∃ K, 0 ≤ K ∧ ∀ f sf s w R, Classical κ f u (Dom B) → Computed B e κ f (fun x => u (x.x, x.y)) sf s w →
      (∀ c ∈ leaves sf s, R ≤ level c) → Real.sqrt (errE κ sf s u w) ≤ K * ((1 / 2 : ℝ) ^ R) ^ deg e := by
  obtain ⟨K, hK, h⟩ := C79_local hc hA e hk hu
  refine ⟨Real.sqrt (K * ∑ f ∈ Finset.range B.n, volume.real (Quad.region (rootQ B f))), Real.sqrt_nonneg _, ?_⟩
  intro f sf s w R hcl hcm hR
  have h1 := h f sf s w hcl hcm
  obtain ⟨close, D, V, rect, n, n1, j, rc, re, k, kf, H, C, d, keep, fuel, ord, y, U, hS, -⟩ := hcm
  have h2 : ((leaves sf s).map (fun c => ((1 / 2 : ℝ) ^ level c) ^ (2 * deg e) * volume.real (Quad.region (cellQ s c)))).sum ≤
      ((1 / 2 : ℝ) ^ R) ^ (2 * deg e) * ∑ f ∈ Finset.range B.n, volume.real (Quad.region (rootQ B f)) := by
    rw [← area_sum hA hS, ← lsum_mul]
    refine List.sum_le_sum (fun c hc => mul_le_mul_of_nonneg_right ?_ measureReal_nonneg)
    exact pow_le_pow_left₀ (by positivity) (pow_le_pow_of_le_one (by norm_num) (by norm_num) (hR c hc)) _
  have h3 : errE κ sf s u w ≤ (K * ∑ f ∈ Finset.range B.n, volume.real (Quad.region (rootQ B f))) * (((1 / 2 : ℝ) ^ R) ^ deg e) ^ 2 := by
    refine h1.trans ((mul_le_mul_of_nonneg_left h2 hK).trans (le_of_eq ?_))
    rw [← pow_mul _ (deg e) 2, mul_comm (deg e) 2]
    ring
  have h4 := Real.sqrt_le_sqrt h3
  rwa [Real.sqrt_mul' _ (by positivity), Real.sqrt_sq (by positivity)] at h4

/-- **C79** (convergence).  For every `ε > 0` there is a level `R` such that on all meshes whose leaves have level at least `R`, the energy norm of the
error is less than `ε`. -/
theorem C79_converges (hc : Fn.Convex B) (hA : Par B) (e : ET) (he : torn e = false) {κ : Poly} (hk : ∀ p ∈ Dom B, 0 < ev κ p) {u : ℝ × ℝ → ℝ}
    (hu : ContDiff ℝ (deg e + 1 : ℕ) u) {ε : ℝ} (hε : 0 < ε) : ∃ R, ∀ f sf s w, Classical κ f u (Dom B) → Computed B e κ f (fun x => u (x.x, x.y)) sf s w →
      (∀ c ∈ leaves sf s, R ≤ level c) → Real.sqrt (errE κ sf s u w) < ε := by
  obtain ⟨K, hK, h⟩ := C79_rate hc hA e hk hu
  obtain ⟨R, hR⟩ := exists_pow_lt_of_lt_one (show 0 < ε / (K + 1) by positivity) (show (1 / 2 : ℝ) < 1 by norm_num)
  refine ⟨R, fun f sf s w hcl hcm hl => (h f sf s w R hcl hcm hl).trans_lt ?_⟩
  have h1 : ((1 / 2 : ℝ) ^ R) ^ deg e ≤ (1 / 2 : ℝ) ^ R := by
    have h2 := deg_pos he
    have h3 : (1 / 2 : ℝ) ^ R ≤ 1 := pow_le_one₀ (by norm_num) (by norm_num)
    calc ((1 / 2 : ℝ) ^ R) ^ deg e ≤ ((1 / 2 : ℝ) ^ R) ^ 1 := pow_le_pow_of_le_one (by positivity) h3 h2
      _ = _ := pow_one _
  rw [lt_div_iff₀ (by positivity)] at hR
  have h4 : (0 : ℝ) < (1 / 2) ^ R := by positivity
  nlinarith [mul_le_mul_of_nonneg_left h1 hK]

end

/-- The hypotheses: a mesh with hanging nodes, biquadratic elements, `κ = 1` and the harmonic function `eˣ sin y`. -/
example (close : Pt ℝ → Pt ℝ → Bool) : Fn.Convex twoR ∧ Par twoR ∧ (∀ p ∈ Dom twoR, 0 < ev 1 p) ∧ ContDiff ℝ (deg .Q2 + 1 : ℕ) exU ∧
    Classical 1 0 exU (Dom twoR) ∧ ∃ w, Computed twoR .Q2 1 0 (fun x => exU (x.x, x.y)) false witR w := by
  refine ⟨twoR_convex, twoR_par, fun p _ => by simp [ev], exU_smooth _, exU_classical _, ?_⟩
  obtain ⟨rc, re, D, V, H, C, d, fuel, y, u, w, h, hp, hh, hd, hr, hw⟩ := ex_run close
  exact ⟨w, close, D, V, _, _, _, _, rc, re, _, _, H, C, d, _, fuel, _, y, u, h, hp, hh, hd, sortedSet_spec.1, sortedSet_spec.2, hr, hw⟩

end Verif.Cea
