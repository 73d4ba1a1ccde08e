import Verif.Gal.Flux
import Verif.Fn.Poly
import Mathlib.Algebra.MvPolynomial.PDeriv
import Mathlib.Algebra.MvPolynomial.Degrees

/-!
# Polynomials in the plane
-/

namespace Verif.Gal
open Verif.Quad Verif.Fem Verif.Gauss MeasureTheory

/-- A polynomial in the two coordinates. -/
abbrev Poly := MvPolynomial (Fin 2) ℝ

/-- Its value at a point of the plane. -/
noncomputable def ev (p : Poly) (z : ℝ × ℝ) : ℝ := MvPolynomial.eval ![z.1, z.2] p

/-- Partial derivatives. -/
noncomputable def dx (p : Poly) : Poly := MvPolynomial.pderiv 0 p
noncomputable def dy (p : Poly) : Poly := MvPolynomial.pderiv 1 p

theorem ev_add (p q : Poly) (z) : ev (p + q) z = ev p z + ev q z := by simp [ev]
theorem ev_mul (p q : Poly) (z) : ev (p * q) z = ev p z * ev q z := by simp [ev]
theorem ev_neg (p : Poly) (z) : ev (-p) z = - ev p z := by simp [ev]

/-- They are the derivatives. -/
theorem grad_ev (p : Poly) (z : ℝ × ℝ) : HasGrad (ev p) (ev (dx p) z) (ev (dy p) z) z := by
  induction p using MvPolynomial.induction_on with
  | C a =>
    have h : ev (MvPolynomial.C a) = fun _ => a := by funext z; simp [ev]
    rw [h]
    unfold HasGrad
    simp [dx, dy, ev]
    exact hasFDerivAt_const a z
  | add p q hp hq =>
    have h : ev (p + q) = fun z => ev p z + ev q z := funext (ev_add p q)
    rw [h]
    refine (hp.add hq).congr ?_ ?_ <;> simp [dx, dy, ev]
  | mul_X p i hp =>
    have h : ev (p * MvPolynomial.X i) = fun z => ev p z * ev (MvPolynomial.X i) z := funext (ev_mul p _)
    have hX : HasGrad (ev (MvPolynomial.X i)) (ev (dx (MvPolynomial.X i)) z) (ev (dy (MvPolynomial.X i)) z) z := by
      fin_cases i
      · have : ev (MvPolynomial.X (0 : Fin 2)) = Prod.fst := by funext z; simp [ev]
        simp only [Fin.zero_eta, this]
        unfold HasGrad
        simp [dx, dy, ev, MvPolynomial.pderiv_X]
        exact hasFDerivAt_fst
      · have : ev (MvPolynomial.X (1 : Fin 2)) = Prod.snd := by funext z; simp [ev]
        simp only [Fin.mk_one, this]
        unfold HasGrad
        simp [dx, dy, ev, MvPolynomial.pderiv_X]
        exact hasFDerivAt_snd
    rw [h]
    refine (hp.mul hX).congr ?_ ?_
    · simp only [dx, MvPolynomial.pderiv_mul, ev_add, ev_mul]
      ring
    · simp only [dy, MvPolynomial.pderiv_mul, ev_add, ev_mul]
      ring

theorem ev_cont (p : Poly) : Continuous (ev p) := continuous_iff_continuousAt.2 (fun z => (grad_ev p z).continuousAt)

theorem pderiv_deg (i : Fin 2) (p : Poly) : (MvPolynomial.pderiv i p).totalDegree ≤ p.totalDegree - 1 := by
  refine Finset.sup_le (fun m hm => ?_)
  rw [MvPolynomial.mem_support_iff, MvPolynomial.coeff_pderiv] at hm
  have h1 : m + Finsupp.single i 1 ∈ p.support := by
    rw [MvPolynomial.mem_support_iff]
    exact left_ne_zero_of_mul hm
  have h2 := MvPolynomial.le_totalDegree h1
  rw [Finsupp.sum_add_index' (by simp) (by simp)] at h2
  simp at h2
  omega

theorem ev_sum (p : Poly) (z : ℝ × ℝ) : ev p z = ∑ m ∈ p.support, p.coeff m * (z.1 ^ m 0 * z.2 ^ m 1) := by
  unfold ev
  rw [MvPolynomial.eval_eq']
  simp

theorem deg_two {p : Poly} {m : Fin 2 →₀ ℕ} (hm : m ∈ p.support) : m 0 + m 1 ≤ p.totalDegree := by
  have := MvPolynomial.le_totalDegree hm
  rwa [Finsupp.sum_fintype _ _ (by simp), Fin.sum_univ_two] at this

/-- In the coordinates of any cell. -/
theorem ev_F_mem (q : QD ℝ) {d : Nat} {p : Poly} (hp : p.totalDegree ≤ d) : (fun r => ev p (F q r)) ∈ W d d := by
  have h : (fun r => ev p (F q r)) = ∑ m ∈ p.support, (p.coeff m) • (fun r : ℝ × ℝ => (F q r).1 ^ m 0 * (F q r).2 ^ m 1) := by
    funext r
    rw [ev_sum, Finset.sum_apply]
    rfl
  rw [h]
  refine Submodule.sum_mem _ (fun m hm => Submodule.smul_mem _ _ ?_)
  obtain ⟨hx, hy⟩ := Fn.phys_x_mem q
  have h2 := Fn.W_mul (Fn.W_pow hx (m 0)) (Fn.W_pow hy (m 1))
  have := deg_two hm
  exact Fn.W_mono (K := ℝ) (by omega) (by omega) h2

/-- Interpolation in a cell reproduces the polynomial. -/
theorem interp_ev (q : QD ℝ) (e : ET) {p : Poly} (hp : p.totalDegree ≤ deg e) (r : ℝ × ℝ) :
    interp2 e (fun n => ev p (F q ((nodes2 e).getD n (0, 0)))) r = ev p (F q r) :=
  Fn.interp_W (K := ℝ) e (g := fun r => ev p (F q r)) (ev_F_mem q hp) r

end Verif.Gal
