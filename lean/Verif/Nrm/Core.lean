import Verif.Nrm.Model
import Verif.Gauss.Mapped
import Verif.Quad.Segments
import Verif.Per.Pairs
import Verif.Fn.Eval

/-! # Mapped rules and normals: lemmas -/

set_option linter.unusedSimpArgs false

namespace Verif.Nrm
open Verif.Mesh Verif.Dof Verif.Quad Verif.Fem Verif.Phys Verif.Gal Verif.Bnd Verif.Reg Verif.Gauss Verif.Neu Verif.Form

theorem len_ne {e : Seg ℝ} (h : e.1 ≠ e.2) : √((e.2.y - e.1.y) ^ 2 + (e.1.x - e.2.x) ^ 2) ≠ 0 := by
  intro h0
  have := Real.sqrt_eq_zero'.1 h0
  apply h
  have hx : e.1.x - e.2.x = 0 := by nlinarith [sq_nonneg (e.2.y - e.1.y), sq_nonneg (e.1.x - e.2.x)]
  have hy : e.2.y - e.1.y = 0 := by nlinarith [sq_nonneg (e.2.y - e.1.y), sq_nonneg (e.1.x - e.2.x)]
  obtain ⟨⟨a, b⟩, ⟨c, d⟩⟩ := e
  simp only [Pt.mk.injEq] at *
  constructor <;> linarith

theorem normal_some {e : Seg ℝ} (h : e.1 ≠ e.2) : unitNormal e = some ((e.2.y - e.1.y) / √((e.2.y - e.1.y) ^ 2 + (e.1.x - e.2.x) ^ 2),
    (e.1.x - e.2.x) / √((e.2.y - e.1.y) ^ 2 + (e.1.x - e.2.x) ^ 2)) := by
  unfold unitNormal
  simp only
  rw [if_neg (len_ne h)]

theorem side_ne {q : QD ℝ} (h : ConvexCCW q) (i : Fin 4) : q.v i ≠ q.v ((i : Nat) + 1) := by
  obtain ⟨h0, h1, h2, h3⟩ := h
  intro he
  fin_cases i <;> simp only [QD.v, tri, Nat.reduceAdd, Nat.reduceMod] at * <;> (have ex := congrArg Pt.x he; have ey := congrArg Pt.y he; simp only [ex, ey] at h0 h1 h2 h3; first | (ring_nf at h0; exact absurd h0 (lt_irrefl _)) | (ring_nf at h1; exact absurd h1 (lt_irrefl _)) | (ring_nf at h2; exact absurd h2 (lt_irrefl _)))

/-- The flux through a side of a cell, computed with the rule for edges. -/
theorem edge_exact {n1 : Nat} {re : List (ℝ × ℝ)} (hre : rule1 n1 = .ok re) (h5 : n1 ≤ 5) {q : QD ℝ} (hq : ConvexCCW q) (i : Fin 4) {P Q : Poly}
    (hP : P.totalDegree ≤ 2 * n1 - 1) (hQ : Q.totalDegree ≤ 2 * n1 - 1) :
    edgeFlux (.one re) (q.v i, q.v ((i : Nat) + 1)) P Q = sideFlux q (ev P) (ev Q) (fun _ => 1) i := by
  obtain ⟨hrr, h1⟩ := rule_eq hre
  rw [flux_normal, edgeFlux, normal_some (side_ne hq i)]
  simp only [quad, mappedRule, mapE, List.map_map]
  have hl : √(((q.v ((i : Nat) + 1)).y - (q.v i).y) ^ 2 + ((q.v i).x - (q.v ((i : Nat) + 1)).x) ^ 2) = sideLen q i := by
    unfold sideLen
    congr 1
    ring
  have hl' : √(((q.v ((i : Nat) + 1)).x - (q.v i).x) ^ 2 + ((q.v ((i : Nat) + 1)).y - (q.v i).y) ^ 2) = sideLen q i := rfl
  rw [hl]
  simp only [hl']
  have hpd : PD (2 * n1 - 1) (fun r => (ev P (F q (E i r)) * (normal q i).1 + ev Q (F q (E i r)) * (normal q i).2) * 1) := by
    obtain ⟨A, hA, eA⟩ := ev_pd q i P
    obtain ⟨B, hB, eB⟩ := ev_pd q i Q
    refine ⟨A * Polynomial.C (normal q i).1 + B * Polynomial.C (normal q i).2, ?_, fun r => ?_⟩
    · refine (Polynomial.natDegree_add_le _ _).trans (max_le ?_ ?_)
      · exact (Polynomial.natDegree_mul_C_le _ _).trans (hA.trans hP)
      · exact (Polynomial.natDegree_mul_C_le _ _).trans (hB.trans hQ)
    · have e1 := eA r
      have e2 := eB r
      simp only at e1 e2
      simp [e1, e2]
  obtain ⟨A, hA, eA⟩ := hpd
  have hex := rule01_exact_le5 n1 h1 h5 A hA
  rw [show (fun r => (ev P (F q (E i r)) * (normal q i).1 + ev Q (F q (E i r)) * (normal q i).2) * 1) = fun r => A.eval r from _root_.funext eA, ← hex,
    ← apply_smul, ← hrr]
  simp only [Gauss.apply]
  refine congrArg List.sum (List.map_congr_left (fun p _ => ?_))
  simp only [Function.comp]
  rw [← eA p.1]
  have hF : F q (E i p.1) = ((q.v i).x + p.1 * ((q.v ((i : Nat) + 1)).x - (q.v i).x), (q.v i).y + p.1 * ((q.v ((i : Nat) + 1)).y - (q.v i).y)) := by
    fin_cases i <;> simp [F, E, toPhys, QD.v] <;> constructor <;> ring
  beta_reduce
  rw [hF]
  have hn : normal q i = (((q.v ((i : Nat) + 1)).y - (q.v i).y) / sideLen q i, ((q.v i).x - (q.v ((i : Nat) + 1)).x) / sideLen q i) := by
    unfold normal
    rw [neg_sub]
  rw [hn]
  ring

/-- The integral of the divergence, computed with the rule for cells. -/
theorem cell_exact {n : Nat} {rc : List ((ℝ × ℝ) × ℝ)} (hrc : rule2 (n ^ 2) = .ok rc) (h5 : n ≤ 5) (q : QD ℝ) {P Q : Poly}
    (hP : P.totalDegree ≤ 2 * n - 1) (hQ : Q.totalDegree ≤ 2 * n - 1) :
    cellDiv (.two rc) q P Q = ∑ i : Fin 4, sideFlux q (ev P) (ev Q) (fun _ => 1) i := by
  have h1 := order_le hrc
  obtain ⟨m, _, _, hm', hrc'⟩ := rule2_sq hrc
  have : m = n := (Nat.pow_left_injective (n := 2) (by omega) hm').symm
  subst this
  have g1 : ∀ z, HasGrad (fun _ : ℝ × ℝ => (1 : ℝ)) ((fun _ => 0) z) ((fun _ => 0) z) z := by
    intro z
    have := grad_ev (MvPolynomial.C 1) z
    have e1 : ev (MvPolynomial.C 1) = fun _ => (1 : ℝ) := by funext z; simp [ev]
    rw [e1] at this
    simpa [dx, dy, ev] using this
  rw [← cell_flux q (grad_ev P) (grad_ev Q) g1 (ev_cont _) (ev_cont _) continuous_const continuous_const]
  have hd : (dx P + dy Q).totalDegree ≤ 2 * m - 2 := by
    refine (MvPolynomial.totalDegree_add _ _).trans (max_le ?_ ?_)
    · exact (pderiv_deg 0 _).trans (by omega)
    · exact (pderiv_deg 1 _).trans (by omega)
  have hm : (fun r => det q ⟨r.1, r.2⟩ * ev (dx P + dy Q) (F q r)) ∈ W (2 * m - 1) (2 * m - 1) :=
    W_mono (by omega) (by omega) (W_mul (det_mem q) (ev_F_mem q hd))
  have key := tensor_exact_W (rule01 m) (2 * m - 1) (rule01_exact_le5 m h1 h5) hm
  refine Eq.trans ?_ (key.trans ?_)
  · simp only [cellDiv, quad, mappedRule, map2, List.map_map, Gauss.apply, ← hrc']
    refine congrArg List.sum (List.map_congr_left (fun p _ => ?_))
    simp only [Function.comp, detJ_eq, F]
    ring
  · congr 1
    funext r
    simp [ev, mul_add]

end Verif.Nrm
