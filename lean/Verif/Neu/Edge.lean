import Verif.Neu.Flux
import Verif.Gal.Core
import Verif.Form.Edges

/-!
# Quadrature over the marked sides of a cell is exact
-/

namespace Verif.Neu
open Verif.Mesh Verif.Dof Verif.Bnd Verif.Quad Verif.Fem Verif.Form Verif.Gauss MeasureTheory Verif.Phys Verif.Reg Verif.Gal

/-- The length of side `i`. -/
noncomputable def sideLen (q : QD ℝ) (i : Fin 4) : ℝ := √(((q.v (i + 1)).x - (q.v i).x) ^ 2 + ((q.v (i + 1)).y - (q.v i).y) ^ 2)

theorem edgeRef_E (i : Fin 4) (r : ℝ) : edgeRef i r = E i r := by
  fin_cases i <;> simp [edgeRef, Quad.corner, E, sub_eq_add_neg]

theorem PD.add {d : Nat} {f g : ℝ → ℝ} (hf : PD d f) (hg : PD d g) : PD d (fun x => f x + g x) := by
  obtain ⟨P, hP, eP⟩ := hf
  obtain ⟨Q, hQ, eQ⟩ := hg
  exact ⟨P + Q, (Polynomial.natDegree_add_le _ _).trans (max_le hP hQ), fun x => by rw [Polynomial.eval_add, ← eP, ← eQ]⟩

theorem PD.sum {α : Type} {d : Nat} (s : Finset α) (f : α → ℝ → ℝ) (h : ∀ a ∈ s, PD d (f a)) : PD d (fun x => ∑ a ∈ s, f a x) := by
  classical
  induction s using Finset.induction_on with
  | empty => simpa using PD.const d 0
  | insert a s ha ih =>
    simp only [Finset.sum_insert ha]
    exact PD.add (h a (Finset.mem_insert_self _ _)) (ih (fun b hb => h b (Finset.mem_insert_of_mem hb)))

theorem PD.pow {d : Nat} {f : ℝ → ℝ} (h : PD d f) (m : Nat) : PD (m * d) (fun x => f x ^ m) := by
  induction m with
  | zero => simpa using PD.const 0 1
  | succ m ih =>
    have := (ih.mul h).mono (d' := (m + 1) * d) (by rw [Nat.succ_mul])
    simpa [pow_succ] using this

theorem PD.line (a b : ℝ) : PD 1 (fun r => (1 - r) * a + r * b) := by
  refine ⟨Polynomial.C a + Polynomial.C (b - a) * Polynomial.X, by compute_degree, fun x => ?_⟩
  simp
  ring

/-- A polynomial along a side. -/
theorem ev_pd (q : QD ℝ) (i : Fin 4) (η : Poly) : PD η.totalDegree (fun r => ev η (F q (E i r))) := by
  simp only [ev_sum]
  refine PD.sum _ _ (fun m hm => ?_)
  have hd : m 0 + m 1 ≤ η.totalDegree := by
    have := MvPolynomial.le_totalDegree hm
    rw [Finsupp.sum_fintype _ _ (by simp)] at this
    simpa [Fin.sum_univ_two] using this
  have h1 : PD 1 (fun r => (F q (E i r)).1) := by
    have : (fun r => (F q (E i r)).1) = fun r => (1 - r) * (F q (E i 0)).1 + r * (F q (E i 1)).1 := funext (fun r => by rw [F_line])
    rw [this]
    exact PD.line _ _
  have h2 : PD 1 (fun r => (F q (E i r)).2) := by
    have : (fun r => (F q (E i r)).2) = fun r => (1 - r) * (F q (E i 0)).2 + r * (F q (E i 1)).2 := funext (fun r => by rw [F_line])
    rw [this]
    exact PD.line _ _
  exact ((PD.const 0 _).mul ((PD.pow h1 _).mul (PD.pow h2 _))).mono (by omega)

/-- A finite element function along a side. -/
theorem fe_pd (e : ET) (v : Nat → ℝ) (i : Fin 4) : PD (deg e) (fun r => interp2 e v (E i r)) := by
  simp only [interp_sum]
  refine PD.sum _ _ (fun n hn => ?_)
  have := edge_pd e n (Finset.mem_range.1 hn) i
  simp only [edgeRef_E] at this
  exact ((PD.const 0 (v n)).mul this).mono (by omega)

section
variable {n1 n2 : Nat} {rc : List ((ℝ × ℝ) × ℝ)} {re : List (ℝ × ℝ)}

/-- Quadrature over the marked sides of a cell. -/
theorem edges_int (hre : rule1 n1 = .ok re) (h5 : n1 ≤ 5) (c : QCell) (t : Nat) (f : QP → ℝ) (G : Fin 4 → ℝ → ℝ)
    (hG : ∀ i, PD (2 * n1 - 1) (G i))
    (h : ∀ i r w, 0 ≤ r → r ≤ 1 → f ⟨E i r, toPhys c.q ⟨(E i r).1, (E i r).2⟩, w⟩ = w * G i r) :
    ((qps .ds (some t) rc re c).map f).sum = ∑ i : Fin 4, if t ∈ c.em i then sideLen c.q i * ∫ r in (0 : ℝ)..1, G i r else 0 := by
  rw [qps, ← sum_flatMap]
  simp only [regions]
  rw [sum_filter_map, ← List.sum_ofFn, List.ofFn_eq_map]
  refine congrArg List.sum (List.map_congr_left (fun j _ => ?_))
  simp only [marked, decide_eq_true_eq]
  split_ifs
  · obtain ⟨rfl, h1⟩ := rule_eq hre
    obtain ⟨P, hP, eP⟩ := hG j
    have hex := rule01_exact_le5 n1 h1 h5 P hP
    have e1 : G j = fun r => P.eval r := funext eP
    rw [e1, ← hex, ← apply_smul]
    simp only [points, List.map_map, Gauss.apply]
    congr 1
    refine List.map_congr_left (fun p hp => ?_)
    obtain ⟨_, a, b⟩ := (C32_weights1 n1 _ hre).2 p hp
    simp only [Function.comp]
    have := h j p.1 (p.2 * sideLen c.q j) a.le b.le
    rw [← edgeRef_E] at this
    refine this.trans ?_
    rw [eP]
    ring
  · rfl

theorem field_closed (c : QCell) (e : ET) (v : Nat → ℝ) (i : Fin 4) {r : ℝ} (h0 : 0 ≤ r) (h1 : r ≤ 1) : fieldAt c ⟨e, [0]⟩ v (E i r) = interp2 e v (E i r) := by
  rw [interp_sum]
  unfold fieldAt
  refine Finset.sum_congr rfl (fun n _ => ?_)
  rw [← edgeRef_E, value_closed c e n _ (edgeRef_inSq i r h0 h1)]

/-- The load of a side term. -/
theorem edge_lin (hrc : rule2 n2 = .ok rc) (hre : rule1 n1 = .ok re) (h5 : n1 ≤ 5) {k : Kernel (Pt ℝ)} {j : Nat} {η : Poly} (hk : IsPoly k j η) (e : ET)
    (hd : η.totalDegree + deg e ≤ 2 * n1 - 1) (t : Nat) (c : QCell) (v : Nat → ℝ) :
    ∑ a ∈ Finset.range (nd2 e), v a * val (evalLin k ⟨e, [0]⟩ .ds (some t) rc re c a j) =
      ∑ i : Fin 4, if t ∈ c.em i then sideLen c.q i * ∫ r in (0 : ℝ)..1, ev η (F c.q (E i r)) * interp2 e v (E i r) else 0 := by
  obtain ⟨S, hS, hk⟩ := hk
  rw [lin_field hrc hre hS (t := ⟨e, [0]⟩) (Or.inl rfl)]
  refine edges_int hre h5 c t _ (fun i r => ev η (F c.q (E i r)) * interp2 e v (E i r)) (fun i => ?_) (fun i r w h0 h1 => ?_)
  · exact ((ev_pd c.q i η).mul (fe_pd e v i)).mono hd
  · simp only
    rw [field_closed c e v i h0 h1, hk]
    simp only [F]
    ring

/-- The matrix of a side term. -/
theorem edge_bil (hrc : rule2 n2 = .ok rc) (hre : rule1 n1 = .ok re) (h5 : n1 ≤ 5) {k : Kernel (Pt ℝ)} {j : Nat} {η : Poly} (hk : IsPoly k j η) (e : ET)
    (hd : η.totalDegree + 2 * deg e ≤ 2 * n1 - 1) (t : Nat) (c : QCell) (v x : Nat → ℝ) :
    ∑ a ∈ Finset.range (nd2 e), ∑ i ∈ Finset.range (nd2 e), v a * val (evalBil k ⟨e, [0]⟩ ⟨e, [0]⟩ .ds (some t) rc re c a i j) * x i =
      ∑ i : Fin 4, if t ∈ c.em i then sideLen c.q i * ∫ r in (0 : ℝ)..1, ev η (F c.q (E i r)) * interp2 e v (E i r) * interp2 e x (E i r) else 0 := by
  obtain ⟨S, hS, hk⟩ := hk
  rw [bil_fields hrc hre hS (t := ⟨e, [0]⟩) (u := ⟨e, [0]⟩) (Or.inl rfl) (Or.inl rfl)]
  refine edges_int hre h5 c t _ (fun i r => ev η (F c.q (E i r)) * interp2 e v (E i r) * interp2 e x (E i r)) (fun i => ?_) (fun i r w h0 h1 => ?_)
  · exact (((ev_pd c.q i η).mul (fe_pd e v i)).mul (fe_pd e x i)).mono (by omega)
  · simp only
    rw [field_closed c e v i h0 h1, field_closed c e x i h0 h1, hk]
    simp only [F]
    ring

end
end Verif.Neu
