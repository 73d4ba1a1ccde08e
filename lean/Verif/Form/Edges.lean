import Verif.Form.Exact

/-!
# C56: edge forms, vertex forms, forms in one dimension
-/

namespace Verif.Form

open Verif.Quad Verif.Fem Verif.Gauss MeasureTheory Topology

/-! ## Polynomials in one variable -/

/-- `f` is a polynomial of degree at most `d`. -/
def PD (d : Nat) (f : ℝ → ℝ) : Prop := ∃ P : Polynomial ℝ, P.natDegree ≤ d ∧ ∀ x, f x = P.eval x

theorem PD.mul {d d' : Nat} {f g : ℝ → ℝ} (hf : PD d f) (hg : PD d' g) : PD (d + d') (fun x => f x * g x) := by
  obtain ⟨P, hP, eP⟩ := hf
  obtain ⟨Q, hQ, eQ⟩ := hg
  exact ⟨P * Q, Polynomial.natDegree_mul_le_of_le hP hQ, fun x => by rw [Polynomial.eval_mul, ← eP, ← eQ]⟩

theorem PD.mono {d d' : Nat} {f : ℝ → ℝ} (h : PD d f) (hd : d ≤ d') : PD d' f := by
  obtain ⟨P, hP, eP⟩ := h
  exact ⟨P, hP.trans hd, eP⟩

theorem PD.const (d : Nat) (a : ℝ) : PD d (fun _ => a) := ⟨Polynomial.C a, by simp, by simp⟩

theorem PD.affine {d : Nat} {f : ℝ → ℝ} (h : PD d f) (a b : ℝ) : PD d (fun t => f (a + t * b)) := by
  obtain ⟨P, hP, eP⟩ := h
  refine ⟨P.comp (Polynomial.C a + Polynomial.C b * Polynomial.X), ?_, fun x => ?_⟩
  · refine le_trans Polynomial.natDegree_comp_le ?_
    have : (Polynomial.C a + Polynomial.C b * Polynomial.X : Polynomial ℝ).natDegree ≤ 1 := by compute_degree
    calc _ ≤ P.natDegree * 1 := Nat.mul_le_mul_left _ this
      _ ≤ d := by omega
  · show f (a + x * b) = _
    rw [eP, Polynomial.eval_comp]
    simp only [Polynomial.eval_add, Polynomial.eval_C, Polynomial.eval_mul, Polynomial.eval_X, mul_comm]

theorem PD.totpoly (m : Nat) (c : Nat → Nat → ℝ) (a b : Pt ℝ) :
    PD m (fun t => Gauss.totpoly m c (a.x + t * (b.x - a.x)) (a.y + t * (b.y - a.y))) := by
  open Polynomial in
  refine ⟨∑ i ∈ Finset.range (m + 1), ∑ j ∈ Finset.range (m + 1 - i),
    C (c i j) * (C a.x + C (b.x - a.x) * X) ^ i * (C a.y + C (b.y - a.y) * X) ^ j, ?_, ?_⟩
  · refine natDegree_sum_le_of_forall_le _ _ (fun i hi => natDegree_sum_le_of_forall_le _ _ (fun j hj => ?_))
    have hi' := Finset.mem_range.1 hi
    have hj' := Finset.mem_range.1 hj
    have l1 : (C a.x + C (b.x - a.x) * X : ℝ[X]).natDegree ≤ 1 := by compute_degree
    have l2 : (C a.y + C (b.y - a.y) * X : ℝ[X]).natDegree ≤ 1 := by compute_degree
    have p1 := natDegree_pow_le_of_le i l1
    have p2 := natDegree_pow_le_of_le j l2
    have := natDegree_mul_le_of_le (natDegree_mul_le_of_le (natDegree_C (c i j)).le p1) p2
    omega
  · intro t
    simp only [Gauss.totpoly, eval_finsetSum, eval_mul, eval_pow, eval_add, eval_C, eval_X]
    refine Finset.sum_congr rfl (fun i _ => Finset.sum_congr rfl (fun j _ => ?_))
    rw [mul_comm t, mul_comm t]

theorem rule_eq {n : Nat} {re : List (ℝ × ℝ)} (hre : rule1 n = .ok re) : re = rule01 n ∧ 1 ≤ n := by
  unfold rule1 at hre
  split_ifs at hre with h
  obtain rfl := Except.ok.inj hre
  refine ⟨rfl, ?_⟩
  rcases Nat.eq_zero_or_pos n with rfl | h'
  · simp at h
  · exact h'

/-! ## Specification: line integrals -/

/-- The integral of `g` along the segment from `a` to `b` with respect to arc length. -/
noncomputable def lineInt (a b : Pt ℝ) (g : ℝ × ℝ → ℝ) : ℝ :=
  ∫ t in (0 : ℝ)..1, g (a.x + t * (b.x - a.x), a.y + t * (b.y - a.y)) * √((b.x - a.x) ^ 2 + (b.y - a.y) ^ 2)

/-- `u` is basis function `n` on the closed cell `q`. -/
def OnClosed (q : QD ℝ) (e : ET) (n : Nat) (u : ℝ × ℝ → ℝ) : Prop :=
  ∀ r, InSq r → u (F q r) = val (phi2 e n r)

/-! ## Edges -/

/-- The quadrature nodes on an edge lie on the edge. -/
theorem edge_phys (q : QD ℝ) (j : Fin 4) (t : ℝ) : toPhys q ⟨(edgeRef j t).1, (edgeRef j t).2⟩ =
    ⟨(q.v j).x + t * ((q.v (j + 1)).x - (q.v j).x), (q.v j).y + t * ((q.v (j + 1)).y - (q.v j).y)⟩ := by
  fin_cases j <;> simp [edgeRef, corner, toPhys, QD.v] <;> constructor <;> ring

theorem edge_pd (e : ET) (n : Nat) (hn : n < nd2 e) (j : Fin 4) :
    PD (deg e) (fun t => val (phi2 e n (edgeRef j t))) := by
  obtain ⟨h1, h2⟩ := bix_lt e n hn
  simp only [phi2_tb e n hn, val]
  have p1 : PD (deg e) (tb (pTab e) (bix e n).1) := tb_poly e _ h1
  have p2 : PD (deg e) (tb (pTab e) (bix e n).2) := tb_poly e _ h2
  have aux : ∀ {f g : ℝ → ℝ} (a b c : ℝ), PD (deg e) f → PD (deg e) (fun t => f (a + t * b) * g c) ∧
      PD (deg e) (fun t => g c * f (a + t * b)) := by
    intro f g a b c hf
    constructor
    · exact ((hf.affine a b).mul (PD.const 0 (g c))).mono (by omega)
    · exact ((PD.const 0 (g c)).mul (hf.affine a b)).mono (by omega)
  fin_cases j
  · exact (by simpa [edgeRef, corner] using (aux (g := tb (pTab e) (bix e n).2) 0 1 0 p1).1)
  · exact (by simpa [edgeRef, corner] using (aux (g := tb (pTab e) (bix e n).1) 0 1 1 p2).2)
  · exact (by simpa [edgeRef, corner] using (aux (g := tb (pTab e) (bix e n).2) 1 (-1) 1 p1).1)
  · exact (by simpa [edgeRef, corner] using (aux (g := tb (pTab e) (bix e n).1) 1 (-1) 0 p2).2)

/-- Quadrature over an edge is the line integral if the integrand is a polynomial the rule can do. -/
theorem edge_sum {n : Nat} {rc : List ((ℝ × ℝ) × ℝ)} {re : List (ℝ × ℝ)} (hre : rule1 n = .ok re) (h5 : n ≤ 5)
    (c : QCell) (j : Fin 4) (f : QP → ℝ) (g : ℝ × ℝ → ℝ) (G : ℝ → ℝ) (hG : PD (2 * n - 1) G)
    (hgG : ∀ t, 0 ≤ t → t ≤ 1 → g (F c.q (edgeRef j t)) = G t)
    (h : ∀ t w, 0 ≤ t → t ≤ 1 → f ⟨edgeRef j t, toPhys c.q ⟨(edgeRef j t).1, (edgeRef j t).2⟩, w⟩ =
      w * g (F c.q (edgeRef j t))) :
    ((points rc re c (.edge j)).map f).sum = lineInt (c.q.v j) (c.q.v (j + 1)) g := by
  obtain ⟨rfl, h1⟩ := rule_eq hre
  obtain ⟨P, hP, eP⟩ := hG
  have hex := rule01_exact_le5 n h1 h5 P hP
  set L := √(((c.q.v (j + 1)).x - (c.q.v j).x) ^ 2 + ((c.q.v (j + 1)).y - (c.q.v j).y) ^ 2) with hL
  have e1 : lineInt (c.q.v j) (c.q.v (j + 1)) g = L * ∫ t in (0 : ℝ)..1, P.eval t := by
    unfold lineInt
    rw [intervalIntegral.integral_mul_const, mul_comm, ← hL]
    congr 1
    refine intervalIntegral.integral_congr (fun t ht => ?_)
    rw [Set.uIcc_of_le zero_le_one] at ht
    rw [← eP, ← hgG t ht.1 ht.2]
    simp only [F, edge_phys]
  rw [e1, ← hex, ← apply_smul]
  simp only [points, List.map_map, apply]
  congr 1
  refine List.map_congr_left (fun p hp => ?_)
  obtain ⟨_, a, b⟩ := (C32_weights1 n _ hre).2 p hp
  simp only [Function.comp]
  rw [h p.1 _ a.le b.le, hgG p.1 a.le b.le, eP, ← hL]
  ring

theorem sum_filter_map {α : Type} (l : List α) (P : α → Bool) (r : α → Region) (g : Region → ℝ) :
    (((l.filter P).map r).map g).sum = (l.map (fun i => if P i then g (r i) else 0)).sum := by
  induction l with
  | nil => simp
  | cons a l ih =>
    simp only [List.map_map] at ih
    by_cases h : P a <;> simp [h, ih]

section
variable {n n2 : Nat} {rc : List ((ℝ × ℝ) × ℝ)} {re : List (ℝ × ℝ)}

theorem value_closed (c : QCell) (e : ET) (j : Nat) (r : ℝ × ℝ) (hr : InSq r) :
    val (shapeAt c ⟨e, [0]⟩ r j) = val (phi2 e j r) := by
  obtain ⟨h0, h1, h2, h3⟩ := hr
  have c1 : ¬ ¬ (0 ≤ r.1 ∧ 0 ≤ r.2) := not_not.2 ⟨h0, h2⟩
  have c2 : ¬ ¬ (r.1 ≤ 1 ∧ r.2 ≤ 1) := not_not.2 ⟨h1, h3⟩
  simp only [shapeAt, shape2]
  rw [if_neg c1, if_neg c2]

/-- **C56 (edge forms).** With measure `'ds'` the entry is the sum, over the marked half-edges of the cell
(all, without a flag), of the exact line integrals of `κ ψ φ` -- for polynomial kernels of total degree
`m` with `deg ψ + deg φ + m ≤ 2n-1`, on any quadrilateral. -/
theorem C56_edges (hrc : rule2 n2 = .ok rc) (hre : rule1 n = .ok re) (h5 : n ≤ 5)
    (k : Kernel (Pt ℝ)) (S : Nat) (hS : sampleSize k = .ok S) (e1 e2 : ET) (m : Nat)
    (hd : deg e1 + deg e2 + m ≤ 2 * n - 1) (flag : Option Nat) (c : QCell) (s : Nat) (κ : Nat → Nat → ℝ)
    (hk : ∀ x, k.eval S x s = totpoly m κ x.x x.y) (a i : Nat) (ha : a < nd2 e1) (hi : i < nd2 e2)
    (ψ φ : ℝ × ℝ → ℝ) (hψ : OnClosed c.q e1 a ψ) (hφ : OnClosed c.q e2 i φ) :
    evalBil k ⟨e1, [0]⟩ ⟨e2, [0]⟩ .ds flag rc re c a i s =
      .ok (∑ j : Fin 4, if marked flag (c.em j) then
        lineInt (c.q.v j) (c.q.v (j + 1)) (fun p => totpoly m κ p.1 p.2 * ψ p * φ p) else 0) := by
  rw [evalBil_eq (t := ⟨e1, [0]⟩) (u := ⟨e2, [0]⟩) hrc hre hS (Or.inl rfl) (Or.inl rfl) .ds flag c ha hi s]
  rw [qps, ← sum_flatMap]
  simp only [regions]
  rw [sum_filter_map, ← List.sum_ofFn, List.ofFn_eq_map]
  refine congrArg Except.ok (congrArg List.sum (List.map_congr_left (fun j _ => ?_)))
  split_ifs
  · refine edge_sum hre h5 c j _ _ (fun t => totpoly m κ ((c.q.v j).x + t * ((c.q.v (j + 1)).x - (c.q.v j).x))
        ((c.q.v j).y + t * ((c.q.v (j + 1)).y - (c.q.v j).y)) * val (phi2 e1 a (edgeRef j t)) *
        val (phi2 e2 i (edgeRef j t))) ?_ ?_ ?_
    · exact (((PD.totpoly m κ _ _).mul (edge_pd e1 a ha j)).mul (edge_pd e2 i hi j)).mono (by omega)
    · intro t h0 h1
      have hr := edgeRef_inSq j t h0 h1
      rw [hψ _ hr, hφ _ hr]
      simp only [F, edge_phys]
    · intro t w h0 h1
      have hr := edgeRef_inSq j t h0 h1
      simp only
      rw [value_closed c e1 a _ hr, value_closed c e2 i _ hr, hk, hψ _ hr, hφ _ hr]
      simp only [F]; ring
  · rfl

/-- **C56 (edge load vectors).** -/
theorem C56_edges_load (hrc : rule2 n2 = .ok rc) (hre : rule1 n = .ok re) (h5 : n ≤ 5)
    (k : Kernel (Pt ℝ)) (S : Nat) (hS : sampleSize k = .ok S) (e1 : ET) (m : Nat)
    (hd : deg e1 + m ≤ 2 * n - 1) (flag : Option Nat) (c : QCell) (s : Nat) (κ : Nat → Nat → ℝ)
    (hk : ∀ x, k.eval S x s = totpoly m κ x.x x.y) (a : Nat) (ha : a < nd2 e1)
    (ψ : ℝ × ℝ → ℝ) (hψ : OnClosed c.q e1 a ψ) :
    evalLin k ⟨e1, [0]⟩ .ds flag rc re c a s =
      .ok (∑ j : Fin 4, if marked flag (c.em j) then
        lineInt (c.q.v j) (c.q.v (j + 1)) (fun p => totpoly m κ p.1 p.2 * ψ p) else 0) := by
  rw [evalLin_eq (t := ⟨e1, [0]⟩) hrc hre hS (Or.inl rfl) .ds flag c ha s]
  rw [qps, ← sum_flatMap]
  simp only [regions]
  rw [sum_filter_map, ← List.sum_ofFn, List.ofFn_eq_map]
  refine congrArg Except.ok (congrArg List.sum (List.map_congr_left (fun j _ => ?_)))
  split_ifs
  · refine edge_sum hre h5 c j _ _ (fun t => totpoly m κ ((c.q.v j).x + t * ((c.q.v (j + 1)).x - (c.q.v j).x))
        ((c.q.v j).y + t * ((c.q.v (j + 1)).y - (c.q.v j).y)) * val (phi2 e1 a (edgeRef j t))) ?_ ?_ ?_
    · exact ((PD.totpoly m κ _ _).mul (edge_pd e1 a ha j)).mono (by omega)
    · intro t h0 h1
      have hr := edgeRef_inSq j t h0 h1
      rw [hψ _ hr]
      simp only [F, edge_phys]
    · intro t w h0 h1
      have hr := edgeRef_inSq j t h0 h1
      simp only
      rw [value_closed c e1 a _ hr, hk, hψ _ hr]
      simp only [F]; ring
  · rfl

/-- **C56 (flux through the boundary, area, constants).** The constant form: `'ds'` gives the line
integrals over the marked half-edges, `'dx'` with kernel 1 the area of the cell. -/
theorem C56_edges_constant (hre : rule1 n = .ok re) (h5 : n ≤ 5)
    (k : Kernel (Pt ℝ)) (S : Nat) (hS : sampleSize k = .ok S) (m : Nat) (hd : m ≤ 2 * n - 1)
    (flag : Option Nat) (c : QCell) (s : Nat) (κ : Nat → Nat → ℝ)
    (hk : ∀ x, k.eval S x s = totpoly m κ x.x x.y) :
    evalConst k .ds flag rc re c s =
      .ok (∑ j : Fin 4, if marked flag (c.em j) then
        lineInt (c.q.v j) (c.q.v (j + 1)) (fun p => totpoly m κ p.1 p.2) else 0) := by
  rw [evalConst_eq hS (by simp) flag c s]
  rw [qps, ← sum_flatMap]
  simp only [regions]
  rw [sum_filter_map, ← List.sum_ofFn, List.ofFn_eq_map]
  refine congrArg Except.ok (congrArg List.sum (List.map_congr_left (fun j _ => ?_)))
  split_ifs
  · refine edge_sum hre h5 c j _ _ (fun t => totpoly m κ ((c.q.v j).x + t * ((c.q.v (j + 1)).x - (c.q.v j).x))
        ((c.q.v j).y + t * ((c.q.v (j + 1)).y - (c.q.v j).y))) ((PD.totpoly m κ _ _).mono hd) ?_ ?_
    · intro t h0 h1
      simp only [F, edge_phys]
    · intro t w h0 h1
      simp only
      rw [hk]
      simp only [F]
  · rfl

theorem C56_area (hrc : rule2 (n ^ 2) = .ok rc) (h5 : n ≤ 5)
    (k : Kernel (Pt ℝ)) (S : Nat) (hS : sampleSize k = .ok S) (s : Nat) (hk : ∀ x, k.eval S x s = 1)
    (flag : Option Nat) (c : QCell) (hm : marked flag c.q.flags = true) :
    evalConst k .dx flag rc re c s = .ok c.q.area := by
  rw [evalConst_eq hS (by simp) flag c s]
  obtain ⟨r, hr, hA⟩ := C33_area n (order_le hrc) h5 c.q
  obtain rfl : rc = r := Except.ok.inj (hrc.symm.trans hr)
  rw [← hA]
  simp [qps, regions, hm, points, map2, hk, Function.comp_def]

/-- The mass matrix of the kernel 1 sums to the area of the cell. -/
theorem C56_mass_total {n1 : Nat} (hrc : rule2 (n ^ 2) = .ok rc) (h5 : n ≤ 5) (hre : rule1 n1 = .ok re)
    (k : Kernel (Pt ℝ)) (S : Nat) (hS : sampleSize k = .ok S) (s : Nat) (hk : ∀ x, k.eval S x s = 1)
    (e1 e2 : ET) (flag : Option Nat) (c : QCell) (hm : marked flag c.q.flags = true) :
    ∑ a ∈ Finset.range (nd2 e1), ∑ i ∈ Finset.range (nd2 e2),
      val (evalBil k ⟨e1, [0]⟩ ⟨e2, [0]⟩ .dx flag rc re c a i s) = c.q.area := by
  have h1 := (C56_constants_value hrc hre k S hS ⟨e1, [0]⟩ ⟨e2, [0]⟩ (Or.inl rfl) rfl .dx flag c s).1
  have h2 := (C56_constants_value hrc hre k S hS ⟨e1, [0]⟩ ⟨e1, [0]⟩ (Or.inl rfl) rfl .dx flag c s).2 (by simp)
  rw [Finset.sum_congr rfl (fun a ha => h1 a (Finset.mem_range.1 ha))]
  rw [C56_area hrc h5 k S hS s hk flag c hm, val_ok] at h2
  exact h2

/-! ## Vertices -/

theorem corner_phys (q : QD ℝ) (j : Fin 4) : toPhys q ⟨(corner j.1).1, (corner j.1).2⟩ = q.v j := by
  fin_cases j <;> simp [corner, toPhys, QD.v]

/-- **C56 (vertex forms).** With measure `'dv'` the entry is the sum of the integrand over the marked
vertices of the cell. -/
theorem C56_vertices (hrc : rule2 n2 = .ok rc) (hre : rule1 n = .ok re)
    (k : Kernel (Pt ℝ)) (S : Nat) (hS : sampleSize k = .ok S) (e1 e2 : ET)
    (flag : Option Nat) (c : QCell) (s : Nat) (a i : Nat) (ha : a < nd2 e1) (hi : i < nd2 e2)
    (ψ φ : ℝ × ℝ → ℝ) (hψ : OnClosed c.q e1 a ψ) (hφ : OnClosed c.q e2 i φ) :
    evalBil k ⟨e1, [0]⟩ ⟨e2, [0]⟩ .dv flag rc re c a i s =
      .ok (∑ j : Fin 4, if marked flag (c.vm j) then
        k.eval S (c.q.v j) s * ψ ((c.q.v j).x, (c.q.v j).y) * φ ((c.q.v j).x, (c.q.v j).y) else 0) := by
  rw [evalBil_eq (t := ⟨e1, [0]⟩) (u := ⟨e2, [0]⟩) hrc hre hS (Or.inl rfl) (Or.inl rfl) .dv flag c ha hi s]
  rw [qps, ← sum_flatMap]
  simp only [regions]
  rw [sum_filter_map, ← List.sum_ofFn, List.ofFn_eq_map]
  refine congrArg Except.ok (congrArg List.sum (List.map_congr_left (fun j _ => ?_)))
  split_ifs
  · have hr : InSq (corner j.1) := by fin_cases j <;> simp [corner, InSq]
    have h1 := hψ _ hr
    have h2 := hφ _ hr
    simp only [F, corner_phys] at h1 h2
    simp only [points, List.map_cons, List.map_nil, List.sum_cons, List.sum_nil]
    rw [value_closed c e1 a _ hr, value_closed c e2 i _ hr, corner_phys, h1, h2]
    ring
  · rfl

/-- **C56 violated (constant form on vertices).** A form without test function on a marked vertex raises
IndexError: the reference vertex is looked up through a basis function. -/
theorem C56_vertex_constant_violated (k : Kernel (Pt ℝ)) (S : Nat) (hS : sampleSize k = .ok S)
    (flag : Option Nat) (c : QCell) (s : Nat) (h : ∃ j, marked flag (c.vm j) = true) :
    evalConst k .dv flag rc re c s = .error .index := by
  obtain ⟨j, hj⟩ := h
  have hne : ((List.finRange 4).filter (fun i => marked flag (c.vm i))) ≠ [] := by
    intro h0
    have : j ∈ (List.finRange 4).filter (fun i => marked flag (c.vm i)) := by simp [hj]
    rw [h0] at this
    simp at this
  unfold evalConst
  rw [hS]
  simp only [bind, Except.bind, regions]
  obtain ⟨x, l, hl⟩ := List.exists_cons_of_ne_nil hne
  rw [hl]
  simp [sumE, bind, Except.bind]

end

end Verif.Form
