import Verif.Form.Edges

/-!
# C56: forms on intervals
-/

namespace Verif.Form

open Verif.Fem Verif.Gauss MeasureTheory Topology

/-! ## Specification -/

/-- `u` is basis function `n` on the interval `d`. -/
def OnItv (d : OneD.Itv ℝ) (e : ET) (n : Nat) (u : ℝ → ℝ) : Prop :=
  ∀ x, d.lo < x → x < d.hi → u x = val (phi1 e n ((x - d.lo) / (d.hi - d.lo)))

/-- The derivatives `f`, `fx`, `fxx`. -/
def ValidDer1 (l : List Nat) : Prop := l = [0] ∨ l = [1, 0] ∨ l = [2, 0, 0]

/-- The derivative of `u` that the list stands for. -/
noncomputable def Der1 (l : List Nat) (u : ℝ → ℝ) : ℝ → ℝ :=
  if l = [0] then u else if l = [1, 0] then deriv u else deriv (deriv u)

/-! ## Proofs -/

theorem onItv_ev {d : OneD.Itv ℝ} (hd : d.lo < d.hi) {e : ET} {n : Nat} {u : ℝ → ℝ} (hu : OnItv d e n u) {r : ℝ}
    (h0 : 0 < r) (h1 : r < 1) : ∀ᶠ s in 𝓝 r, u (OneD.toPhys d s) = val (phi1 e n s) := by
  have hL : 0 < d.hi - d.lo := sub_pos.mpr hd
  filter_upwards [isOpen_Ioo.mem_nhds (show r ∈ Set.Ioo (0 : ℝ) 1 from ⟨h0, h1⟩)] with s hs
  have e1 : d.lo < OneD.toPhys d s := by
    have := mul_pos hL hs.1
    simp only [OneD.toPhys]; linarith
  have e2 : OneD.toPhys d s < d.hi := by
    have := mul_lt_mul_of_pos_left hs.2 hL
    simp only [OneD.toPhys]; linarith
  rw [hu _ e1 e2]
  congr 2
  simp only [OneD.toPhys]
  field_simp
  ring

theorem shape1_poly (d : OneD.Itv ℝ) (b : Basis) (hb : ValidDer1 b.der) (n : Nat) (hn : n < nd1 b.e) :
    ∃ G, PD (deg b.e) G ∧ ∀ r, 0 ≤ r → r ≤ 1 → shapeAt1 d b r n = .ok (G r) := by
  obtain ⟨e, der⟩ := b
  simp only at hb hn ⊢
  have hn' : n < np e := by rw [← nd1_eq]; exact hn
  rcases hb with rfl | rfl | rfl
  · refine ⟨_, tb_poly e n hn', fun r h0 h1 => ?_⟩
    simp [shapeAt1, shape1, h0, h1, phi1_tb e n hn]
  · refine ⟨fun r => OneD.jacP2R d * tb (pxTab e) n r, ?_, fun r h0 h1 => ?_⟩
    · exact ((PD.const 0 _).mul (dtb_poly e n hn')).mono (by omega)
    · simp [shapeAt1, shape1, h0, h1, dphi1_tb e n hn, bind, Except.bind, pure, Except.pure]
  · refine ⟨fun r => OneD.jacP2R d ^ 2 * tb (pxxTab e) n r, ?_, fun r h0 h1 => ?_⟩
    · exact ((PD.const 0 _).mul (ddtb_poly e n hn')).mono (by omega)
    · simp [shapeAt1, shape1, h0, h1, d2phi1_tb e n hn, bind, Except.bind, pure, Except.pure]

theorem shapeAt1_spec (d : OneD.Itv ℝ) (hd : d.lo < d.hi) (b : Basis) (hb : ValidDer1 b.der) (n : Nat)
    (hn : n < nd1 b.e) (u : ℝ → ℝ) (hu : OnItv d b.e n u) (r : ℝ) (h0 : 0 < r) (h1 : r < 1) :
    shapeAt1 d b r n = .ok (Der1 b.der u (OneD.toPhys d r)) := by
  obtain ⟨a1, ⟨a, ha, ha'⟩, ⟨c, hc, hc'⟩⟩ := C55_interval d hd b.e n hn r h0.le h1.le u (onItv_ev hd hu h0 h1)
  obtain ⟨e, der⟩ := b
  simp only at hb ha hc a1 ⊢
  rcases hb with rfl | rfl | rfl
  · simp only [shapeAt1, Der1, if_true]; exact a1
  · simp only [shapeAt1, Der1]; rw [if_neg (by simp), if_pos trivial, ha'.deriv]; exact ha
  · simp only [shapeAt1, Der1]; rw [if_neg (by simp), if_neg (by simp), hc'.deriv]; exact hc

/-- Quadrature over an interval is the integral if the integrand is, inside, a polynomial in the reference
coordinate that the rule can do. -/
theorem itv_sum {n : Nat} {re : List (ℝ × ℝ)} (hre : rule1 n = .ok re) (h5 : n ≤ 5) (d : OneD.Itv ℝ)
    (hd : d.lo < d.hi) (f : ℝ × ℝ × ℝ → ℝ) (g G : ℝ → ℝ) (hG : PD (2 * n - 1) G)
    (hgG : ∀ t, 0 < t → t < 1 → g (OneD.toPhys d t) = G t)
    (h : ∀ t w, 0 < t → t < 1 → f (t, OneD.toPhys d t, w) = w * g (OneD.toPhys d t)) :
    ((points1 re d).map f).sum = ∫ x in d.lo..d.hi, g x := by
  obtain ⟨rfl, h1⟩ := rule_eq hre
  obtain ⟨P, hP, eP⟩ := hG
  have hex := rule01_exact_le5 n h1 h5 P hP
  have hL : 0 < d.hi - d.lo := sub_pos.mpr hd
  have e1 : ∫ x in d.lo..d.hi, g x = (d.hi - d.lo) * ∫ t in (0 : ℝ)..1, g (OneD.toPhys d t) := by
    have h2 := intervalIntegral.mul_integral_comp_mul_add (f := fun y => g y) (c := d.hi - d.lo) (d := d.lo) (a := 0) (b := 1)
    rw [mul_zero, zero_add, mul_one, sub_add_cancel] at h2
    rw [← h2]
    simp only [OneD.toPhys, add_comm]
  have e2 : ∫ t in (0 : ℝ)..1, g (OneD.toPhys d t) = ∫ t in (0 : ℝ)..1, P.eval t := by
    rw [intervalIntegral.integral_of_le zero_le_one, intervalIntegral.integral_of_le zero_le_one,
      ← setIntegral_congr_set Ioo_ae_eq_Ioc, ← setIntegral_congr_set Ioo_ae_eq_Ioc]
    refine setIntegral_congr_fun measurableSet_Ioo (fun t ht => ?_)
    simp only [hgG t ht.1 ht.2, eP]
  rw [e1, e2, ← hex, ← apply_smul]
  simp only [points1, List.map_map, apply]
  congr 1
  refine List.map_congr_left (fun p hp => ?_)
  obtain ⟨_, a, b⟩ := (C32_weights1 n _ hre).2 p hp
  simp only [Function.comp]
  rw [h p.1 _ a b, hgG p.1 a b, eP]
  simp only [OneD.jacR2P]
  ring

/-- **C56 (exact forms in one dimension).** On every interval the entries of every bilinear form -- values,
first or second derivatives of test and trial function -- with polynomial kernel of degree `m` are the
exact integrals `∫ κ D ψ_a D' φ_i dx`, provided `deg ψ + deg φ + m ≤ 2n-1`. -/
theorem C56_exact_interval {n : Nat} {re : List (ℝ × ℝ)} (hre : rule1 n = .ok re) (h5 : n ≤ 5)
    (k : Kernel ℝ) (S : Nat) (hS : sampleSize k = .ok S) (t u : Basis) (ht : ValidDer1 t.der)
    (hu : ValidDer1 u.der) (m : Nat) (hdeg : deg t.e + deg u.e + m ≤ 2 * n - 1) (flag : Option Nat)
    (d : OneD.Itv ℝ) (hd : d.lo < d.hi) (hm : marked flag d.flags = true) (s : Nat) (κ : Polynomial ℝ)
    (hκ : κ.natDegree ≤ m) (hk : ∀ x, k.eval S x s = κ.eval x) (a i : Nat) (ha : a < nd1 t.e)
    (hi : i < nd1 u.e) (ψ φ : ℝ → ℝ) (hψ : OnItv d t.e a ψ) (hφ : OnItv d u.e i φ) :
    evalBil1 k t u flag re d a i s =
      .ok (∫ x in d.lo..d.hi, κ.eval x * Der1 t.der ψ x * Der1 u.der φ x) := by
  obtain ⟨G1, p1, g1⟩ := shape1_poly d t ht a ha
  obtain ⟨G2, p2, g2⟩ := shape1_poly d u hu i hi
  unfold evalBil1
  rw [hS]
  simp only [bind, Except.bind, hm, if_true]
  have hw := (C32_weights1 n re hre).2
  rw [sumE_ok _ _ (fun p => G1 p.1 * (G2 p.1 * (p.2.2 * k.eval S p.2.1 s)))]
  · refine congrArg Except.ok (itv_sum hre h5 d hd _ _
      (fun r => κ.eval (d.lo + r * (d.hi - d.lo)) * G1 r * G2 r) ?_ ?_ ?_)
    · have := PD.affine (⟨κ, hκ, fun _ => rfl⟩ : PD m (fun x => κ.eval x)) d.lo (d.hi - d.lo)
      exact ((this.mul p1).mul p2).mono (by omega)
    · intro r h0 h1
      have e1 := (g1 r h0.le h1.le).symm.trans (shapeAt1_spec d hd t ht a ha ψ hψ r h0 h1)
      have e2 := (g2 r h0.le h1.le).symm.trans (shapeAt1_spec d hd u hu i hi φ hφ r h0 h1)
      rw [Except.ok.inj e1, Except.ok.inj e2]
      simp only [OneD.toPhys, mul_comm r]
    · intro r w h0 h1
      have e1 := (g1 r h0.le h1.le).symm.trans (shapeAt1_spec d hd t ht a ha ψ hψ r h0 h1)
      have e2 := (g2 r h0.le h1.le).symm.trans (shapeAt1_spec d hd u hu i hi φ hφ r h0 h1)
      simp only
      rw [Except.ok.inj e1, Except.ok.inj e2, hk]
      ring
  · intro p hp
    simp only [points1, List.mem_map] at hp
    obtain ⟨q, hq, rfl⟩ := hp
    obtain ⟨_, h0, h1⟩ := hw q hq
    simp only
    rw [g1 _ h0.le h1.le, g2 _ h0.le h1.le]
    rfl

/-- **C56 (exact load vectors in one dimension).** -/
theorem C56_exact_interval_load {n : Nat} {re : List (ℝ × ℝ)} (hre : rule1 n = .ok re) (h5 : n ≤ 5)
    (k : Kernel ℝ) (S : Nat) (hS : sampleSize k = .ok S) (t : Basis) (ht : ValidDer1 t.der)
    (m : Nat) (hdeg : deg t.e + m ≤ 2 * n - 1) (flag : Option Nat)
    (d : OneD.Itv ℝ) (hd : d.lo < d.hi) (hm : marked flag d.flags = true) (s : Nat) (κ : Polynomial ℝ)
    (hκ : κ.natDegree ≤ m) (hk : ∀ x, k.eval S x s = κ.eval x) (a : Nat) (ha : a < nd1 t.e)
    (ψ : ℝ → ℝ) (hψ : OnItv d t.e a ψ) :
    evalLin1 k t flag re d a s = .ok (∫ x in d.lo..d.hi, κ.eval x * Der1 t.der ψ x) := by
  obtain ⟨G1, p1, g1⟩ := shape1_poly d t ht a ha
  unfold evalLin1
  rw [hS]
  simp only [bind, Except.bind, hm, if_true]
  have hw := (C32_weights1 n re hre).2
  rw [sumE_ok _ _ (fun p => G1 p.1 * (p.2.2 * k.eval S p.2.1 s))]
  · refine congrArg Except.ok (itv_sum hre h5 d hd _ _
      (fun r => κ.eval (d.lo + r * (d.hi - d.lo)) * G1 r) ?_ ?_ ?_)
    · have := PD.affine (⟨κ, hκ, fun _ => rfl⟩ : PD m (fun x => κ.eval x)) d.lo (d.hi - d.lo)
      exact (this.mul p1).mono (by omega)
    · intro r h0 h1
      have e1 := (g1 r h0.le h1.le).symm.trans (shapeAt1_spec d hd t ht a ha ψ hψ r h0 h1)
      rw [Except.ok.inj e1]
      simp only [OneD.toPhys, mul_comm r]
    · intro r w h0 h1
      have e1 := (g1 r h0.le h1.le).symm.trans (shapeAt1_spec d hd t ht a ha ψ hψ r h0 h1)
      simp only
      rw [Except.ok.inj e1, hk]
      ring
  · intro p hp
    simp only [points1, List.mem_map] at hp
    obtain ⟨q, hq, rfl⟩ := hp
    obtain ⟨_, h0, h1⟩ := hw q hq
    simp only
    rw [g1 _ h0.le h1.le]
    rfl

/-- **C56 (markers, one dimension).** -/
theorem C56_unmarked_interval (k : Kernel ℝ) (S : Nat) (hS : sampleSize k = .ok S) (t u : Basis) (f : Nat)
    (re : List (ℝ × ℝ)) (d : OneD.Itv ℝ) (h : f ∉ d.flags) (a i s : Nat) :
    evalBil1 k t u (some f) re d a i s = .ok 0 ∧ evalLin1 k t (some f) re d a s = .ok 0 := by
  simp [evalBil1, evalLin1, hS, marked, h, bind, Except.bind, pure, Except.pure]

/-! ## Examples: the hypotheses are met -/

/-- The kernel 1. -/
def one (X : Type) : Kernel X := ⟨[⟨1, fun _ _ => 1⟩], fun l => l.headD 0⟩

theorem one_size (X : Type) : sampleSize (one X) = .ok 1 := by rw [C56_sample_size]; simp [one]
theorem one_eval (X : Type) (x : X) : (one X).eval 1 x 0 = 1 := by simp [Kernel.eval, one]

/-- The stiffness entry `∫ φ0' φ0'` of the linear element on `[1,3]` (default rule): `1/2`. -/
example (re : List (ℝ × ℝ)) (hre : rule1 4 = .ok re) :
    evalBil1 (one ℝ) ⟨.Q1, [1, 0]⟩ ⟨.Q1, [1, 0]⟩ none re ⟨1, 3, 0, ∅⟩ 0 0 0 = .ok (1 / 2) := by
  have hu : OnItv ⟨1, 3, 0, ∅⟩ .Q1 0 (fun x => 1 - (x - 1) / 2) := by
    intro x _ _
    rw [phi1_tb .Q1 0 (by decide)]
    simp [val, tb, pTab]; ring
  have hder : deriv (fun x : ℝ => 1 - (x - 1) / 2) = fun _ => -(1 / 2) := by
    funext x
    simp
  rw [C56_exact_interval hre (by omega) (one ℝ) 1 (one_size ℝ) _ _ (Or.inr (Or.inl rfl)) (Or.inr (Or.inl rfl)) 0
    (by decide) none ⟨1, 3, 0, ∅⟩ (by norm_num) rfl 0 1 (by simp) (by simp [one_eval]) 0 0 (by decide) (by decide)
    _ _ hu hu]
  simp only [Der1, hder]
  norm_num

/-- The element functions of a convex cell exist, so the theorems on quadrilaterals are not vacuous. -/
theorem onClosed_exists (q : Quad.QD ℝ) (hq : Quad.ConvexCCW q) (e : ET) (n : Nat) :
    ∃ u, OnClosed q e n u ∧ OnCell q e n u := by
  refine ⟨fun p => val (phi2 e n (Function.invFunOn (Quad.F q) {r | InSq r} p)), ?_⟩
  have inj : Set.InjOn (Quad.F q) {r | InSq r} := by
    intro r hr s hs h
    have h' : Quad.toPhys q ⟨r.1, r.2⟩ = Quad.toPhys q ⟨s.1, s.2⟩ := by
      simp only [Quad.F, Prod.mk.injEq] at h
      exact Quad.Pt.ext h.1 h.2
    have := Quad.C21_injective q hq ⟨r.1, r.2⟩ ⟨s.1, s.2⟩ hr hs h'
    simp only [Quad.Pt.mk.injEq] at this
    exact Prod.ext this.1 this.2
  have key : OnClosed q e n (fun p => val (phi2 e n (Function.invFunOn (Quad.F q) {r | InSq r} p))) := by
    intro r hr
    have hmem : Quad.F q r ∈ Quad.F q '' {r | InSq r} := ⟨r, hr, rfl⟩
    have h1 := Function.invFunOn_mem hmem
    have h2 := Function.invFunOn_eq hmem
    simp only
    rw [inj h1 hr h2]
  exact ⟨key, fun r hr => key r ⟨hr.1.le, hr.2.1.le, hr.2.2.1.le, hr.2.2.2.le⟩⟩

section
open Verif.Quad (Pt ConvexCCW tri toPhys)

/-- The kernel `1` as a polynomial. -/
theorem one_tot (X : Pt ℝ) : (one (Pt ℝ)).eval 1 X 0 = totpoly 0 (fun _ _ => 1) X.x X.y := by
  simp [one_eval, totpoly]

/-- Mass matrix of the cubic element on a skew cell, default rule. -/
example (rc : List ((ℝ × ℝ) × ℝ)) (re : List (ℝ × ℝ)) (hrc : rule2 (4 ^ 2) = .ok rc) (hre : rule1 4 = .ok re) :
    ∃ ψ φ, OnCell skewR .Q3 5 ψ ∧ OnCell skewR .Q3 11 φ ∧
      evalBil (one (Pt ℝ)) ⟨.Q3, [0]⟩ ⟨.Q3, [0]⟩ .dx none rc re ⟨skewR, false, fun _ => ∅, fun _ => ∅⟩ 5 11 0 =
        .ok (∫ p in Quad.region skewR, totpoly 0 (fun _ _ => 1) p.1 p.2 * ψ p * φ p) := by
  have hc : ConvexCCW skewR := by simp only [ConvexCCW, skewR, tri]; norm_num
  obtain ⟨ψ, -, hψ⟩ := onClosed_exists skewR hc .Q3 5
  obtain ⟨φ, -, hφ⟩ := onClosed_exists skewR hc .Q3 11
  exact ⟨ψ, φ, hψ, hφ, C56_exact_mass hrc (by omega) hre (one _) 1 (one_size _) .Q3 .Q3 0 (by decide) none
    ⟨skewR, false, fun _ => ∅, fun _ => ∅⟩ rfl hc 0 _ one_tot 5 11 (by decide) (by decide) ψ φ hψ hφ⟩

/-- The function `x` on the unit square is (basis function 1 plus basis function 2), and its derivative in
`x` is 1: the convection and stiffness theorems apply to genuine functions. -/
example : IsShape ⟨⟨0, 0⟩, ⟨2, 0⟩, ⟨2, 1⟩, ⟨0, 1⟩, ∅⟩ ⟨.Q1, [1, 0]⟩ 1 (fun p => (1 - p.2) / 2) := by
  refine ⟨fun p => p.1 / 2 * (1 - p.2), ?_, ?_⟩
  · intro r _
    rw [phi2_tb .Q1 1 (by decide)]
    simp [val, tb, pTab, bix, Quad.F, toPhys, bi2]
    ring
  · intro r _
    have := ((hasDerivAt_id (Quad.F ⟨⟨0, 0⟩, ⟨2, 0⟩, ⟨2, 1⟩, ⟨0, 1⟩, ∅⟩ r).1).div_const 2).mul_const
      (1 - (Quad.F ⟨⟨0, 0⟩, ⟨2, 0⟩, ⟨2, 1⟩, ⟨0, 1⟩, ∅⟩ r).2)
    simp only [IsPartial]
    refine this.congr_deriv ?_
    ring

/-- Edge form: the length of one marked edge of a skew cell. -/
example (re : List (ℝ × ℝ)) (hre : rule1 4 = .ok re) :
    evalConst (one (Pt ℝ)) .ds (some 3) [] re ⟨skewR, false, fun j => if j = 1 then {3} else ∅, fun _ => ∅⟩ 0 =
      .ok (lineInt (skewR.v 1) (skewR.v 2) (fun p => totpoly 0 (fun _ _ => 1) p.1 p.2)) := by
  rw [C56_edges_constant hre (by omega) (one _) 1 (one_size _) 0 (by omega) (some 3) _ 0 _ one_tot]
  simp [Fin.sum_univ_four, marked]

end

end Verif.Form
