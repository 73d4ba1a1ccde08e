import Verif.Bvp.Core

/-!
# Reproduction, best approximation and exactness at the mesh vertices
-/

namespace Verif.Bvp
open Verif.Line Verif.OneD Verif.Fem Verif.Form Verif.Asm Verif.Geom Verif.Gauss
open Verif.Gal (map_sub)
open MeasureTheory

theorem loc_interp (d : Itv ℝ) (e : ET) (w : Nat → ℝ) (x : ℝ) : loc d e w x = interp1 e w (toRef d x) := by
  unfold loc interp1
  rw [Finset.sum, Finset.range_val, ← Multiset.coe_range, Multiset.map_coe, Multiset.sum_coe]
  congr 1
  refine List.map_congr_left (fun a ha => ?_)
  rw [phi1_tb e a (List.mem_range.1 ha)]
  rfl

theorem loc_eval {d : Itv ℝ} (hd : d.lo < d.hi) {e : ET} {p : Polynomial ℝ} (hp : p.natDegree ≤ deg e) (x : ℝ) :
    loc d e (fun a => p.eval (toPhys d ((nodes1 e).getD a 0))) x = p.eval x := by
  obtain ⟨P, hP, eP⟩ := poly_phys (d := d) p
  have hL : d.hi - d.lo ≠ 0 := by linarith
  have hx : toPhys d (toRef d x) = x := by simp only [toPhys, toRef]; field_simp; ring
  rw [loc_interp]
  simp only [eP]
  rw [C30_polynomial e P (hP.trans hp), ← eP]
  show p.eval (toPhys d (toRef d x)) = _
  rw [hx]

/-- The piecewise linear function through the values of `E` at the break points. -/
noncomputable def zigzag (E : ℝ → ℝ) : List (ℝ × ℝ) → ℝ → ℝ
  | [], _ => 0
  | (l, h) :: bs, x => if x ≤ h then E l + (E h - E l) / (h - l) * (x - l) else zigzag E bs x

theorem zigzag_eq (E : ℝ → ℝ) {a b : ℝ} : ∀ {bs : List (ℝ × ℝ)}, Tiles a b bs → ∀ u ∈ bs, ∀ x, u.1 ≤ x → x ≤ u.2 →
    zigzag E bs x = E u.1 + (E u.2 - E u.1) / (u.2 - u.1) * (x - u.1) := by
  intro bs
  induction bs generalizing a with
  | nil => intro _ u hu; cases hu
  | cons w bs ih =>
    obtain ⟨l, h⟩ := w
    rintro ⟨rfl, h1, h2⟩ u hu x hx1 hx2
    rcases List.mem_cons.1 hu with rfl | hu
    · simp only [zigzag]
      rw [if_pos hx2]
    · have hm := (tiles_mem h2).2 u hu
      simp only [zigzag]
      split_ifs with hxh
      · have e1 : x = h := le_antisymm hxh (hm.1.trans hx1)
        have e2 : u.1 = h := le_antisymm (by rw [← e1]; exact hx1) hm.1
        have hne : h - l ≠ 0 := by linarith
        rw [e1, e2]
        field_simp
        ring
      · exact ih h2 u hu x hx1 hx2

section
variable {close : ℝ → ℝ → Bool} {xs : List ℝ} {e : ET} {sf : Option Nat} {m : Nat} {F : List (Cell ℝ)} {D : DH} {V : DV ℝ} {L : List IN}
variable {n j : Nat} {re : List (ℝ × ℝ)} {k kf kn : Kernel ℝ} {κ f : Polynomial ℝ} {dir neu : ℝ → Bool} {g gN : ℝ → ℝ} {mk : VX → Bool}

/-- `U` has the Dirichlet values and solves the discrete equations. -/
structure Discrete (xs : List ℝ) (e : ET) (F : List (Cell ℝ)) (D : DH) (L : List IN) (j : Nat) (re : List (ℝ × ℝ)) (k kf kn : Kernel ℝ)
    (dir : ℝ → Bool) (g : ℝ → ℝ) (mk : VX → Bool) (U : Nat → ℝ) : Prop where
  value : ∀ x, IsEnd xs x → dir x = true → atX F D L U x = g x
  eqn : ∀ v, (∀ x, IsEnd xs x → dir x = true → atX F D L v x = 0) →
    total2 (contribs1 e (stiffness k) re j F D L) v U = total1 (loads1 e (rhs kf kn mk) re j F D L) v

theorem feFn_loc (u : Nat → ℝ) (c : IN) (x : ℝ) : feFn e F D u c x = loc (dataAt F c) e (fun a => u (dof D c a)) x := by
  rw [loc_interp]
  rfl

theorem feFn_deriv (u : Nat → ℝ) (c : IN) (x : ℝ) : deriv (feFn e F D u c) x = dloc (dataAt F c) e (fun a => u (dof D c a)) x := by
  have : feFn e F D u c = loc (dataAt F c) e (fun a => u (dof D c a)) := funext (feFn_loc u c)
  rw [this]
  exact (loc_deriv _ _ _ _).deriv

/-- The dof values of a function. -/
noncomputable def coeffs (V : DV ℝ) (φ : ℝ → ℝ) (a : Nat) : ℝ := ((getVert V a).map φ).getD 0

theorem nodeX_at (h : Setting close xs e sf m F D V L) {c : IN} (hc : c ∈ L) {p : Nat} (hp : p < nd1 e) :
    nodeX F e c p = some (toPhys (dataAt F c) ((nodes1 e).getD p 0)) := by
  obtain ⟨t, ht, hd⟩ := h.data hc
  have hl : p < (nodes1 e : List ℝ).length := by rw [(C28_node_count e).1]; exact hp
  unfold nodeX
  rw [ht, Option.bind_some, List.getElem?_eq_getElem hl, List.getD_eq_getElem?_getD, List.getElem?_eq_getElem hl, hd]
  rfl

theorem coeffs_at (h : Setting close xs e sf m F D V L) (φ : ℝ → ℝ) {c : IN} (hc : c ∈ L) {p : Nat} (hp : p < nd1 e) :
    coeffs V φ (dof D c p) = φ (toPhys (dataAt F c) ((nodes1 e).getD p 0)) := by
  obtain ⟨a, x, h1, h2⟩ := h.loc c ((h.mem c).1 hc) p hp
  obtain ⟨y, h3, h4⟩ := C71_vertex h.chain (fun h => by cases h) h.ready h2 c p hp h1
  have e1 : y = x := by
    rcases h4 with h4 | ⟨h4, _⟩
    · exact h4
    · cases h4
  rw [nodeX_at h hc hp] at h3
  have e2 : dof D c p = a := by simp [dof, h1]
  unfold coeffs
  rw [e2, h2, ← e1, ← Option.some.inj h3]
  rfl

theorem coeffs_atX (h : Setting close xs e sf m F D V L) (φ : ℝ → ℝ) {c : IN} (hc : c ∈ L) {i : Fin 2} {x : ℝ} (hx : coord F c i = some x) :
    atX F D L (coeffs V φ) x = φ x := by
  have hn := h.nd.1
  rw [h.atX _ hc hx, coeffs_at h φ hc (by omega)]
  have h1 := h.nodeX_end hc i
  rw [nodeX_at h hc (by omega), hx] at h1
  rw [Option.some.inj h1]

theorem flux_cont {d : Itv ℝ} {q : ℝ → ℝ} {f' : ℝ → ℝ} (h : ∀ x, d.lo ≤ x → x ≤ d.hi → HasDerivAt q (f' x) x) :
    ContinuousOn q (Set.Icc d.lo d.hi) := fun x hx => (h x hx.1 hx.2).continuousAt.continuousWithinAt

/-- The derivative of the classical solution is continuous on every leaf. -/
theorem u'_cont (h : Setting close xs e sf m F D V L) (hpos : ∀ x, InDom xs x → 0 < κ.eval x) {u u' : ℝ → ℝ} {fN : ℝ → ℝ}
    (hu : Classical xs (fun x => κ.eval x) (fun x => f.eval x) dir neu g fN u u') {c : IN} (hc : c ∈ L) :
    ContinuousOn u' (Set.Icc (dataAt F c).lo (dataAt F c).hi) := by
  have h1 : ContinuousOn (fun y => κ.eval y * u' y) (Set.Icc (dataAt F c).lo (dataAt F c).hi) :=
    flux_cont (d := dataAt F c) (fun x h1 h2 => hu.flux x (h.inside hc h1 h2))
  have h2 := h1.div κ.continuous.continuousOn (fun x hx => (hpos x (h.inside hc hx.1 hx.2)).ne')
  refine h2.congr (fun x hx => ?_)
  have := (hpos x (h.inside hc hx.1 hx.2)).ne'
  show u' x = κ.eval x * u' x / κ.eval x
  field_simp

/-- The error is orthogonal to the test functions. -/
theorem orthogonal (h : Setting close xs e sf m F D V L) (hd : Data xs e n j re k kf κ f) {S : Nat} (hS : sampleSize kn = .ok S) (hm : BndMark xs sf F neu mk)
    {u u' : ℝ → ℝ} (hu : Classical xs (fun x => κ.eval x) (fun x => f.eval x) dir neu g (fun x => kn.eval S x j) u u') {U : Nat → ℝ}
    (hU : Discrete xs e F D L j re k kf kn dir g mk U) {v : Nat → ℝ} (hv : ∀ x, IsEnd xs x → dir x = true → atX F D L v x = 0) :
    (L.map (fun c => ∫ x in (dataAt F c).lo..(dataAt F c).hi, κ.eval x * (u' x - dloc (dataAt F c) e (fun a => U (dof D c a)) x) *
      dloc (dataAt F c) e (fun a => v (dof D c a)) x)).sum = 0 := by
  have h1 := hU.eqn v hv
  rw [total2_exact h hd, weak h hd hS hm hu hv] at h1
  rw [← sub_eq_zero.2 h1.symm, ← map_sub]
  congr 1
  refine List.map_congr_left (fun c hc => ?_)
  have hle := (h.pos hc).le
  have hI : Set.uIcc (dataAt F c).lo (dataAt F c).hi = Set.Icc (dataAt F c).lo (dataAt F c).hi := Set.uIcc_of_le hle
  rw [← intervalIntegral.integral_sub]
  · congr 1
    funext x
    ring
  · refine ContinuousOn.intervalIntegrable ?_
    rw [hI]
    exact (κ.continuous.continuousOn.mul (u'_cont h hd.pos hu hc)).mul (dloc_cont (h.pos hc) e _).continuousOn
  · exact ((κ.continuous.mul (dloc_cont (h.pos hc) e _)).mul (dloc_cont (h.pos hc) e _)).intervalIntegrable _ _

/-- **Best approximation** in the energy norm. -/
theorem best (h : Setting close xs e sf m F D V L) (hd : Data xs e n j re k kf κ f) {S : Nat} (hS : sampleSize kn = .ok S) (hm : BndMark xs sf F neu mk)
    {u u' : ℝ → ℝ} (hu : Classical xs (fun x => κ.eval x) (fun x => f.eval x) dir neu g (fun x => kn.eval S x j) u u') {U : Nat → ℝ}
    (hU : Discrete xs e F D L j re k kf kn dir g mk U) {w : Nat → ℝ} (hw : ∀ x, IsEnd xs x → dir x = true → atX F D L w x = g x) :
    (L.map (fun c => ∫ x in (dataAt F c).lo..(dataAt F c).hi, κ.eval x * (u' x - dloc (dataAt F c) e (fun a => U (dof D c a)) x) ^ 2)).sum ≤
    (L.map (fun c => ∫ x in (dataAt F c).lo..(dataAt F c).hi, κ.eval x * (u' x - dloc (dataAt F c) e (fun a => w (dof D c a)) x) ^ 2)).sum := by
  have ho := orthogonal h hd hS hm hu hU (v := fun a => U a - w a) (fun x h1 h2 => by rw [atX_sub, hU.value x h1 h2, hw x h1 h2, sub_self])
  have hdl : ∀ (c : IN) (x : ℝ), dloc (dataAt F c) e (fun a => U (dof D c a) - w (dof D c a)) x =
      dloc (dataAt F c) e (fun a => U (dof D c a)) x - dloc (dataAt F c) e (fun a => w (dof D c a)) x := by
    intro c x
    unfold dloc
    rw [← Finset.sum_sub_distrib]
    refine Finset.sum_congr rfl (fun a _ => ?_)
    ring
  have key : (L.map (fun c => ∫ x in (dataAt F c).lo..(dataAt F c).hi, κ.eval x * (u' x - dloc (dataAt F c) e (fun a => w (dof D c a)) x) ^ 2)).sum =
      (L.map (fun c => ∫ x in (dataAt F c).lo..(dataAt F c).hi, κ.eval x * (u' x - dloc (dataAt F c) e (fun a => U (dof D c a)) x) ^ 2)).sum +
      ((L.map (fun c => ∫ x in (dataAt F c).lo..(dataAt F c).hi, κ.eval x * (dloc (dataAt F c) e (fun a => U (dof D c a) - w (dof D c a)) x) ^ 2)).sum +
      2 * (L.map (fun c => ∫ x in (dataAt F c).lo..(dataAt F c).hi, κ.eval x * (u' x - dloc (dataAt F c) e (fun a => U (dof D c a)) x) *
        dloc (dataAt F c) e (fun a => U (dof D c a) - w (dof D c a)) x)).sum) := by
    rw [← List.sum_map_mul_left, ← map_add, ← map_add]
    congr 1
    refine List.map_congr_left (fun c hc => ?_)
    have hle := (h.pos hc).le
    have hI : Set.uIcc (dataAt F c).lo (dataAt F c).hi = Set.Icc (dataAt F c).lo (dataAt F c).hi := Set.uIcc_of_le hle
    have hu' := u'_cont h hd.pos hu hc
    have c1 := (dloc_cont (h.pos hc) e (fun a => U (dof D c a))).continuousOn (s := Set.Icc (dataAt F c).lo (dataAt F c).hi)
    have c2 := (dloc_cont (h.pos hc) e (fun a => U (dof D c a) - w (dof D c a))).continuousOn (s := Set.Icc (dataAt F c).lo (dataAt F c).hi)
    have c0 := κ.continuous.continuousOn (s := Set.Icc (dataAt F c).lo (dataAt F c).hi)
    rw [← intervalIntegral.integral_const_mul, ← intervalIntegral.integral_add, ← intervalIntegral.integral_add]
    · congr 1
      funext x
      rw [hdl]
      ring
    all_goals
      refine ContinuousOn.intervalIntegrable ?_
      rw [hI]
    · exact c0.mul ((hu'.sub c1).pow 2)
    · exact (c0.mul (c2.pow 2)).add (continuousOn_const.mul ((c0.mul (hu'.sub c1)).mul c2))
    · exact c0.mul (c2.pow 2)
    · exact continuousOn_const.mul ((c0.mul (hu'.sub c1)).mul c2)
  rw [key]
  have h0 : 0 ≤ (L.map (fun c => ∫ x in (dataAt F c).lo..(dataAt F c).hi,
      κ.eval x * (dloc (dataAt F c) e (fun a => U (dof D c a) - w (dof D c a)) x) ^ 2)).sum := by
    refine List.sum_nonneg (fun z hz => ?_)
    obtain ⟨c, hc, rfl⟩ := List.mem_map.1 hz
    exact intervalIntegral.integral_nonneg (h.pos hc).le (fun x hx => mul_nonneg (hd.pos x (h.inside hc hx.1 hx.2)).le (sq_nonneg _))
  rw [ho]
  linarith

/-- **Reproduction.** -/
theorem reproduces (h : Setting close xs e sf m F D V L) (hd : Data xs e n j re k kf κ f) {S : Nat} (hS : sampleSize kn = .ok S) (hm : BndMark xs sf F neu mk)
    {p : Polynomial ℝ} (hp : p.natDegree ≤ deg e) {y : ℝ} (hy : IsEnd xs y) (hdy : dir y = true)
    (hu : Classical xs (fun x => κ.eval x) (fun x => f.eval x) dir neu g (fun x => kn.eval S x j) (fun x => p.eval x) (fun x => p.derivative.eval x))
    (hn : deg e ≤ n) {U : Nat → ℝ} (hU : Discrete xs e F D L j re k kf kn dir g mk U) :
    ∀ c ∈ L, (∀ q < nd1 e, U (dof D c q) = p.eval (toPhys (dataAt F c) ((nodes1 e).getD q 0))) ∧ ∀ x, feFn e F D U c x = p.eval x := by
  set P := coeffs V (fun x => p.eval x) with hP
  have hPl : ∀ c ∈ L, ∀ x, loc (dataAt F c) e (fun a => P (dof D c a)) x = p.eval x := by
    intro c hc x
    rw [← loc_eval (h.pos hc) hp x]
    unfold loc
    refine Finset.sum_congr rfl (fun a ha => ?_)
    simp only []
    rw [hP, coeffs_at h _ hc (Finset.mem_range.1 ha)]
  have hPd : ∀ c ∈ L, ∀ x, dloc (dataAt F c) e (fun a => P (dof D c a)) x = p.derivative.eval x := by
    intro c hc x
    have h1 := loc_deriv (dataAt F c) e (fun a => P (dof D c a)) x
    have h2 : loc (dataAt F c) e (fun a => P (dof D c a)) = fun x => p.eval x := funext (hPl c hc)
    rw [h2] at h1
    exact h1.unique (p.hasDerivAt x)
  have hPv : ∀ x, IsEnd xs x → atX F D L P x = p.eval x := by
    intro x hx
    obtain ⟨c, hc, i, hi⟩ := h.end_leaf hx
    exact coeffs_atX h _ hc hi
  have hw : ∀ x, IsEnd xs x → dir x = true → atX F D L (fun a => U a - P a) x = 0 := by
    intro x h1 h2
    rw [atX_sub, hU.value x h1 h2, hPv x h1, ← hu.value x h1 h2, sub_self]
  have h0 : total2 (contribs1 e (stiffness k) re j F D L) (fun a => U a - P a) (fun a => U a - P a) = 0 := by
    rw [total2_sub h, hU.eqn _ hw, weak h hd hS hm hu hw, total2_exact h hd, ← Gal.map_sub]
    refine List.sum_eq_zero (fun z hz => ?_)
    obtain ⟨c, hc, rfl⟩ := List.mem_map.1 hz
    rw [sub_eq_zero]
    congr 1
    funext x
    rw [hPd c hc x]
    ring
  obtain ⟨Sk, hSk, hk⟩ := hd.diff
  have hz := definite h hd.rule hn hSk (fun x hx => by rw [hk]; exact hd.pos x hx) hy (hw y hy hdy) h0
  intro c hc
  have hq : ∀ q < nd1 e, U (dof D c q) = P (dof D c q) := fun q hq => sub_eq_zero.1 (hz c hc q hq)
  refine ⟨fun q hq' => by rw [hq q hq', hP, coeffs_at h _ hc hq'], fun x => ?_⟩
  rw [feFn_loc, ← hPl c hc x]
  unfold loc
  refine Finset.sum_congr rfl (fun a ha => ?_)
  simp only []
  rw [hq a (Finset.mem_range.1 ha)]

/-- The piecewise linear interpolant of any function is a finite element function. -/
theorem interp (h : Setting close xs e sf m F D V L) (E : ℝ → ℝ) : ∃ v : Nat → ℝ, ∀ c ∈ L, ∀ x, loc (dataAt F c) e (fun a => v (dof D c a)) x =
    E (dataAt F c).lo + (E (dataAt F c).hi - E (dataAt F c).lo) / ((dataAt F c).hi - (dataAt F c).lo) * (x - (dataAt F c).lo) := by
  obtain ⟨a, b, bs, ha, hb, hab, ht, hpm⟩ := h.tiles
  refine ⟨coeffs V (zigzag E bs), ?_⟩
  set v := coeffs V (zigzag E bs) with hv
  have hdeg : 1 ≤ deg e := by have := h.cont; cases e <;> simp_all [torn, deg]
  set sl : IN → ℝ := fun c => (E (dataAt F c).hi - E (dataAt F c).lo) / ((dataAt F c).hi - (dataAt F c).lo) with hsl
  have hzz : ∀ c ∈ L, ∀ x, (dataAt F c).lo ≤ x → x ≤ (dataAt F c).hi →
      zigzag E bs x = E (dataAt F c).lo + sl c * (x - (dataAt F c).lo) := by
    intro c hc x h1 h2
    exact zigzag_eq E ht _ (hpm.mem_iff.2 (List.mem_map.2 ⟨c, hc, rfl⟩)) x h1 h2
  have hnode : ∀ q < nd1 e, (0 : ℝ) ≤ (nodes1 e).getD q 0 ∧ (nodes1 e : List ℝ).getD q 0 ≤ 1 := by
    intro q hq
    revert hq
    have := h.cont
    cases e <;> simp only [torn] at this <;> first | (cases this; done) | skip
    all_goals
      intro hq
      simp only [nd1, dpv, dpe1] at hq
      interval_cases q <;> simp [nodes1, intDofs, dpv, dpe1, List.range_succ] <;> norm_num
  have hvl : ∀ c ∈ L, ∀ x, loc (dataAt F c) e (fun a => v (dof D c a)) x = E (dataAt F c).lo + sl c * (x - (dataAt F c).lo) := by
    intro c hc x
    set q : Polynomial ℝ := Polynomial.C (sl c) * Polynomial.X + Polynomial.C (E (dataAt F c).lo - sl c * (dataAt F c).lo) with hq
    have hqd : q.natDegree ≤ deg e := (Polynomial.natDegree_linear_le).trans hdeg
    have hqe : ∀ x, q.eval x = E (dataAt F c).lo + sl c * (x - (dataAt F c).lo) := by
      intro x
      rw [hq]
      simp
      ring
    rw [← hqe x, ← loc_eval (h.pos hc) hqd x]
    unfold loc
    refine Finset.sum_congr rfl (fun a ha => ?_)
    obtain ⟨n0, n1⟩ := hnode a (Finset.mem_range.1 ha)
    have hpos := h.pos hc
    simp only []
    rw [hv, coeffs_at h _ hc (Finset.mem_range.1 ha), hqe, hzz c hc _ (by simp only [toPhys]; nlinarith) (by simp only [toPhys]; nlinarith)]
  exact hvl

/-- **Exact at the vertices**, if `κ` is constant. -/
theorem vertices (h : Setting close xs e sf m F D V L) {κ0 : ℝ} (hd : Data xs e n j re k kf (Polynomial.C κ0) f) {S : Nat} (hS : sampleSize kn = .ok S)
    (hm : BndMark xs sf F neu mk) {y : ℝ} (hy : IsEnd xs y) (hdy : dir y = true) {u u' : ℝ → ℝ}
    (hu : Classical xs (fun x => (Polynomial.C κ0).eval x) (fun x => f.eval x) dir neu g (fun x => kn.eval S x j) u u')
    {U : Nat → ℝ} (hU : Discrete xs e F D L j re k kf kn dir g mk U) :
    ∀ c ∈ L, ∀ i x, coord F c i = some x → U (dof D c i) = u x := by
  obtain ⟨a, b, bs, ha, hb, hab, ht, hpm⟩ := h.tiles
  set E : ℝ → ℝ := fun x => u x - atX F D L U x with hE
  obtain ⟨v, hvl0⟩ := interp h E
  have hκ : 0 < κ0 := by simpa using hd.pos a ⟨a, b, ha, hb, le_rfl, hab.le⟩
  set sl : IN → ℝ := fun c => (E (dataAt F c).hi - E (dataAt F c).lo) / ((dataAt F c).hi - (dataAt F c).lo) with hsl
  have hvl : ∀ c ∈ L, ∀ x, loc (dataAt F c) e (fun a => v (dof D c a)) x = E (dataAt F c).lo + sl c * (x - (dataAt F c).lo) := hvl0
  have hvd : ∀ c ∈ L, ∀ x, dloc (dataAt F c) e (fun a => v (dof D c a)) x = sl c := by
    intro c hc x
    have h1 := loc_deriv (dataAt F c) e (fun a => v (dof D c a)) x
    have h2 : loc (dataAt F c) e (fun a => v (dof D c a)) = fun x => E (dataAt F c).lo + sl c * (x - (dataAt F c).lo) := funext (hvl c hc)
    rw [h2] at h1
    have h3 : HasDerivAt (fun x => E (dataAt F c).lo + sl c * (x - (dataAt F c).lo)) (sl c * 1) x :=
      (((hasDerivAt_id x).sub_const _).const_mul _).const_add _
    rw [mul_one] at h3
    exact h1.unique h3
  have hv0 : ∀ c ∈ L, v (dof D c 0) = E (dataAt F c).lo := by
    intro c hc
    have := hvl c hc (dataAt F c).lo
    rw [loc_lo (h.pos hc) h.cont] at this
    rw [this]
    ring
  have hv1 : ∀ c ∈ L, v (dof D c 1) = E (dataAt F c).hi := by
    intro c hc
    have := hvl c hc (dataAt F c).hi
    rw [loc_hi (h.pos hc) h.cont] at this
    have hne : (dataAt F c).hi - (dataAt F c).lo ≠ 0 := by have := h.pos hc; linarith
    rw [this, hsl]
    field_simp
    ring
  have hvx : ∀ c ∈ L, ∀ (i : Fin 2) x, coord F c i = some x → v (dof D c i) = E x := by
    intro c hc i x hx
    rw [h.coord hc] at hx
    have hx' := Option.some.inj hx
    fin_cases i
    · rw [← hx']
      exact hv0 c hc
    · rw [← hx']
      exact hv1 c hc
  have htest : ∀ x, IsEnd xs x → dir x = true → atX F D L v x = 0 := by
    intro x h1 h2
    obtain ⟨c, hc, i, hi⟩ := h.end_leaf h1
    rw [h.atX v hc hi, hvx c hc i x hi, hE]
    simp only
    rw [hU.value x h1 h2, hu.value x h1 h2, sub_self]
  have ho := orthogonal h hd hS hm hu hU htest
  have hcell : ∀ c ∈ L, (∫ x in (dataAt F c).lo..(dataAt F c).hi, (Polynomial.C κ0).eval x *
      (u' x - dloc (dataAt F c) e (fun a => U (dof D c a)) x) * dloc (dataAt F c) e (fun a => v (dof D c a)) x) =
      κ0 * sl c ^ 2 * ((dataAt F c).hi - (dataAt F c).lo) := by
    intro c hc
    have hle := (h.pos hc).le
    have hI : Set.uIcc (dataAt F c).lo (dataAt F c).hi = Set.Icc (dataAt F c).lo (dataAt F c).hi := Set.uIcc_of_le hle
    have i1 : ∫ x in (dataAt F c).lo..(dataAt F c).hi, (u' x - dloc (dataAt F c) e (fun a => U (dof D c a)) x) =
        (u (dataAt F c).hi - loc (dataAt F c) e (fun a => U (dof D c a)) (dataAt F c).hi) -
        (u (dataAt F c).lo - loc (dataAt F c) e (fun a => U (dof D c a)) (dataAt F c).lo) := by
      refine intervalIntegral.integral_eq_sub_of_hasDerivAt (f := fun x => u x - loc (dataAt F c) e (fun a => U (dof D c a)) x) (fun x hx => ?_) ?_
      · rw [hI] at hx
        exact (hu.deriv x (h.inside hc hx.1 hx.2)).sub (loc_deriv _ _ _ x)
      · refine ContinuousOn.intervalIntegrable ?_
        rw [hI]
        exact (u'_cont h hd.pos hu hc).sub (dloc_cont (h.pos hc) e _).continuousOn
    have i2 : ∀ x, (Polynomial.C κ0).eval x * (u' x - dloc (dataAt F c) e (fun a => U (dof D c a)) x) * dloc (dataAt F c) e (fun a => v (dof D c a)) x =
        κ0 * sl c * (u' x - dloc (dataAt F c) e (fun a => U (dof D c a)) x) := by
      intro x
      rw [hvd c hc x, Polynomial.eval_C]
      ring
    simp only [i2]
    rw [intervalIntegral.integral_const_mul, i1, loc_hi (h.pos hc) h.cont, loc_lo (h.pos hc) h.cont]
    have e0 : u (dataAt F c).lo - U (dof D c 0) = E (dataAt F c).lo := by
      rw [hE]
      simp only
      rw [h.atX U hc (i := 0) (x := (dataAt F c).lo) (by rw [h.coord hc]; rfl)]
      rfl
    have e1 : u (dataAt F c).hi - U (dof D c 1) = E (dataAt F c).hi := by
      rw [hE]
      simp only
      rw [h.atX U hc (i := 1) (x := (dataAt F c).hi) (by rw [h.coord hc]; rfl)]
      rfl
    rw [e0, e1]
    have hne : (dataAt F c).hi - (dataAt F c).lo ≠ 0 := by have := h.pos hc; linarith
    rw [hsl]
    field_simp
  rw [List.map_congr_left hcell] at ho
  have hzero := sum_zero L _ (fun c hc => mul_nonneg (mul_nonneg hκ.le (sq_nonneg _)) (sub_nonneg.2 (h.pos hc).le)) ho
  have hsl0 : ∀ c ∈ L, sl c = 0 := by
    intro c hc
    have h1 : (dataAt F c).hi - (dataAt F c).lo ≠ 0 := by have := h.pos hc; linarith
    rcases mul_eq_zero.1 (hzero c hc) with h2 | h2
    · rcases mul_eq_zero.1 h2 with h3 | h3
      · exact absurd h3 hκ.ne'
      · exact pow_eq_zero_iff two_ne_zero |>.1 h3
    · exact absurd h2 h1
  have hvc : ∀ c ∈ L, v (dof D c 0) = v (dof D c 1) := by
    intro c hc
    have h1 : (dataAt F c).hi - (dataAt F c).lo ≠ 0 := by have := h.pos hc; linarith
    have h2 := hsl0 c hc
    rw [hsl] at h2
    rcases div_eq_zero_iff.1 h2 with h3 | h3
    · rw [hv0 c hc, hv1 c hc]
      linarith
    · exact absurd h3 h1
  have hfin := h.const v hvc hy
  intro c hc i x hx
  have h1 : v (dof D c i) = 0 := by
    have := hfin c hc
    rw [htest y hy hdy] at this
    fin_cases i
    · exact this.1
    · exact this.2
  rw [hvx c hc i x hx, hE] at h1
  simp only at h1
  rw [h.atX U hc hx] at h1
  linarith

end
end Verif.Bvp
