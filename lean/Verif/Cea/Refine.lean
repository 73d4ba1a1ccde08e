import Verif.Cea.Nested
import Verif.Cea.Uniform
import Mathlib.Algebra.MvPolynomial.Polynomial
import Mathlib.Algebra.Polynomial.Eval.Degree
import Mathlib.Tactic.ComputeDegree

/-!
# C84: refining never makes the solution worse
-/

namespace Verif.Cea
open Verif.Mesh Verif.Dof Verif.Quad Verif.Fem Verif.Form Verif.Asm Verif.Phys Verif.Bnd Verif.Reg Verif.Dir Verif.Gauss Verif.Gal Verif.Fn MeasureTheory

/-! ### Specification -/

/-- On every boundary side of the initial mesh, `g` is a polynomial of degree at most `d`. -/
def SidePoly (B : Base ℝ) (d : Nat) (g : Pt ℝ → ℝ) : Prop :=
  ∀ f < B.n, ∀ j : Fin 4, B.T (4 * f + j) = none → ∃ P : Polynomial ℝ, P.natDegree ≤ d ∧ ∀ r, 0 ≤ r → r ≤ 1 → g (phys (rootQ B f) (E j r)) = P.eval r

/-- `wc` on the leaves of the finer mesh is the function `w` on the leaves of the coarser mesh. -/
def SameFn (sf : Bool) (s : St ℝ) (sf' : Bool) (s' : St ℝ) (w wc : CN → ℝ × ℝ → ℝ) : Prop :=
  ∀ c' ∈ leaves sf' s', ∀ c ∈ leaves sf s, Below c c' → wc c' = w c

/-! ### Boundary values -/

/-- The parameter of a point of side `j`. -/
def par (j : Fin 4) (z : ℝ × ℝ) : ℝ :=
  match j with
  | 0 => z.1
  | 1 => z.2
  | 2 => 1 - z.1
  | 3 => 1 - z.2

theorem par_E (j : Fin 4) (r : ℝ) : par j (E j r) = r := by
  fin_cases j <;> simp [par, E]

theorem par_mem (j : Fin 4) : par j ∈ Fn.W ℝ 1 1 := by
  have h1 : (fun z : ℝ × ℝ => z.1) ∈ Fn.W ℝ 1 1 := by simpa using mono_mem (K := ℝ) 1 1 1 0 (by omega) (by omega)
  have h2 : (fun z : ℝ × ℝ => z.2) ∈ Fn.W ℝ 1 1 := by simpa using mono_mem (K := ℝ) 1 1 0 1 (by omega) (by omega)
  have h3 : (fun _ : ℝ × ℝ => (1 : ℝ)) ∈ Fn.W ℝ 1 1 := Fn.W_const 1 1 1
  match j with
  | 0 => exact h1
  | 1 => exact h2
  | 2 => exact Submodule.sub_mem _ h3 h1
  | 3 => exact Submodule.sub_mem _ h3 h2

theorem par_poly (j : Fin 4) (P : Polynomial ℝ) {d : Nat} (hd : P.natDegree ≤ d) : (fun z => P.eval (par j z)) ∈ Fn.W ℝ d d := by
  have e1 : (fun z => P.eval (par j z)) = ∑ i ∈ Finset.range (P.natDegree + 1), P.coeff i • (fun z => par j z ^ i) := by
    funext z
    rw [Polynomial.eval_eq_sum_range, Finset.sum_apply]
    rfl
  rw [e1]
  refine Submodule.sum_mem _ (fun i hi => Submodule.smul_mem _ _ ?_)
  have := Finset.mem_range.1 hi
  exact Fn.W_mono (by omega) (by omega) (Fn.W_pow (par_mem j) i)

/-- A function whose coefficients on a side are the values of `h` is `h` on the side. -/
theorem fe_side_eq {e : ET} (he : torn e = false) (U : Nat → ℝ) (i : Fin 4) {h : ℝ × ℝ → ℝ} (hh : h ∈ Fn.W ℝ (deg e) (deg e))
    (hU : ∀ p < nd2 e, (∃ t : ℚ, 0 ≤ t ∧ t ≤ 1 ∧ node e p = E i t) → U p = h (castPt ℝ (node e p))) (t : ℝ) : cellFn e U (E i t) = h (E i t) := by
  have h1 := fe_side he (fun p => U p - h (castPt ℝ (node e p))) i (fun p hp hn => by rw [hU p hp hn, sub_self]) t
  have h2 := interp_W e hh (E i t)
  have h3 : cellFn e (fun p => U p - h (castPt ℝ (node e p))) (E i t) = cellFn e U (E i t) - h (E i t) := by
    rw [← h2]
    unfold cellFn interp2
    rw [← Gal.map_sub]
    congr 1
    refine List.map_congr_left (fun p hp => ?_)
    simp only
    rw [nodes_cast e p (List.mem_range.1 hp)]
    ring
  rw [h3] at h1
  linarith

section
variable {close close' : Pt ℝ → Pt ℝ → Bool} {B : Base ℝ} {e e' : ET} {sf sf' : Bool} {s s' : St ℝ} {D D' : DH} {V V' : DV ℝ} {rect rect' : Nat → Bool}

/-- On the boundary an admissible function has the values of `g`. -/
theorem glob_side (h : Setting close B e sf s D V rect) {g : Pt ℝ → ℝ} (hg : SidePoly B (deg e) g) {U : Nat → ℝ} (hU : Admissible B sf s e D g U)
    {f : Nat} (hfn : f < B.n) {j : Fin 4} (hT : B.T (4 * f + j) = none) {r : ℝ} (h0 : 0 ≤ r) (h1 : r ≤ 1) :
    glob sf s e D U (f, E j r) = g (phys (rootQ B f) (E j r)) := by
  have hs := h.ready.ready.uses.uses.reach
  obtain ⟨P, hP, hv⟩ := hg f hfn j hT
  obtain ⟨c, hc, z, hz, e1⟩ := leaf_cover h.wf hs h.full (f, []) hfn (h.roots f hfn) (E j r) (E_insq j h0 h1)
  change rootPt c z = (f, E j r) at e1
  rw [← e1, glob_leaf hU.single hc hz]
  have hf1 : c.1 = f := congrArg Prod.fst e1
  have hcl : climb c.2 z = E j r := congrArg Prod.snd e1
  obtain ⟨⟨r', rfl⟩, hp⟩ := climb_path c.2 hz hcl
  have key := fe_side_eq h.cont (fun p => U (dofAt D c p)) j (W_climb (par_poly j P hP) c.2) (fun p hp' hn => by
    obtain ⟨t, t0, t1, ht⟩ := hn
    obtain ⟨q, q0, q1, hq⟩ := path_climb c.2 hp t t0 t1
    have hb : BndPt B (rootPt c (node e p)) := ⟨f, j, q, hfn, hT, q0, q1, by rw [ht]; unfold rootPt; rw [hf1, hq]; exact .refl _⟩
    have hq' : climb c.2 (castPt ℝ (node e p)) = E j (q : ℝ) := by rw [ht, ← castPt_climb, hq, castE]
    have hpl : place s e c p = phys (rootQ B f) (E j (q : ℝ)) := by
      unfold place
      rw [phys_cell two_ne_zero h.wf hs c (leaf_mem h hc), hf1, hq']
    rw [hU.bnd c hc p hp' hb, hpl, hv q (by exact_mod_cast q0) (by exact_mod_cast q1), hq', par_E]) r'
  have : feFn e D U c (E j r') = cellFn e (fun p => U (dofAt D c p)) (E j r') := rfl
  rw [this, key, hcl, par_E, ← hv r h0 h1]

/-- The coarse function as a function on the finer mesh. -/
theorem competitor (h : Setting close B e sf s D V rect) (h' : Setting close' B e' sf' s' D' V' rect') (hfin : Finer sf s sf' s')
    (hdeg : deg e ≤ deg e') {g : Pt ℝ → ℝ} (hg : SidePoly B (deg e) g) {U : Nat → ℝ} (hU : Admissible B sf s e D g U) :
    ∃ W, Admissible B sf' s' e' D' g W ∧ ∀ c' ∈ leaves sf' s', ∀ c ∈ leaves sf s, Below c c' → ∀ z,
      feFn e' D' W c' z = feFn e D U c (climb (c'.2.take (c'.2.length - c.2.length)) z) := by
  classical
  have hs := h.ready.ready.uses.uses.reach
  have hs' := h'.ready.ready.uses.uses.reach
  set W : Nat → ℝ := fun a => if hx : ∃ y : CN × Nat, y.1 ∈ leaves sf' s' ∧ y.2 < nd2 e' ∧ dofAt D' y.1 y.2 = a then
    glob sf s e D U (rootPt hx.choose.1 (castPt ℝ (node e' hx.choose.2))) else 0 with hW
  have hval : ∀ c' ∈ leaves sf' s', ∀ p < nd2 e', W (dofAt D' c' p) = glob sf s e D U (rootPt c' (castPt ℝ (node e' p))) := by
    intro c' hc' p hp
    have hx : ∃ y : CN × Nat, y.1 ∈ leaves sf' s' ∧ y.2 < nd2 e' ∧ dofAt D' y.1 y.2 = dofAt D' c' p := ⟨(c', p), hc', hp, rfl⟩
    simp only [hW, dif_pos hx]
    obtain ⟨a1, a2, a3⟩ := hx.choose_spec
    have v1 := (row_leaf h'.wf h'.plain h'.ready.ready a1).2.2 _ a2
    have v2 := (row_leaf h'.wf h'.plain h'.ready.ready hc').2.2 p hp
    have hsame := (C34_shared h'.wf h'.plain h'.cont h'.ready.ready.uses _ _ _ _ _ _ a2 hp v1 v2).1 a3
    have hup := samePt_up (F := ℝ) B hsame
    rw [castRoot_pt, castRoot_pt] at hup
    exact glob_same h.wf hs h.roots h.full hU.single (leaf_root h' a1) (leaf_root h' hc') (climb_insq _ (insq_cast (node_insq e' ⟨_, a2⟩)))
      (climb_insq _ (insq_cast (node_insq e' ⟨_, hp⟩))) hup
  have hfn : ∀ c' ∈ leaves sf' s', ∀ c ∈ leaves sf s, Below c c' → ∀ z,
      feFn e' D' W c' z = feFn e D U c (climb (c'.2.take (c'.2.length - c.2.length)) z) := by
    intro c' hc' c hc hb z
    refine interp_leaf hdeg (U := fun p => U (dofAt D c p)) (fun p hp => ?_) z
    have hq := below_parts hb
    set q := c'.2.take (c'.2.length - c.2.length)
    have hin := insq_cast (F := ℝ) (node_insq e' ⟨p, hp⟩)
    rw [hval c' hc' p hp]
    have : rootPt c' (castPt ℝ (node e' p)) = rootPt c (climb q (castPt ℝ (node e' p))) := by
      unfold rootPt
      rw [hb.1, hq, Fn.climb_append]
    rw [this, glob_leaf hU.single hc (climb_insq q hin)]
    rfl
  refine ⟨W, ⟨?_, fun c' hc' a ha hb => ?_⟩, hfn⟩
  · intro c hc c' hc' z z' hz hz' hsame
    obtain ⟨d, hdl, hb⟩ := hfin c hc
    obtain ⟨d', hdl', hb'⟩ := hfin c' hc'
    rw [hfn c hc d hdl hb, hfn c' hc' d' hdl' hb']
    refine hU.single d hdl d' hdl' _ _ (climb_insq _ hz) (climb_insq _ hz') ?_
    unfold rootPt at hsame ⊢
    rw [← Fn.climb_append, ← Fn.climb_append, ← below_parts hb, ← below_parts hb', ← hb.1, ← hb'.1]
    exact hsame
  · obtain ⟨f, j, r, hf, hT, r0, r1, hsame⟩ := hb
    have hup := samePt_up (F := ℝ) B hsame
    rw [castRoot_pt] at hup
    have e2 : castRoot ℝ (f, E j r) = (f, E j (r : ℝ)) := by simp only [castRoot, castE]
    rw [e2] at hup
    have r0' : (0 : ℝ) ≤ (r : ℝ) := by exact_mod_cast r0
    have r1' : (r : ℝ) ≤ 1 := by exact_mod_cast r1
    have hin := insq_cast (F := ℝ) (node_insq e' ⟨a, ha⟩)
    rw [hval c' hc' a ha, show rootPt c' (castPt ℝ (node e' a)) = (c'.1, climb c'.2 (castPt ℝ (node e' a))) from rfl,
      glob_same h.wf hs h.roots h.full hU.single (leaf_root h' hc') hf (climb_insq c'.2 hin) (E_insq j r0' r1') hup, glob_side h hg hU hf hT r0' r1']
    have hph := same_phys h.wf h.plain hup
    simp only [rootPt] at hph
    unfold place
    rw [phys_cell two_ne_zero h.wf hs' c' (leaf_mem h' hc'), hph]

/-- The energy and the error of the coarse function, computed on the finer mesh. -/
theorem same_energy (h : Setting close B e sf s D V rect) (h' : Setting close' B e' sf' s' D' V' rect') (hA : Par B) (hfin : Finer sf s sf' s')
    {U : Nat → ℝ} {w wc : CN → ℝ × ℝ → ℝ} (hw : IsFn sf s e D U w) (hwc : SameFn sf s sf' s' w wc) (κ f : Poly) :
    energy κ f sf s w = energy κ f sf' s' wc ∧ ∀ u, ContDiff ℝ 2 u → errE κ sf s u w = errE κ sf' s' u wc := by
  have hs := h.ready.ready.uses.uses.reach
  have cg : ∀ c ∈ leaves sf s, ∀ v, Continuous (gx (cellQ s c) e v) ∧ Continuous (gy (cellQ s c) e v) := fun c hc v => by
    obtain ⟨hx, hy⟩ := par_cell h.wf hA hs (leaf_mem h hc)
    exact ⟨W_cont (gx_mem hx hy e v).1, W_cont (gx_mem hx hy e v).2⟩
  have ck : ∀ c, Continuous (fun r : ℝ × ℝ => det (cellQ s c) ⟨r.1, r.2⟩ * ev κ (F (cellQ s c) r)) := fun c =>
    (continuous_det _).mul ((ev_cont κ).comp (cont_F _))
  constructor
  · refine sum_finer h h' hfin (G := fun c r => 1 / 2 * (det (cellQ s c) ⟨r.1, r.2⟩ * ev κ (F (cellQ s c) r) *
      (gx (cellQ s c) e (fun a => U (dofAt D c a)) r ^ 2 + gy (cellQ s c) e (fun a => U (dofAt D c a)) r ^ 2)) -
      det (cellQ s c) ⟨r.1, r.2⟩ * (ev f (F (cellQ s c) r) * feFn e D U c r)) (fun c hc => ?_) (fun c hc r hr => ?_) (fun c' hc' c hc hb r _ => ?_)
    · exact (cmul (1 / 2) ((ck c).mul (((cg c hc _).1.pow 2).add ((cg c hc _).2.pow 2)))).sub
        ((continuous_det _).mul (((ev_cont f).comp (cont_F _)).mul (fe_cont e D U c)))
    · obtain ⟨h1, h2⟩ := fn_grad (leaf_convex h hc) (hw c hc) (v := fun a => U (dofAt D c a)) hr
      rw [h1, h2, hw c hc r hr]
      ring
    · rw [hwc c' hc' c hc hb]
  · intro u hu
    obtain ⟨s1, s2⟩ := smooth_px hu
    refine sum_finer h h' hfin (G := fun c r => det (cellQ s c) ⟨r.1, r.2⟩ * ev κ (F (cellQ s c) r) *
      ((gx (cellQ s c) e (fun a => U (dofAt D c a)) r - px u (F (cellQ s c) r)) ^ 2 +
        (gy (cellQ s c) e (fun a => U (dofAt D c a)) r - py u (F (cellQ s c) r)) ^ 2)) (fun c hc => ?_) (fun c hc r hr => ?_) (fun c' hc' c hc hb r _ => ?_)
    · exact (ck c).mul ((((cg c hc _).1.sub (s1.continuous.comp (cont_F _))).pow 2).add (((cg c hc _).2.sub (s2.continuous.comp (cont_F _))).pow 2))
    · obtain ⟨h1, h2⟩ := fn_grad (leaf_convex h hc) (hw c hc) (v := fun a => U (dofAt D c a)) hr
      rw [h1, h2]
      ring
    · rw [hwc c' hc' c hc hb]

end

section
variable {B : Base ℝ} {e e' : ET} {sf sf' : Bool} {s s' : St ℝ} {κ f : Poly} {g : Pt ℝ → ℝ} {w w' wc : CN → ℝ × ℝ → ℝ}

/-- **C84** (nested meshes).  The same problem `−div(κ∇u) = f` with the same boundary values `g`, solved by the program on a mesh of
parallelograms and on a finer mesh with elements of at least the same degree, where `g` is on each boundary side a polynomial that the coarser
elements can represent.  The energy of the solution on the coarser mesh is that of the finer one plus half the square of the distance of the two
in the energy norm; and for every classical solution the square of the error on the coarser mesh is that of the finer one plus the square of that
distance. -/
theorem C84_nested (hA : Par B) (hk : ∀ p ∈ Dom B, 0 < ev κ p) (hfin : Fn.Finer sf s sf' s') (hdeg : deg e ≤ deg e') (hg : SidePoly B (deg e) g)
    (hw : Computed B e κ f g sf s w) (hw' : Computed B e' κ f g sf' s' w') (hwc : SameFn sf s sf' s' w wc) :
    energy κ f sf s w = energy κ f sf' s' w' + 1 / 2 * distE κ sf' s' wc w' ∧ 0 ≤ distE κ sf' s' wc w' ∧
      ∀ u, Classical κ f u (Dom B) → errE κ sf s u w = errE κ sf' s' u w' + distE κ sf' s' wc w' := by
  obtain ⟨close, D, V, rect, n, n1, j, rc, re, k, kf, H, C, d, keep, fuel, ord, y, U, h, hp, hh, hd, ho, ha, hr, hf⟩ := hw
  obtain ⟨close', D', V', rect', n', n1', j', rc', re', k', kf', H', C', d', keep', fuel', ord', y', U', h', hp', hh', hd', ho', ha', hr', hf'⟩ := hw'
  have hU := (C78_minimises h hA hp hk hh hd ho ha hr hf).1
  obtain ⟨W, hW, hfn⟩ := competitor h h' hfin hdeg hg hU
  have hIs : IsFn sf' s' e' D' W wc := by
    intro c' hc' z hz
    obtain ⟨c, hc, hb⟩ := hfin c' hc'
    rw [hwc c' hc' c hc hb, (F_below h h' hc hc' hb.1 (below_parts hb) z).1, hf c hc _ (open_climb _ hz), hfn c' hc' c hc hb]
  obtain ⟨s1, s2⟩ := same_energy h h' hA hfin hf hwc κ f
  obtain ⟨m1, m2, _⟩ := (C78_minimises h' hA hp' hk hh' hd' ho' ha' hr' hf').2 W wc hW hIs
  refine ⟨by rw [s1, m1], by linarith, fun u hu => ?_⟩
  rw [s2 u hu.smooth]
  exact (C78_best h' hA hp' hk hh' hd' ho' ha' hr' hf' hu W wc hW hIs).1

/-- **C84** (refining never makes the solution worse).  Neither the energy of the computed solution nor its error in the energy norm grows when
the mesh is refined or the degree of the elements is raised. -/
theorem C84_monotone (hA : Par B) (hk : ∀ p ∈ Dom B, 0 < ev κ p) (hfin : Fn.Finer sf s sf' s') (hdeg : deg e ≤ deg e') (hg : SidePoly B (deg e) g)
    (hw : Computed B e κ f g sf s w) (hw' : Computed B e' κ f g sf' s' w') :
    energy κ f sf' s' w' ≤ energy κ f sf s w ∧ ∀ u, Classical κ f u (Dom B) → errE κ sf' s' u w' ≤ errE κ sf s u w := by
  classical
  have hex : ∃ wc, SameFn sf s sf' s' w wc := by
    refine ⟨fun c' => if hx : ∃ c ∈ leaves sf s, Below c c' then w hx.choose else 0, fun c' _ c hc hb => ?_⟩
    have hx : ∃ c ∈ leaves sf s, Below c c' := ⟨c, hc, hb⟩
    simp only [dif_pos hx]
    obtain ⟨_, D, V, rect, _, _, _, _, _, _, _, _, _, _, _, _, _, _, _, h, _⟩ := hw
    obtain ⟨a1, a2⟩ := hx.choose_spec
    congr 1
    rcases le_total hx.choose.2.length c.2.length with hl | hl
    · exact leaf_below h a1 hc ⟨hb.1.symm.trans a2.1, List.suffix_of_suffix_length_le a2.2 hb.2 hl⟩
    · exact (leaf_below h hc a1 ⟨a2.1.symm.trans hb.1, List.suffix_of_suffix_length_le hb.2 a2.2 hl⟩).symm
  obtain ⟨wc, hwc⟩ := hex
  obtain ⟨h1, h2, h3⟩ := C84_nested hA hk hfin hdeg hg hw hw' hwc
  exact ⟨by linarith, fun u hu => by rw [h3 u hu]; linarith⟩

/-- A polynomial in two variables is a polynomial on each boundary side. -/
theorem sidePoly_poly (B : Base ℝ) {p : Poly} {d : Nat} (hd : p.totalDegree ≤ d) : SidePoly B d (fun x => ev p (x.x, x.y)) := by
  intro f _ j _
  set q := rootQ B f
  set l : Fin 2 → Polynomial ℝ := ![(1 - Polynomial.X) * Polynomial.C (F q (E j 0)).1 + Polynomial.X * Polynomial.C (F q (E j 1)).1,
    (1 - Polynomial.X) * Polynomial.C (F q (E j 0)).2 + Polynomial.X * Polynomial.C (F q (E j 1)).2] with hl
  have h1 : ∀ a b : ℝ, ((1 - Polynomial.X) * Polynomial.C a + Polynomial.X * Polynomial.C b).natDegree ≤ 1 := by
    intro a b
    compute_degree
  refine ⟨MvPolynomial.aeval l p, ?_, fun r _ _ => ?_⟩
  · have := MvPolynomial.aeval_natDegree_le p hd l (n := 1) (fun i => by fin_cases i <;> exact h1 _ _)
    simpa using this
  · show ev p (F q (E j r)) = _
    rw [F_line]
    unfold ev
    rw [← Polynomial.coe_evalRingHom, MvPolynomial.aeval_def, MvPolynomial.hom_eval₂, ← MvPolynomial.eval₂_id]
    refine congrArg₂ (fun a b => MvPolynomial.eval₂ a b p) ?_ ?_
    · ext x
      simp
    · funext i
      fin_cases i <;> simp [hl] <;> ring

theorem SidePoly.mono {B : Base ℝ} {d d' : Nat} {g : Pt ℝ → ℝ} (h : SidePoly B d g) (hd : d ≤ d') : SidePoly B d' g := by
  intro f hf j hj
  obtain ⟨P, h1, h2⟩ := h f hf j hj
  exact ⟨P, h1.trans hd, h2⟩

/-- The statements are not empty: linear elements on a refined mesh and quadratic ones on a finer mesh. -/
example : ∃ s w, MReach twoR s ∧ ∀ R, ∃ s' w', MReach twoR s' ∧ Finer false s false s' ∧ (∀ c ∈ leaves false s', R ≤ level c) ∧ SidePoly twoR (deg .Q1) (fun x => ev (MvPolynomial.X 0) (x.x, x.y)) ∧
    Computed twoR .Q1 1 1 (fun x => ev (MvPolynomial.X 0) (x.x, x.y)) false s w ∧
    Computed twoR .Q2 1 1 (fun x => ev (MvPolynomial.X 0) (x.x, x.y)) false s' w' ∧ energy 1 1 false s' w' ≤ energy 1 1 false s w := by
  have hk : ∀ p ∈ Dom twoR, 0 < ev 1 p := fun p _ => by simp [ev]
  have hg : SidePoly twoR (deg .Q1) (fun x => ev (MvPolynomial.X 0) (x.x, x.y)) := sidePoly_poly twoR (by simp [deg])
  obtain ⟨s, w, h1, _, h2, h3⟩ := C79_exists twoR_wf twoR_plain twoR_convex (by decide) .Q1 rfl (κ := 1) (f := 1) (by simp [deg]) (by simp [deg]) hk
    (fun x => ev (MvPolynomial.X 0) (x.x, x.y)) witR_reach 0
  refine ⟨s, w, h1, fun R => ?_⟩
  obtain ⟨s', w', h1', h4, h2', h3'⟩ := C79_exists twoR_wf twoR_plain twoR_convex (by decide) .Q2 rfl (κ := 1) (f := 1) (by simp [deg]) (by simp [deg]) hk
    (fun x => ev (MvPolynomial.X 0) (x.x, x.y)) h1 R
  have hfin : Finer false s false s' := C68_finer twoR_wf h1 h1' (fun _ _ => .inl rfl) (.inl rfl) (.inl rfl) (fun c hc _ => ⟨h4 c hc, .inl rfl⟩)
  exact ⟨s', w', h1', hfin, h2', hg, h3, h3', (C84_monotone twoR_par hk hfin (by decide) hg h3 h3').1⟩

end
end Verif.Cea
