import Verif.Cea.Props
import Verif.Gal.Ex

/-!
# C78: the computed solution is the best approximation
-/

namespace Verif.Cea
open Verif.Mesh Verif.Dof Verif.Quad Verif.Fem Verif.Form Verif.Asm Verif.Phys Verif.Bnd Verif.Reg Verif.Dir Verif.Gauss Verif.Gal MeasureTheory

section
variable {close : Pt ℝ → Pt ℝ → Bool} {B : Base ℝ} {e : ET} {sf : Bool} {s : St ℝ} {D : DH} {V : DV ℝ} {rect : Nat → Bool}
variable {n n1 j : Nat} {rc : List ((ℝ × ℝ) × ℝ)} {re : List (ℝ × ℝ)} {k kf : Kernel (Pt ℝ)} {κ f : Poly}

/-- A finite element function whose gradient vanishes inside a cell has equal nodal values there. -/
theorem const_of_grad (e : ET) (c : QCell) (hc : ConvexCCW c.q) (hrect : c.rect = true → Upright c.q) {v : Nat → ℝ}
    (h : ∀ r, InOpen r → gx c.q e v r = 0 ∧ gy c.q e v r = 0) : ∀ a < nd2 e, ∀ i < nd2 e, v a = v i := by
  have hn : deg e < 5 := by cases e <;> decide
  obtain ⟨rc, hrc⟩ := (C32_orders (5 ^ 2)).2.2 ⟨5, by norm_num, by norm_num, rfl⟩
  obtain ⟨re, hre⟩ := (C32_orders 1).1.2 (by norm_num)
  refine (C56_stiffness_kernel hrc hre e hn (kernelOf 1) 1 rfl none c rfl hc hrect 0 (fun x _ => by simp [kernelOf, Kernel.eval, ev]) v).1 ?_
  have hv1 : ∀ j < 2, ValidDer (Basis.mk e [1, j]).der := fun j hj => Or.inr (Or.inl ⟨j, hj, rfl⟩)
  have h1 : bilC e (kernelOf 1) rc re 0 c v v = 0 := by
    unfold bilC
    rw [bil_fields hrc hre (S := 1) rfl (hv1 0 (by omega)) (hv1 0 (by omega)), bil_fields hrc hre (S := 1) rfl (hv1 1 (by omega)) (hv1 1 (by omega))]
    have m0 : (fun _ : ℝ × ℝ => (0 : ℝ)) ∈ W (2 * 5 - 1) (2 * 5 - 1) := W_const _ _ 0
    rw [cell_int hrc (by omega) rfl _ _ m0, cell_int hrc (by omega) rfl _ _ m0]
    · simp
    · intro r w hr
      rw [(field_gx c hc hrect e v hr).2, (h r hr).2]
      ring
    · intro r w hr
      rw [(field_gx c hc hrect e v hr).1, (h r hr).1]
      ring
  rw [← h1, bilC, ← Finset.sum_add_distrib]
  refine Finset.sum_congr rfl (fun a _ => ?_)
  rw [← Finset.sum_add_distrib]
  refine Finset.sum_congr rfl (fun i _ => ?_)
  ring

/-- A function of zero energy that is single-valued and zero on the boundary is zero. -/
theorem definite_dom (h : Setting close B e sf s D V rect) (hA : Par B) (hk : ∀ p ∈ Dom B, 0 < ev κ p) {w : Nat → ℝ}
    (hw : Single B sf s e D w) (hz : ZeroBnd B sf s e D w)
    (h0 : ((leaves sf s).map (fun c => prodE κ (cellQ s c) e (fun a => w (dofAt D c a)) (fun a => w (dofAt D c a)))).sum = 0) :
    ∀ c ∈ leaves sf s, ∀ a < nd2 e, w (dofAt D c a) = 0 := by
  have hs := h.ready.ready.uses.uses.reach
  have hnn : ∀ c ∈ leaves sf s, ∀ r ∈ Gauss.sq, 0 ≤ det (cellQ s c) ⟨r.1, r.2⟩ * ev κ (F (cellQ s c) r) *
      (gx (cellQ s c) e (fun a => w (dofAt D c a)) r * gx (cellQ s c) e (fun a => w (dofAt D c a)) r +
        gy (cellQ s c) e (fun a => w (dofAt D c a)) r * gy (cellQ s c) e (fun a => w (dofAt D c a)) r) := by
    rintro c hc r ⟨⟨a, b⟩, d, d'⟩
    have hd := C21_det_pos _ (leaf_convex h hc) ⟨r.1, r.2⟩ a b d d'
    have := hk _ (leaf_dom h hc (z := r) ⟨a, b, d, d'⟩)
    exact mul_nonneg (mul_nonneg hd.le this.le) (add_nonneg (mul_self_nonneg _) (mul_self_nonneg _))
  have hsq : MeasurableSet Gauss.sq := measurableSet_Icc.prod measurableSet_Icc
  have key := sum_zero (leaves sf s) _ (fun c hc => setIntegral_nonneg hsq (hnn c hc)) h0
  refine const_zero h.wf h.plain h.convex h.cont h.ready.ready h.roots h.full hw hz (fun c hc => ?_)
  have hcm := leaf_mem h hc
  obtain ⟨hx, hy⟩ := par_cell h.wf hA hs hcm
  refine const_of_grad e (qcell rect s c) (leaf_convex h hc) (upright_cell h.wf h.rect hs hcm) (fun r hr => ?_)
  set v : Nat → ℝ := fun a => w (dofAt D c a)
  set q := cellQ s c
  show gx q e v r = 0 ∧ gy q e v r = 0
  have cF := cont_F q
  have ci : Continuous (fun r : ℝ × ℝ => det q ⟨r.1, r.2⟩ * ev κ (F q r) * (gx q e v r * gx q e v r + gy q e v r * gy q e v r)) :=
    ((continuous_det _).mul ((ev_cont κ).comp cF)).mul (((W_cont (gx_mem hx hy e v).1).mul (W_cont (gx_mem hx hy e v).1)).add
      ((W_cont (gx_mem hx hy e v).2).mul (W_cont (gx_mem hx hy e v).2)))
  have h1 : (fun r : ℝ × ℝ => det q ⟨r.1, r.2⟩ * ev κ (F q r) * (gx q e v r * gx q e v r + gy q e v r * gy q e v r)) =ᵐ[volume.restrict Gauss.sq] 0 :=
    (setIntegral_eq_zero_iff_of_nonneg_ae ((ae_restrict_iff' hsq).2 (Filter.Eventually.of_forall (hnn c hc))) (cont_int ci)).1 (key c hc)
  have hop : IsOpen (Set.Ioo (0 : ℝ) 1 ×ˢ Set.Ioo (0 : ℝ) 1) := isOpen_Ioo.prod isOpen_Ioo
  have hsub : Set.Ioo (0 : ℝ) 1 ×ˢ Set.Ioo (0 : ℝ) 1 ⊆ Gauss.sq := Set.prod_mono Set.Ioo_subset_Icc_self Set.Ioo_subset_Icc_self
  have h2 := Measure.eqOn_open_of_ae_eq (μ := volume) (ae_restrict_of_ae_restrict_of_subset hsub h1) hop ci.continuousOn continuous_const.continuousOn
  have h3 : det q ⟨r.1, r.2⟩ * ev κ (F q r) * (gx q e v r * gx q e v r + gy q e v r * gy q e v r) = 0 := h2 ⟨⟨hr.1, hr.2.1⟩, hr.2.2⟩
  have hd := C21_det_pos _ (leaf_convex h hc) ⟨r.1, r.2⟩ hr.1.le hr.2.1.le hr.2.2.1.le hr.2.2.2.le
  have hkp := hk _ (leaf_dom h hc (open_sq hr))
  have h4 := (mul_eq_zero.1 h3).resolve_left (mul_pos hd hkp).ne'
  constructor
  · nlinarith [mul_self_nonneg (gx q e v r), mul_self_nonneg (gy q e v r)]
  · nlinarith [mul_self_nonneg (gx q e v r), mul_self_nonneg (gy q e v r)]

/-- **C78** (the solution minimises the energy).  Elements of degree 1 to 3, a mesh of parallelograms with any hanging nodes, polynomial `κ > 0`
and `f`, Dirichlet values `g` at the boundary nodes: among all continuous finite element functions `w'` with the same values at the boundary
nodes, what `solve` returns has the smallest energy `½∫κ|∇w|² − ∫fw`, and is the only one; the energy of any other one exceeds it by half the
square of its distance in the energy norm. -/
theorem C78_minimises (h : Setting close B e sf s D V rect) (hA : Par B) (hp : Problem e n n1 j rc re k kf κ f) (hk : ∀ p ∈ Dom B, 0 < ev κ p)
    {g : Pt ℝ → ℝ} {H C : List (Linsys.Con ℝ)} (hh : setHanging sf s e D [] = some (H, C)) {d : List (Nat × ℝ)} (hD : BndDict B sf s e D g d)
    {keep fuel} {ord : List ℕ → List ℕ} (ho : SetOrder ord) (ha : Ascending ord) {y u : List ℝ}
    (hr : Solved e k kf rc re j rect sf s D H d keep fuel ord y u) {w : CN → ℝ × ℝ → ℝ} (hw : IsFn sf s e D (fun a => u.getD a 0) w) :
    Admissible B sf s e D g (fun a => u.getD a 0) ∧ ∀ (W : Nat → ℝ) (w' : CN → ℝ × ℝ → ℝ), Admissible B sf s e D g W → IsFn sf s e D W w' →
      energy κ f sf s w' = energy κ f sf s w + 1 / 2 * distE κ sf s w' w ∧ energy κ f sf s w ≤ energy κ f sf s w' ∧
      (energy κ f sf s w' = energy κ f sf s w ↔ ∀ c ∈ leaves sf s, ∀ a < nd2 e, W (dofAt D c a) = u.getD (dofAt D c a) 0) := by
  obtain ⟨hU, hsol⟩ := galerkin h hh hD ho ha hr
  refine ⟨hU, fun W w' hW hw' => ?_⟩
  have h1 := energy_split h hA hp hU hsol hW hw hw'
  have h2 := dist_nonneg' h (fun p hp => (hk p hp).le) hw' hw
  refine ⟨h1, by linarith, fun h3 => ?_, fun h3 => ?_⟩
  · have h4 : distE κ sf s w' w = 0 := by linarith
    rw [distE_ref h hw' hw] at h4
    obtain ⟨d1, d2⟩ := hW.diff hU
    intro c hc a ha
    exact sub_eq_zero.1 (definite_dom h hA hk d1 d2 h4 c hc a ha)
  · have h4 : distE κ sf s w' w = 0 := by
      rw [distE_ref h hw' hw]
      refine List.sum_eq_zero (fun x hx => ?_)
      obtain ⟨c, hc, rfl⟩ := List.mem_map.1 hx
      have hg : ∀ r, gx (cellQ s c) e (fun a => W (dofAt D c a) - u.getD (dofAt D c a) 0) r = 0 ∧
          gy (cellQ s c) e (fun a => W (dofAt D c a) - u.getD (dofAt D c a) 0) r = 0 := by
        intro r
        have e1 : Vs e (fun a => W (dofAt D c a) - u.getD (dofAt D c a) 0) r = 0 :=
          Finset.sum_eq_zero (fun a ha => by simp only; rw [h3 c hc a (Finset.mem_range.1 ha)]; ring)
        have e2 : Vt e (fun a => W (dofAt D c a) - u.getD (dofAt D c a) 0) r = 0 :=
          Finset.sum_eq_zero (fun a ha => by simp only; rw [h3 c hc a (Finset.mem_range.1 ha)]; ring)
        unfold gx gy
        rw [e1, e2]
        constructor <;> ring
      unfold prodE
      simp only [(hg _).1, (hg _).2, mul_zero, add_zero, integral_zero]
    linarith

/-- **C78** (best approximation).  For every classical solution `u` of `−div(κ∇u) = f` — whatever its boundary values — what `solve` returns is
the best approximation of `u` in the energy norm among all continuous finite element functions with the same values at the boundary nodes. -/
theorem C78_best (h : Setting close B e sf s D V rect) (hA : Par B) (hp : Problem e n n1 j rc re k kf κ f) (hk : ∀ p ∈ Dom B, 0 < ev κ p)
    {g : Pt ℝ → ℝ} {H C : List (Linsys.Con ℝ)} (hh : setHanging sf s e D [] = some (H, C)) {d : List (Nat × ℝ)} (hD : BndDict B sf s e D g d)
    {keep fuel} {ord : List ℕ → List ℕ} (ho : SetOrder ord) (ha : Ascending ord) {y u : List ℝ}
    (hr : Solved e k kf rc re j rect sf s D H d keep fuel ord y u) {w : CN → ℝ × ℝ → ℝ} (hw : IsFn sf s e D (fun a => u.getD a 0) w)
    {U : ℝ × ℝ → ℝ} (hu : Classical κ f U (Dom B)) (W : Nat → ℝ) (w' : CN → ℝ × ℝ → ℝ) (hW : Admissible B sf s e D g W) (hw' : IsFn sf s e D W w') :
    errE κ sf s U w' = errE κ sf s U w + distE κ sf s w' w ∧ errE κ sf s U w ≤ errE κ sf s U w' := by
  obtain ⟨hU, hsol⟩ := galerkin h hh hD ho ha hr
  have h1 := pythagoras h hA hp hu hU hsol hW hw hw'
  exact ⟨h1, by linarith [dist_nonneg' h (fun p hp => (hk p hp).le) hw' hw]⟩

end
end Verif.Cea
