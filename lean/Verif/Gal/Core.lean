import Verif.Gal.Galerkin

/-!
# The discrete problem reproduces polynomials: the variational core
-/

namespace Verif.Gal
open Verif.Mesh Verif.Dof Verif.Quad Verif.Fem Verif.Form Verif.Asm Verif.Phys Verif.Bnd Verif.Reg Verif.Dir Verif.Gauss

/-- The mesh and the dofs: a mesh of strictly convex cells with coordinates that fit, reached by refinement; continuous elements of
degree at least one, whose dofs and dof vertices have been distributed; the (sub)mesh covers the domain. -/
structure Setting (close : Pt ℝ → Pt ℝ → Bool) (B : Base ℝ) (e : ET) (sf : Bool) (s : St ℝ) (D : DH) (V : DV ℝ) (rect : Nat → Bool) : Prop where
  wf : B.WF
  plain : Plain B
  convex : Fn.Convex B
  rect : RectOk rect B
  cont : torn e = false
  ready : ReadyV close B e sf s D V
  roots : RootsIn B sf s
  full : sf = false ∨ (RootedFlag B s ∧ FullFlag s)

/-- The problem `−div(κ∇u) = f` with `f = −div(κ∇p)` for polynomials `κ` (positive on the domain) and `p`, and quadrature rules that fit. -/
structure Data (B : Base ℝ) (e : ET) (n n1 j : Nat) (rc : List ((ℝ × ℝ) × ℝ)) (re : List (ℝ × ℝ)) (k kf : Kernel (Pt ℝ)) (κ p : Poly) : Prop where
  rule2 : Gauss.rule2 (n ^ 2) = .ok rc
  five : n ≤ 5
  rule1 : Gauss.rule1 n1 = .ok re
  order : deg e < n
  degp : p.totalDegree ≤ deg e
  degk : κ.totalDegree + 2 * deg e ≤ 2 * n
  pos : ∀ z ∈ Dom B, 0 < ev κ z
  diff : IsPoly k j κ
  load : IsPoly kf j (diffuse κ p)

section
variable {close : Pt ℝ → Pt ℝ → Bool} {B : Base ℝ} {e : ET} {sf : Bool} {s : St ℝ} {D : DH} {V : DV ℝ} {rect : Nat → Bool}
variable {n n1 j : Nat} {rc : List ((ℝ × ℝ) × ℝ)} {re : List (ℝ × ℝ)} {k kf : Kernel (Pt ℝ)} {κ p : Poly}

theorem map_sub {α : Type} (l : List α) (f g : α → ℝ) : (l.map (fun a => f a - g a)).sum = (l.map f).sum - (l.map g).sum := by
  induction l with
  | nil => simp
  | cons a l ih =>
    simp only [List.map_cons, List.sum_cons, ih]
    ring

theorem deg_pos (he : torn e = false) : 1 ≤ deg e := by
  cases e <;> simp_all [torn, deg]

/-- The values of `p` at the dof vertices. -/
noncomputable def coeffs (V : DV ℝ) (p : Poly) (a : Nat) : ℝ := ((getVert V a).map (fun x => ev p (x.x, x.y))).getD 0

theorem coeffs_at (h : Setting close B e sf s D V rect) {c : CN} (hc : c ∈ leaves sf s) {a : Nat} (ha : a < nd2 e) :
    coeffs V p (dofAt D c a) = nodal (cellQ s c) e p a := by
  have hv := (row_leaf h.wf h.plain h.ready.ready hc).2.2 a ha
  unfold coeffs
  rw [vert_of h.wf h.plain h.ready hc ha hv]
  unfold nodal place
  rw [F_phys, Fn.nodes_cast e a ha]
  rfl

theorem coeffs_fn (h : Setting close B e sf s D V rect) (hp : p.totalDegree ≤ deg e) {c : CN} (hc : c ∈ leaves sf s) (z : ℝ × ℝ) :
    feFn e D (coeffs V p) c z = ev p (F (cellQ s c) z) := by
  rw [← interp_ev (cellQ s c) e hp z]
  show interp2 e _ z = interp2 e _ z
  unfold interp2
  congr 1
  refine List.map_congr_left (fun a ha => ?_)
  simp only
  rw [coeffs_at h hc (List.mem_range.1 ha)]
  rfl

theorem cell_phys (h : Setting close B e sf s D V rect) {c : CN} (hc : c ∈ leaves sf s) (z : ℝ × ℝ) :
    phys (cellQ s c) z = phys (rootQ B (rootPt c z).1) (rootPt c z).2 := by
  have hi := h.ready.ready.uses.uses.reach.inv h.wf
  exact phys_cell two_ne_zero h.wf h.ready.ready.uses.uses.reach c ((hi.mem c).2 ((Dof.mem_leaves hi c).1 hc).1) z

theorem coeffs_single (h : Setting close B e sf s D V rect) (hp : p.totalDegree ≤ deg e) : Single B sf s e D (coeffs V p) := by
  intro c hc c' hc' z z' _ _ hsame
  rw [coeffs_fn h hp hc, coeffs_fn h hp hc', F_phys, F_phys, cell_phys h hc, cell_phys h hc', same_phys h.wf h.plain hsame]

theorem fe_sub (u v : Nat → ℝ) (c : CN) (z : ℝ × ℝ) : feFn e D (fun a => u a - v a) c z = feFn e D u c z - feFn e D v c z := by
  show ((List.range (nd2 e)).map (fun i => (u (dofAt D c i) - v (dofAt D c i)) * Fem.val (phi2 e i z))).sum =
    ((List.range (nd2 e)).map (fun i => u (dofAt D c i) * Fem.val (phi2 e i z))).sum -
    ((List.range (nd2 e)).map (fun i => v (dofAt D c i) * Fem.val (phi2 e i z))).sum
  simp only [sub_mul]
  exact map_sub ..

/-- The values of `p` solve the discrete problem. -/
theorem consistent (h : Setting close B e sf s D V rect) (hd : Data B e n n1 j rc re k kf κ p) {v : Nat → ℝ} (hS : Single B sf s e D v)
    (hv : ZeroBnd B sf s e D v) : total2 (contribs e (laplace k) rc re j (meshCells rect sf s D)) v (coeffs V p) =
      total1 (loads e (source kf) rc re j (meshCells rect sf s D)) v := by
  rw [total2_leaves h.wf h.plain h.ready.ready, total1_leaves h.wf h.plain h.ready.ready, ← sub_eq_zero]
  have hs := h.ready.ready.uses.uses.reach
  have hi := hs.inv h.wf
  obtain ⟨S, hSz, hk⟩ := hd.diff
  obtain ⟨Sf, hSf, hf⟩ := hd.load
  rw [← flux_total h.wf h.plain hs h.cont h.roots h.full hS hv (ev_cont (κ * dx p)) (ev_cont (κ * dy p)), ← map_sub]
  congr 1
  refine List.map_congr_left (fun c hc => ?_)
  have hcm := (hi.mem c).2 ((Dof.mem_leaves hi c).1 hc).1
  have := cell_consistent hd.rule2 hd.five hd.rule1 e (deg_pos h.cont) hd.order hSz hSf hd.degp hd.degk hk hf (qcell rect s c)
    (Fn.cell_convex h.wf h.convex hs hcm) (upright_cell h.wf h.rect hs hcm) (fun a => v (dofAt D c a))
  have e1 : ∀ i : Fin 4, sideFlux (quadOf B c) (ev (κ * dx p)) (ev (κ * dy p)) (feFn e D v c) i =
      sideFlux (cellQ s c) (ev (κ * dx p)) (ev (κ * dy p)) (feFn e D v c) i := fun i => (flux_same (cellQ_eq h.wf hs c hcm) _ _ _ i).symm
  simp only [e1]
  refine Eq.trans ?_ this
  unfold bilC linC
  congr 2
  · refine Finset.sum_congr rfl (fun a _ => Finset.sum_congr rfl (fun i hi => ?_))
    simp only
    rw [coeffs_at h hc (Finset.mem_range.1 hi)]
    rfl
  · refine Finset.sum_congr rfl (fun a _ => Finset.sum_congr rfl (fun i hi => ?_))
    simp only
    rw [coeffs_at h hc (Finset.mem_range.1 hi)]
    rfl

/-- A leaf lies in the domain. -/
theorem leaf_region (h : Setting close B e sf s D V rect) {c : CN} (hc : c ∈ leaves sf s) {p : ℝ × ℝ} (hp : p ∈ Quad.region (cellQ s c)) : p ∈ Dom B := by
  have hs := h.ready.ready.uses.uses.reach
  have hi := hs.inv h.wf
  have hcm := (hi.mem c).2 ((Dof.mem_leaves hi c).1 hc).1
  have hroot := CEx_root hi c.2 c.1 ((hi.mem c).1 hcm)
  rw [← image_F _ (Fn.cell_convex h.wf h.convex hs hcm)] at hp
  obtain ⟨z, hz, rfl⟩ := hp
  refine ⟨c.1, hroot, ?_⟩
  rw [F_same (cellQ_eq h.wf hs c hcm), show quadAt B c.1 c.2 = quadOf B c from rfl, F_cell, ← image_F _ (h.convex c.1 hroot)]
  obtain ⟨a1, a2, a3, a4⟩ := climb_insq c.2 (show Dof.InSq z from ⟨hz.1.1, hz.1.2, hz.2.1, hz.2.2⟩)
  exact ⟨_, ⟨⟨a1, a2⟩, a3, a4⟩, rfl⟩

/-- A function of zero energy that is single-valued and zero on the boundary is zero. -/
theorem definite (h : Setting close B e sf s D V rect) (hrc : Gauss.rule2 (n ^ 2) = .ok rc) (hre : Gauss.rule1 n1 = .ok re) (hn : deg e < n)
    {S : Nat} (hS : sampleSize k = .ok S) (hk : ∀ x : Pt ℝ, (x.x, x.y) ∈ Dom B → 0 < k.eval S x j) {w : Nat → ℝ} (hw : Single B sf s e D w) (hz : ZeroBnd B sf s e D w)
    (h0 : total2 (contribs e (laplace k) rc re j (meshCells rect sf s D)) w w = 0) :
    ∀ c ∈ leaves sf s, ∀ a < nd2 e, w (dofAt D c a) = 0 := by
  have hs := h.ready.ready.uses.uses.reach
  have hi := hs.inv h.wf
  rw [total2_leaves h.wf h.plain h.ready.ready] at h0
  have hcx : ∀ c ∈ leaves sf s, ConvexCCW (cellQ s c) := fun c hc =>
    Fn.cell_convex h.wf h.convex hs ((hi.mem c).2 ((Dof.mem_leaves hi c).1 hc).1)
  have hreg : ∀ c ∈ leaves sf s, ∀ x : Pt ℝ, (x.x, x.y) ∈ Quad.region (cellQ s c) → (x.x, x.y) ∈ Dom B := fun c hc x hx => leaf_region h hc hx
  have key := sum_zero (leaves sf s) _ (fun c hc => by
    refine add_nonneg ?_ ?_
    · exact C56_psd hrc hre k S hS ⟨e, [1, 0]⟩ (Or.inr (Or.inl ⟨0, by omega, rfl⟩)) .dx none (qcell rect s c) (hcx c hc) j (fun x hx => (hk x (hreg c hc x hx)).le) _
    · exact C56_psd hrc hre k S hS ⟨e, [1, 1]⟩ (Or.inr (Or.inl ⟨1, by omega, rfl⟩)) .dx none (qcell rect s c) (hcx c hc) j (fun x hx => (hk x (hreg c hc x hx)).le) _) h0
  refine const_zero h.wf h.plain h.convex h.cont h.ready.ready h.roots h.full hw hz (fun c hc => ?_)
  have hcm := (hi.mem c).2 ((Dof.mem_leaves hi c).1 hc).1
  refine (C56_stiffness_kernel hrc hre e hn k S hS none (qcell rect s c) rfl (hcx c hc) (upright_cell h.wf h.rect hs hcm) j (fun x hx => hk x (hreg c hc x hx))
    (fun a => w (dofAt D c a))).1 ?_
  have := key c hc
  rw [bilC, ← Finset.sum_add_distrib] at this
  rw [← this]
  refine Finset.sum_congr rfl (fun a _ => ?_)
  rw [← Finset.sum_add_distrib]
  refine Finset.sum_congr rfl (fun i _ => ?_)
  ring

theorem total2_sub (h : Setting close B e sf s D V rect) (v x y : Nat → ℝ) :
    total2 (contribs e (laplace k) rc re j (meshCells rect sf s D)) v (fun a => x a - y a) =
      total2 (contribs e (laplace k) rc re j (meshCells rect sf s D)) v x - total2 (contribs e (laplace k) rc re j (meshCells rect sf s D)) v y := by
  rw [total2_leaves h.wf h.plain h.ready.ready, total2_leaves h.wf h.plain h.ready.ready, total2_leaves h.wf h.plain h.ready.ready, ← map_sub]
  congr 1
  exact List.map_congr_left (fun c _ => bilC_sub e k _ _ _ _)

/-- **The discrete solution is the polynomial.**  A continuous function with the values of `p` at the boundary nodes that solves the
discrete problem agrees with `p` at every point of every cell. -/
theorem reproduces (h : Setting close B e sf s D V rect) (hd : Data B e n n1 j rc re k kf κ p) {u : Nat → ℝ} (hu : Single B sf s e D u)
    (hb : ∀ c ∈ leaves sf s, ∀ a < nd2 e, BndPt B (rootPt c (node e a)) → u (dofAt D c a) = ev p ((place s e c a).x, (place s e c a).y))
    (hsol : ∀ v, Single B sf s e D v → ZeroBnd B sf s e D v → total2 (contribs e (laplace k) rc re j (meshCells rect sf s D)) v u =
      total1 (loads e (source kf) rc re j (meshCells rect sf s D)) v) :
    ∀ c ∈ leaves sf s, (∀ a < nd2 e, u (dofAt D c a) = ev p ((place s e c a).x, (place s e c a).y)) ∧
      ∀ z, feFn e D u c z = ev p (F (cellQ s c) z) := by
  have hU := coeffs_single h hd.degp
  have hpl : ∀ c ∈ leaves sf s, ∀ a < nd2 e, coeffs V p (dofAt D c a) = ev p ((place s e c a).x, (place s e c a).y) := by
    intro c hc a ha
    rw [coeffs_at h hc ha]
    unfold nodal place
    rw [F_phys, Fn.nodes_cast e a ha]
  set w : Nat → ℝ := fun a => u a - coeffs V p a with hw
  have hwS : Single B sf s e D w := by
    intro c hc c' hc' z z' hz hz' hsame
    rw [hw, fe_sub, fe_sub, hu c hc c' hc' z z' hz hz' hsame, hU c hc c' hc' z z' hz hz' hsame]
  have hwZ : ZeroBnd B sf s e D w := by
    intro c hc a ha hB
    rw [hw]
    simp only
    rw [hb c hc a ha hB, hpl c hc a ha, sub_self]
  obtain ⟨S, hSz, hk⟩ := hd.diff
  have hw0 := definite h hd.rule2 hd.rule1 hd.order hSz (fun x hx => by rw [hk]; exact hd.pos _ hx) hwS hwZ (by
    rw [total2_sub h, hsol w hwS hwZ, consistent h hd hwS hwZ, sub_self])
  have hua : ∀ c ∈ leaves sf s, ∀ a < nd2 e, u (dofAt D c a) = coeffs V p (dofAt D c a) := by
    intro c hc a ha
    have := hw0 c hc a ha
    rw [hw] at this
    exact sub_eq_zero.1 this
  intro c hc
  refine ⟨fun a ha => by rw [hua c hc a ha, hpl c hc a ha], fun z => ?_⟩
  rw [← coeffs_fn h hd.degp hc]
  show interp2 e _ z = interp2 e _ z
  unfold interp2
  congr 1
  refine List.map_congr_left (fun a ha => ?_)
  simp only
  rw [hua c hc a (List.mem_range.1 ha)]

end
end Verif.Gal
