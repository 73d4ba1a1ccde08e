import Verif.Fn.Value
import Verif.Fem.ShapeProps

/-! # C67: the derivatives of `Nodal.eval` -/

namespace Verif.Fn
open Verif.Mesh Verif.Dof Verif.Fem Verif.Quad Verif.Phys Verif.Reg Verif.Bnd Topology

section
variable {B : Base ℝ} {s : St ℝ} {sf : Bool} {tol : ℝ} {e : ET} {D : DH}

/-- What is called a rectangle is one, and starts with a horizontal edge. -/
def Uprights (rect : Nat → Bool) (B : Base ℝ) : Prop := ∀ f < B.n, rect f = true → Upright (rootQ B f)

theorem Affine.uprights {rect : Nat → Bool} (h : Affine rect B) : Uprights rect B := by
  intro f hf hr
  rcases h f hf with h | ⟨h, _⟩
  · exact h.2
  · rw [hr] at h; cases h

theorem cell_upright (hB : B.WF) {rect : Nat → Bool} (hA : Uprights rect B) (hs : MReach B s) {c : CN} (hc : c ∈ s.cells)
    (hr : rect c.1 = true) : Upright (cellQ s c) := by
  have hi := hs.inv hB
  have hf := CEx_root hi c.2 c.1 ((hi.mem c).1 hc)
  have : ∀ p : List (Fin 4), AffQ true (quadAt B c.1 p) := by
    intro p
    induction p with
    | nil => exact .inl ⟨rfl, hA c.1 hf hr⟩
    | cons k p ih => exact ih.child ∅ k
  exact (((this c.2).same (cellQ_eq hB hs c hc)).resolve_right (by simp)).2

theorem grad_sum {g : Nat → ℝ × ℝ → ℝ} {a b : Nat → ℝ} {r : ℝ × ℝ} (U : Nat → ℝ) (n : Nat) (h : ∀ p < n, HasGrad (g p) (a p) (b p) r) :
    HasGrad (fun z => ((List.range n).map (fun p => g p z * U p)).sum) ((List.range n).map (fun p => a p * U p)).sum
      ((List.range n).map (fun p => b p * U p)).sum r := by
  induction n with
  | zero =>
    simp only [List.range_zero, List.map_nil, List.sum_nil]
    exact (hasFDerivAt_const (0 : ℝ) r).congr_fderiv (by ext <;> simp)
  | succ n ih =>
    simp only [List.range_succ, List.map_append, List.sum_append, List.map_cons, List.map_nil, List.sum_cons, List.sum_nil, add_zero]
    refine (ih (fun p hp => h p (by omega))).add ?_
    have hc : HasGrad (fun _ : ℝ × ℝ => U n) 0 0 r := (hasFDerivAt_const (U n) r).congr_fderiv (by ext <;> simp)
    exact ((h n (by omega)).mul hc).congr (by ring) (by ring)

/-- The gradient of a finite element function on a cell, in the coordinates of the domain. -/
theorem sum_partial {U : Nat → ℝ} {q : QD ℝ} {r : ℝ × ℝ} (hd : det q ⟨r.1, r.2⟩ ≠ 0) {u : ℝ × ℝ → ℝ}
    (hu : ∀ᶠ z in 𝓝 r, u (F q z) = cellFn e U z) {v : Nat} (hv : v < 2) :
    IsPartial u v ((List.range (nd2 e)).map (fun p => D1 q e p v r * U p)).sum (F q r) := by
  have hg := grad_sum U (nd2 e) (fun p hp => grad_phi e p hp r)
  have hu' : ∀ᶠ z in 𝓝 r, u (F q z) = ((List.range (nd2 e)).map (fun p => Fem.val (phi2 e p z) * U p)).sum := by
    filter_upwards [hu] with z hz
    rw [hz]
    unfold cellFn interp2
    simp only [mul_comm]
  have := grad_physical q r hd hg hu'
  interval_cases v
  · have h1 := this.partial_x
    convert h1 using 1
    unfold D1
    rw [← List.sum_map_mul_right, ← List.sum_map_mul_right, ← List.sum_map_add]
    apply congrArg
    apply List.map_congr_left
    intro p _
    simp only [if_true]
    ring
  · have h1 := this.partial_y
    convert h1 using 1
    unfold D1
    rw [← List.sum_map_mul_right, ← List.sum_map_mul_right, ← List.sum_map_add]
    apply congrArg
    apply List.map_congr_left
    intro p _
    simp only [one_ne_zero, if_false]
    ring

theorem sum_second {U : Nat → ℝ} {q : QD ℝ} {r : ℝ × ℝ} (hd : det q ⟨r.1, r.2⟩ ≠ 0) {u : ℝ × ℝ → ℝ}
    (hu : ∀ᶠ z in 𝓝 r, u (F q z) = cellFn e U z) {v w : Nat} (hv : v < 2) (hw : w < 2) {g : ℝ × ℝ → ℝ}
    (hg : ∀ᶠ p in 𝓝 (F q r), IsPartial u v (g p) p) :
    IsPartial g w ((List.range (nd2 e)).map (fun p => D2 q e p v w r * U p)).sum (F q r) := by
  have h1 : ∀ᶠ s in 𝓝 r, ∀ᶠ z in 𝓝 s, u (F q z) = cellFn e U z := hu.eventually_nhds
  have h2 : ∀ᶠ s in 𝓝 r, det q ⟨s.1, s.2⟩ ≠ 0 := (continuous_det q).continuousAt.eventually_ne hd
  have h3 : ∀ᶠ s in 𝓝 r, IsPartial u v (g (F q s)) (F q s) :=
    (hasFDerivAt_F q r).continuousAt.eventually hg
  have hgD : ∀ᶠ s in 𝓝 r, g (F q s) = ((List.range (nd2 e)).map (fun p => D1 q e p v s * U p)).sum := by
    filter_upwards [h1, h2, h3] with s e1 e2 e3
    exact partial_unique e3 (sum_partial e2 e1 hv)
  have key : ∀ p, ∃ ab : ℝ × ℝ, p < nd2 e → HasGrad (D1 q e p v) ab.1 ab.2 r ∧
      D2 q e p v 0 r = ab.1 * (jacP2R q ⟨r.1, r.2⟩).1.1 + ab.2 * (jacP2R q ⟨r.1, r.2⟩).2.1 ∧
      D2 q e p v 1 r = ab.1 * (jacP2R q ⟨r.1, r.2⟩).1.2 + ab.2 * (jacP2R q ⟨r.1, r.2⟩).2.2 := by
    intro p
    by_cases hp : p < nd2 e
    · obtain ⟨a, b, h⟩ := grad_D1 q e p hp r hd v hv
      exact ⟨(a, b), fun _ => h⟩
    · exact ⟨(0, 0), fun h => absurd h hp⟩
  choose ab hab using key
  have := grad_physical q r hd (grad_sum U (nd2 e) (fun p hp => (hab p hp).1)) hgD
  interval_cases w
  · have h1 := this.partial_x
    convert h1 using 1
    rw [← List.sum_map_mul_right, ← List.sum_map_mul_right, ← List.sum_map_add]
    apply congrArg
    apply List.map_congr_left
    intro p hp
    rw [(hab p (List.mem_range.1 hp)).2.1]
    ring
  · have h1 := this.partial_y
    convert h1 using 1
    rw [← List.sum_map_mul_right, ← List.sum_map_mul_right, ← List.sum_map_add]
    apply congrArg
    apply List.map_congr_left
    intro p hp
    rw [(hab p (List.mem_range.1 hp)).2.2]
    ring

/-- In a convex cell there are functions as in `C67_gradient`, `C67_hessian`: a continuation `u` of the finite element function beyond
the cell, with partial derivatives `g` near the point. -/
theorem C67_extension {q : QD ℝ} (hq : ConvexCCW q) (e : ET) (U : Nat → ℝ) {r : ℝ × ℝ} (hr : InSq r) {v : Nat} (hv : v < 2) :
    ∃ u g : ℝ × ℝ → ℝ, (∀ᶠ z in 𝓝 r, u ((phys q z).x, (phys q z).y) = cellFn e U z) ∧
      ∀ᶠ p in 𝓝 ((phys q r).x, (phys q r).y), IsPartial u v (g p) p := by
  have hd := (C21_det_pos q hq ⟨r.1, r.2⟩ hr.1 hr.2.1 hr.2.2.1 hr.2.2.2).ne'
  have hs : HasStrictFDerivAt (F q) (eF q r hd : ℝ × ℝ →L[ℝ] ℝ × ℝ) r := strict_F q r
  let i := hs.localInverse (F q) (eF q r hd) r
  have hir : i (F q r) = r := hs.localInverse_apply_image
  have hu : ∀ᶠ z in 𝓝 r, (fun p => cellFn e U (i p)) (F q z) = cellFn e U z := by
    filter_upwards [hs.eventually_left_inverse] with z h
    exact congrArg _ h
  refine ⟨fun p => cellFn e U (i p), fun p => ((List.range (nd2 e)).map (fun n => D1 q e n v (i p) * U n)).sum, hu, ?_⟩
  have hc : ContinuousAt i (F q r) := hs.localInverse_continuousAt
  have h1 : ∀ᶠ s in 𝓝 (i (F q r)), (∀ᶠ z in 𝓝 s, (fun p => cellFn e U (i p)) (F q z) = cellFn e U z) ∧ det q ⟨s.1, s.2⟩ ≠ 0 := by
    rw [hir]
    exact hu.eventually_nhds.and ((continuous_det q).continuousAt.eventually_ne hd)
  have h2 : ∀ᶠ p in 𝓝 (F q r), F q (i p) = p := hs.eventually_right_inverse
  change ∀ᶠ p in 𝓝 (F q r), _
  filter_upwards [hc.eventually h1, h2] with p a1 a2
  have := sum_partial (e := e) (U := U) (u := fun p => cellFn e U (i p)) a1.2 a1.1 hv
  rwa [a2] at this

theorem hess_eq (rect : Nat → Bool) (c : CN) (r : Pt ℝ) : hessOf rect s c r = refHess (rect c.1) (cellQ s c) r := rfl

/-- **C67** (first derivatives): `eval` with derivative `(1, v)` returns at each point the partial derivative of the finite element
function: of any function that agrees, in the leaf that is used, with the (continued) finite element function. -/
theorem C67_gradient (ht : 0 ≤ tol) (hB : B.WF) (hP : Plain B) (hC : Convex B) (hR : Ready B e sf s D) (hr : RootsIn B sf s)
    (hf : sf = false ∨ FullFlag s) {n : Nat} (hn : Deep s n) {L : List Nat} (hL : BasisOf sf s e D L) {data : List (List ℝ)}
    (hd : data.length = L.length) (m : Nat) (rect : Nat → Bool) (hA : Uprights rect B) (v : Nat) (hv : v < 2) (xs : List (Pt ℝ))
    (hin : ∀ x ∈ xs, ∃ f < B.n, contains tol (rootQ B f) x = true) (hx : ∀ x ∈ xs, Exact tol rect sf s x) :
    ∃ fx, evalN tol rect sf B.n s n e D L data m [1, v] xs = some fx ∧ fx.length = xs.length ∧ ∀ (i : Nat) x, xs[i]? = some x →
      ∃ row : List ℝ, fx[i]? = some row ∧ row.length = m ∧ ∃ c ∈ leaves sf s, ∃ r, At s c r x ∧
        ∀ j < m, ∃ d, row[j]? = some d ∧ ∀ u : ℝ × ℝ → ℝ,
          (∀ᶠ z in 𝓝 r, u ((phys (cellQ s c) z).x, (phys (cellQ s c) z).y) = feFn e D (dofVal L data j) c z) →
          IsPartial u v d (x.x, x.y) := by
  have hs := hR.uses.uses.reach
  have hi := hs.inv hB
  have hshape : ∀ c ∈ leaves sf s, ∀ r : Pt ℝ, InSq (r.x, r.y) → ∀ p < nd2 e,
      shapeAt rect s e [1, v] c r p = some (D1 (cellQ s c) e p v (r.x, r.y)) := by
    intro c hc r hr p hp
    have hm := (hi.mem c).2 ((Dof.mem_leaves hi c).1 hc).1
    unfold shapeAt
    rw [shape_first (cellQ s c) e p hp (r.x, r.y) hr (rect c.1) (cell_upright hB hA hs hm) v hv]
    rfl
  obtain ⟨fx, e1, e2, e3⟩ := C67_eval ht hB hP hC hR hr hf hn hL hd m rect [1, v] xs hin (fun x h c hc hcx => by
    obtain ⟨r, h1, h2⟩ := hx x h c hc hcx
    exact ⟨r, h1, fun p hp => ⟨_, hshape c hc r h2.1 p hp⟩⟩)
  refine ⟨fx, e1, e2, fun i x hix => ?_⟩
  obtain ⟨row, h1, h2, c, h3, h4, r, h5, h6⟩ := e3 i x hix
  obtain ⟨r', g1, g2⟩ := hx x (List.mem_of_getElem? hix) c h3 h4
  rw [h5] at g1
  cases g1
  refine ⟨row, h1, h2, c, h3, _, g2, fun j hj => ⟨_, h6 j hj, fun u hu => ?_⟩⟩
  have hm := (hi.mem c).2 ((Dof.mem_leaves hi c).1 h3).1
  have hdet := (C21_det_pos _ (cell_convex hB hC hs hm) r g2.1.1 g2.1.2.1 g2.1.2.2.1 g2.1.2.2.2).ne'
  have := sum_partial (e := e) (U := fun p => dofVal L data j (dofAt D c p)) (q := cellQ s c) (r := (r.x, r.y)) hdet hu hv
  have hF : F (cellQ s c) (r.x, r.y) = (x.x, x.y) := by rw [← g2.2]; rfl
  rw [hF] at this
  convert this using 1
  apply congrArg
  apply List.map_congr_left
  intro p hp
  rw [hshape c h3 r g2.1 p (List.mem_range.1 hp)]
  rfl

/-- **C67** (second derivatives): `eval` with derivative `(2, v, w)`. -/
theorem C67_hessian (ht : 0 ≤ tol) (hB : B.WF) (hP : Plain B) (hC : Convex B) (hR : Ready B e sf s D) (hr : RootsIn B sf s)
    (hf : sf = false ∨ FullFlag s) {n : Nat} (hn : Deep s n) {L : List Nat} (hL : BasisOf sf s e D L) {data : List (List ℝ)}
    (hd : data.length = L.length) (m : Nat) (rect : Nat → Bool) (hA : Uprights rect B) (v w : Nat) (hv : v < 2) (hw : w < 2) (xs : List (Pt ℝ))
    (hin : ∀ x ∈ xs, ∃ f < B.n, contains tol (rootQ B f) x = true) (hx : ∀ x ∈ xs, Exact tol rect sf s x) :
    ∃ fx, evalN tol rect sf B.n s n e D L data m [2, v, w] xs = some fx ∧ fx.length = xs.length ∧ ∀ (i : Nat) x, xs[i]? = some x →
      ∃ row : List ℝ, fx[i]? = some row ∧ row.length = m ∧ ∃ c ∈ leaves sf s, ∃ r, At s c r x ∧
        ∀ j < m, ∃ d, row[j]? = some d ∧ ∀ u g : ℝ × ℝ → ℝ,
          (∀ᶠ z in 𝓝 r, u ((phys (cellQ s c) z).x, (phys (cellQ s c) z).y) = feFn e D (dofVal L data j) c z) →
          (∀ᶠ p in 𝓝 (x.x, x.y), IsPartial u v (g p) p) → IsPartial g w d (x.x, x.y) := by
  have hs := hR.uses.uses.reach
  have hi := hs.inv hB
  have hshape : ∀ c ∈ leaves sf s, ∀ r : Pt ℝ, InSq (r.x, r.y) → ∀ p < nd2 e,
      shapeAt rect s e [2, v, w] c r p = some (D2 (cellQ s c) e p v w (r.x, r.y)) := by
    intro c hc r hr p hp
    have hm := (hi.mem c).2 ((Dof.mem_leaves hi c).1 hc).1
    unfold shapeAt
    rw [hess_eq]
    have := shape_second (cellQ s c) e p hp (r.x, r.y) hr (rect c.1) (cell_upright hB hA hs hm) v w hv hw
    rw [this]
    rfl
  obtain ⟨fx, e1, e2, e3⟩ := C67_eval ht hB hP hC hR hr hf hn hL hd m rect [2, v, w] xs hin (fun x h c hc hcx => by
    obtain ⟨r, h1, h2⟩ := hx x h c hc hcx
    exact ⟨r, h1, fun p hp => ⟨_, hshape c hc r h2.1 p hp⟩⟩)
  refine ⟨fx, e1, e2, fun i x hix => ?_⟩
  obtain ⟨row, h1, h2, c, h3, h4, r, h5, h6⟩ := e3 i x hix
  obtain ⟨r', g1, g2⟩ := hx x (List.mem_of_getElem? hix) c h3 h4
  rw [h5] at g1
  cases g1
  refine ⟨row, h1, h2, c, h3, _, g2, fun j hj => ⟨_, h6 j hj, fun u g hu hg => ?_⟩⟩
  have hm := (hi.mem c).2 ((Dof.mem_leaves hi c).1 h3).1
  have hdet := (C21_det_pos _ (cell_convex hB hC hs hm) r g2.1.1 g2.1.2.1 g2.1.2.2.1 g2.1.2.2.2).ne'
  have hF : F (cellQ s c) (r.x, r.y) = (x.x, x.y) := by rw [← g2.2]; rfl
  rw [← hF] at hg
  have := sum_second (e := e) (U := fun p => dofVal L data j (dofAt D c p)) (q := cellQ s c) (r := (r.x, r.y)) hdet hu hv hw hg
  rw [hF] at this
  convert this using 1
  apply congrArg
  apply List.map_congr_left
  intro p hp
  rw [hshape c h3 r g2.1 p (List.mem_range.1 hp)]
  rfl

end
end Verif.Fn
