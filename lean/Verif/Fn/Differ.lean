import Verif.Fn.Deriv
import Verif.Fn.Interp

/-! # C67: `Nodal.differentiate` -/

namespace Verif.Fn
open Verif.Mesh Verif.Dof Verif.Fem Verif.Quad Verif.Phys Verif.Reg Verif.Bnd Verif.Dir Topology

/-- The discontinuous element (function.py 2343-2348). -/
def tear : ET → ET
  | .Q1 => .DQ1
  | .Q2 => .DQ2
  | .Q3 => .DQ3
  | e => e

/-- `f.differentiate(derivative)` (function.py 2322-2371): the data of the new function.  `ev`: `f.eval`; `V`: the vertices of the dofs of
the new dofhandler (discontinuous element); `L`: its dofs in the submesh of `f`, `L'`: the dofs of the new basis (whole mesh).  `none`: an
exception; the last one is raised by `set_data` (function.py 1674-1677). -/
def differentiate {K : Type} (ev : List Nat → List (Pt K) → Option (List (List K))) (der : List Nat) (V : DV K) (L L' : List Nat) :
    Option (List (List K)) :=
  ((getVerts V L).bind (ev der)).bind (fun data => if data.length = L'.length then some data else none)

theorem tear_deg (e : ET) : deg (tear e) = deg e := by cases e <;> rfl

section
variable {B : Base ℝ} {s : St ℝ} {tol tol' : ℝ} {e : ET} {D : DH}

/-- **C67** (derivatives of polynomials): `eval` with a first derivative, of a `Nodal` function made from polynomials, returns the partial
derivatives of the polynomials. -/
theorem C67_polynomial_gradient {sf : Bool} (ht : 0 ≤ tol) (hB : B.WF) (hP : Plain B) (hC : Convex B) (hR : Ready B e sf s D) (hr : RootsIn B sf s)
    (hf : sf = false ∨ FullFlag s) {n : Nat} (hn : Deep s n) {L : List Nat} (hL : BasisOf sf s e D L) {close : Pt ℝ → Pt ℝ → Bool} {V : DV ℝ}
    (hV : UsesV close B e s D V) {f f' : List (Pt ℝ → ℝ)} (hlen : f'.length = f.length) (hpoly : ∀ g ∈ f, g ∈ PolyP ℝ (deg e)) (v : Nat) (hv : v < 2)
    (hder : ∀ (j : Nat) g g', f[j]? = some g → f'[j]? = some g' → ∀ p : Pt ℝ, IsPartial (fun y => g ⟨y.1, y.2⟩) v (g' p) (p.x, p.y))
    {data : List (List ℝ)} (hd : nodalData V L f = some data) (rect : Nat → Bool) (hA : Uprights rect B) (xs : List (Pt ℝ))
    (hin : ∀ x ∈ xs, ∃ k < B.n, contains tol (rootQ B k) x = true) (hx : ∀ x ∈ xs, Exact tol rect sf s x) :
    evalN tol rect sf B.n s n e D L data f.length [1, v] xs = some (xs.map (fun x => f'.map (fun g => g x))) := by
  obtain ⟨fx, e1, e2, e3⟩ := C67_gradient ht hB hP hC hR hr hf hn hL (nodal_val hB hP hL hV hd).1 f.length rect hA v hv xs hin hx
  rw [e1]
  congr 1
  apply List.ext_getElem?
  intro i
  rw [List.getElem?_map]
  rcases hxi : xs[i]? with _ | x
  · rw [List.getElem?_eq_none_iff] at hxi
    rw [List.getElem?_eq_none (by omega)]
    rfl
  · obtain ⟨row, h1, h2, c, hc, r, hat, h5⟩ := e3 i x hxi
    rw [h1]
    congr 1
    apply List.ext_getElem?
    intro j
    rw [List.getElem?_map]
    rcases hfj : f'[j]? with _ | g'
    · rw [List.getElem?_eq_none_iff] at hfj
      rw [List.getElem?_eq_none (by omega)]
      rfl
    · have hj : j < f.length := by rw [← hlen]; exact (List.getElem?_eq_some_iff.1 hfj).1
      have hgj := List.getElem?_eq_getElem hj
      obtain ⟨d, g1, g2⟩ := h5 j hj
      rw [g1]
      have h6 := g2 (fun y => f[j] ⟨y.1, y.2⟩) (Filter.Eventually.of_forall (fun z =>
        (leaf_exact hB hP hR hL hV hd hc hgj (polyP_phys _ (hpoly _ (List.getElem_mem hj))) z).symm))
      rw [partial_unique h6 (hder j _ g' hgj hfj x)]
      rfl

/-- **C67** (`differentiate`): the derivative of a `Nodal` function made from polynomials is the derivative of the polynomials, at every point
of the domain.  `D'`, `V'`: the dofhandler made in `differentiate`, `L'` its dofs. -/
theorem C67_differentiate (ht : 0 ≤ tol) (ht' : 0 ≤ tol') (hB : B.WF) (hP : Plain B) (hC : Convex B) (hR : Ready B e false s D)
    {n : Nat} (hn : Deep s n) {L : List Nat} (hL : BasisOf false s e D L) {close : Pt ℝ → Pt ℝ → Bool} {V : DV ℝ}
    (hV : UsesV close B e s D V) {f f' : List (Pt ℝ → ℝ)} (hlen : f'.length = f.length) (hpoly : ∀ g ∈ f, g ∈ PolyP ℝ (deg e)) (v : Nat) (hv : v < 2)
    (hpoly' : ∀ g ∈ f', g ∈ PolyP ℝ (deg e))
    (hder : ∀ (j : Nat) g g', f[j]? = some g → f'[j]? = some g' → ∀ p : Pt ℝ, IsPartial (fun y => g ⟨y.1, y.2⟩) v (g' p) (p.x, p.y))
    {data : List (List ℝ)} (hd : nodalData V L f = some data) (rect : Nat → Bool) (hA : Uprights rect B)
    {D' : DH} {V' : DV ℝ} (hR' : ReadyV close B (tear e) false s D' V') {L' : List Nat} (hL' : BasisOf false s (tear e) D' L')
    (hx' : ∀ ys, getVerts V' L' = some ys → ∀ x ∈ ys, Exact tol rect false s x) (xs : List (Pt ℝ))
    (hin : ∀ x ∈ xs, ∃ k < B.n, contains tol' (rootQ B k) x = true) (hx : ∀ x ∈ xs, Exact tol' rect false s x) :
    ∃ data', differentiate (evalN tol rect false B.n s n e D L data f.length) [1, v] V' L' L' = some data' ∧
      evalN tol' rect false B.n s n (tear e) D' L' data' f.length [0] xs = some (xs.map (fun x => f'.map (fun g => g x))) := by
  have hs := hR.uses.uses.reach
  have hi := hs.inv hB
  obtain ⟨ys, hys⟩ := verts_some hB hR' hL'
  have hys' := (allSome_some _ _).1 hys
  have hyl : ys.length = L'.length := by simpa using (congrArg List.length hys').symm
  have e1 := C67_polynomial_gradient ht hB hP hC hR (fun _ _ => .inl rfl) (.inl rfl) hn hL hV hlen hpoly v hv hder hd rect hA ys (by
    intro y hy
    obtain ⟨i, hiy⟩ := List.mem_iff_getElem?.1 hy
    have h1 : (L'.map (getVert V'))[i]? = some (some y) := by rw [hys', List.getElem?_map, hiy]; rfl
    rw [List.getElem?_map] at h1
    obtain ⟨a, h2, h3⟩ := Option.map_eq_some_iff.1 h1
    obtain ⟨c, hc, p, hp, hv⟩ := (hL'.mem a).1 (List.mem_of_getElem? h2)
    have hcm := (hi.mem c).2 ((Dof.mem_leaves hi c).1 hc).1
    exact at_contains hB ht hC hs hc (r := castPt ℝ (node (tear e) p)) ⟨insq_cast (node_insq (tear e) ⟨p, hp⟩),
      (C63_vertex hB hP hR'.uses a y h3 c hcm p hp hv).symm⟩) (hx' ys hys)
  have hd' : nodalData V' L' f' = some (ys.map (fun x => f'.map (fun g => g x))) := by unfold nodalData; rw [hys]; rfl
  refine ⟨ys.map (fun x => f'.map (fun g => g x)), ?_, ?_⟩
  rotate_left
  · rw [← hlen]
    exact C67_polynomial ht' hB hP hC hR'.ready (fun _ _ => .inl rfl) (.inl rfl) hn hL' hR'.uses (by rw [tear_deg]; exact hpoly') hd' rect xs hin hx
  · unfold differentiate
    rw [hys]
    simp only [Option.bind_some]
    rw [e1]
    simp only [Option.bind_some]
    rw [if_pos (by simp [hyl])]

/-- The partial derivatives of a polynomial (of total degree at most `d`) are polynomials of at most the same degree. -/
theorem poly_partial {d : Nat} {g : Pt ℝ → ℝ} (hg : g ∈ PolyP ℝ d) (v : Nat) (hv : v < 2) :
    ∃ g' ∈ PolyP ℝ d, ∀ p : Pt ℝ, IsPartial (fun y => g ⟨y.1, y.2⟩) v (g' p) (p.x, p.y) := by
  refine Submodule.span_induction (p := fun g _ => ∃ g' ∈ PolyP ℝ d, ∀ p : Pt ℝ, IsPartial (fun y => g ⟨y.1, y.2⟩) v (g' p) (p.x, p.y))
    ?_ ?_ ?_ ?_ hg
  · rintro f ⟨a, b, hab, rfl⟩
    interval_cases v
    · refine ⟨fun p => (a : ℝ) * (p.x ^ (a - 1) * p.y ^ b), ?_, fun p => ?_⟩
      · exact Submodule.smul_mem _ (a : ℝ) (Submodule.subset_span ⟨a - 1, b, by omega, rfl⟩)
      · change HasDerivAt (fun t : ℝ => t ^ a * p.y ^ b) _ _
        exact ((hasDerivAt_pow a p.x).mul_const _).congr_deriv (by ring)
    · refine ⟨fun p => (b : ℝ) * (p.x ^ a * p.y ^ (b - 1)), ?_, fun p => ?_⟩
      · exact Submodule.smul_mem _ (b : ℝ) (Submodule.subset_span ⟨a, b - 1, by omega, rfl⟩)
      · change HasDerivAt (fun t : ℝ => p.x ^ a * t ^ b) _ _
        exact ((hasDerivAt_pow b p.y).const_mul _).congr_deriv (by ring)
  · refine ⟨0, Submodule.zero_mem _, fun p => ?_⟩
    interval_cases v <;> exact hasDerivAt_const _ _
  · rintro f g _ _ ⟨f', h1, h2⟩ ⟨g', h3, h4⟩
    refine ⟨f' + g', Submodule.add_mem _ h1 h3, fun p => ?_⟩
    have a1 := h2 p
    have a2 := h4 p
    interval_cases v <;> exact HasDerivAt.add a1 a2
  · rintro c f _ ⟨f', h1, h2⟩
    refine ⟨c • f', Submodule.smul_mem _ c h1, fun p => ?_⟩
    have a1 := h2 p
    interval_cases v <;> exact HasDerivAt.const_mul c a1

end
end Verif.Fn
