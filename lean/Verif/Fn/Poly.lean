import Verif.Fn.Value
import Mathlib.Algebra.Algebra.Operations

/-! # C67: functions given by their values at the dof vertices -/

namespace Verif.Fn
open Verif.Mesh Verif.Dof Verif.Fem Verif.Quad Verif.Phys Verif.Reg Verif.Bnd

/-! ### Specification -/

/-- Polynomials in the coordinates of total degree at most `d`. -/
def PolyP (K : Type) [Field K] (d : Nat) : Submodule K (Pt K → K) :=
  Submodule.span K {f | ∃ a b, a + b ≤ d ∧ f = fun p => p.x ^ a * p.y ^ b}

/-- Polynomials of degree at most `d` in each coordinate. -/
def PolyQ (K : Type) [Field K] (d : Nat) : Submodule K (Pt K → K) :=
  Submodule.span K {f | ∃ a b, a ≤ d ∧ b ≤ d ∧ f = fun p => p.x ^ a * p.y ^ b}

section
variable {K : Type} [Field K]

/-- Polynomials of degree at most `M` in the first and `N` in the second variable, as functions on the unit square. -/
def W (K : Type) [Field K] (M N : Nat) : Submodule K (K × K → K) :=
  Submodule.span K {f | ∃ a b, a ≤ M ∧ b ≤ N ∧ f = fun p => p.1 ^ a * p.2 ^ b}

theorem mono_mem (M N a b : Nat) (ha : a ≤ M) (hb : b ≤ N) : (fun p : K × K => p.1 ^ a * p.2 ^ b) ∈ W K M N :=
  Submodule.subset_span ⟨a, b, ha, hb, rfl⟩

theorem W_mono {M N M' N' : Nat} (h1 : M ≤ M') (h2 : N ≤ N') : W K M N ≤ W K M' N' := by
  refine Submodule.span_mono ?_
  rintro f ⟨a, b, ha, hb, rfl⟩
  exact ⟨a, b, ha.trans h1, hb.trans h2, rfl⟩

theorem W_mul {M N M' N' : Nat} {f g : K × K → K} (hf : f ∈ W K M N) (hg : g ∈ W K M' N') :
    (fun p => f p * g p) ∈ W K (M + M') (N + N') := by
  have h := Submodule.mul_mem_mul hf hg
  unfold W at h
  rw [Submodule.span_mul_span] at h
  refine Submodule.span_mono ?_ h
  rintro _ ⟨f, ⟨a, b, ha, hb, rfl⟩, g, ⟨c, d, hc, hd, rfl⟩, rfl⟩
  refine ⟨a + c, b + d, by omega, by omega, ?_⟩
  funext p
  simp only [Pi.mul_apply]
  ring

theorem W_const (M N : Nat) (c : K) : (fun _ : K × K => c) ∈ W K M N := by
  have := Submodule.smul_mem _ c (mono_mem M N 0 0 (Nat.zero_le _) (Nat.zero_le _))
  simpa [Pi.smul_def] using this

theorem W_pow {M N : Nat} {f : K × K → K} (hf : f ∈ W K M N) (k : Nat) : (fun p => f p ^ k) ∈ W K (M * k) (N * k) := by
  induction k with
  | zero => simpa using W_const 0 0 (1 : K)
  | succ k ih =>
    have := W_mul ih hf
    simpa [pow_succ, Nat.mul_succ] using this

theorem sum_single {F : Type} [AddCommMonoid F] (n a : Nat) (ha : a < n) (f : Nat → F) (h : ∀ b < n, b ≠ a → f b = 0) :
    ((List.range n).map f).sum = f a := by
  rw [← List.sum_toFinset f List.nodup_range]
  apply Finset.sum_eq_single
  · intro b hb hba
    exact h b (by simpa using hb) hba
  · intro h'
    exact absurd (by simpa using ha) h'

/-- Interpolation on the unit square reproduces polynomials. -/
theorem interp_W [CharZero K] (e : ET) {g : K × K → K} (hg : g ∈ W K (deg e) (deg e)) (x : K × K) :
    interp2 e (fun n => g ((nodes2 e).getD n (0, 0))) x = g x := by
  refine Submodule.span_induction (p := fun g _ => interp2 e (fun n => g ((nodes2 e).getD n (0, 0))) x = g x) ?_ ?_ ?_ ?_ hg
  · rintro f ⟨a, b, ha, hb, rfl⟩
    have hp : ∀ y : K × K, poly2 (deg e) (fun a' b' => if a' = a ∧ b' = b then 1 else 0) y = y.1 ^ a * y.2 ^ b := by
      intro y
      unfold poly2
      rw [sum_single _ a (by omega), sum_single _ b (by omega)]
      · simp
      · intro b' _ hb'
        simp [hb']
      · intro a' _ ha'
        simp [ha']
    have := C30_reproduces2 (K := K) e (fun a' b' => if a' = a ∧ b' = b then 1 else 0) x
    simp only [hp] at this
    exact this
  · simp [interp2]
  · intro f g _ _ hf hg
    rw [Pi.add_apply, ← hf, ← hg]
    unfold interp2
    simp only [Pi.add_apply, add_mul]
    exact List.sum_map_add
  · intro c f _ hf
    rw [Pi.smul_apply, smul_eq_mul, ← hf]
    unfold interp2
    simp only [Pi.smul_apply, smul_eq_mul, mul_assoc]
    rw [List.sum_map_mul_left]

theorem phys_x_mem (q : QD K) : (fun z => (phys q z).x) ∈ W K 1 1 ∧ (fun z => (phys q z).y) ∈ W K 1 1 := by
  have key : ∀ a b c d : K, (fun z : K × K => a * (1 - z.1) * (1 - z.2) + b * z.1 * (1 - z.2) + c * z.1 * z.2 + d * (1 - z.1) * z.2) ∈ W K 1 1 := by
    intro a b c d
    have h00 := Submodule.smul_mem _ a (mono_mem (K := K) 1 1 0 0 (by omega) (by omega))
    have h10 := Submodule.smul_mem _ (b - a) (mono_mem (K := K) 1 1 1 0 (by omega) (by omega))
    have h01 := Submodule.smul_mem _ (d - a) (mono_mem (K := K) 1 1 0 1 (by omega) (by omega))
    have h11 := Submodule.smul_mem _ (a - b + c - d) (mono_mem (K := K) 1 1 1 1 (by omega) (by omega))
    have := Submodule.add_mem _ (Submodule.add_mem _ h00 h10) (Submodule.add_mem _ h01 h11)
    convert this using 1
    funext z
    simp only [Pi.add_apply, Pi.smul_apply, smul_eq_mul]
    ring
  exact ⟨key _ _ _ _, key _ _ _ _⟩

/-- A polynomial of total degree `d`, in the coordinates of any cell. -/
theorem polyP_phys (q : QD K) {d : Nat} {f : Pt K → K} (hf : f ∈ PolyP K d) : (fun z => f (phys q z)) ∈ W K d d := by
  refine Submodule.span_induction (p := fun f _ => (fun z => f (phys q z)) ∈ W K d d) ?_ ?_ ?_ ?_ hf
  · rintro f ⟨a, b, hab, rfl⟩
    obtain ⟨hx, hy⟩ := phys_x_mem q
    have := W_mul (W_pow hx a) (W_pow hy b)
    refine W_mono ?_ ?_ this <;> omega
  · exact Submodule.zero_mem _
  · intro f g _ _ hf hg
    exact Submodule.add_mem _ hf hg
  · intro c f _ hf
    exact Submodule.smul_mem _ c hf

/-- A polynomial of degree `d` in each coordinate, in the coordinates of a rectangle. -/
theorem polyQ_phys (q : QD K) (hq : q.v0.y = q.v1.y ∧ q.v1.x = q.v2.x ∧ q.v2.y = q.v3.y ∧ q.v3.x = q.v0.x) {d : Nat} {f : Pt K → K}
    (hf : f ∈ PolyQ K d) : (fun z => f (phys q z)) ∈ W K d d := by
  obtain ⟨h1, h2, h3, h4⟩ := hq
  have hx : (fun z => (phys q z).x) ∈ W K 1 0 := by
    have h00 := Submodule.smul_mem _ q.v0.x (mono_mem (K := K) 1 0 0 0 (by omega) (by omega))
    have h10 := Submodule.smul_mem _ (q.v1.x - q.v0.x) (mono_mem (K := K) 1 0 1 0 (by omega) (by omega))
    have := Submodule.add_mem _ h00 h10
    convert this using 1
    funext z
    simp only [Pi.add_apply, Pi.smul_apply, smul_eq_mul, phys, toPhys, ← h2, h4]
    ring
  have hy : (fun z => (phys q z).y) ∈ W K 0 1 := by
    have h00 := Submodule.smul_mem _ q.v0.y (mono_mem (K := K) 0 1 0 0 (by omega) (by omega))
    have h01 := Submodule.smul_mem _ (q.v3.y - q.v0.y) (mono_mem (K := K) 0 1 0 1 (by omega) (by omega))
    have := Submodule.add_mem _ h00 h01
    convert this using 1
    funext z
    simp only [Pi.add_apply, Pi.smul_apply, smul_eq_mul, phys, toPhys, ← h1, h3]
    ring
  refine Submodule.span_induction (p := fun f _ => (fun z => f (phys q z)) ∈ W K d d) ?_ ?_ ?_ ?_ hf
  · rintro f ⟨a, b, ha, hb, rfl⟩
    have := W_mul (W_pow hx a) (W_pow hy b)
    refine W_mono ?_ ?_ this <;> omega
  · exact Submodule.zero_mem _
  · intro f g _ _ hf hg
    exact Submodule.add_mem _ hf hg
  · intro c f _ hf
    exact Submodule.smul_mem _ c hf

end

section
set_option linter.unusedSectionVars false
variable {K : Type} [Field K] [LinearOrder K] [IsStrictOrderedRing K] {B : Base K} {s : St K} {sf : Bool} {tol : K} {e : ET} {D : DH}

theorem nodes_cast (e : ET) (p : Nat) (hp : p < nd2 e) : ((nodes2 e : List (K × K)).getD p (0, 0)) = castPt K (node e p) := by
  have hl : (nodes2 e : List (ℚ × ℚ)).length = nd2 e := (C28_node_count e).2
  rw [nodes2_cast, node, List.getD_eq_getElem?_getD, List.getD_eq_getElem?_getD, List.getElem?_map, List.getElem?_eq_getElem (by omega)]
  rfl

/-- The data of a function given by its values at the dof vertices. -/
theorem nodal_val (hB : B.WF) (hP : Plain B) {L : List Nat} (hL : BasisOf sf s e D L) {close : Pt K → Pt K → Bool} {V : DV K}
    (hV : UsesV close B e s D V) {f : List (Pt K → K)} {data : List (List K)} (hd : nodalData V L f = some data) :
    data.length = L.length ∧ ∀ c ∈ leaves sf s, ∀ p < nd2 e, (∃ a, Dof.val D c p = some a) → ∀ j g, f[j]? = some g →
      dofVal L data j (dofAt D c p) = g (phys (cellQ s c) (castPt K (node e p))) := by
  obtain ⟨xs, h1, rfl⟩ := Option.map_eq_some_iff.1 hd
  have hi := hV.uses.reach.inv hB
  have h1' := (allSome_some _ _).1 h1
  have hlen : xs.length = L.length := by simpa using (congrArg List.length h1').symm
  refine ⟨by simpa using hlen, fun c hc p hp ⟨a, ha⟩ j g hj => ?_⟩
  have hcm := (hi.mem c).2 ((Dof.mem_leaves hi c).1 hc).1
  have hda : dofAt D c p = a := by unfold dofAt; rw [ha]; rfl
  obtain ⟨k, hk⟩ := idxOf?_ex ((hL.mem a).2 ⟨c, hc, p, hp, ha⟩)
  have hk' := idxOf?_some hk
  have h2 : (L.map (getVert V))[k]? = some (getVert V a) := by rw [List.getElem?_map, hk']; rfl
  rw [h1', List.getElem?_map] at h2
  obtain ⟨x, hx, hx'⟩ := Option.map_eq_some_iff.1 h2
  have hxv := C63_vertex hB hP hV a x hx'.symm c hcm p hp ha
  have hrow : (xs.map (fun x => f.map (fun g => g x))).getD k [] = f.map (fun g => g x) := by
    rw [List.getD_eq_getElem?_getD, List.getElem?_map, hx]
    rfl
  rw [hda, dofVal_eq hk, hrow, List.getD_eq_getElem?_getD, List.getElem?_map, hj, ← hxv]
  rfl

/-- A leaf reproduces the function if it is a polynomial in the coordinates of the leaf. -/
theorem leaf_exact (hB : B.WF) (hP : Plain B) (hR : Ready B e sf s D) {L : List Nat} (hL : BasisOf sf s e D L) {close : Pt K → Pt K → Bool} {V : DV K}
    (hV : UsesV close B e s D V) {f : List (Pt K → K)} {data : List (List K)} (hd : nodalData V L f = some data) {c : CN}
    (hc : c ∈ leaves sf s) {j : Nat} {g : Pt K → K} (hj : f[j]? = some g) (hg : (fun z => g (phys (cellQ s c) z)) ∈ W K (deg e) (deg e)) (z : K × K) :
    feFn e D (dofVal L data j) c z = g (phys (cellQ s c) z) := by
  have hi := hV.uses.reach.inv hB
  obtain ⟨h2, h3, _⟩ := (Dof.mem_leaves hi c).1 hc
  have h := interp_W e hg z
  rw [← h]
  unfold feFn cellFn interp2
  apply congrArg
  apply List.map_congr_left
  intro p hp
  have hp' := List.mem_range.1 hp
  have hval : ∃ a, Dof.val D c p = some a := Option.ne_none_iff_exists'.1 (hR.val hB h2 h3 p hp')
  simp only
  rw [(nodal_val hB hP hL hV hd).2 c hc p hp' hval j g hj, nodes_cast e p hp']

/-- **C67** (polynomials): a `Nodal` function made from polynomials `f` of total degree at most the degree of the element equals `f`
everywhere in the domain, on meshes of arbitrary convex quadrilaterals (where the reference map is exact), with any refinement, and
without any condition at hanging nodes. -/
theorem C67_polynomial (ht : 0 ≤ tol) (hB : B.WF) (hP : Plain B) (hC : Convex B) (hR : Ready B e sf s D) (hr : RootsIn B sf s)
    (hf : sf = false ∨ FullFlag s) {n : Nat} (hn : Deep s n) {L : List Nat} (hL : BasisOf sf s e D L) {close : Pt K → Pt K → Bool} {V : DV K}
    (hV : UsesV close B e s D V) {f : List (Pt K → K)} (hpoly : ∀ g ∈ f, g ∈ PolyP K (deg e)) {data : List (List K)}
    (hd : nodalData V L f = some data) (rect : Nat → Bool) (xs : List (Pt K))
    (hin : ∀ x ∈ xs, ∃ k < B.n, contains tol (rootQ B k) x = true) (hx : ∀ x ∈ xs, Exact tol rect sf s x) :
    evalN tol rect sf B.n s n e D L data f.length [0] xs = some (xs.map (fun x => f.map (fun g => g x))) := by
  obtain ⟨fx, e1, e2, e3⟩ := C67_value ht hB hP hC hR hr hf hn hL (nodal_val hB hP hL hV hd).1 f.length rect xs hin hx
  rw [e1]
  congr 1
  apply List.ext_getElem?
  intro i
  rw [List.getElem?_map]
  rcases hxi : xs[i]? with _ | x
  · rw [List.getElem?_eq_none_iff] at hxi
    rw [List.getElem?_eq_none (by omega)]
    rfl
  · obtain ⟨row, h1, h2, c, hc, r, hat, h5⟩ := e3 i x hxi
    rw [h1]
    congr 1
    apply List.ext_getElem?
    intro j
    rw [List.getElem?_map]
    rcases hfj : f[j]? with _ | g
    · rw [List.getElem?_eq_none_iff] at hfj
      rw [List.getElem?_eq_none (by omega)]
      rfl
    · rw [h5 j (List.getElem?_eq_some_iff.1 hfj).1]
      rw [leaf_exact hB hP hR hL hV hd hc hfj (polyP_phys _ (hpoly g (List.mem_of_getElem? hfj))), hat.2]
      rfl

/-- The same on meshes of rectangles for polynomials with this degree in each variable. -/
theorem C67_polynomial_rectangles (ht : 0 ≤ tol) (hB : B.WF) (hP : Plain B) (hC : Convex B) (hR : Ready B e sf s D) (hr : RootsIn B sf s)
    (hf : sf = false ∨ FullFlag s) {n : Nat} (hn : Deep s n) {L : List Nat} (hL : BasisOf sf s e D L) {close : Pt K → Pt K → Bool} {V : DV K}
    (hV : UsesV close B e s D V) {f : List (Pt K → K)} (hpoly : ∀ g ∈ f, g ∈ PolyQ K (deg e)) {data : List (List K)}
    (hd : nodalData V L f = some data) (hA : Affine (fun _ => true) B) (xs : List (Pt K))
    (hin : ∀ x ∈ xs, ∃ k < B.n, contains tol (rootQ B k) x = true) (hx : ∀ x ∈ xs, Clear tol sf s x) :
    evalN tol (fun _ => true) sf B.n s n e D L data f.length [0] xs = some (xs.map (fun x => f.map (fun g => g x))) := by
  have hs := hR.uses.uses.reach
  have hi := hs.inv hB
  obtain ⟨fx, e1, e2, e3⟩ := C67_value ht hB hP hC hR hr hf hn hL (nodal_val hB hP hL hV hd).1 f.length (fun _ => true) xs hin
    (fun x h => C67_affine hB hC hA hs (hx x h))
  rw [e1]
  congr 1
  apply List.ext_getElem?
  intro i
  rw [List.getElem?_map]
  rcases hxi : xs[i]? with _ | x
  · rw [List.getElem?_eq_none_iff] at hxi
    rw [List.getElem?_eq_none (by omega)]
    rfl
  · obtain ⟨row, h1, h2, c, hc, r, hat, h5⟩ := e3 i x hxi
    rw [h1]
    congr 1
    apply List.ext_getElem?
    intro j
    rw [List.getElem?_map]
    rcases hfj : f[j]? with _ | g
    · rw [List.getElem?_eq_none_iff] at hfj
      rw [List.getElem?_eq_none (by omega)]
      rfl
    · have hup : AffQ true (cellQ s c) := cell_aff hB hA hs ((hi.mem c).2 ((Dof.mem_leaves hi c).1 hc).1)
      have hup' := hup.resolve_right (by simp)
      rw [h5 j (List.getElem?_eq_some_iff.1 hfj).1]
      rw [leaf_exact hB hP hR hL hV hd hc hfj (polyQ_phys _ hup'.2 (hpoly g (List.mem_of_getElem? hfj))), hat.2]
      rfl

end
end Verif.Fn
