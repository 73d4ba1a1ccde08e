import Verif.Fn.Differ
import Verif.Fn.Setup
import Verif.Dir.Ex

/-! # C67, C68: examples, and what does not hold -/

namespace Verif.Fn
open Verif.Mesh Verif.Dof Verif.Fem Verif.Quad Verif.Phys Verif.Reg Verif.Bnd Verif.Dir

/-- All cells are rectangles. -/
def sq : Nat → Bool := fun _ => true

/-- The tolerance in `contains_points` (mesh.py 3553). -/
def tol0 : ℚ := 1 / 10 ^ 10

theorem two_cases {f : Nat} (h : f < twoB.n) : f = 0 ∨ f = 1 := by
  have h' : f < 2 := h
  omega

theorem twoB_convex : Convex twoB := by
  intro f hf
  rcases two_cases hf with rfl | rfl <;> (unfold ConvexCCW; decide +kernel)

theorem twoB_affine : Affine sq twoB := by
  intro f hf
  rcases two_cases hf with rfl | rfl <;> exact .inl (by decide +kernel)

theorem twoB_embedded : Embedded twoB := by
  have h0 : ∀ z : ℚ × ℚ, phys (rootQ twoB 0) z = ⟨z.1, z.2⟩ := by
    intro z
    simp only [phys, toPhys, rootQ, twoB, Pt.mk.injEq]
    norm_num
    constructor <;> ring
  have h1 : ∀ z : ℚ × ℚ, phys (rootQ twoB 1) z = ⟨1 + z.1, z.2⟩ := by
    intro z
    simp only [phys, toPhys, rootQ, twoB, Pt.mk.injEq]
    norm_num
    constructor <;> ring
  have key : ∀ z w : ℚ × ℚ, InSq z → InSq w → (⟨z.1, z.2⟩ : Pt ℚ) = ⟨1 + w.1, w.2⟩ → SamePt twoB (0, z) (1, w) := by
    rintro ⟨z1, z2⟩ ⟨w1, w2⟩ ⟨a1, a2, a3, a4⟩ ⟨b1, b2, b3, b4⟩ h
    simp only [Pt.mk.injEq] at h a1 a2 a3 a4 b1 b2 b3 b4
    have hz : z1 = 1 := by linarith
    have hw : w1 = 0 := by linarith
    obtain ⟨_, rfl⟩ := h
    subst hz hw
    refine .rel _ _ ⟨1, 3, z2, a3, a4, (by decide : 0 < 2), (by decide : 1 < 2), rfl, rfl, ?_⟩
    simp [E]
  intro f g hf hg z w hz hw h
  rcases two_cases hf with rfl | rfl <;> rcases two_cases hg with rfl | rfl
  · rw [h0, h0] at h
    simp only [Pt.mk.injEq] at h
    rw [show z = w from Prod.ext h.1 h.2]
    exact .refl _
  · rw [h0, h1] at h
    exact key z w hz hw h
  · rw [h0, h1] at h
    exact .symm _ _ (key w z hw hz h.symm)
  · rw [h1, h1] at h
    simp only [Pt.mk.injEq, add_right_inj] at h
    rw [show z = w from Prod.ext h.1 h.2]
    exact .refl _

theorem exV_basis : BasisOf false wit1 .Q1 exV.1 (List.range 11) :=
  .ascending List.pairwise_lt_range (fun a => by
    rw [← C62_leaf_dofs twoB_wf twoB_plain rfl exV_ready.ready, List.mem_range, show exV.1.count = 11 by decide +kernel])

/-- The values of `x + 10 y`, and of a continuous piecewise linear function with a kink, at the dof vertices. -/
def exData : List (List ℚ) := [[0, 1], [1, 0], [11, 0], [10, 1], [2, 1], [12, 1], [3 / 2, 3], [13 / 2, 4], [6, 0], [7, 1], [23 / 2, 5]]

/-- Non-vacuity of C67_value, C67_point, C67_nodes, C67_polynomial: two cells, the second refined. -/
example : twoB.WF ∧ Plain twoB ∧ Embedded twoB ∧ Convex twoB ∧ Affine sq twoB ∧ ReadyV eqQ twoB .Q1 false wit1 exV.1 exV.2 ∧
    RootsIn twoB false wit1 ∧ Deep wit1 4 ∧ BasisOf false wit1 .Q1 exV.1 (List.range 11) ∧ exData.length = 11 ∧
    (∀ j < 2, Single twoB false wit1 .Q1 exV.1 (dofVal (List.range 11) exData j)) ∧
    Clear tol0 false wit1 ⟨1, 1 / 2⟩ ∧ (∃ f < twoB.n, contains tol0 (rootQ twoB f) ⟨1, 1 / 2⟩ = true) ∧
    evalN tol0 sq false 2 wit1 4 .Q1 exV.1 (List.range 11) exData 2 [0] [⟨1, 1 / 2⟩, ⟨1 / 3, 1 / 4⟩, ⟨5 / 4, 3 / 4⟩] =
      some [[6, 0], [17 / 6, 2 / 3], [35 / 4, 9 / 4]] ∧
    evalN tol0 sq false 2 wit1 4 .Q1 exV.1 (List.range 11) exData 2 [1, 1] [⟨1, 1 / 2⟩, ⟨1 / 3, 1 / 4⟩, ⟨5 / 4, 3 / 4⟩] =
      some [[10, 0], [10, 0], [10, 1]] := by
  refine ⟨twoB_wf, twoB_plain, twoB_embedded, twoB_convex, twoB_affine, exV_ready, fun _ _ => .inl rfl, ?_, exV_basis, rfl, ?_, ?_, ⟨0, by decide, by decide +kernel⟩,
    by decide +kernel, by decide +kernel⟩
  · unfold Deep; decide +kernel
  · intro j hj
    refine C62_implies_continuous twoB_wf twoB_plain rfl exV_ready.ready exH_eq _ ?_
    have hj' : j = 0 ∨ j = 1 := by omega
    rcases hj' with rfl | rfl <;> (unfold Linsys.Feasible; decide +kernel)
  · unfold Clear; decide +kernel

/-- The initial mesh with Q1, DQ1 elements. -/
def cV : DH × DV ℚ := dstV false 2 (init twoB) .Q1 DH.new DV.new
def cX : DH × DV ℚ := dstV false 2 (init twoB) .DQ1 DH.new DV.new

theorem cV_eq : distributeV eqQ false 2 (init twoB) .Q1 80 DH.new DV.new = some cV := dstV_eq (by decide +kernel)
theorem cX_eq : distributeV eqQ false 2 (init twoB) .DQ1 80 DH.new DV.new = some cX := dstV_eq (by decide +kernel)

theorem cV_ready : ReadyV eqQ twoB .Q1 false (init twoB) cV.1 cV.2 :=
  readyV_first twoB_wf twoB_plain .init (.inl rfl) init_balanced (n := 80) (by decide +kernel) cV_eq

theorem cX_ready : ReadyV eqQ twoB .DQ1 false (init twoB) cX.1 cX.2 :=
  readyV_first twoB_wf twoB_plain .init (.inl rfl) init_balanced (n := 80) (by decide +kernel) cX_eq

theorem cV_basis : BasisOf false (init twoB) .Q1 cV.1 (List.range 6) :=
  .ascending List.pairwise_lt_range (fun a => by
    rw [← C62_leaf_dofs twoB_wf twoB_plain rfl cV_ready.ready, List.mem_range, show cV.1.count = 6 by decide +kernel])

/-- The function with the values `|x - 1|` at the vertices. -/
def src (der : List Nat) (xs : List (Pt ℚ)) : Option (List (List ℚ)) :=
  evalN tol0 sq false 2 (init twoB) 4 .Q1 cV.1 (List.range 6) [[1], [0], [0], [1], [1], [1]] 1 der xs

/-- Non-vacuity of C68: from two cells to the mesh with the second one refined, from Q1 to Q2. -/
example : Finer false (init twoB) false wit1 ∧ deg .Q1 ≤ deg .Q2 ∧ ReadyV eqQ twoB .Q2 false wit1 exW.1 exW.2 ∧
    (∃ data', interpolant exW.2 (List.range 31) (src [0]) = some data' ∧
      evalN tol0 sq false 2 wit1 4 .Q2 exW.1 (List.range 31) data' 1 [0] [⟨1 / 3, 1 / 7⟩, ⟨5 / 4, 3 / 4⟩] = some [[2 / 3], [1 / 4]]) ∧
    src [0] [⟨1 / 3, 1 / 7⟩, ⟨5 / 4, 3 / 4⟩] = some [[2 / 3], [1 / 4]] := by
  refine ⟨C68_finer twoB_wf .init wit1_reach (fun _ _ => .inl rfl) (.inl rfl) (.inl rfl) (fun c hc _ => ⟨?_, .inl rfl⟩), by decide, exW_ready, ?_,
    by decide +kernel⟩
  · clear * - hc
    revert c
    decide +kernel
  · have h : (interpolant exW.2 (List.range 31) (src [0])).bind
        (fun d => evalN tol0 sq false 2 wit1 4 .Q2 exW.1 (List.range 31) d 1 [0] [⟨1 / 3, 1 / 7⟩, ⟨5 / 4, 3 / 4⟩]) = some [[2 / 3], [1 / 4]] := by
      decide +kernel
    exact Option.bind_eq_some_iff.1 h

/-- Non-vacuity of C68_interpolates: the two cells have no hanging nodes. -/
example : (setHanging (F := ℚ) false (init twoB) .Q1 cV.1 []).map (fun r => r.1.length) = some 0 ∧
    interpolant cV.2 (List.range 6) (fun xs => some (xs.map (fun x => [x.y ^ 2]))) = some [[0], [0], [1], [1], [0], [1]] := by decide +kernel

/-- Non-vacuity of C67_gradient, C67_hessian, C67_differentiate: a grid over the real numbers. -/
example : ∃ (D D' : DH) (V V' : DV ℝ) (L L' : List Nat) (m : Nat), (gridBase (0 : ℝ) 2 0 1 2 1).WF ∧ Plain (gridBase (0 : ℝ) 2 0 1 2 1) ∧
    Convex (gridBase (0 : ℝ) 2 0 1 2 1) ∧ Uprights (fun _ => true) (gridBase (0 : ℝ) 2 0 1 2 1) ∧
    ReadyV (fun _ _ => true) (gridBase (0 : ℝ) 2 0 1 2 1) .Q2 false (init (gridBase (0 : ℝ) 2 0 1 2 1)) D V ∧
    BasisOf false (init (gridBase (0 : ℝ) 2 0 1 2 1)) .Q2 D L ∧
    ReadyV (fun _ _ => true) (gridBase (0 : ℝ) 2 0 1 2 1) (tear .Q2) false (init (gridBase (0 : ℝ) 2 0 1 2 1)) D' V' ∧
    BasisOf false (init (gridBase (0 : ℝ) 2 0 1 2 1)) (tear .Q2) D' L' ∧ Deep (init (gridBase (0 : ℝ) 2 0 1 2 1)) m ∧
    (∀ x, Clear 0 false (init (gridBase (0 : ℝ) 2 0 1 2 1)) x) ∧ (∀ x, Exact 0 (fun _ => true) false (init (gridBase (0 : ℝ) 2 0 1 2 1)) x) := by
  obtain ⟨h1, h2, _⟩ := C24_mesh (0 : ℝ) 2 0 1 2 1
  obtain ⟨h3, h4⟩ := C67_grid (0 : ℝ) 2 0 1 (by norm_num) (by norm_num) 2 1
  obtain ⟨D, V, L, _, a1, a2, m, a3⟩ := C67_setup h1 h2 .init init_balanced .Q2 (fun _ _ => true) le_rfl
  obtain ⟨D', V', L', _, b1, b2, _⟩ := C67_setup h1 h2 .init init_balanced (tear .Q2) (fun _ _ => true) le_rfl
  have hc : ∀ x, Clear (0 : ℝ) false (init (gridBase (0 : ℝ) 2 0 1 2 1)) x := fun x c _ h => h
  exact ⟨D, D', V, V', L, L', m, h1, h2, h3, h4.uprights, a1, a2, b1, b2, a3, hc, fun x => C67_affine h1 h3 h4 .init (hc x)⟩

/-! ### What does not hold -/

/-- **C67** (values) fails within the tolerance: a point of the second cell, `5e-11` to the right of its left side, is binned into the first
cell, where its reference coordinate is larger than 1; the shape functions are not evaluated (assertion), although the point lies in
the domain. -/
theorem C67_tolerance_violated : ∃ (B : Base ℚ) (s : St ℚ) (D : DH) (L : List Nat) (data : List (List ℚ)) (x : Pt ℚ), B.WF ∧ Plain B ∧
    Convex B ∧ Affine sq B ∧ Ready B .Q1 false s D ∧ BasisOf false s .Q1 D L ∧ Deep s 4 ∧ data.length = L.length ∧
    (∃ c ∈ leaves false s, ∃ r, At s c r x) ∧ evalN tol0 sq false B.n s 4 .Q1 D L data 1 [0] [x] = none := by
  refine ⟨twoB, init twoB, cV.1, List.range 6, [[1], [0], [0], [1], [1], [1]], ⟨1 + 5 / 10 ^ 11, 1 / 2⟩, twoB_wf, twoB_plain, twoB_convex,
    twoB_affine, cV_ready.ready, cV_basis, by unfold Deep; decide +kernel, rfl, ⟨(1, []), by decide +kernel, (5 / 10 ^ 11, 1 / 2), ?_, ?_⟩, by decide +kernel⟩
  · unfold InSq; decide +kernel
  · simp only [phys, toPhys, Pt.mk.injEq]
    decide +kernel

/-- **C67** (basis) depends on the order in which Python iterates over a set of dofs: with the dofs in another order the constructor of
`Basis` raises an exception.  For example `list({1, 8})` is `[8, 1]`. -/
theorem C67_basis_order_violated : ∃ (B : Base ℚ) (s : St ℚ) (D : DH) (L L' : List Nat), B.WF ∧ Plain B ∧ Ready B .Q1 false s D ∧
    regionDofs none .cell false false false B.n s 80 .Q1 D = some L' ∧ L.Perm L' ∧ d2iArr L = none := by
  obtain ⟨L', h1, h2⟩ : ∃ L', regionDofs none .cell false false false twoB.n (init twoB) 80 .Q1 cV.1 = some L' ∧
      (List.range 6).reverse.Perm L' := by
    have : (regionDofs none .cell false false false twoB.n (init twoB) 80 .Q1 cV.1).map
        (fun L' => decide ((List.range 6).reverse.Perm L')) = some true := by decide +kernel
    obtain ⟨L', h1, h2⟩ := Option.map_eq_some_iff.1 this
    exact ⟨L', h1, by simpa using h2⟩
  have hd : d2iArr (List.range 6).reverse = none := by decide
  refine ⟨twoB, init twoB, cV.1, (List.range 6).reverse, L', twoB_wf, twoB_plain, cV_ready.ready, h1, h2, hd⟩

/-- **C67** (`differentiate`) fails for functions with kinks: the values of the (discontinuous) derivative are computed at the vertices, in
only one of the cells that contain the vertex.  The function `|x - 1|` on two cells: the derivative is 1 in the second cell, the
function returned by `differentiate` has the value 0 in the middle of this cell. -/
theorem C67_differentiate_violated : ∃ (B : Base ℚ) (s : St ℚ) (D D' : DH) (V V' : DV ℚ) (L L' : List Nat) (data data' : List (List ℚ)) (x : Pt ℚ),
    B.WF ∧ Plain B ∧ Convex B ∧ Affine sq B ∧ ReadyV eqQ B .Q1 false s D V ∧ BasisOf false s .Q1 D L ∧ data.length = L.length ∧
    ReadyV eqQ B (tear .Q1) false s D' V' ∧ L' = List.range D'.count ∧
    differentiate (evalN tol0 sq false B.n s 4 .Q1 D L data 1) [1, 0] V' L' L' = some data' ∧
    evalN tol0 sq false B.n s 4 (tear .Q1) D' L' data' 1 [0] [x] = some [[0]] ∧
    evalN tol0 sq false B.n s 4 .Q1 D L data 1 [1, 0] [x] = some [[1]] ∧
    (∀ c ∈ leaves false s, contains tol0 (cellQ s c) x = true → c = (1, [])) := by
  refine ⟨twoB, init twoB, cV.1, cX.1, cV.2, cX.2, List.range 6, List.range 8, [[1], [0], [0], [1], [1], [1]],
    [[-1], [-1], [-1], [-1], [-1], [1], [1], [-1]], ⟨3 / 2, 1 / 2⟩, twoB_wf, twoB_plain, twoB_convex, twoB_affine, cV_ready, cV_basis, rfl,
    cX_ready, by decide +kernel, by decide +kernel, by decide +kernel, by decide +kernel, by decide +kernel⟩

/-- The initial cells are marked, the second one is refined. -/
def rootS : St ℚ := { wit1 with mkd := fun c => c.2.isEmpty }
def rootX : DH × DV ℚ := dstV false 2 rootS .DQ1 DH.new DV.new

/-- **C67** (`differentiate`) fails for functions on submeshes: the new basis has the dofs of the whole mesh, the data those of the
submesh; `set_data` raises an exception.  Two cells as a submesh of the mesh whose second cell is refined. -/
theorem C67_differentiate_submesh_violated : ∃ (B : Base ℚ) (s : St ℚ) (D' : DH) (V' : DV ℚ) (L L' : List Nat), B.WF ∧ Plain B ∧
    MReach B s ∧ RootedFlag B s ∧ FullFlag s ∧ RootsIn B true s ∧ isBalanced false s = true ∧
    distributeV eqQ false B.n s (tear .Q1) 80 DH.new DV.new = some (D', V') ∧
    regionDofs none .cell false false true B.n s 80 (tear .Q1) D' = some L ∧
    regionDofs none .cell false false false B.n s 80 (tear .Q1) D' = some L' ∧
    ∀ (ev : List Nat → List (Pt ℚ) → Option (List (List ℚ))) (der : List Nat),
      (∀ xs fx, ev der xs = some fx → fx.length = xs.length) → differentiate ev der V' L L' = none := by
  obtain ⟨L, h1, h1'⟩ : ∃ L, regionDofs none .cell false false true twoB.n rootS 80 (tear .Q1) rootX.1 = some L ∧ L.length = 8 := by
    have : (regionDofs none .cell false false true twoB.n rootS 80 (tear .Q1) rootX.1).map (·.length) = some 8 := by decide +kernel
    exact Option.map_eq_some_iff.1 this
  obtain ⟨L', h2, h2'⟩ : ∃ L, regionDofs none .cell false false false twoB.n rootS 80 (tear .Q1) rootX.1 = some L ∧ L.length = 20 := by
    have : (regionDofs none .cell false false false twoB.n rootS 80 (tear .Q1) rootX.1).map (·.length) = some 20 := by decide +kernel
    exact Option.map_eq_some_iff.1 this
  refine ⟨twoB, rootS, rootX.1, rootX.2, L, L', twoB_wf, twoB_plain, .mark wit1 _ wit1_reach, ?_, ?_, ?_, by decide +kernel,
    dstV_eq (by decide +kernel), h1, h2, ?_⟩
  · intro c k _ h
    simp [rootS, child] at h
  · intro c h
    simp [hasCh, rootS, child, four] at h
  · intro f _
    exact .inr rfl
  · intro ev der hev
    unfold differentiate
    rcases hv : getVerts rootX.2 L with _ | xs
    · rfl
    · have hl := C63_array _ _ hv
      rcases he : ev der xs with _ | fx
      · simp [he]
      · have := hev xs fx he
        simp only [Option.bind_some, he]
        rw [if_neg (by omega)]

/-- **C68** fails at hanging nodes for functions that are not continuous finite element functions: the interpolant of `y ^ 2` (Q1) does not
have the value of the function at the vertex (1, 1/2), where the value of the coarser cell is returned. -/
theorem C68_hanging_violated : ∃ (B : Base ℚ) (s : St ℚ) (D : DH) (V : DV ℚ) (L : List Nat) (data : List (List ℚ)) (a : Nat) (x : Pt ℚ),
    B.WF ∧ Plain B ∧ Convex B ∧ Affine sq B ∧ ReadyV eqQ B .Q1 false s D V ∧ BasisOf false s .Q1 D L ∧
    interpolant V L (fun xs => some (xs.map (fun x => [x.y ^ 2]))) = some data ∧ a ∈ L ∧ getVert V a = some x ∧
    evalN tol0 sq false B.n s 4 .Q1 D L data 1 [0] [x] = some [[1 / 2]] ∧ x.y ^ 2 = 1 / 4 := by
  refine ⟨twoB, wit1, exV.1, exV.2, List.range 11, [[0], [0], [1], [1], [0], [1], [0], [1 / 4], [1 / 4], [1 / 4], [1]], 8, ⟨1, 1 / 2⟩, twoB_wf, twoB_plain,
    twoB_convex, twoB_affine, exV_ready, exV_basis, by decide +kernel, by decide, by decide +kernel, by decide +kernel, by norm_num⟩

end Verif.Fn
