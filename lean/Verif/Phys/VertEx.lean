import Verif.Phys.VertProps
import Verif.Phys.Grid

/-!
# C63: distinct vertices, arrays of vertices, concrete cases
-/

namespace Verif.Phys
open Verif.Geom Verif.Quad Verif.Mesh Verif.Dof Verif.Fem

section
set_option linter.unusedSectionVars false
variable {K : Type} [Field K] [LinearOrder K] [IsStrictOrderedRing K] {B : Base K} {e : ET} {s : St K} {D : DH} {V : DV K}
  {close : Pt K → Pt K → Bool}

/-- C63: with a continuous element on a mesh embedded in the plane (every rectangular grid is, C24_embedded) that is not
refined meanwhile, no two dofs have the same vertex. -/
theorem C63_distinct (hB : B.WF) (hP : Plain B) (hE : Embedded B) (he : torn e = false) (h : UsesVF close B e s D V)
    (a b : Nat) (x : Pt K) (ha : getVert V a = some x) (hb : getVert V b = some x) (ha' : a < D.count) (hb' : b < D.count) : a = b := by
  have hU := h.usesV
  have hi := hU.uses.reach.inv hB
  obtain ⟨c, hc, p, hp, hv⟩ := (C34_numbers hB hP hU.uses a).1 ha'
  obtain ⟨d, hd, q, hq, hw⟩ := (C34_numbers hB hP hU.uses b).1 hb'
  have h1 := C63_vertex hB hP hU a x ha c hc p hp hv
  have h2 := C63_vertex hB hP hU b x hb d hd q hq hw
  rw [phys_cell two_ne_zero hB hU.uses.reach c hc] at h1
  rw [phys_cell two_ne_zero hB hU.uses.reach d hd] at h2
  rw [C34_shared hB hP he h.fixed c d p q a b hp hq hv hw]
  have hr : ∀ c : CN, c ∈ s.cells → c.1 < B.n := by
    rintro ⟨f, p⟩ hc
    have h := (hi.mem (f, p)).1 hc
    clear hc
    induction p with
    | nil => exact h
    | cons k p ih => exact ih (hi.pref _ h)
  have hsq : ∀ (c : CN) (p : Nat), p < nd2 e → InSq (climb c.2 (castPt K (node e p))) := fun c p hp =>
    climb_insq _ (insq_cast (node_insq e ⟨p, hp⟩))
  refine samePt_down (F := K) B ?_
  rw [castRoot_pt, castRoot_pt]
  exact hE c.1 d.1 (hr c hc) (hr d hd) _ _ (hsq c p hp) (hsq d q hq) (h1.symm.trans h2)

/-- C63: `get_dof_vertices(dofs)` returns one vertex for each dof, in the order of `dofs`. -/
theorem C63_array (l : List Nat) (X : List (Pt K)) (h : getVerts V l = some X) :
    X.length = l.length ∧ ∀ (i a : Nat), l[i]? = some a → X[i]? = getVert V a := by
  unfold getVerts at h
  rw [allSome_some] at h
  have hlen : X.length = l.length := by simpa using (congrArg List.length h).symm
  refine ⟨hlen, fun i a hi => ?_⟩
  have := congrArg (fun l => l[i]?) h
  simp only [List.getElem?_map, hi, Option.map_some] at this
  cases hX : X[i]? with
  | none => rw [hX] at this; simp at this
  | some x => rw [hX] at this; simpa using this.symm

/-- C63: after `distribute_dofs()` on the whole mesh, `get_dof_vertices(dofs)` succeeds for every list of existing dofs. -/
theorem C63_array_ex (hB : B.WF) (hP : Plain B) (he : torn e = false) {D' : DH} {V' : DV K} (h : UsesVF close B e s D V) (n : Nat)
    (hn : 4 * s.cells.length ≤ n) (hd : distributeV close false B.n s e n D V = some (D', V')) (l : List Nat)
    (hl : ∀ a ∈ l, a < D'.count) : ∃ X, getVerts V' l = some X := by
  unfold getVerts
  induction l with
  | nil => exact ⟨[], rfl⟩
  | cons a l ih =>
    obtain ⟨X, hX⟩ := ih (fun b hb => hl b (by simp [hb]))
    obtain ⟨x, hx, _⟩ := C63_complete hB hP he h n hn hd a (hl a (by simp))
    exact ⟨x :: X, by simp [allSome, hx, hX]⟩

end

/-! ### Concrete cases -/

/-- Exact comparison in place of `np.allclose`. -/
def eqQ (x y : Pt ℚ) : Bool := decide (x.x = y.x ∧ x.y = y.y)

/-- `distribute_dofs` with the exact comparison. -/
def dstV (sf : Bool) (N : Nat) (s : St ℚ) (e : ET) (D : DH) (V : DV ℚ) : DH × DV ℚ :=
  (distributeV eqQ sf N s e 80 D V).getD (DH.new, DV.new)

theorem dstV_eq {sf : Bool} {N : Nat} {s : St ℚ} {e : ET} {D : DH} {V : DV ℚ}
    (h : (distributeV eqQ sf N s e 80 D V).isSome = true) : distributeV eqQ sf N s e 80 D V = some (dstV sf N s e D V) := by
  obtain ⟨x, hx⟩ := Option.isSome_iff_exists.1 h
  rw [dstV, hx]; rfl

def exV : DH × DV ℚ := dstV false 2 wit1 .Q1 DH.new DV.new

theorem exV_eq : distributeV eqQ false 2 wit1 .Q1 80 DH.new DV.new = some exV := dstV_eq (by decide +kernel)

/-- Non-vacuity: two cells, one refined, Q1: 11 dofs with 11 vertices; the base mesh satisfies the hypotheses. -/
example : twoB.WF ∧ Plain twoB ∧ torn .Q1 = false ∧ UsesVF eqQ twoB .Q1 wit1 DH.new DV.new ∧
    distributeV eqQ false 2 wit1 .Q1 80 DH.new DV.new = some exV ∧ UsesVF eqQ twoB .Q1 wit1 exV.1 exV.2 ∧
    getVerts exV.2 (List.range 11) = some [⟨0, 0⟩, ⟨1, 0⟩, ⟨1, 1⟩, ⟨0, 1⟩, ⟨2, 0⟩, ⟨2, 1⟩, ⟨3 / 2, 0⟩, ⟨3 / 2, 1 / 2⟩, ⟨1, 1 / 2⟩,
      ⟨2, 1 / 2⟩, ⟨3 / 2, 1⟩] :=
  ⟨twoB_wf, twoB_plain, rfl, .new _ wit1_reach, exV_eq, .dist _ _ _ _ _ false 80 (.new _ wit1_reach) (.inl rfl) (by decide +kernel) exV_eq,
    by decide +kernel⟩

/-- Non-vacuity of `Embedded` together with the other hypotheses: a grid with 2 x 1 cells. -/
example : (gridBase (0 : ℚ) 2 0 1 2 1).WF ∧ Plain (gridBase (0 : ℚ) 2 0 1 2 1) ∧ Embedded (gridBase (0 : ℚ) 2 0 1 2 1) ∧
    (distributeV eqQ false 2 (init (gridBase (0 : ℚ) 2 0 1 2 1)) .Q2 80 DH.new DV.new).isSome = true :=
  ⟨(C24_mesh (0 : ℚ) 2 0 1 2 1).1, (C24_mesh (0 : ℚ) 2 0 1 2 1).2.1, C24_embedded 0 2 0 1 (by norm_num) (by norm_num) 2 1, by decide +kernel⟩

/-! ### What does not hold -/

/-- Only the initial cell `f` is marked. -/
def only (f : Nat) : CN → Bool := fun c => decide (c = (f, []))

def subS (f : Nat) : St ℚ := { init twoB with mkd := only f }
def subX : DH × DV ℚ := dstV true 2 (subS 0) .Q1 DH.new DV.new
def subY : DH × DV ℚ := dstV true 2 (subS 1) .Q1 subX.1 subX.2

theorem only_rooted (f : Nat) : RootedFlag twoB (subS f) := by
  intro c k _ h
  simp [subS, only, child] at h

/-- C63 fails for a second submesh: the early return of `set_dof_vertices` compares numbers of dofs.  Two cells, Q1: dofs are
distributed on the first cell, then on the second one (without any refinement); two dofs of the second cell have
no vertex, `get_dof_vertices` raises `KeyError`. -/
theorem C63_submesh_violated : ∃ (B : Base ℚ) (s : St ℚ) (D : DH) (V : DV ℚ), B.WF ∧ Plain B ∧ UsesVF eqQ B .Q1 s D V ∧
    ∃ D' V', distributeV eqQ true B.n s .Q1 80 D V = some (D', V') ∧ ∃ c ∈ s.cells, s.mkd c = true ∧
      rowOf D' c = some [1, 4, 5, 2] ∧ getVerts V' [1, 4, 5, 2] = none ∧ getVert V' 4 = none ∧ getVert V' 5 = none := by
  have h1 : distributeV eqQ true twoB.n (subS 0) .Q1 80 DH.new DV.new = some subX := dstV_eq (by decide +kernel)
  have h2 : distributeV eqQ true twoB.n (subS 1) .Q1 80 subX.1 subX.2 = some subY := dstV_eq (by decide +kernel)
  refine ⟨twoB, subS 1, subX.1, subX.2, twoB_wf, twoB_plain, ?_, subY.1, subY.2, h2, (1, []), by decide +kernel, by decide +kernel,
    by decide +kernel, by decide +kernel, by decide +kernel, by decide +kernel⟩
  exact .mark (subS 0) _ _ (only 1) (.dist (subS 0) _ _ _ _ true 80 (.mark (init twoB) _ _ (only 0) (.new _ .init)) (.inr (only_rooted 0))
    (by decide +kernel) h1)

/-- Four refinements; the cells stay balanced. -/
def tornS1 : St ℚ := sp (init twoB) (0, [])
def tornS2 : St ℚ := sp tornS1 (1, [])
def tornS3 : St ℚ := sp tornS2 (0, [0])
def tornS4 : St ℚ := sp tornS3 (0, [1])
def tornX : DH × DV ℚ := dstV false 2 tornS3 .DQ0 DH.new DV.new
def tornY : DH × DV ℚ := dstV false 2 tornS4 .DQ0 tornX.1 tornX.2

/-- C63 fails after refinement: for a discontinuous element the dofs of refined cells keep their vertices, so that the early
return is taken although there are new dofs.  After refinement and `distribute_dofs()` on the whole mesh (balanced), the
dofs of the four new cells have no vertex. -/
theorem C63_torn_violated : ∃ (B : Base ℚ) (s : St ℚ) (D : DH) (V : DV ℚ), B.WF ∧ Plain B ∧ UsesV eqQ B .DQ0 s D V ∧
    ∃ D' V', distributeV eqQ false B.n s .DQ0 80 D V = some (D', V') ∧ ∃ c ∈ leaves false s, ∃ a,
      rowOf D' c = some [a] ∧ getVert V' a = none := by
  have h1 : distributeV eqQ false twoB.n tornS3 .DQ0 80 DH.new DV.new = some tornX := dstV_eq (by decide +kernel)
  have h2 : distributeV eqQ false twoB.n tornS4 .DQ0 80 tornX.1 tornX.2 = some tornY := dstV_eq (by decide +kernel)
  have r1 := sp_reach twoB_wf .init (0, []) (by decide +kernel) (by decide +kernel)
  have r2 := sp_reach twoB_wf r1.2 (1, []) (by decide +kernel) (by decide +kernel)
  have r3 := sp_reach twoB_wf r2.2 (0, [0]) (by decide +kernel) (by decide +kernel)
  have r4 := sp_reach twoB_wf r3.2 (0, [1]) (by decide +kernel) (by decide +kernel)
  refine ⟨twoB, tornS4, tornX.1, tornX.2, twoB_wf, twoB_plain, ?_, tornY.1, tornY.2, h2, (0, [0, 1]), by decide +kernel, 14,
    by decide +kernel, by decide +kernel⟩
  exact .split tornS3 _ _ _ (0, [1]) false (.dist tornS3 _ _ _ _ false 80 (.new _ r3.2) (.inl rfl) (by decide +kernel) h1)
    (by decide +kernel) (by decide +kernel) r4.1

/-- C63 fails with `cells`: a cell all of whose dofs were seen before is not recorded.  `get_dof_vertices([d], {d: cell})` raises
`KeyError` although the cell is a leaf of the mesh that has the dof. -/
theorem C63_cells_violated : ∃ (B : Base ℚ) (s : St ℚ) (D : DH) (V : DV ℚ), B.WF ∧ Plain B ∧ UsesVF eqQ B .Q1 s D V ∧
    ∃ c ∈ leaves false s, ∃ a row, rowOf D c = some row ∧ a ∈ row ∧ (getVert V a).isSome = true ∧
      getVertsIn V [a] (fun _ => some c) = none := by
  refine ⟨twoB, wit1, exV.1, exV.2, twoB_wf, twoB_plain, .dist _ _ _ _ _ false 80 (.new _ wit1_reach) (.inl rfl) (by decide +kernel)
    exV_eq, (1, [3]), by decide +kernel, 7, [8, 7, 10, 2], by decide +kernel, by decide, by decide +kernel, by decide +kernel⟩

end Verif.Phys
