import Verif.Per.Examples
import Verif.Dof.HangEx

/-!
# C81: hanging nodes on periodic quadrilateral meshes

`set_hanging_nodes` (fem.py 2477-2570, model `setHanging` in Dof/Hang.lean) knows nothing about periodic sides: it goes through
`get_neighbors(half_edge)` and `twin()`, which on a periodic mesh also lead to the other side of the box.  `Single B sf s e D U`
(Dof/Continuity.lean): where leaves meet -- on the glued domain, so also across periodic sides -- the finite element function with dof values
`U` has one value.
-/

namespace Verif.Per
open Verif.Fem Verif.Mesh Verif.Dof
open Verif.Linsys (Feasible WellFormed)

section
variable {K F : Type} [Field K] [Field F] [LinearOrder F] [IsStrictOrderedRing F] {B : Base K} {e : ET} {sf : Bool} {s : St K}
  {pr : Pairs} {D : DH}

/-- The situation after `distribute_dofs(flag)` on a balanced periodic (sub)mesh: all cells of the (sub)mesh have their dofs. -/
structure PReady (B : Base K) (e : ET) (sf : Bool) (s : St K) (pr : Pairs) (D : DH) : Prop where
  uses : PFixed B e s pr D
  flag : sf = false ∨ RootedFlag B s
  bal : isBalanced sf s = true
  full : ∀ c ∈ s.cells, sf = false ∨ s.mkd c = true → ∀ p < nd2 e, val D c p ≠ none

theorem PReady.rdyF (h : PReady B e sf s pr D) (hB : B.WF) (hO : PerOk B) : RdyF B e sf s D :=
  ⟨(h.uses.uses.minv hB hO).1.inv hB, h.flag, h.bal, h.full⟩

theorem PReady.rdy (h : PReady B e sf s pr D) (hB : B.WF) (hO : PerOk B) (he : torn e = false) : Rdy B e sf s D :=
  ⟨h.rdyF hB hO, fun c c' p p' a a' hp hp' ha ha' => C80_shared hB hO he h.uses c c' p p' a a' hp hp' ha ha',
    fun c p a hp hv => (h.uses.uses.snd hB hO).2.1.lt (c, ⟨p, hp⟩) a hv⟩

/-- The situation of the theorems arises: on a balanced mesh `distribute_dofs` makes it. -/
theorem C81_arises (hB : B.WF) (hO : PerOk B) (hu : PFixed B e s pr D) (hf : sf = false ∨ RootedFlag B s)
    (hb : isBalanced false s = true) (hb' : isBalanced sf s = true) : ∃ D', PReady B e sf s pr D' := by
  obtain ⟨D', hd⟩ := C80_terminates hB hO hu.uses hb sf (4 * s.cells.length) (le_refl _)
  exact ⟨D', .dist _ _ _ _ sf _ hu hf (le_refl _) hd, hf, hb', fun c hc hm p hp => by
    obtain ⟨a, ha⟩ := C80_complete hB hO hu.uses sf _ (le_refl _) hd c hc hm p hp
    rw [ha]; simp⟩

/-- C81, no failure: `set_hanging_nodes` returns. -/
theorem C81_succeeds (hB : B.WF) (hO : PerOk B) (hR : PReady B e sf s pr D) (hf : sf = false ∨ FullFlag s)
    (old : List (Linsys.Con F)) : ∃ r, setHanging sf s e D old = some r :=
  RdyF.succeeds hB (hR.rdyF hB hO) hf old

/-- C81, main statement: the dof values satisfy the hanging node constraints exactly if the finite element function is
single-valued on the glued domain: across the edges of the mesh and across its periodic sides. -/
theorem C81_continuous (hB : B.WF) (hO : PerOk B) (he : torn e = false) (hR : PReady B e sf s pr D) (hf : sf = false ∨ FullFlag s)
    {H C : List (Linsys.Con F)} (h : setHanging sf s e D [] = some (H, C)) (U : Nat → F) : Feasible H U ↔ Single B sf s e D U :=
  Rdy.continuous hB he (hR.rdy hB hO he) hf h U

/-- The constraints imply continuity also if only some children of a cell belong to the submesh. -/
theorem C81_implies_continuous (hB : B.WF) (hO : PerOk B) (he : torn e = false) (hR : PReady B e sf s pr D)
    {H C : List (Linsys.Con F)} (h : setHanging sf s e D [] = some (H, C)) (U : Nat → F) (hU : Feasible H U) :
    Single B sf s e D U :=
  Rdy.implies_continuous hB he (hR.rdy hB hO he) h U hU

/-- C81, which dofs are constrained: a dof of a leaf is constrained exactly if its node is, on the glued domain, a point of a
leaf at which that leaf has no node.  So nodes on a periodic side hang if the cell on the other side of the box is coarser. -/
theorem C81_hanging (hB : B.WF) (hO : PerOk B) (he : torn e = false) (hR : PReady B e sf s pr D)
    {H C : List (Linsys.Con F)} (h : setHanging sf s e D [] = some (H, C)) (c' : CN) (hc' : c' ∈ leaves sf s) (p a : Nat)
    (hp : p < nd2 e) (ha : val D c' p = some a) : (∃ x ∈ H, x.dof = a) ↔
      ∃ c ∈ leaves sf s, ∃ z : ℚ × ℚ, InSq z ∧ SamePt B (rootPt c z) (rootPt c' (node e p)) ∧ ∀ q < nd2 e, node e q ≠ z :=
  Rdy.hanging hB he (hR.rdy hB hO he) h c' hc' p a hp ha

/-- C81, no chains: supporting dofs are not themselves constrained. -/
theorem C81_no_chain (hB : B.WF) (hO : PerOk B) (he : torn e = false) (hR : PReady B e sf s pr D)
    {H C : List (Linsys.Con F)} (h : setHanging sf s e D [] = some (H, C)) (x : Linsys.Con F) (hx : x ∈ H) (y : Nat × F) (hy : y ∈ x.supp)
    (w : Linsys.Con F) (hw : w ∈ H) : y.1 ≠ w.dof :=
  Rdy.no_chain hB he (hR.rdy hB hO he) h x hx y hy w hw

/-- C81, once per dof: no dof is constrained twice. -/
theorem C81_once (hB : B.WF) (hO : PerOk B) (he : torn e = false) (hR : PReady B e sf s pr D)
    {H C : List (Linsys.Con F)} (h : setHanging sf s e D [] = some (H, C)) : H = C ∧ (H.map (·.dof)).Nodup :=
  let ⟨h1, h2, _⟩ := setHanging_rdy hB he (hR.rdy hB hO he) h
  ⟨h1, h2⟩

/-- C81, the system has no superfluous unknowns: with continuous elements the dofs of the leaves of the mesh are exactly
`0, ..., n_dofs(all_dofs=True) - 1`. -/
theorem C81_leaf_dofs (hB : B.WF) (hO : PerOk B) (he : torn e = false) (hR : PReady B e false s pr D) (a : Nat) :
    a < D.count ↔ ∃ c ∈ leaves false s, ∃ p < nd2 e, val D c p = some a :=
  Rdy.leaf_dofs he (hR.rdy hB hO he) (fun a => C80_numbers hB hO hR.uses.uses a) a

/-- C81: the constraints are well-formed (the hypothesis of C37 and C38), together with any Dirichlet values at dofs that do not hang. -/
theorem C81_well_formed (hB : B.WF) (hO : PerOk B) (he : torn e = false) (hR : PReady B e sf s pr D)
    {H C : List (Linsys.Con F)} (h : setHanging sf s e D [] = some (H, C)) (ds : List (Linsys.Con F)) (h1 : ∀ c ∈ ds, c.dof < D.count)
    (h2 : ∀ c ∈ ds, c.supp = []) (h3 : ∀ c ∈ H, ∀ c' ∈ ds, c.dof ≠ c'.dof)
    (h4 : ∀ c ∈ ds, ∀ c' ∈ ds, c.dof = c'.dof → c.aff = c'.aff) : WellFormed D.count C ds :=
  Rdy.well_formed hB he (hR.rdy hB hO he) h ds h1 h2 h3 h4

/-- C81, from the mesh to the solver: whatever `solve_system` stores for a new system on a balanced periodic mesh is, in every column,
a function that is single-valued across the edges and across the periodic sides. -/
theorem C81_solution_periodic (hB : B.WF) (hO : PerOk B) (he : torn e = false) (hR : PReady B e sf s pr D)
    {H C : List (Linsys.Con F)} (h : setHanging sf s e D [] = some (H, C)) (ds : List (Linsys.Con F)) (h1 : ∀ c ∈ ds, c.dof < D.count)
    (h2 : ∀ c ∈ ds, c.supp = []) (h3 : ∀ c ∈ H, ∀ c' ∈ ds, c.dof ≠ c'.dof)
    (h4 : ∀ c ∈ ds, ∀ c' ∈ ds, c.dof = c'.dof → c.aff = c'.aff) {k : Nat}
    (A : Matrix (Fin D.count) (Fin D.count) F) (b0 : Option (Matrix (Fin D.count) (Fin k) F))
    (b : Matrix (Fin D.count) (Fin k) F) (bopt : Option (Matrix (Fin D.count) (Fin k) F)) (factor : Bool)
    (hbo : bopt = some b ∨ (bopt = none ∧ b0 = some b)) (s' : Linsys.St F D.count k)
    (hs' : Linsys.Solve (Linsys.init (List.range D.count) (C ++ ds) A b0) bopt factor s') :
    ∃ u, s'.u = some u ∧ ∀ l, Single B sf s e D (Linsys.colOf u l) :=
  Rdy.solution_continuous hB he (hR.rdy hB hO he) h ds h1 h2 h3 h4 A b0 b bopt factor hbo s' hs'

end

/-! ### The 2 by 2 torus with a refined cell -/

theorem tor_ready (e : ET) : ∃ pr D, PReady tor e false tor1 pr D := by
  obtain ⟨pr, D, h, _, ha⟩ := tor_uses e
  exact ⟨pr, D, h, .inl rfl, by decide +kernel, fun c hc _ => ha c hc⟩

/-- The hypotheses are met, and a node on the periodic side hangs: the midpoint of the left side of cell 0 lies on the
right side of the unrefined cell 1. -/
theorem tor_hangs : ∃ (pr : Pairs) (D : DH) (H C : List (Linsys.Con ℚ)), PReady tor .Q1 false tor1 pr D ∧
    setHanging false tor1 .Q1 D [] = some (H, C) ∧ ∃ x ∈ H, some x.dof = val D (0, [0]) 3 := by
  obtain ⟨pr, D, h⟩ := tor_ready .Q1
  obtain ⟨⟨H, C⟩, hh⟩ := C81_succeeds (F := ℚ) tor_wf tor_ok h (.inl rfl) []
  have hl : ((0, [0]) : CN) ∈ leaves false tor1 := by decide +kernel
  have hc : ((0, [0]) : CN) ∈ tor1.cells := by decide +kernel
  obtain ⟨a, ha⟩ := Option.ne_none_iff_exists'.1 (h.full (0, [0]) hc (.inl rfl) 3 (by decide))
  obtain ⟨x, hx, hxa⟩ := (C81_hanging tor_wf tor_ok rfl h hh (0, [0]) hl 3 a (by decide) ha).2
    ⟨(1, []), by decide +kernel, E 1 (1 / 2), E_insq 1 (by norm_num) (by norm_num), .rel _ _ ⟨1, 3, 1 / 2, by norm_num, by norm_num,
      by decide +kernel, by decide +kernel, by decide +kernel, by decide +kernel, by decide +kernel⟩, by decide +kernel⟩
  exact ⟨pr, D, H, C, h, hh, x, hx, by rw [ha, hxa]⟩

end Verif.Per
