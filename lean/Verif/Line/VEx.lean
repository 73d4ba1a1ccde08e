import Verif.Line.VDir
import Verif.Line.Examples

/-!
# C71: cases that meet the hypotheses, and what fails
-/

namespace Verif.Line
open Verif.Fem Verif.OneD Verif.Geom
open Verif.Dir (look)

section
set_option linter.unusedSectionVars false
variable {K : Type} [Field K] [LinearOrder K] [IsStrictOrderedRing K]
variable {close : K → K → Bool} {xs : List K} {per : Bool} {e : ET} {F : List (Cell K)} {D : DH} {V : DV K}

/-- After the first distribution the hypotheses of the theorems on Dirichlet conditions hold. -/
theorem C71_ready_first (hN : per = true → 3 ≤ xs.length) (h : UsesV close xs per e F D V) (hV : V.keys = []) (sf : Option Nat) (n : Nat)
    (hn : nCells F ≤ n) (hR : Rooted (inSub sf) F) {D' : DH} {V' : DV K} (hd : distributeV close per (inSub sf) e F n D V = some (D', V')) :
    UsesV close xs per e F D' V' ∧ Located (inSub sf) F e D' V' := by
  refine ⟨.dist F D D' V V' sf n h hR hn hd, fun c hc p hp => ?_⟩
  obtain ⟨t, ht⟩ := Option.isSome_iff_exists.1 (mkAt_ex hc.1)
  have hm : inSub sf t.data = true := by have := hc.1; simpa [mkAt, ht] using this
  exact C71_complete_first_partial hN h hV sf n hn hR hd c t ht hm p hp

/-- And after every distribution on the whole mesh, for continuous elements. -/
theorem C71_ready (hx : xs.IsChain (· < ·)) (hN : per = true → 3 ≤ xs.length) (he : torn e = false) (h : UsesV close xs per e F D V) (n : Nat)
    (hn : nCells F ≤ n) {D' : DH} {V' : DV K} (hd : distributeV close per (inSub none) e F n D V = some (D', V')) :
    UsesV close xs per e F D' V' ∧ Located (inSub none) F e D' V' := by
  have hR : Rooted (inSub none) F := submesh_rooted (submesh_none F)
  refine ⟨.dist F D D' V V' none n h hR hn hd, fun c hc p hp => ?_⟩
  obtain ⟨a, x, y, h1, h2, _⟩ := C71_complete_partial hx hN he h n hn hd c (mkAt_ex hc.1) p hp
  exact ⟨a, x, h1, h2⟩

/-- C71, periodic meshes: `get_region(on_boundary=True)` fails on every periodic mesh. -/
theorem C71_periodic_violated (m : Option (VX → Bool)) (mk : Itv K → Bool) (F : List (Cell K)) (n : Nat) : regionV m true true mk F n = none := by
  unfold regionV
  cases leaves1 mk F n <;> rfl

end

/-! ### A case -/

/-- `np.allclose` is any relation; here: equality. -/
def eqv (x y : ℚ) : Bool := decide (x = y)

/-- A distribution with vertices. -/
def distrV (e : ET) (sf : Option Nat) (F : List (Cell ℚ)) (s : DH × DV ℚ) : DH × DV ℚ := (distributeV eqv false (inSub sf) e F (nCells F) s.1 s.2).getD s

theorem distrV_eq {xs : List ℚ} {e : ET} {sf : Option Nat} {F : List (Cell ℚ)} {D : DH} {V : DV ℚ} (h : UsesV eqv xs false e F D V) (hR : Rooted (inSub sf) F) :
    distributeV eqv false (inSub sf) e F (nCells F) D V = some (distrV e sf F (D, V)) := by
  obtain ⟨D', V', hd⟩ := C71_terminates (fun h => by cases h) h sf _ le_rfl hR
  rw [hd]
  unfold distrV
  rw [hd]; rfl

theorem distrV_uses {xs : List ℚ} {e : ET} {sf : Option Nat} {F : List (Cell ℚ)} {D : DH} {V : DV ℚ} (h : UsesV eqv xs false e F D V)
    (hR : Rooted (inSub sf) F) : UsesV eqv xs false e F (distrV e sf F (D, V)).1 (distrV e sf F (D, V)).2 :=
  .dist F D _ V _ sf (nCells F) h hR le_rfl (distrV_eq h hR)

/-- Two cells; the first one is refined; distribution; the second one is refined; distribution. -/
def exV1 (e : ET) : DH × DV ℚ := distrV e none exF1 (DH.new, DV.new)
def exV2 (e : ET) : DH × DV ℚ := distrV e none exF2 (exV1 e)

theorem exV1_uses (e : ET) : UsesV eqv [0, 1, 3] false e exF1 (exV1 e).1 (exV1 e).2 := distrV_uses (.new [.split [0]]) (rooted_none _)

theorem exV1_split (e : ET) : UsesV eqv [0, 1, 3] false e exF2 (exV1 e).1 (exV1 e).2 :=
  .split exF1 _ _ (1, []) (exV1_uses e) (by unfold Ex; decide +kernel) (by decide +kernel)

theorem exV2_uses (e : ET) : UsesV eqv [0, 1, 3] false e exF2 (exV2 e).1 (exV2 e).2 := distrV_uses (exV1_split e) (rooted_none _)

/-- Non-vacuity: the hypotheses hold in a history with refinement between two distributions, and the values are as stated: the right end gets
`g(3) = 9`, nothing else is set. -/
example : ([0, 1, 3] : List ℚ).IsChain (· < ·) ∧ UsesV eqv [0, 1, 3] false .Q2 exF2 (exV2 .Q2).1 (exV2 .Q2).2 ∧
    Located (inSub none) exF2 .Q2 (exV2 .Q2).1 (exV2 .Q2).2 ∧ Submesh (inSub none) exF2 ∧
    ((markV (fun x : ℚ => decide (2 < x)) true false (inSub none) exF2 (nCells exF2) (fun _ => false)).bind (fun m =>
      addDirichletA (some m) true false (inSub none) exF2 (nCells exF2) .Q2 (exV2 .Q2).1 (exV2 .Q2).2 (fun x : ℚ => x * x) [])) = some [(3, 9)] ∧
    val (exV2 .Q2).1 (1, [1]) 1 = some 3 :=
  ⟨by decide, exV2_uses _, (C71_ready (by decide) (fun h => by cases h) rfl (exV1_split .Q2) _ le_rfl (distrV_eq (exV1_split .Q2) (rooted_none _))).2,
    submesh_none _, by decide +kernel, by decide +kernel⟩

/-- C71 fails for DQ0: after refinement `distribute_dofs` does not compute the vertices of the new dofs (`len(dof_vertices) >= n_dofs`,
fem.py 2193), and `get_dof_vertices` raises `KeyError`. -/
theorem C71_complete_violated : ∃ (F : List (Cell ℚ)) (D D' : DH) (V V' : DV ℚ) (c : IN) (a : Nat), UsesV eqv [0, 1, 3] false .DQ0 F D V ∧
    distributeV eqv false (inSub none) .DQ0 F (nCells F) D V = some (D', V') ∧ IsLeaf (inSub none) F c ∧ val D' c 0 = some a ∧
    getVert V' a = none :=
  ⟨exF2, _, _, _, _, (1, [0]), 4, exV1_split .DQ0, distrV_eq (exV1_split .DQ0) (rooted_none _), ⟨by decide +kernel, by decide +kernel⟩, by decide +kernel,
    by decide +kernel⟩

/-- Two submeshes of a mesh of two refined cells: flag 1 has the children of the first one, flag 2 those of the second one. -/
def flF : List (Cell ℚ) := run (roots [0, 1, 3]) [.split [0], .split [1], .mark [0] 1, .mark [1] 1, .mark [0, 0] 1, .mark [0, 1] 1,
  .mark [0] 2, .mark [1] 2, .mark [1, 0] 2, .mark [1, 1] 2]

theorem fl_sub (f : Nat) (h : f = 1 ∨ f = 2) : Submesh (inSub (some f)) flF := by
  have e : flF = [.node ⟨0, 1, 2, {2, 1}⟩ [.node ⟨0, 1 / 2, 2, {1}⟩ [], .node ⟨1 / 2, 1, 2, {1}⟩ []],
      .node ⟨1, 3, 2, {2, 1}⟩ [.node ⟨1, 2, 2, {2}⟩ [], .node ⟨2, 3, 2, {2}⟩ []]] := by
    simp only [flF, run, List.foldl, step, roots, modifyL, split, splitLoop, mark, List.modify_succ_cons, List.modify_zero_cons, GTree.data, GTree.kids]
    norm_num
  rw [e]
  intro t ht
  simp only [List.mem_cons, List.not_mem_nil, or_false] at ht
  have leaf : ∀ d : Itv ℚ, Closed (inSub (some f)) (.node d []) := fun d =>
    .node d [] (fun h => by simp [hasKids, GTree.kids] at h) (fun _ k hk => by cases hk) (fun k hk => by cases hk)
  rcases h with rfl | rfl <;> rcases ht with rfl | rfl
  all_goals
    refine ⟨by decide +kernel, .node _ _ (fun _ => by decide +kernel) ?_ ?_⟩
    · intro h
      first
        | (exfalso; revert h; decide +kernel)
        | (intro k hk; simp only [List.mem_cons, List.not_mem_nil, or_false] at hk; rcases hk with rfl | rfl <;> decide +kernel)
    · intro k hk
      simp only [List.mem_cons, List.not_mem_nil, or_false] at hk
      rcases hk with rfl | rfl <;> exact leaf _

def flV1 : DH × DV ℚ := distrV .Q1 (some 1) flF (DH.new, DV.new)
def flV2 : DH × DV ℚ := distrV .Q1 (some 2) flF flV1

theorem flV1_uses : UsesV eqv [0, 1, 3] false .Q1 flF flV1.1 flV1.2 := distrV_uses (.new _) (submesh_rooted (fl_sub 1 (.inl rfl)))

/-- C71 fails for two submeshes: after `distribute_dofs(1)` and `distribute_dofs(2)` a dof of a leaf of submesh 2 has no vertex. -/
theorem C71_flags_violated : ∃ (F : List (Cell ℚ)) (D D' : DH) (V V' : DV ℚ) (c : IN) (a : Nat), UsesV eqv [0, 1, 3] false .Q1 F D V ∧
    Submesh (inSub (some 2)) F ∧ distributeV eqv false (inSub (some 2)) .Q1 F (nCells F) D V = some (D', V') ∧ IsLeaf (inSub (some 2)) F c ∧
    val D' c 1 = some a ∧ getVert V' a = none :=
  ⟨flF, _, _, _, _, (1, [0]), 4, flV1_uses, fl_sub 2 (.inr rfl), distrV_eq flV1_uses (submesh_rooted (fl_sub 2 (.inr rfl))),
    ⟨by decide +kernel, by decide +kernel⟩, by decide +kernel, by decide +kernel⟩

/-- Non-vacuity with a flag: the first distribution on submesh 1. -/
example : Submesh (inSub (some 1)) flF ∧ UsesV eqv [0, 1, 3] false .Q1 flF flV1.1 flV1.2 ∧ Located (inSub (some 1)) flF .Q1 flV1.1 flV1.2 ∧
    IsLeaf (inSub (some 1)) flF (0, [1]) ∧ IsLeaf (inSub (some 1)) flF (1, []) :=
  ⟨fl_sub 1 (.inl rfl), flV1_uses, (C71_ready_first (fun h => by cases h) (.new _) rfl (some 1) _ le_rfl (submesh_rooted (fl_sub 1 (.inl rfl)))
    (distrV_eq (.new _) (submesh_rooted (fl_sub 1 (.inl rfl))))).2, ⟨by decide +kernel, by decide +kernel⟩, ⟨by decide +kernel, by decide +kernel⟩⟩

/-- Non-vacuity of DQ0: nothing is set at the ends. -/
example : Uses [0, 1, 3] false .DQ0 exF2 (exV2 .DQ0).1 ∧ addDirichletA none true false (inSub none) exF2 (nCells exF2) .DQ0 (exV2 .DQ0).1 (exV2 .DQ0).2
    (fun x : ℚ => x) [] = some [] := ⟨(exV2_uses _).uses, by decide +kernel⟩

end Verif.Line
