import Verif.Line.Props

/-!
# C70: cases that meet the hypotheses, and what fails on periodic meshes with one initial cell
-/

namespace Verif.Line
open Verif.Fem Verif.OneD Verif.Geom

/-- A distribution (the handler itself if it fails). -/
def distr (per : Bool) (e : ET) (F : List (Cell ℚ)) (D : DH) : DH := (distribute per (inSub none) e F (nCells F) D).getD D

theorem rooted_none (F : List (Cell ℚ)) : Rooted (inSub none) F := by
  intro c k h
  have := ex_parent (mkAt_ex h)
  obtain ⟨t, ht⟩ := Option.isSome_iff_exists.1 this
  simp [mkAt, ht, inSub]

theorem distr_uses {xs : List ℚ} {per : Bool} {e : ET} {F : List (Cell ℚ)} {D : DH} (h : Uses xs per e F D)
    (hs : (distribute per (inSub none) e F (nCells F) D).isSome) : Uses xs per e F (distr per e F D) := by
  refine .dist F D _ none (nCells F) h (rooted_none F) le_rfl ?_
  obtain ⟨D', hD⟩ := Option.isSome_iff_exists.1 hs
  unfold distr
  rw [hD]; rfl

/-- Two cells; the first one is refined; distribution; the second one is refined; distribution. -/
def exF1 : List (Cell ℚ) := run (roots [0, 1, 3]) [.split [0]]
def exF2 : List (Cell ℚ) := step exF1 (.split (pathOf (1, [])))
def exD1 (per : Bool) (e : ET) : DH := distr per e exF1 DH.new
def exD2 (per : Bool) (e : ET) : DH := distr per e exF2 (exD1 per e)

theorem ex1_uses (per : Bool) (e : ET) : Uses [0, 1, 3] per e exF1 (exD1 per e) :=
  distr_uses (.new [.split [0]]) (Option.isSome_iff_exists.2 (C70_terminates (fun _ => by simp) (.new _) none _ le_rfl))

theorem ex2_uses (per : Bool) (e : ET) : Uses [0, 1, 3] per e exF2 (exD2 per e) := by
  have h := Uses.split exF1 _ (1, []) (ex1_uses per e) (by unfold Ex; decide +kernel) (by decide +kernel)
  exact distr_uses h (Option.isSome_iff_exists.2 (C70_terminates (fun _ => by simp) h none _ le_rfl))

/-- Non-vacuity: a refined periodic mesh; the ends share a dof, and so do the children of the two cells at the common vertex. -/
example : ([0, 1, 3] : List ℚ).IsChain (· < ·) ∧ Uses [0, 1, 3] true .Q2 exF2 (exD2 true .Q2) ∧ (exD2 true .Q2).count = 8 ∧
    val (exD2 true .Q2) (0, [0]) 0 = some 0 ∧ val (exD2 true .Q2) (1, [1]) 1 = some 0 ∧
    val (exD2 true .Q2) (0, [1]) 1 = some 1 ∧ val (exD2 true .Q2) (1, [0]) 0 = some 1 ∧
    nodeX exF2 .Q2 (1, [0]) 0 = some 1 ∧ nodeX exF2 .Q2 (1, [0]) 2 = some (3 / 2) :=
  ⟨by decide, ex2_uses true .Q2, by decide +kernel, by decide +kernel, by decide +kernel, by decide +kernel, by decide +kernel,
    by decide +kernel, by decide +kernel⟩

/-- Non-vacuity for a torn element. -/
example : torn .DQ1 = true ∧ Uses [0, 1, 3] false .DQ1 exF2 (exD2 false .DQ1) ∧ val (exD2 false .DQ1) (0, [0]) 0 = val (exD2 false .DQ1) (0, []) 0 ∧
    val (exD2 false .DQ1) (0, [0]) 1 ≠ val (exD2 false .DQ1) (0, [1]) 0 :=
  ⟨rfl, ex2_uses false .DQ1, by decide +kernel, by decide +kernel⟩

/-! ### What fails -/

def oneF : List (Cell ℚ) := run (roots [0, 1]) []
def oneD : DH := distr true .Q2 oneF DH.new
def oneF2 : List (Cell ℚ) := step oneF (.split (pathOf (0, [])))
def oneD2 : DH := distr true .Q2 oneF2 oneD

theorem one_uses : Uses [0, 1] true .Q2 oneF oneD := distr_uses (.new []) (by decide +kernel)

theorem one2_uses : Uses [0, 1] true .Q2 oneF2 oneD2 :=
  distr_uses (.split oneF oneD (0, []) one_uses (by unfold Ex; decide +kernel) (by decide +kernel)) (by decide +kernel)

/-- C70 fails on a periodic mesh with one cell: the inner dof is not counted. -/
theorem C70_own_count_violated : ∃ (xs : List ℚ) (F : List (Cell ℚ)) (D : DH), xs.IsChain (· < ·) ∧ Uses xs true .Q2 F D ∧
    (cellAt F (0, [])).isSome ∧ val D (0, []) 2 = some 1 ∧ D.count = 1 :=
  ⟨[0, 1], oneF, oneD, by decide, one_uses, by decide +kernel, by decide +kernel, by decide +kernel⟩

/-- C70, consequence: the next distribution uses the number again, at another point. -/
theorem C70_own_reuse_violated : ∃ (xs : List ℚ) (F : List (Cell ℚ)) (D : DH) (c c' : IN) (p p' a : Nat) (x x' : ℚ),
    xs.IsChain (· < ·) ∧ Uses xs true .Q2 F D ∧ val D c p = some a ∧ val D c' p' = some a ∧
    nodeX F .Q2 c p = some x ∧ nodeX F .Q2 c' p' = some x' ∧ ¬ SamePt xs true x x' := by
  refine ⟨[0, 1], oneF2, oneD2, (0, []), (0, [0]), 2, 2, 1, 1 / 2, 1 / 4, by decide, one2_uses, by decide +kernel, by decide +kernel,
    by decide +kernel, by decide +kernel, ?_⟩
  unfold SamePt
  norm_num

def refF : List (Cell ℚ) := run (roots [0, 1]) [.split [0]]
def refD : DH := distr true .Q1 refF DH.new

/-- C70 fails on a periodic mesh with one initial cell that is refined before the dofs are distributed: the two ends get
different dofs. -/
theorem C70_periodic_refined_violated : ∃ (xs : List ℚ) (F : List (Cell ℚ)) (D : DH) (c c' : IN) (p p' a a' : Nat) (x x' : ℚ),
    xs.IsChain (· < ·) ∧ Uses xs true .Q1 F D ∧ val D c p = some a ∧ val D c' p' = some a' ∧
    nodeX F .Q1 c p = some x ∧ nodeX F .Q1 c' p' = some x' ∧ SamePt xs true x x' ∧ a ≠ a' := by
  refine ⟨[0, 1], refF, refD, (0, [0]), (0, [1]), 0, 1, 0, 1, 0, 1, by decide, distr_uses (.new _) (by decide +kernel), by decide +kernel,
    by decide +kernel, by decide +kernel, by decide +kernel, .inr ⟨rfl, .inl ⟨rfl, rfl⟩⟩, by decide⟩

end Verif.Line
