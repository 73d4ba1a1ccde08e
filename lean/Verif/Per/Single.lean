import Verif.Per.Examples

/-!
# C80 with a single cell

`fill_dofs` treats a cell that is its own neighbour separately (fem.py 1430-1513).  The number of dofs can be wrong
(`C80_single_violated`), but the dofs are identified as they should be.
-/

namespace Verif.Per
open Verif.Mesh Verif.Dof Verif.Fem

/-- The point of the unit square when its sides `x = 0` and `x = 1` (if `px`), `y = 0` and `y = 1` (if `py`) are glued. -/
def wrap (px py : Bool) (z : ℚ × ℚ) : ℚ × ℚ := (if px ∧ z.1 = 1 then 0 else z.1, if py ∧ z.2 = 1 then 0 else z.2)

/-- The pairs of the one-cell grid. -/
def oneP (px py : Bool) : Pairs := toP ((initT (gB 1 1 px py)).getD [])

/-- **C80** (one cell, not refined, periodic in one or both directions).  `distribute_dofs` returns, all nodes have dofs, and for continuous elements two nodes
have the same dof exactly if they are the same point of the glued cell.  Missing for C80: refined meshes with a single initial cell in a periodic
direction, and the number of dofs, which is wrong for cubic elements (`C80_single_violated`). -/
theorem C80_single_partial (px py : Bool) (e : ET) (he : torn e = false) : ∃ (s : St ℚ) (pr : Pairs) (D : DH), IsGrid (gB 1 1 px py) 1 1 px py ∧
    PFixed (gB 1 1 px py) e s pr D ∧ (∀ p < nd2 e, val D (0, []) p ≠ none) ∧
    ∀ p < nd2 e, ∀ q < nd2 e, val D (0, []) p = val D (0, []) q ↔ wrap px py (node e p) = wrap px py (node e q) := by
  have h1 : ∀ (px py : Bool) (e : ET), torn e = false → (match distP false 1 (init (gB 1 1 px py)) (oneP px py) e 40 DH.new with
      | none => false
      | some D => decide ((∀ p < nd2 e, val D (0, []) p ≠ none) ∧
        ∀ p < nd2 e, ∀ q < nd2 e, val D (0, []) p = val D (0, []) q ↔ wrap px py (node e p) = wrap px py (node e q))) = true := by
    decide +kernel
  have h2 : ∀ px py : Bool, (initT (gB 1 1 px py)).isSome = true := by decide +kernel
  have h6 : ∀ px py : Bool, 4 * (init (gB 1 1 px py)).cells.length ≤ 40 := by decide +kernel
  have h3 := h1 px py e he
  cases hD : distP false 1 (init (gB 1 1 px py)) (oneP px py) e 40 DH.new with
  | none => rw [hD] at h3; cases h3
  | some D =>
    rw [hD] at h3
    obtain ⟨h4, h5⟩ := of_decide_eq_true h3
    refine ⟨init (gB 1 1 px py), oneP px py, D, gB_grid 1 1 px py, ?_, h4, h5⟩
    refine .dist _ _ _ _ false 40 (.new _ _ ?_) (.inl rfl) ?_ hD
    · obtain ⟨t, ht⟩ := Option.isSome_iff_exists.1 (h2 px py)
      unfold oneP
      rw [ht]
      exact initT_reach ht
    · exact h6 px py

/-- Nodes are identified: the left and the right side of a cell that is periodic in the first direction. -/
example : wrap true false (0, 1 / 3) = wrap true false (1, 1 / 3) ∧ wrap true false (1 / 3, 0) ≠ wrap true false (1 / 3, 1) := by
  decide +kernel

end Verif.Per
