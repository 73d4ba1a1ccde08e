import Verif.Coarse.Coords
import Verif.Coarse.Ext
import Verif.Dof.Hang

/-!
# C83: examples, and what goes wrong after coarsening
-/

namespace Verif.Mesh
open Verif.Geom Verif.Quad Verif.Dof Verif.Fem

/-- Splits (`true`) and deletions (`false`) one after the other. -/
def runZ : List (Bool × CN) → St ℚ → Option (St ℚ)
  | [], s => some s
  | (true, c) :: l, s => if c ∈ s.cells ∧ s.kids c = false then (match reSplit false s c with
    | .ok s' => runZ l s'
    | .error _ => none) else none
  | (false, c) :: l, s => if c ∈ s.cells ∧ s.kids c = true then runZ l (delKids s c) else none

theorem runZ_reach {B : Base ℚ} : ∀ (l : List (Bool × CN)) {s s' : St ℚ}, ZReach B s → runZ l s = some s' → ZReach B s'
  | [], s, s', hs, h => by cases h; exact hs
  | (true, c) :: l, s, s', hs, h => by
    unfold runZ at h
    split_ifs at h with hc
    rcases h1 : reSplit false s c with _ | s1
    · rw [h1] at h; cases h
    · rw [h1] at h
      exact runZ_reach l (.split s s1 c false hs hc.1 hc.2 h1) h
  | (false, c) :: l, s, s', hs, h => by
    unfold runZ at h
    split_ifs at h with hc
    exact runZ_reach l (.del s c hs hc.1 hc.2) h

/-- The left cell is refined three times at its right side, the right cell once; then the left cell is coarsened. -/
def zBal : List (Bool × CN) := [(true, (0, [])), (true, (1, [])), (true, (0, [1])), (true, (0, [1, 1])), (false, (0, []))]

/-- The left cell is refined twice at its right side, the right cell once; then the left cell is coarsened. -/
def zHang : List (Bool × CN) := [(true, (0, [])), (true, (1, [])), (true, (0, [1])), (false, (0, []))]

/-- Both cells are refined; then the left cell is coarsened. -/
def zOne : List (Bool × CN) := [(true, (0, [])), (true, (1, [])), (false, (0, []))]

/-- Check two meshes: `l` with deletions, and the right cell split. -/
def chk (l : List (Bool × CN)) (f : St ℚ → St ℚ → Bool) : Bool :=
  match runZ l (init twoB), cellSplit false (init twoB) (1, []) with
  | some s, .ok s0 => decide (s.cells = s0.cells) && s.cells.all (fun c => (s.kids c == s0.kids c) && (s.mkd c == s0.mkd c)) && f s s0
  | _, _ => false

theorem chk_get {l : List (Bool × CN)} {f : St ℚ → St ℚ → Bool} (h : chk l f = true) : ∃ s s0, ZReach twoB s ∧ MReach twoB s0 ∧ SameMesh s s0 ∧ f s s0 = true := by
  unfold chk at h
  split at h
  · rename_i s s0 h1 h2
    simp only [Bool.and_eq_true, decide_eq_true_eq, List.all_eq_true, beq_iff_eq] at h
    obtain ⟨⟨e1, e2⟩, e3⟩ := h
    have hz := runZ_reach l .init h1
    have hm : MReach twoB s0 := .split _ s0 (1, []) false .init (by decide +kernel) (by decide +kernel) h2
    refine ⟨s, s0, hz, hm, ⟨fun c => by rw [e1], fun c hc => (e2 c hc).1, fun c hc => (e2 c hc).2, fun c hc => ?_⟩, e3⟩
    have hi := hz.inv twoB_wf
    have hi0 := hm.inv twoB_wf
    rw [hi.sides c ((hi.mem c).1 hc), hi0.sides c ((hi0.mem c).1 (e1 ▸ hc))]
  · cases h

/-- The hypotheses of C83 are met: a mesh that was refined twice, coarsened and refined again. -/
example : ∃ s, ZReach twoB s ∧ (0, [1]) ∈ s.cells ∧ (0, [1, 1]) ∉ s.cells ∧ s.kids (0, [1]) = false ∧ (s.he (.kid (side (0, [1]) 1) true)).isSome := by
  have : (match runZ (zHang ++ [(true, (0, []))]) (init twoB) with
    | some s => decide ((0, [1]) ∈ s.cells ∧ (0, [1, 1]) ∉ s.cells ∧ s.kids (0, [1]) = false ∧ (s.he (.kid (side (0, [1]) 1) true)).isSome)
    | none => false) = true := by decide +kernel
  cases h : runZ (zHang ++ [(true, (0, []))]) (init twoB) with
  | none => rw [h] at this; cases this
  | some s =>
    rw [h] at this
    exact ⟨s, runZ_reach _ .init h, of_decide_eq_true this⟩

/-- Two meshes as in `C83_neighbors_partial`, with neighbours. -/
example : ∃ s s0, ZReach twoB s ∧ MReach twoB s0 ∧ SameMesh s s0 ∧ getNb false s (s.sides (0, []) 1) = some (1, []) ∧ (1, []) ∈ s.cells ∧
    isBalanced false s = true := by
  obtain ⟨s, s0, h1, h2, h3, h4⟩ := chk_get (l := zOne) (f := fun s _ => decide (getNb false s (s.sides (0, []) 1) = some (1, []) ∧ (1, []) ∈ s.cells ∧
    isBalanced false s = true)) (by decide +kernel)
  exact ⟨s, s0, h1, h2, h3, of_decide_eq_true h4⟩

/-- `get_neighbors` returns cells that were deleted: both cells are refined, the left one is coarsened, and the neighbour of a child of the right cell is
a deleted child of the left cell.  In the mesh that was only refined, it has no neighbour there. -/
theorem C83_neighbor_violated : ∃ s s0, ZReach twoB s ∧ MReach twoB s0 ∧ SameMesh s s0 ∧ ∃ c ∈ s.cells, ∃ i d,
    getNb false s (s.sides c i) = some d ∧ d ∉ s.cells ∧ getNb false s0 (s0.sides c i) = none := by
  obtain ⟨s, s0, h1, h2, h3, h4⟩ := chk_get (l := zOne) (f := fun s s0 => decide ((1, [0]) ∈ s.cells ∧ getNb false s (s.sides (1, [0]) 3) = some (0, [1]) ∧
    (0, [1]) ∉ s.cells ∧ getNb false s0 (s0.sides (1, [0]) 3) = none)) (by decide +kernel)
  obtain ⟨a, b, c, d⟩ := of_decide_eq_true h4
  exact ⟨s, s0, h1, h2, h3, _, a, _, _, b, c, d⟩

/-- `is_balanced()` is false although the mesh satisfies the 2:1 rule; `distribute_dofs` fails (its assertion), and `balance` splits a cell that
need not be split. -/
theorem C83_balanced_violated : ∃ s s0, ZReach twoB s ∧ MReach twoB s0 ∧ SameMesh s s0 ∧ Balanced21 s0 ∧ isBalanced false s0 = true ∧
    isBalanced false s = false ∧ (∀ (e : ET) (n : Nat) (L : List CN) (D : DH), distribute false s e n L D = none) ∧
    ∃ c ∈ leaves false s, ∃ s' l, balBody false s c = .ok (s', l) ∧ s'.kids c = true := by
  obtain ⟨s, s0, h1, h2, h3, h4⟩ := chk_get (l := zBal) (f := fun s s0 => decide (isBalanced false s0 = true ∧ isBalanced false s = false ∧
    (1, [0]) ∈ leaves false s ∧ (match balBody false s (1, [0]) with
      | .ok (s', _) => s'.kids (1, [0])
      | .error _ => false) = true)) (by decide +kernel)
  obtain ⟨a, b, c, d⟩ := of_decide_eq_true h4
  refine ⟨s, s0, h1, h2, h3, (C27_is_balanced twoB_wf h2 false (.inl rfl)).1 a, a, b, fun e n L D => ?_, (1, [0]), c, ?_⟩
  · unfold distribute
    simp [b]
  · split at d
    · rename_i s' l hb
      exact ⟨s', l, hb, d⟩
    · cases d

/-- `set_hanging_nodes` fails: the leaf of the right cell finds the deleted neighbour, which still has children, and these have no dofs
(`get_cell_dofs` returns `None`).  In the mesh that was only refined, dofs and hanging nodes are found. -/
theorem C83_hanging_violated : ∃ s s0, ZReach twoB s ∧ MReach twoB s0 ∧ SameMesh s s0 ∧ ∃ D D0, distribute false s .Q1 20 s.cells DH.new = some D ∧
    distribute false s0 .Q1 20 s0.cells DH.new = some D0 ∧ (∀ c ∈ s.cells, D.dofs c = D0.dofs c) ∧ setHanging (F := ℚ) false s .Q1 D [] = none ∧
    ∃ H, setHanging (F := ℚ) false s0 .Q1 D0 [] = some H ∧ H.1.length = 1 := by
  obtain ⟨s, s0, h1, h2, h3, h4⟩ := chk_get (l := zHang) (f := fun s s0 => match distribute false s .Q1 20 s.cells DH.new,
      distribute false s0 .Q1 20 s0.cells DH.new with
    | some D, some D0 => s.cells.all (fun c => decide (D.dofs c = D0.dofs c)) && (setHanging (F := ℚ) false s .Q1 D []).isNone &&
      (match setHanging (F := ℚ) false s0 .Q1 D0 [] with
        | some H => decide (H.1.length = 1)
        | none => false)
    | _, _ => false) (by decide +kernel)
  split at h4
  · rename_i D D0 e1 e2
    simp only [Bool.and_eq_true, List.all_eq_true, decide_eq_true_eq, Option.isNone_iff_eq_none] at h4
    obtain ⟨⟨a, b⟩, c⟩ := h4
    refine ⟨s, s0, h1, h2, h3, D, D0, e1, e2, a, b, ?_⟩
    split at c
    · rename_i H hH
      exact ⟨H, hH, of_decide_eq_true c⟩
    · cases c
  · cases h4

end Verif.Mesh
