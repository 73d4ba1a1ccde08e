import Verif.Dof.HangProps

/-!
# C62: dofs of leaves, examples, and what fails
-/

namespace Verif.Dof
open Verif.Fem Verif.Mesh
open Verif.Linsys (Feasible)

deriving instance DecidableEq for Linsys.Con

section
variable {K : Type} [Field K] {B : Base K} {e : ET} {s : St K} {D : DH}

/-- Every point of a cell is in a child. -/
theorem emb_onto (z : ℚ × ℚ) (h : InSq z) : ∃ k w, InSq w ∧ emb k w = z := by
  obtain ⟨x, y⟩ := z
  obtain ⟨a1, a2, a3, a4⟩ := h
  simp only at a1 a2 a3 a4
  rcases le_total x (1 / 2) with hx | hx <;> rcases le_total y (1 / 2) with hy | hy
  · exact ⟨0, (2 * x, 2 * y), ⟨by linarith, by linarith, by linarith, by linarith⟩, by simp [emb]⟩
  · refine ⟨3, (2 * x, 2 * y - 1), ⟨by linarith, by linarith, by linarith, by linarith⟩, by simp [emb]⟩
  · refine ⟨1, (2 * x - 1, 2 * y), ⟨by linarith, by linarith, by linarith, by linarith⟩, by simp [emb]⟩
  · refine ⟨2, (2 * x - 1, 2 * y - 1), ⟨by linarith, by linarith, by linarith, by linarith⟩, by simp [emb]⟩

/-- Cells have bounded level. -/
theorem level_bound (l : List CN) : ∃ N, ∀ c ∈ l, level c ≤ N := by
  induction l with
  | nil => exact ⟨0, by simp⟩
  | cons a l ih =>
    obtain ⟨N, hN⟩ := ih
    refine ⟨max N (level a), fun c hc => ?_⟩
    rcases List.mem_cons.1 hc with rfl | hc
    · exact le_max_right _ _
    · exact (hN c hc).trans (le_max_left _ _)

/-- (General form.) The system has no superfluous unknowns: with continuous elements the dofs of the leaves of the mesh are exactly
`0, ..., n_dofs(all_dofs=True) - 1`, so `n_dofs()` is the same number. -/
theorem Rdy.leaf_dofs (he : torn e = false) (hR : Rdy B e false s D)
    (hnum : ∀ a, a < D.count ↔ ∃ c ∈ s.cells, ∃ p < nd2 e, val D c p = some a) (a : Nat) :
    a < D.count ↔ ∃ c ∈ leaves false s, ∃ p < nd2 e, val D c p = some a := by
  have hi := hR.inv
  rw [hnum a]
  constructor
  · rintro ⟨c, hc, p, hp, hv⟩
    obtain ⟨N, hN⟩ := level_bound s.cells
    have key : ∀ (n : Nat) (c : CN) (p : Nat), N - level c ≤ n → c ∈ s.cells → p < nd2 e → val D c p = some a →
        ∃ c ∈ leaves false s, ∃ p < nd2 e, val D c p = some a := by
      intro n
      induction n with
      | zero =>
        intro c p hn hc hp hv
        cases hk : s.kids c
        · exact ⟨c, (mem_leaves hi c).2 ⟨(hi.mem c).1 hc, .inl rfl, by simp [hasCh, hk]⟩, p, hp, hv⟩
        · exfalso
          have := hN (child c 0) ((hi.mem _).2 hk)
          rw [level_child] at this
          omega
      | succ n ih =>
        intro c p hn hc hp hv
        cases hk : s.kids c
        · exact ⟨c, (mem_leaves hi c).2 ⟨(hi.mem c).1 hc, .inl rfl, by simp [hasCh, hk]⟩, p, hp, hv⟩
        · obtain ⟨k, w, hw, hkw⟩ := emb_onto (node e p) (node_insq e ⟨p, hp⟩)
          obtain ⟨q, hq⟩ := nest_node e he k w hw ⟨p, hp⟩ hkw
          have hmem : child c k ∈ s.cells := (hi.mem _).2 hk
          obtain ⟨a', ha'⟩ := Option.ne_none_iff_exists'.1 (hR.full (child c k) hmem (.inl rfl) q q.2)
          have hpt : rootPt c (node e p) = rootPt (child c k) (node e q) := by
            rw [hq, ← hkw]; rfl
          have haa : a = a' := (hR.shared c (child c k) p q a a' hp q.2 hv ha').2 (by
            rw [hpt]; exact .refl _)
          refine ih (child c k) q ?_ hmem q.2 (by rw [ha', haa])
          rw [level_child]
          omega
    exact key _ c p (le_refl _) hc hp hv
  · rintro ⟨c, hc, p, hp, hv⟩
    exact ⟨c, (hi.mem c).2 ((mem_leaves hi c).1 hc).1, p, hp, hv⟩

/-- C62, the system has no superfluous unknowns: with continuous elements the dofs of the leaves of the mesh are exactly
`0, ..., n_dofs(all_dofs=True) - 1`, so `n_dofs()` is the same number. -/
theorem C62_leaf_dofs (hB : B.WF) (hP : Plain B) (he : torn e = false) (hR : Ready B e false s D) (a : Nat) :
    a < D.count ↔ ∃ c ∈ leaves false s, ∃ p < nd2 e, val D c p = some a :=
  Rdy.leaf_dofs he (hR.rdy hB hP he) (C34_numbers hB hP hR.uses.uses) a

end

/-! ### An example -/

theorem witD1_eq : distributeDofs false 2 wit1 .Q1 40 DH.new = some witD1 := by
  have : (distributeDofs false 2 wit1 .Q1 40 DH.new).isSome := by decide +kernel
  obtain ⟨D, hD⟩ := Option.isSome_iff_exists.1 this
  unfold witD1
  rw [hD]; rfl

theorem wit1_ready : Ready twoB .Q1 false wit1 witD1 :=
  ready_of_distribute twoB_wf twoB_plain (.new wit1 wit1_reach) (.inl rfl) (by decide +kernel) 40 (by decide +kernel) witD1_eq

/-- Non-vacuity: two cells, the second refined.  The midpoint of the common edge (dof 8) hangs, and its value must be
the mean of the values at the ends of the edge (dofs 1 and 2). -/
example : twoB.WF ∧ Plain twoB ∧ torn .Q1 = false ∧ Ready twoB .Q1 false wit1 witD1 ∧
    setHanging (F := ℚ) false wit1 .Q1 witD1 [] = some ([⟨8, [(2, 1 / 2), (1, 1 / 2)], 0⟩], [⟨8, [(2, 1 / 2), (1, 1 / 2)], 0⟩]) :=
  ⟨twoB_wf, twoB_plain, rfl, wit1_ready, by decide +kernel⟩

def witQ2 : DH := (distributeDofs false 2 wit1 .Q2 40 DH.new).getD DH.new

theorem witQ2_eq : distributeDofs false 2 wit1 .Q2 40 DH.new = some witQ2 := by
  have : (distributeDofs false 2 wit1 .Q2 40 DH.new).isSome := by decide +kernel
  obtain ⟨D, hD⟩ := Option.isSome_iff_exists.1 this
  unfold witQ2
  rw [hD]; rfl

/-- Non-vacuity for biquadratic elements: the midpoint of the edge does not hang, the quarter points do. -/
example : Ready twoB .Q2 false wit1 witQ2 ∧ (setHanging (F := ℚ) false wit1 .Q2 witQ2 []).map (·.1) =
    some [⟨29, [(2, 3 / 8), (1, -1 / 8), (5, 3 / 4)], 0⟩, ⟨18, [(2, -1 / 8), (1, 3 / 8), (5, 3 / 4)], 0⟩] :=
  ⟨ready_of_distribute twoB_wf twoB_plain (.new wit1 wit1_reach) (.inl rfl) (by decide +kernel) 40 (by decide +kernel) witQ2_eq,
    by decide +kernel⟩

/-- Non-vacuity of the hypothesis on submeshes: a rooted flag on the refined mesh in which all children are marked. -/
example : RootedFlag twoB { wit1 with mkd := fun _ => true } ∧ FullFlag { wit1 with mkd := fun _ => true } ∧
    hasCh true { wit1 with mkd := fun _ => true } (1, []) = true :=
  ⟨fun _ _ _ _ => rfl, fun _ _ _ => rfl, by decide +kernel⟩

/-- Non-vacuity of the hypotheses of C62_solution_continuous on the boundary values: a value at dof 0, which does not
hang. -/
example : ∃ (H C : List (Linsys.Con ℚ)) (ds : List (Linsys.Con ℚ)), setHanging false wit1 .Q1 witD1 [] = some (H, C) ∧
    ds ≠ [] ∧ (∀ c ∈ ds, c.dof < witD1.count) ∧ (∀ c ∈ ds, c.supp = []) ∧ (∀ c ∈ H, ∀ c' ∈ ds, c.dof ≠ c'.dof) :=
  ⟨[⟨8, [(2, 1 / 2), (1, 1 / 2)], 0⟩], [⟨8, [(2, 1 / 2), (1, 1 / 2)], 0⟩], [⟨0, [], 5⟩], by decide +kernel, by simp,
    by decide +kernel, by simp, by simp⟩

/-! ### What fails -/

/-- `clear_dofs()` and a new distribution after the first cell was refined as well. -/
def witD3 : DH := (distributeDofs false 2 wit2 .Q1 40 DH.new).getD DH.new

theorem witD3_eq : distributeDofs false 2 wit2 .Q1 40 DH.new = some witD3 := by
  have : (distributeDofs false 2 wit2 .Q1 40 DH.new).isSome := by decide +kernel
  obtain ⟨D, hD⟩ := Option.isSome_iff_exists.1 this
  unfold witD3
  rw [hD]; rfl

theorem wit2_reach : MReach twoB wit2 := (sp_reach twoB_wf wit1_reach (0, []) (by decide +kernel) (by decide +kernel)).2

theorem wit2_ready : Ready twoB .Q1 false wit2 witD3 :=
  ready_of_distribute twoB_wf twoB_plain (.new wit2 wit2_reach) (.inl rfl) (by decide +kernel) 40 (by decide +kernel) witD3_eq

/-- C62 fails for a dof handler that has been used before: `clear_dofs` does not clear the constraints, so after
refinement, `clear_dofs`, `distribute_dofs` and `set_hanging_nodes` constraints of the old mesh remain, although no
node hangs any more.  A continuous function violates them. -/
theorem C62_stale_violated : ∃ (B : Base ℚ) (s s' : St ℚ) (D D' : DH) (H C H' C' : List (Linsys.Con ℚ)) (U : Nat → ℚ),
    B.WF ∧ Plain B ∧ Ready B .Q1 false s D ∧ setHanging false s .Q1 D [] = some (H, C) ∧
    cellSplit false s (0, []) = .ok s' ∧ Ready B .Q1 false s' D' ∧ setHanging false s' .Q1 D' C = some (H', C') ∧
    H' = [] ∧ Single B false s' .Q1 D' U ∧ ¬ Feasible C' U := by
  have h2 := sp_reach twoB_wf wit1_reach (0, []) (by decide +kernel) (by decide +kernel)
  refine ⟨twoB, wit1, wit2, witD1, witD3, [⟨8, [(2, 1 / 2), (1, 1 / 2)], 0⟩], [⟨8, [(2, 1 / 2), (1, 1 / 2)], 0⟩], [],
    [⟨8, [(2, 1 / 2), (1, 1 / 2)], 0⟩], fun a => if a = 8 then 1 else 0, twoB_wf, twoB_plain, wit1_ready, by decide +kernel, h2.1,
    wit2_ready, by decide +kernel, rfl, ?_, ?_⟩
  · refine (C62_continuous (H := []) (C := []) twoB_wf twoB_plain rfl wit2_ready (.inl rfl) (by decide +kernel) _).1 ?_
    intro c hc
    cases hc
  · intro h
    have := h _ (List.mem_singleton.2 rfl)
    norm_num at this

end Verif.Dof
