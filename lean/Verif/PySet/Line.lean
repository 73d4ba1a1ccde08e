import Verif.PySet.Props
import Verif.Bvp.Refine

/-!
# C82 in one dimension

There are at most two Dirichlet dofs and no hanging nodes, so `list(set(..))` is always sorted.
-/

namespace Verif.PySet
open Verif.Fem Verif.OneD Verif.Geom Verif.Line Verif.Asm Verif.Form Verif.Bvp
open Verif.Dir (consOf)

/-- Every node of a cell is a node of one of its children. -/
theorem node_down : ∀ e, torn e = false → ∀ q < nd1 e, ∃ k : Fin 2, ∃ p < nd1 e, node e q = emb k (node e p) := by
  intro e
  cases e <;> decide +kernel

section
variable {close : ℝ → ℝ → Bool} {xs : List ℝ} {e : ET} {m : ℕ} {F : List (Cell ℝ)} {D : DH} {V : DV ℝ} {L : List IN}

/-- The nodes of the cells are nodes of leaves. -/
theorem node_leaf {N : ℕ} {X : ℕ → ℝ} (hF : BisL N X F) (he : torn e = false) {c : IN} (hc : Ex F c) {q : ℕ} (hq : q < nd1 e) :
    ∃ c', IsLeaf (inSub none) F c' ∧ ∃ p < nd1 e, pos X c' (node e p) = pos X c (node e q) := by
  obtain ⟨A, _, _, h3, _⟩ := cellsBF_spec hF (inSub none) (nCells F) le_rfl
  have hmem : ∀ c, Ex F c → c ∈ A := by
    intro c hc
    rw [h3]
    obtain ⟨t, ht⟩ := Option.isSome_iff_exists.1 hc
    simp [mkAt, ht, inSub]
  obtain ⟨M, hM⟩ : ∃ M, ∀ c ∈ A, c.2.length ≤ M := by
    refine ⟨(A.map (·.2.length)).sum, fun c hc => List.single_le_sum (by simp) _ (List.mem_map.2 ⟨c, hc, rfl⟩)⟩
  have key : ∀ n (c : IN), M - c.2.length ≤ n → Ex F c → ∀ q < nd1 e, ∃ c', IsLeaf (inSub none) F c' ∧ ∃ p < nd1 e, pos X c' (node e p) = pos X c (node e q) := by
    intro n
    induction n with
    | zero =>
      intro c hn hc q hq
      cases hk : kidsAt F c with
      | false => exact ⟨c, (isLeaf_none c).2 ⟨hc, hk⟩, q, hq, rfl⟩
      | true =>
        have h1 := (ex_child hF c 0).2 hk
        have h2 := hM _ (hmem _ h1)
        simp [child] at h2
        omega
    | succ n ih =>
      intro c hn hc q hq
      cases hk : kidsAt F c with
      | false => exact ⟨c, (isLeaf_none c).2 ⟨hc, hk⟩, q, hq, rfl⟩
      | true =>
        obtain ⟨k, p, hp, hkp⟩ := node_down e he q hq
        have h1 := (ex_child hF c k).2 hk
        obtain ⟨c', g1, p', g2, g3⟩ := ih (child c k) (by simp [child]; omega) h1 p hp
        exact ⟨c', g1, p', g2, by rw [g3, pos_emb, hkp]⟩
  exact key _ c le_rfl hc q hq

/-- **C82** (one dimension, no superfluous unknowns).  The dofs of the leaves are all dofs. -/
theorem C82_line_dofs (h : Setting close xs e none m F D V L) (a : ℕ) : a < D.count ↔ ∃ c ∈ L, ∃ p < nd1 e, val D c p = some a := by
  have hN : false = true → 3 ≤ xs.length := fun h => by cases h
  have hF := h.ready.uses.bis
  rw [C70_numbers_partial hN h.ready.uses]
  constructor
  · rintro ⟨c, hc, q, hq, hv⟩
    obtain ⟨c', g1, p, g2, g3⟩ := node_leaf hF h.cont hc hq
    have hc' := (h.mem c').2 g1
    have hv' := (h.row hc').2.2 p g2
    obtain ⟨x, x', k1, k2, k3⟩ := C70_shared_partial h.chain hN h.cont h.ready.uses c c' q p a _ hq g2 hv hv'
    have e1 := nodeX_place hF hc ⟨q, hq⟩
    have e2 := nodeX_place hF ((isLeaf_none c').1 g1).1 ⟨p, g2⟩
    have e3 : x = place (fun f => xs.getD f 0) (e := e) (c, ⟨q, hq⟩) := Option.some.inj (k1.symm.trans e1)
    have e4 : x' = place (fun f => xs.getD f 0) (e := e) (c', ⟨p, g2⟩) := Option.some.inj (k2.symm.trans e2)
    have : x = x' := by
      rw [e3, e4]
      exact g3.symm
    exact ⟨c', hc', p, g2, by rw [hv', k3.2 (.inl this)]⟩
  · rintro ⟨c, hc, p, hp, hv⟩
    exact ⟨c, ((isLeaf_none c).1 ((h.mem c).1 hc)).1, p, hp, hv⟩

/-- There are at most two Dirichlet dofs. -/
theorem ends_two (h : Setting close xs e none m F D V L) {dir : ℝ → Bool} {g : ℝ → ℝ} {d : List (ℕ × ℝ)} (hd : BndDict xs none F D dir g d) : d.length ≤ 2 := by
  classical
  obtain ⟨x0, hx0⟩ : ∃ x, xs.head? = some x := by
    cases hx : xs with
    | nil => have := h.two; rw [hx] at this; simp at this
    | cons a l => exact ⟨a, rfl⟩
  obtain ⟨x1, hx1⟩ : ∃ x, xs.getLast? = some x := by
    cases hx : xs.getLast? with
    | none => rw [List.getLast?_eq_none_iff] at hx; rw [hx] at hx0; cases hx0
    | some x => exact ⟨x, rfl⟩
  have hall : ∀ a ∈ (d.map (·.1)).toFinset, ∃ c i x, IsLeaf (inSub none) F c ∧ coord F c i = some x ∧ IsEnd xs x ∧ val D c i.1 = some a := by
    intro a ha
    obtain ⟨y, hy', rfl⟩ := List.mem_map.1 (List.mem_toFinset.1 ha)
    have hlk : ∃ v, Dir.look d y.1 = some v := by
      cases hl : Dir.look d y.1 with
      | some v => exact ⟨v, rfl⟩
      | none =>
        have := Option.map_eq_none_iff.1 hl
        rw [List.find?_eq_none] at this
        exact absurd (decide_eq_true rfl) (this y hy')
    obtain ⟨v, hv⟩ := hlk
    obtain ⟨c, i, x, k1, k2, k3, _, k4, _⟩ := (hd.2 y.1 v).1 hv
    exact ⟨c, i, x, k1, k2, k3, k4⟩
  choose! c i x g1 g2 g3 g4 using hall
  have hcard : (d.map (·.1)).toFinset.card ≤ ({x0, x1} : Finset ℝ).card := by
    refine Finset.card_le_card_of_injOn x (fun a ha => ?_) (fun a ha b hb hab => ?_)
    · rcases g3 a ha with q | q
      · rw [hx0] at q
        simp [Option.some.inj q]
      · rw [hx1] at q
        simp [Option.some.inj q]
    · have hb1 := g2 b hb
      rw [← hab] at hb1
      have q1 := h.atX (fun a => (a : ℝ)) ((h.mem _).2 (g1 a ha)) (g2 a ha)
      have q2 := h.atX (fun a => (a : ℝ)) ((h.mem _).2 (g1 b hb)) hb1
      have q3 : (dof D (c a) (i a) : ℝ) = dof D (c b) (i b) := q1.symm.trans q2
      have q4 : dof D (c a) (i a) = dof D (c b) (i b) := by exact_mod_cast q3
      have q5 : dof D (c a) (i a) = a := by simp [dof, g4 a ha]
      have q6 : dof D (c b) (i b) = b := by simp [dof, g4 b hb]
      rw [← q5, ← q6, q4]
  rw [List.toFinset_card_of_nodup hd.1, List.length_map] at hcard
  exact hcard.trans Finset.card_le_two

/-- **C82** (one dimension).  On the whole mesh, whatever the boundary conditions: with CPython's `list(set(..))`, `assemble` and `solve` do what they do when it is
sorted. -/
theorem C82_line (h : Setting close xs e none m F D V L) {dir : ℝ → Bool} {g : ℝ → ℝ} {d : List (ℕ × ℝ)} (hd : BndDict xs none F D dir g d)
    {k kf kn : Kernel ℝ} {mk : VX → Bool} {re : List (ℝ × ℝ)} {j : ℕ} {keep fuel} (y u : List ℝ) :
    Solved e k kf kn mk re j F D L d keep fuel pySet y u ↔ Solved e k kf kn mk re j F D L d keep fuel sortedSet y u := by
  classical
  refine C82_run (F := Finset.range D.count \ (d.map (·.1)).toFinset) (same1 _ _ _ _ _ _ _) (fun r => by rw [Bvp.uses2_iff h, Bvp.uses1_iff h]) (fun f => ?_)
    (fun x hx => ?_) y u
  · unfold Coupled
    have hfree : Asm.Free (consOf ([] : List (Linsys.Con ℝ)) d).hng (consOf [] d).dir f ↔ f ∉ d.map (·.1) := by
      unfold Asm.Free consOf
      simp only [Option.map_eq_none_iff, List.find?_eq_none, List.mem_map, not_exists, not_and, decide_eq_true_eq, List.find?_nil, Option.map_none, true_and]
    rw [Finset.mem_sdiff, Finset.mem_range, List.mem_toFinset, hfree, and_comm, C82_line_dofs h, and_congr_right_iff]
    intro _
    constructor
    · rintro ⟨c, hc, p, hp, hv⟩
      refine ⟨f, (Bvp.uses2_iff h k f).2 ⟨c, hc, p, hp, ?_⟩, .refl⟩
      rw [(h.row hc).2.2 p hp] at hv
      exact Option.some.inj hv
    · rintro ⟨r, hr, hre⟩
      obtain rfl := reach_nil hre
      obtain ⟨c, hc, p, hp, rfl⟩ := (Bvp.uses2_iff h k r).1 hr
      exact ⟨c, hc, p, hp, (h.row hc).2.2 p hp⟩
  · have h1 : x < D.count := Finset.mem_range.1 (Finset.mem_sdiff.1 hx).1
    have h2 := Finset.le_card_sdiff (d.map (·.1)).toFinset (Finset.range D.count)
    have h3 := List.toFinset_card_le (d.map (·.1))
    have h4 := ends_two h hd
    rw [List.length_map] at h3
    rw [Finset.card_range] at h2
    omega

/-- **C82** (one dimension, from the mesh to the answer).  Any mesh with any history, continuous elements, Dirichlet values on at least one end: everything
succeeds with CPython's `list(set(..))`, unless there is no free dof. -/
theorem C82_line_solves (hx : xs.IsChain (· < ·)) (hl : 2 ≤ xs.length) (he : torn e = false) {D0 : DH} {V0 : DV ℝ} (hu : UsesV close xs false e F D0 V0)
    {m : ℕ} (hm : nCells F ≤ m) (dir neu : ℝ → Bool) (g : ℝ → ℝ) {n : ℕ} {re : List (ℝ × ℝ)} (hre : Gauss.rule1 n = .ok re) (hn : deg e ≤ n) {k : Kernel ℝ} {S j : ℕ}
    (hS : sampleSize k = .ok S) (hk : ∀ x, InDom xs x → 0 < k.eval S x j) {z : ℝ} (hz : IsEnd xs z) (hdz : dir z = true) (keep : Bool) (kf kn : Kernel ℝ) :
    ∃ D V L md d mk, distributeV close false (inSub none) e F m D0 V0 = some (D, V) ∧ leaves1 (inSub none) F m = some L ∧
      markV dir true false (inSub none) F m (fun _ => false) = some md ∧
      addDirichletA (some md) true false (inSub none) F m e D V g [] = some d ∧
      markV neu true false (inSub none) F m (fun _ => false) = some mk ∧
      ((e ≠ .Q1 ∨ L.length ≠ 1 ∨ ∃ x, IsEnd xs x ∧ dir x = false) ↔ ∃ fuel y u, Solved e k kf kn mk re j F D L d keep fuel pySet y u) := by
  obtain ⟨D, V, L, md, d, mk, k1, k2, k3, k4, k5, k6, k7, k8⟩ := C72_setup hx hl he hu hm dir neu g
  refine ⟨D, V, L, md, d, mk, k1, k2, k3, k4, k5, ?_⟩
  rw [(C72_one_answer k6 hre hn hS hk k7 hz hdz keep kf kn mk sortedSet_spec.1 sortedSet_spec.2).1]
  simp only [C82_line k6 k7]

/-- **C82** (one dimension, convergence).  `C73_refine_converges` for CPython's `list(set(..))`. -/
theorem C82_line_converges {κ f : Polynomial ℝ} {dir neu : ℝ → Bool} {g gN : ℝ → ℝ} {a b : ℝ} {v v' : ℝ → ℝ} (hP : Problem a b κ f dir neu g gN v v')
    {ε : ℝ} (hε : 0 < ε) :
    ∃ R, ∀ (xs : List ℝ), xs.IsChain (· < ·) → 2 ≤ xs.length → xs.head? = some a → xs.getLast? = some b →
      ∀ (e : ET), torn e = false → ∀ (close : ℝ → ℝ → Bool) (F F' : List (Cell ℝ)) (D0 D : DH) (V0 V : DV ℝ) (r m : Nat) (L : List IN) (md mk : VX → Bool)
      (d : List (Nat × ℝ)) (n j S : Nat) (re : List (ℝ × ℝ)) (k kf kn : Kernel ℝ) (keep : Bool) (fuel : Nat) (y u : List ℝ),
      UsesV close xs false e F D0 V0 → R ≤ r → refineN r F = some F' → nCells F' ≤ m →
      distributeV close false (inSub none) e F' m D0 V0 = some (D, V) → leaves1 (inSub none) F' m = some L →
      markV dir true false (inSub none) F' m (fun _ => false) = some md → addDirichletA (some md) true false (inSub none) F' m e D V g [] = some d →
      markV neu true false (inSub none) F' m (fun _ => false) = some mk →
      Data xs e n j re k kf κ f → sampleSize kn = .ok S → (∀ x, IsEnd xs x → kn.eval S x j = gN x) →
      Solved e k kf kn mk re j F' D L d keep fuel pySet y u → ∀ c ∈ L, ∀ x, On F' c x → |fn e F' D u c x - v x| ≤ ε := by
  obtain ⟨R, hR⟩ := C73_refine_converges hP hε
  refine ⟨R, ?_⟩
  intro xs hx hl ha hb e he close F F' D0 D V0 V r m L md mk d n j S re k kf kn keep fuel y u hu hr hF hm h1 h2 h3 h4 h5 hd hS hkn hs
  obtain ⟨G, g1, g2, g3⟩ := C73_refine hx ha hb hu r
  rw [hF] at g1
  cases g1
  obtain ⟨D', V', L', md', d', mk', k1, k2, k3, k4, k5, k6, k7, k8⟩ := C72_setup hx hl he g2 hm dir neu g
  rw [h1] at k1
  cases k1
  rw [h2] at k2
  cases k2
  rw [h3] at k3
  cases k3
  rw [h4] at k4
  cases k4
  rw [h5] at k5
  cases k5
  exact hR xs hx hl ha hb e he close F F' D0 D V0 V r m L md mk d n j S re k kf kn keep fuel sortedSet y u hu hr hF hm h1 h2 h3 h4 h5 hd hS hkn
    sortedSet_spec.1 sortedSet_spec.2 ((C82_line k6 k7 y u).1 hs)

end
end Verif.PySet
