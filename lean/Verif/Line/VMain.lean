import Verif.Line.Ends
import Verif.Dir.Assembler

/-!
# C71: dof vertices, regions and Dirichlet conditions on one-dimensional meshes

`UsesV close xs per e F D V`: the mesh is `F`, the dof handler `D`, its dof vertices `V`, after some history of refinements, flags,
distributions and calls of `set_dof_vertices`.
-/

namespace Verif.Line
open Verif.Fem Verif.OneD Verif.Geom
open Verif.Dof (allSome allSome_some)
open Verif.Dir (dictSet look look_mem look_set set_nodup fold_set)

section
set_option linter.unusedSectionVars false
variable {K : Type} [Field K] [LinearOrder K] [IsStrictOrderedRing K]
variable {close : K → K → Bool} {xs : List K} {per : Bool} {e : ET} {F : List (Cell K)} {D : DH} {V : DV K}

/-! ### Vertices of dofs -/

/-- C71, soundness: in every history the vertex that `get_dof_vertices` returns for a dof is the node of every cell that has the dof. -/
theorem C71_vertex (hx : xs.IsChain (· < ·)) (hN : per = true → 3 ≤ xs.length) (h : UsesV close xs per e F D V) {a : Nat} {x : K}
    (hv : getVert V a = some x) (c : IN) (p : Nat) (hp : p < nd1 e) (ha : val D c p = some a) :
    ∃ y, nodeX F e c p = some y ∧ SamePt xs per y x := by
  have hN' : per = true → 2 ≤ xs.length - 1 := fun hp => by have := hN hp; omega
  obtain ⟨d, q, h1, h2⟩ := getVert_mem (h.inv hN) hv
  have hd := (h.uses.inv hN').2.2 (d, q) (by show val D d q ≠ none; rw [h1]; simp)
  have e2 := nodeX_place h.uses.bis hd q
  rw [← h2] at e2
  rcases he : torn e with _ | _
  · obtain ⟨y, y', g1, g2, g3⟩ := C70_shared_partial hx hN he h.uses c d p q a a hp q.2 ha h1
    rw [e2] at g2
    cases g2
    exact ⟨y, g1, g3.1 rfl⟩
  · have := (C70_torn hN he h.uses c d p q a hp q.2 ha h1).2.2
    rw [e2] at this
    exact ⟨x, this, .inl rfl⟩

theorem rows_ex (hN : per = true → 3 ≤ xs.length) (h : Uses xs per e F D) {D' : DH} (sf : Option Nat) (n : Nat) (hn : nCells F ≤ n)
    (hR : Rooted (inSub sf) F) (hd : distribute per (inSub sf) e F n D = some D') (c : IN) (hc : mkAt (inSub sf) F c = true) :
    ∃ row, rowOf D' c = some row := by
  have hN' : per = true → 2 ≤ xs.length - 1 := fun hp => by have := hN hp; omega
  have hu' : Uses xs per e F D' := .dist F D D' sf n h hR hn hd
  obtain ⟨t, ht⟩ := Option.isSome_iff_exists.1 (mkAt_ex hc)
  have hm : inSub sf t.data = true := by simpa [mkAt, ht] using hc
  exact rowOf_ex (hu'.inv hN').1 (fun p hp => by
    obtain ⟨a, ha⟩ := C70_complete hN h sf n hn hd c t ht hm p hp
    rw [ha]; simp)

/-- C71, no failure: `distribute_dofs`, with the dof vertices, returns after any history. -/
theorem C71_terminates (hN : per = true → 3 ≤ xs.length) (h : UsesV close xs per e F D V) (sf : Option Nat) (n : Nat) (hn : nCells F ≤ n)
    (hR : Rooted (inSub sf) F) : ∃ D' V', distributeV close per (inSub sf) e F n D V = some (D', V') := by
  obtain ⟨D', hd⟩ := C70_terminates hN h.uses sf n hn
  have hrow := rows_ex hN h.uses sf n hn hR hd
  obtain ⟨l, hl⟩ := leafDofs_ex (D := D') h.uses.bis hn (mk := inSub sf) (fun c hc => hrow c hc.1)
  obtain ⟨L, q1, _, q3⟩ := cellsDF_spec h.uses.bis (inSub sf) n hn
  obtain ⟨V', hV'⟩ := visits_ex (close := close) (F := F) (e := e) (D := D') L (fun c hc => hrow c ((q3 c).1 hc)) V
  unfold distributeV
  rw [hd, Option.bind_some]
  unfold setVerts
  rw [hl, Option.bind_some]
  split_ifs
  · exact ⟨D', V, rfl⟩
  · rw [q1, Option.bind_some, hV']
    exact ⟨D', V', rfl⟩

theorem distV_some {sf : Option Nat} {n : Nat} {D' : DH} {V' : DV K} (h : distributeV close per (inSub sf) e F n D V = some (D', V')) :
    distribute per (inSub sf) e F n D = some D' ∧ setVerts close (inSub sf) F e n D' V = some V' := by
  unfold distributeV at h
  obtain ⟨D1, g1, g2⟩ := Option.bind_eq_some_iff.1 h
  obtain ⟨V1, g3, g4⟩ := Option.map_eq_some_iff.1 g2
  cases g4
  exact ⟨g1, g3⟩

/-- Every dof of a cell is a dof of a leaf below it (continuous elements, the whole mesh). -/
theorem to_leaf (hx : xs.IsChain (· < ·)) (hN : per = true → 3 ≤ xs.length) (he : torn e = false) (h : Uses xs per e F D)
    (hall : ∀ c, Ex F c → ∀ p < nd1 e, ∃ a, val D c p = some a) : ∀ (n : Nat) (c : IN), szAt F c ≤ n → Ex F c → ∀ (p : Fin (nd1 e)) (a : Nat),
    val D c p = some a → ∃ c', IsLeaf (inSub none) F c' ∧ ∃ p' < nd1 e, val D c' p' = some a := by
  intro n
  induction n with
  | zero =>
    intro c hn hc
    have := szAt_pos hc
    omega
  | succ n ih =>
    intro c hn hc p a ha
    rcases hk : kidsAt F c with _ | _
    · refine ⟨c, ⟨?_, ?_⟩, p, p.2, ha⟩
      · obtain ⟨t, ht⟩ := Option.isSome_iff_exists.1 hc
        simp [mkAt, ht, inSub]
      · exact hk
    · have hr := node_range e p p.2
      obtain ⟨k, hk1, hk2⟩ : ∃ k : Fin 2, (k.1 : ℚ) / 2 ≤ node e p ∧ node e p ≤ ((k.1 : ℚ) + 1) / 2 := by
        rcases le_total (node e p) (1 / 2) with hle | hle
        · exact ⟨0, by simpa using hr.1, by simpa using hle⟩
        · exact ⟨1, by simpa using hle, by simpa using hr.2⟩
      obtain ⟨q, hq, hpq⟩ := node_nest e he k p p.2 hk1 hk2
      have hcx := (ex_child h.bis c k).2 hk
      obtain ⟨b, hb⟩ := hall _ hcx q hq
      obtain ⟨x, x', g1, g2, g3⟩ := C70_shared_partial hx hN he h (child c k) c q p b a hq p.2 hb ha
      rw [nodeX_place h.bis hcx ⟨q, hq⟩] at g1
      rw [nodeX_place h.bis hc p] at g2
      have hpl : place (fun f => xs.getD f 0) (child c k, (⟨q, hq⟩ : Fin (nd1 e))) = place (fun f => xs.getD f 0) (c, p) := by
        unfold place
        rw [pos_emb, ← hpq]
      rw [hpl] at g1
      have : x = x' := by rw [g1] at g2; exact Option.some.inj g2
      have hab := g3.2 (.inl this)
      have hsz := szAt_kids h.bis hk
      have hsz' : szAt F (child c k) ≤ n := by
        have h0 := szAt_pos hcx
        fin_cases k
        · show szAt F (child c 0) ≤ n
          omega
        · show szAt F (child c 1) ≤ n
          omega
      exact ih _ hsz' hcx ⟨q, hq⟩ a (hab ▸ hb)

/-- C71, completeness (first distribution): all dofs of the (sub)mesh get a vertex. -/
theorem C71_complete_first_partial (hN : per = true → 3 ≤ xs.length) (h : UsesV close xs per e F D V) (hV : V.keys = []) (sf : Option Nat) (n : Nat)
    (hn : nCells F ≤ n) (hR : Rooted (inSub sf) F) {D' : DH} {V' : DV K} (hd : distributeV close per (inSub sf) e F n D V = some (D', V')) (c : IN) (t : Cell K)
    (hc : cellAt F c = some t) (hm : inSub sf t.data = true) (p : Nat) (hp : p < nd1 e) :
    ∃ a x, val D' c p = some a ∧ getVert V' a = some x := by
  have hN' : per = true → 2 ≤ xs.length - 1 := fun hp => by have := hN hp; omega
  obtain ⟨d1, d2⟩ := distV_some hd
  obtain ⟨a, ha⟩ := C70_complete hN h.uses sf n hn d1 c t hc hm p hp
  have hu' : UsesV close xs per e F D' V' := .dist F D D' V V' sf n h hR hn hd
  have hl := (hu'.uses.inv hN').1
  have hmk : mkAt (inSub sf) F c = true := by simp [mkAt, hc, hm]
  obtain ⟨_, _, l, hl1, hl2⟩ := setVerts_spec h.uses.bis hl hn d2
  have hkey : a ∈ V'.keys := by
    rcases hl2 with ⟨hle, hVV⟩ | hl2
    · exfalso
      rw [hV] at hle
      have hl0 : l = [] := List.length_eq_zero_iff.1 (Nat.le_zero.1 hle)
      -- a leaf below `c`
      have leaf : ∀ (n : Nat) (c : IN), szAt F c ≤ n → mkAt (inSub sf) F c = true → ∃ c', IsLeaf (inSub sf) F c' := by
        intro n
        induction n with
        | zero => intro c h1 h2; have := szAt_pos (mkAt_ex h2); omega
        | succ n ih =>
          intro c h1 h2
          rcases hk : hasCh (inSub sf) F c with _ | _
          · exact ⟨c, h2, hk⟩
          · obtain ⟨k, hk'⟩ := (hasCh_iff h.uses.bis _ c).1 hk
            have hkk : kidsAt F c = true := (ex_child h.uses.bis c k).1 (mkAt_ex hk')
            have hsz := szAt_kids h.uses.bis hkk
            refine ih (child c k) ?_ hk'
            have h0 := szAt_pos ((ex_child h.uses.bis c 0).2 hkk)
            have h3 := szAt_pos ((ex_child h.uses.bis c 1).2 hkk)
            fin_cases k
            · show szAt F (child c 0) ≤ n
              omega
            · show szAt F (child c 1) ≤ n
              omega
      obtain ⟨c', hc'⟩ := leaf _ c le_rfl hmk
      obtain ⟨row, hrow⟩ := rows_ex hN h.uses sf n hn hR d1 c' hc'.1
      have hlen := rowOf_len hl hrow
      obtain ⟨b, hb⟩ : ∃ b, row[0]? = some b := ⟨_, List.getElem?_eq_getElem (by rw [hlen]; exact nd1_pos e)⟩
      have : b ∈ l := ((leafDofs_some h.uses.bis hl hn hl1).2 b).2 ⟨c', hc', 0, nd1_pos e, (rowOf_val hrow 0 b).1 hb⟩
      rw [hl0] at this
      cases this
    · obtain ⟨row, hr1, hr2⟩ := hl2 c hmk
      exact hr2 a ((rowOf_mem hl hr1 a).2 ⟨p, hp, ha⟩)
  obtain ⟨x, hx⟩ := getVert_ex (hu'.inv hN) hkey
  exact ⟨a, x, ha, hx⟩

/-- C71, completeness (continuous elements, the whole mesh): in every history, refinement between distributions included, after
`distribute_dofs()` every dof of every cell has a vertex: the node of the cell. -/
theorem C71_complete_partial (hx : xs.IsChain (· < ·)) (hN : per = true → 3 ≤ xs.length) (he : torn e = false) (h : UsesV close xs per e F D V) (n : Nat)
    (hn : nCells F ≤ n) {D' : DH} {V' : DV K} (hd : distributeV close per (inSub none) e F n D V = some (D', V')) (c : IN)
    (hc : (cellAt F c).isSome) (p : Nat) (hp : p < nd1 e) :
    ∃ a x y, val D' c p = some a ∧ getVert V' a = some x ∧ nodeX F e c p = some y ∧ SamePt xs per y x := by
  have hN' : per = true → 2 ≤ xs.length - 1 := fun hp => by have := hN hp; omega
  have hR : Rooted (inSub none) F := by
    intro c k hm
    have hcx := ex_parent (mkAt_ex hm)
    obtain ⟨t, ht⟩ := Option.isSome_iff_exists.1 hcx
    simp [mkAt, ht, inSub]
  obtain ⟨d1, d2⟩ := distV_some hd
  have hu' : UsesV close xs per e F D' V' := .dist F D D' V V' none n h hR hn hd
  have hl := (hu'.uses.inv hN').1
  have hall : ∀ c, Ex F c → ∀ p < nd1 e, ∃ a, val D' c p = some a := by
    intro c hc p hp
    obtain ⟨t, ht⟩ := Option.isSome_iff_exists.1 hc
    exact C70_complete hN h.uses none n hn d1 c t ht rfl p hp
  obtain ⟨a, ha⟩ := hall c hc p hp
  obtain ⟨_, _, l, hl1, hl2⟩ := setVerts_spec h.uses.bis hl hn d2
  have hkey : a ∈ V'.keys := by
    rcases hl2 with ⟨hle, rfl⟩ | hl2
    · obtain ⟨n1, n2⟩ := leafDofs_some h.uses.bis hl hn hl1
      have hdown := to_leaf hx hN he hu'.uses hall
      have hsub : V'.keys ⊆ l := by
        intro b hb
        obtain ⟨z, hz⟩ := getVert_ex (hu'.inv hN) hb
        obtain ⟨d, q, g1, _⟩ := getVert_mem (hu'.inv hN) hz
        have hdx := (hu'.uses.inv hN').2.2 (d, q) (by show val D' d q ≠ none; rw [g1]; simp)
        exact (n2 b).2 (hdown _ d le_rfl hdx q b g1)
      have hperm := (List.subperm_of_subset (hu'.inv hN).nd hsub).perm_of_length_le hle
      exact hperm.mem_iff.2 ((n2 a).2 (hdown _ c le_rfl hc ⟨p, hp⟩ a ha))
    · obtain ⟨t, ht⟩ := Option.isSome_iff_exists.1 hc
      obtain ⟨row, hr1, hr2⟩ := hl2 c (by simp [mkAt, ht, inSub])
      exact hr2 a ((rowOf_mem hl hr1 a).2 ⟨p, hp, ha⟩)
  obtain ⟨x, hvx⟩ := getVert_ex (hu'.inv hN) hkey
  obtain ⟨y, hy1, hy2⟩ := C71_vertex hx hN hu' hvx c p hp ha
  exact ⟨a, x, y, ha, hvx, hy1, hy2⟩

end
end Verif.Line
