import Verif.Per.WalkP

/-!
# Sharing dofs on periodic meshes
-/

namespace Verif.Per
open Verif.Fem Verif.Mesh Verif.Dof

section
set_option linter.unusedSectionVars false
variable {K : Type} [Field K] {B : Base K} {s : St K} {pr : Pairs} {e : ET}

theorem vIdxP_eq (hB : B.WF) (hN : Nice B) (hs : MReach B s) {c : CN} (hc : CEx B.n s.kids c) (i : Fin 4) :
    vIdx s c (vert s c i) = some i := by
  have hi := hs.inv hB
  unfold vIdx
  refine find_four _ i ?_
  intro j
  obtain ⟨r, h1, h2, _⟩ := vert_eq hi hc j
  rw [hi.sides c hc]
  simp only [baseOf, h1, Option.map_some, decide_eq_true_eq, Option.some.injEq]
  rw [← h2]
  constructor
  · intro h
    exact at_vert hB hN hs hc (by rw [h]; exact vert_at hB hs hc i)
  · rintro rfl; rfl

/-- Assigning to a vertex that is at the point of corner `i`. -/
theorem assignVertex_ext (hB : B.WF) (hN : Nice B) (hs : MReach B s) (he : torn e = false) {c : CN} (hc : CEx B.n s.kids c) (i : Fin 4)
    {w : VN} (hw : At B w (rootPt c (E i 0))) (D : Dict) (a : Nat) :
    Ext e (fun l b => w = vert s c i ∧ l = (c, cpos e he i) ∧ b = a) D (assignVertex s e D c w [some a]) := by
  have hi := hs.inv hB
  by_cases hwi : w = vert s c i
  · unfold assignVertex
    rw [hwi, vIdxP_eq hB hN hs hc]
    simp only [dpv_one he]
    have := assignAt_ext (e := e) D c [(i.1, some a)] (by
      intro x hx
      rw [List.mem_singleton.1 hx]
      exact ⟨(cpos e he i).2, _, rfl⟩)
    refine Ext.congr ?_ (W := fun x b => x.1 = c ∧ (x.2.1, some b) ∈ [(i.1, some a)]) ?_
    · simpa using this
    · rintro ⟨x, p⟩ b
      simp only [List.mem_singleton, Prod.mk.injEq, Option.some.injEq, Fin.ext_iff, cpos]
      tauto
  · have : vIdx s c w = none := by
      unfold vIdx
      rw [List.find?_eq_none]
      intro j _
      obtain ⟨r, h1, h2, _⟩ := vert_eq hi hc j
      rw [hi.sides c hc]
      simp only [baseOf, h1, Option.map_some, decide_eq_true_eq, Option.some.injEq]
      rw [← h2]
      intro h
      have := at_vert hB hN hs hc (h ▸ hw)
      exact hwi (by rw [← this, h])
    unfold assignVertex
    rw [this]
    exact (touch_ext D c).congr (by intro l b; simp [hwi])

theorem topPl_of_up (he : torn e = false) {c : CN} {i : Fin 4} (h : upL e (c, cpos e he i) = none) : TopPl (c, i) := by
  obtain ⟨f, _ | ⟨k, p⟩⟩ := c
  · exact .inl rfl
  · refine .inr ⟨(f, p), k, rfl, ?_⟩
    intro hik
    simp only at hik
    subst hik
    have := (upL_iff e (f, p) i (cpos e he i) ((f, p), cpos e he i)).2 ⟨rfl, (inherit_iff e he i _ _).2 (by
      rw [node_cpos, emb_k]
      simp)⟩
    rw [show upL e ((f, i :: p), cpos e he i) = some _ from this] at h
    cases h

/-- `share_dofs_with_neighbors(cell, vertex)`. -/
theorem shareVP_spec (hB : B.WF) (hO : PerOk B) (hs : MReach B s) (hp : PInv B s pr) (he : torn e = false) {c : CN}
    (hc : CEx B.n s.kids c) {n : Nat} (hn : 4 * s.cells.length ≤ n) {w : Fin (nd2 e) → Nat} (i : Fin 4) :
    ∃ W : Loc e → Nat → Prop,
      (∀ l a, W l a → l ≠ (c, cpos e he i) ∧ Relation.EqvGen (Adj B (CEx B.n s.kids) e) (c, cpos e he i) l ∧ a = w (cpos e he i)) ∧
      (upL e (c, cpos e he i) = none → ∀ l, l ≠ (c, cpos e he i) →
        Relation.EqvGen (Adj B (CEx B.n s.kids) e) (c, cpos e he i) l → W l (w (cpos e he i))) ∧
      ∀ D, Row e c w D → ∃ D', shareVP s pr e n c D i = some D' ∧ Ext e W D D' := by
  have hi := hs.inv hB
  have hN := hO.toNice
  have hG := geoP hB hN hi
  obtain ⟨l, hl, l1, l3, l2⟩ := nbsP_spec hB hO hs hp c i hc n hn
  have hco : ∀ z ∈ l, Co B s (c, i) z := fun z hz => conn_co hB hN hi hc (l3 z hz)
  have cinj : ∀ i j, cpos e he i = cpos e he j → i = j := by
    intro i j h
    have := congrArg (node e ·.1) h
    simp only [node_cpos] at this
    exact E_zero this
  have fadj : ∀ a b, fwd B s a = some b → Adj B (CEx B.n s.kids) e (a.1, cpos e he a.2) (b.1, cpos e he b.2) := by
    intro a b h
    obtain ⟨g1, g2, g3⟩ := (fwd_iff a b).1 h
    refine ⟨g1, g2, a.2 + 3, b.2, 1, by norm_num, le_refl _, g3, ?_, ?_⟩
    · simp only [pt]
      rw [node_cpos, E_next, fin4_l]
    · simp only [pt]
      rw [node_cpos]
      exact congrArg (E _) (by norm_num)
  have eadj : ∀ a b, Relation.EqvGen (fun a b => fwd B s a = some b) a b →
      Relation.EqvGen (Adj B (CEx B.n s.kids) e) (a.1, cpos e he a.2) (b.1, cpos e he b.2) := by
    intro a b h
    induction h with
    | rel a b h => exact .rel _ _ (fadj a b h)
    | refl a => exact .refl _
    | symm a b _ ih => exact .symm _ _ ih
    | trans a b c _ _ ih1 ih2 => exact .trans _ _ _ ih1 ih2
  refine ⟨fun x a => ∃ z ∈ l, ∃ u ∈ recv pr (vert s c i) z.1, u = vert s z.1 z.2 ∧ x = (z.1, cpos e he z.2) ∧
    a = w (cpos e he i), ?_, ?_, ?_⟩
  · rintro x a ⟨z, hz, u, _, _, rfl, rfl⟩
    refine ⟨?_, eadj _ _ (l3 z hz), rfl⟩
    intro h
    simp only [Prod.mk.injEq] at h
    have : z = (c, i) := Prod.ext h.1 (cinj _ _ h.2)
    exact l1 (this ▸ hz)
  · intro hu x hx hxx
    have ht := topPl_of_up he hu
    obtain ⟨z, hz, rfl⟩ := (orbit_locs hG he c i l l1 (l2 ht) l3 x).2 ⟨hxx, hx⟩
    refine ⟨z, hz, vert s z.1 z.2, ?_, rfl, rfl, rfl⟩
    unfold recv
    rcases around hB hO hs hp ht hc (hco z hz) with h | ⟨h, h'⟩
    · rw [if_neg (List.ne_nil_of_mem h)]
      exact List.mem_map.2 ⟨_, List.mem_filter.2 ⟨h, by simp⟩, rfl⟩
    · simp only at h h'
      rw [if_pos h, h']
      simp
  · intro D hD
    obtain ⟨row, hr, hlen, hpp⟩ := hD.row
    have hv : baseOf s (s.sides c i) = some (vert s c i) := by
      obtain ⟨r, g1, g2, _⟩ := vert_eq hi hc i
      rw [hi.sides c hc]
      simp [baseOf, g1, g2]
    have hds : vertexDofs e row i = [some (w (cpos e he i))] := by
      unfold vertexDofs
      rw [dpv_one he, Nat.mul_one]
      have : row[i.1]? = some (some (w (cpos e he i))) := hpp (cpos e he i)
      obtain ⟨hlt, hx⟩ := List.getElem?_eq_some_iff.1 this
      rw [List.drop_eq_getElem_cons hlt]
      simp only [List.take_succ_cons, List.take_zero]
      exact congrArg (fun x => [x]) hx
    refine ⟨(l.map Prod.fst).foldl (fun D d => (recv pr (vert s c i) d).foldl
      (fun D u => assignVertex s e D d u [some (w (cpos e he i))]) D) D, ?_, ?_⟩
    · unfold shareVP
      rw [hv, hr]
      simp only [vIdxP_eq hB hN hs hc i, hds, hl]
      rw [if_neg (by simp)]
    · rw [List.foldl_map]
      refine (foldl_ext (c := c) (w := w) (fun D (z : CN × Fin 4) => (recv pr (vert s c i) z.1).foldl
        (fun D u => assignVertex s e D z.1 u [some (w (cpos e he i))]) D)
        (fun z x a => ∃ u ∈ recv pr (vert s c i) z.1, u = vert s z.1 z.2 ∧ x = (z.1, cpos e he z.2) ∧ a = w (cpos e he i)) l ?_
        D hD)
      intro z hz D' hD'
      refine foldl_ext (c := c) (w := w) (fun D u => assignVertex s e D z.1 u [some (w (cpos e he i))])
        (fun u x a => u = vert s z.1 z.2 ∧ x = (z.1, cpos e he z.2) ∧ a = w (cpos e he i)) _ ?_ D' hD'
      intro u hu D'' _
      refine assignVertex_ext hB hN hs he (hco z hz).1 z.2 ?_ D'' _
      -- the vertex is at the point
      have hvz : At B (vert s c i) (rootPt z.1 (E z.2 0)) := (vert_at hB hs hc i).same (cls_iff.1 (hco z hz).2.2)
      unfold recv at hu
      split_ifs at hu with h
      · rw [List.mem_singleton.1 hu]; exact hvz
      · obtain ⟨y, hy, rfl⟩ := List.mem_map.1 hu
        obtain ⟨hy1, hy2⟩ := List.mem_filter.1 hy
        obtain ⟨g1, j, g2, g3⟩ := hp.sound _ _ hy1
        rw [g2]
        exact (vert_at hB hs g1 j).same (SamePt.symm' (g3 _ hvz))

/-- `share_dofs_with_neighbors(cell)`. -/
theorem shareNP_spec (hB : B.WF) (hO : PerOk B) (hs : MReach B s) (hp : PInv B s pr) (he : torn e = false) {c : CN}
    (hc : CEx B.n s.kids c) {n : Nat} (hn : 4 * s.cells.length ≤ n) {w : Fin (nd2 e) → Nat} :
    ∃ W : Loc e → Nat → Prop,
      (∀ l a, W l a → ∃ p, l ≠ (c, p) ∧ Relation.EqvGen (Adj B (CEx B.n s.kids) e) (c, p) l ∧ a = w p) ∧
      (∀ p l, upL e (c, p) = none → l ≠ (c, p) → Relation.EqvGen (Adj B (CEx B.n s.kids) e) (c, p) l → W l (w p)) ∧
      ∀ D, Row e c w D → ∃ D', shareNP s pr e n c D = some D' ∧ Ext e W D D' := by
  have hi := hs.inv hB
  have hG := geoP hB hO.toNice hi
  choose W hW1 hW2 hW3 using fun i => shareVP_spec (w := w) hB hO hs hp he hc hn i
  refine ⟨fun l a => (∃ i ∈ four, W i l a) ∨ ∃ i ∈ four, ∃ m, Adj B (CEx B.n s.kids) e (c, epos e i m) l ∧ a = w (epos e i m),
    ?_, ?_, ?_⟩
  · rintro l a (⟨i, _, h⟩ | ⟨i, _, m, g1, rfl⟩)
    · obtain ⟨h1, h2, h3⟩ := hW1 i l a h
      exact ⟨_, h1, h2, h3⟩
    · refine ⟨_, ?_, .rel _ _ g1, rfl⟩
      rintro rfl
      obtain ⟨_, _, i', j', r, _, _, hv, _⟩ := g1
      exact no_self hG hc i' j' hv
  · intro p l hu hne g1
    rcases adj_class hG e g1 with rfl | ⟨n1, _, g2⟩ | ⟨i, j, e1, _⟩
    · exact absurd rfl hne
    · right
      have g3 := g2
      obtain ⟨_, _, i', j', r, _, _, hv, e1, _⟩ := g2
      simp only [pt] at e1
      obtain ⟨m, rfl⟩ := edge_node e i' p r e1 n1
      exact ⟨i', four_mem i', m, g3, rfl⟩
    · left
      have : p = cpos e he i := node_eq (by rw [node_cpos]; exact e1)
      subst this
      exact ⟨i, four_mem i, hW2 i hu l hne g1⟩
  · intro D h
    obtain ⟨D1, h1, x1⟩ := foldlM_ext (c := c) (w := w) (shareVP s pr e n c) W four (fun i _ D hD => hW3 i D hD) D h
    obtain ⟨D2, h2, x2⟩ := foldlM_ext (c := c) (w := w) (shareE s e c) _ four
      (fun i _ D hD => shareE_spec hi hc i D hD) D1 (h.ext x1)
    exact ⟨D2, by rw [shareNP, h1]; exact h2, x1.trans x2⟩

/-- A cell is not its own neighbour. -/
theorem ownNb_false (hB : B.WF) (hN : Nice B) (hs : MReach B s) {c : CN} (hc : CEx B.n s.kids c) : ownNb s c = false := by
  have hi := hs.inv hB
  have hG := geoP hB hN hi
  unfold ownNb
  rw [List.any_eq_false]
  intro i _
  rw [hi.sides c hc, decide_eq_true_eq]
  intro h
  obtain ⟨t, h1, h2, _⟩ := (getNb_iff hi false (by rw [hi.ex, owner_side]; exact hc) c).1 h
  have : t = side c (owner t).2 := by rw [← h2, side_owner]
  rw [this] at h1
  exact no_self hG hc _ _ h1

/-- One round of the loop of `distribute_dofs`. -/
theorem processP_spec (hB : B.WF) (hO : PerOk B) (hs : MReach B s) (hp : PInv B s pr) (sf : Bool) {n : Nat}
    (hn : 4 * s.cells.length ≤ n) (c : CN) (D : DH) (hc : CEx B.n s.kids c) (hl : Len e D.dofs) :
    ∃ D', processP sf s pr e n D c = some D' ∧ Len e D'.dofs ∧
      Eff (sysOf (geoP hB hO.toNice (hs.inv hB)) e) c (hasCh sf s c) (vOf D.dofs) (vOf D'.dofs) D.count D'.count := by
  have hi := hs.inv hB
  have hG := geoP hB hO.toNice hi
  obtain ⟨w, hrow⟩ := fill_row (c := c) D hl
  obtain ⟨D2, W, h2, x2, hW, hW'⟩ : ∃ D2 W,
      (if torn e then some (fill e D c).dofs else shareNP s pr e n c (fill e D c).dofs) = some D2 ∧
      Ext e W (fill e D c).dofs D2 ∧ (∀ l a, W l a → ∃ p, l ≠ (c, p) ∧ (sysOf hG e).nb (c, p) l ∧ a = w p) ∧
      (∀ p l, upL e (c, p) = none → l ≠ (c, p) → (sysOf hG e).nb (c, p) l → W l (w p)) := by
    by_cases he : torn e = false
    · rw [if_neg (by simp [he])]
      have hs' : sysOf hG e = contSys hG e he := by unfold sysOf; rw [dif_pos he]
      rw [hs']
      obtain ⟨W, h1, h2, h3⟩ := shareNP_spec (w := w) hB hO hs hp he hc hn
      obtain ⟨D2, g1, g2⟩ := h3 _ hrow
      exact ⟨D2, W, g1, g2, h1, h2⟩
    · have hs' : sysOf hG e = tornSys e := by unfold sysOf; rw [dif_neg he]
      rw [if_pos (by simpa using he), hs']
      refine ⟨_, fun _ _ => False, rfl, Ext.refl _, fun l a h => h.elim, ?_⟩
      intro p l _ hne h
      exact hne (show (c, p) = l from h).symm
  obtain ⟨D3, h3, h4, h5⟩ := proc_gen hG (hasCh sf s c) D hl hrow x2 hW hW'
  refine ⟨⟨D3, (fill e D c).count⟩, ?_, h4, h5⟩
  unfold processP fillP
  rw [ownNb_false hB hO.toNice hs hc]
  simp only [Bool.false_eq_true, and_false, if_false, Option.bind_some, h2, h3, Option.map_some]

/-! ### Distribution -/

theorem distP_some {sf : Bool} {n : Nat} {D D' : DH} {L : List CN} (h : distP sf B.n s pr e n D = some D')
    (hL : cellsBF sf B.n s n = some L) : L.foldlM (processP sf s pr e n) D = some D' := by
  unfold distP at h
  rw [hL] at h
  simp only [Option.bind_some] at h
  split_ifs at h
  exact h

theorem PUses.reach {D : DH} (h : PUses B e s pr D) : PReach B s pr := by
  induction h with
  | new s pr h => exact h
  | split s s' pr pr' D c sf _ h1 h2 h3 h4 ih => exact .split s s' pr pr' c sf ih h1 h2 h3 h4
  | mark s pr D m _ ih => exact .mark s pr m ih
  | perm s pr pr' D _ h ih => exact .perm s pr pr' ih h
  | dist s pr D D' sf n _ _ _ _ ih => exact ih

theorem PFixed.uses {D : DH} (h : PFixed B e s pr D) : PUses B e s pr D := by
  induction h with
  | new s pr h => exact .new s pr h
  | mark s pr D m _ ih => exact .mark s pr D m ih
  | perm s pr pr' D _ h ih => exact .perm s pr pr' D ih h
  | dist s pr D D' sf n _ h1 h2 h3 ih => exact .dist s pr D D' sf n ih h1 h2 h3

end

end Verif.Per
