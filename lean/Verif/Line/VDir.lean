import Verif.Line.VMain

/-!
# C71: regions and Dirichlet conditions on one-dimensional meshes
-/

namespace Verif.Line
open Verif.Fem Verif.OneD Verif.Geom
open Verif.Dof (allSome allSome_some)
open Verif.Dir (dictSet look look_mem look_set set_nodup fold_set)

/-- Specification: vertex `i` of the leaf `c` lies at `x`, carries the marker `m`, and is an end of the mesh if `bnd`. -/
def InRegion {K : Type} [Field K] [LinearOrder K] (xs : List K) (m : Option (VX → Bool)) (bnd : Bool) (mk : Itv K → Bool) (F : List (Cell K)) (c : IN)
    (i : Fin 2) (x : K) : Prop :=
  IsLeaf mk F c ∧ coord F c i = some x ∧ (∀ m', m = some m' → m' (vertOf c i) = true) ∧ (bnd = true → xs.head? = some x ∨ xs.getLast? = some x)

theorem want_iff (m : Option (VX → Bool)) (v : VX) : want m v = true ↔ ∀ m', m = some m' → m' v = true := by
  cases m <;> simp [want]

section
set_option linter.unusedSectionVars false
variable {K : Type} [Field K] [LinearOrder K] [IsStrictOrderedRing K]
variable {close : K → K → Bool} {xs : List K} {per : Bool} {e : ET} {F : List (Cell K)} {D : DH} {V : DV K}

theorem Uses.ops (h : Uses xs per e F D) : ∃ ops, F = run (roots xs) ops := by
  induction h with
  | new ops => exact ⟨ops, rfl⟩
  | split F D c _ _ _ ih => obtain ⟨ops, rfl⟩ := ih; exact ⟨ops ++ [.split (pathOf c)], by simp [run]⟩
  | mark F D c f _ ih => obtain ⟨ops, rfl⟩ := ih; exact ⟨ops ++ [.mark (pathOf c) f], by simp [run]⟩
  | unmark F D c f _ ih => obtain ⟨ops, rfl⟩ := ih; exact ⟨ops ++ [.unmark (pathOf c) f], by simp [run]⟩
  | dist F D D' sf n _ _ _ _ ih => exact ih

theorem closed_at {mk : Itv K → Bool} (h : Submesh mk F) : ∀ (c : IN) (t : Cell K), cellAt F c = some t → Closed mk t := by
  rintro ⟨f, p⟩
  induction p with
  | nil => intro t ht; exact (h t (List.mem_of_getElem? ht)).2
  | cons k p ih =>
    intro t ht
    have ht' : cellAt F (child (f, p) k) = some t := ht
    rw [cellAt_child] at ht'
    obtain ⟨s, h1, h2⟩ := Option.bind_eq_some_iff.1 ht'
    cases ih s h1 with
    | node d ks _ _ below => exact below t (List.mem_of_getElem? h2)

theorem submesh_rooted {mk : Itv K → Bool} (h : Submesh mk F) : Rooted mk F := by
  intro c k hm
  unfold mkAt at hm
  rw [cellAt_child] at hm
  rcases hc : cellAt F c with _ | s
  · rw [hc] at hm; cases hm
  · rw [hc, Option.bind_some] at hm
    rcases hk : s.kids[k.1]? with _ | t
    · rw [hk] at hm; cases hm
    · rw [hk] at hm
      have hm' : mk t.data = true := hm
      cases closed_at h c s hc with
      | node d ks up _ _ =>
        unfold mkAt
        rw [hc]
        refine up ?_
        show (GTree.kids _).any _ = true
        exact List.any_eq_true.2 ⟨t, List.mem_of_getElem? hk, hm'⟩

/-- C71: two vertices of cells are one object exactly if they have the same coordinates. -/
theorem C71_same_vertex (hx : xs.IsChain (· < ·)) (h : Uses xs per e F D) (c c' : IN) (i j : Fin 2) (x y : K) (hc : coord F c i = some x)
    (hc' : coord F c' j = some y) : vertOf c i = vertOf c' j ↔ x = y := by
  have hX := chain_inc hx
  have cx : ∀ {c : IN} {i : Fin 2} {x : K}, coord F c i = some x → Ex F c := by
    intro c i x h
    obtain ⟨t, ht, _⟩ := Option.map_eq_some_iff.1 h
    exact Option.isSome_iff_exists.2 ⟨t, ht⟩
  rw [vert_inj hX (ex_lt h.bis (cx hc)) (ex_lt h.bis (cx hc')) i j, vpos_vertOf, vpos_vertOf]
  rw [coord_box h.bis (cx hc)] at hc
  rw [coord_box h.bis (cx hc')] at hc'
  rw [Option.some.inj hc, Option.some.inj hc']

theorem coord_vpos (h : Uses xs per e F D) {c : IN} (hc : Ex F c) (i : Fin 2) :
    coord F c i = some (vpos (fun f => xs.getD f 0) (vertOf c i)) := by
  rw [coord_box h.bis hc, vpos_vertOf]

theorem head_iff {c : IN} (h : Uses xs per e F D) (hc : Ex F c) (z : K) :
    (xs.head? = some z ∨ xs.getLast? = some z) ↔ z = xs.getD 0 0 ∨ z = xs.getD (xs.length - 1) 0 := by
  have hx := uses_ne h hc
  have h0 : xs.head? = some z ↔ z = xs.getD 0 0 := by
    obtain ⟨a, l, rfl⟩ := List.exists_cons_of_ne_nil hx
    simp [eq_comm]
  have h1 : xs.getLast? = some z ↔ z = xs.getD (xs.length - 1) 0 := by
    have hl : xs.length - 1 < xs.length := by
      have := List.length_pos_of_ne_nil hx; omega
    rw [List.getLast?_eq_getElem?, List.getD_eq_getElem?_getD, List.getElem?_eq_getElem hl]
    simp [eq_comm]
  rw [h0, h1]

/-- C71: `Mesh1D.get_region(flag, 'vertex', on_boundary, subforest_flag, return_cells=True)`. -/
theorem C71_region_partial (hx : xs.IsChain (· < ·)) (hl : 2 ≤ xs.length) (h : Uses xs per e F D) (sf : Option Nat) (hs : Submesh (inSub sf) F)
    (n : Nat) (hn : nCells F ≤ n) (m : Option (VX → Bool)) (bnd : Bool) (hb : bnd = true → per = false) :
    ∃ R, regionV m bnd per (inSub sf) F n = some R ∧ ∀ v c, (v, c) ∈ R ↔ ∃ i x, v = vertOf c i ∧ InRegion xs m bnd (inSub sf) F c i x := by
  have hX := chain_inc hx
  obtain ⟨L, q1, q2, q3⟩ := leaves1_spec h.bis (inSub sf) n hn
  have hmem : ∀ (v : VX) (c d : IN), (v, c) ∈ ends2 d ↔ c = d ∧ ∃ i, v = vertOf c i := by
    intro v c d
    simp only [ends2, List.mem_cons, Prod.mk.injEq, List.not_mem_nil, or_false, Fin.exists_fin_two]
    constructor
    · rintro (⟨rfl, rfl⟩ | ⟨rfl, rfl⟩)
      · exact ⟨rfl, .inl rfl⟩
      · exact ⟨rfl, .inr rfl⟩
    · rintro ⟨rfl, rfl | rfl⟩
      · exact .inl ⟨rfl, rfl⟩
      · exact .inr ⟨rfl, rfl⟩
  unfold regionV
  rw [q1, Option.bind_some]
  cases bnd with
  | false =>
    refine ⟨_, rfl, fun v c => ?_⟩
    simp only [List.mem_filter, List.mem_flatMap, hmem]
    constructor
    · rintro ⟨⟨d, hd, rfl, i, rfl⟩, hw⟩
      have hlf := (q3 c).1 hd
      exact ⟨i, _, rfl, hlf, coord_vpos h (mkAt_ex hlf.1) i, ((want_iff _ _).1 hw), fun h => by cases h⟩
    · rintro ⟨i, x, rfl, h1, _, h3, _⟩
      exact ⟨⟨c, (q3 c).2 h1, rfl, i, rfl⟩, ((want_iff _ _).2 h3)⟩
  | true =>
    have hp := hb rfl
    subst hp
    obtain ⟨ops, hops⟩ := h.ops
    obtain ⟨a, xs', rfl⟩ : ∃ a xs', xs = a :: xs' := List.exists_cons_of_ne_nil (by rintro rfl; simp at hl)
    have hne : xs' ≠ [] := by rintro rfl; simp at hl
    obtain ⟨p, q, hh, ll, b1, b2, b3, b4, b5⟩ := C16_boundary_cells a xs' hx hne ops sf (by rw [mesh, ← hops]; exact hs) (L.map pathOf) (by
      intro p
      rw [mesh, ← hops]
      constructor
      · intro hp
        obtain ⟨c, hc, rfl⟩ := List.mem_map.1 hp
        exact (sub_leaf _ c).2 ((q3 c).1 hc)
      · intro hp
        obtain ⟨c, rfl, hc⟩ := sub_leaf_ex h.bis hp
        exact List.mem_map.2 ⟨c, (q3 c).2 hc, rfl⟩)
    rw [mesh, ← hops] at b1 b2 b3 b4 b5
    obtain ⟨cp, rfl, lp⟩ := sub_leaf_ex h.bis b2
    obtain ⟨cq, rfl, lq⟩ := sub_leaf_ex h.bis b3
    rw [if_pos rfl, b1]
    refine ⟨_, rfl, fun v c => ?_⟩
    have hR := submesh_rooted hs
    have ebox : ∀ {c : IN} {z : K × K}, endsAt F (pathOf c) = some z → z = box (fun f => (a :: xs').getD f 0) c.1 c.2 := by
      intro c z hz
      obtain ⟨t, h1, h2⟩ := Option.map_eq_some_iff.1 hz
      rw [← h2]
      exact (cellAt_bis h.bis (c := c) h1).2.2
    have e1 := ebox b4
    have e2 := ebox b5
    simp only [nameOf_pathOf, List.mem_filter, List.flatMap_cons, List.flatMap_nil, List.append_nil, List.mem_append, hmem, Bool.and_eq_true]
    have hlast : (a :: xs').getLast (by simp) = (a :: xs').getD ((a :: xs').length - 1) 0 := by
      rw [List.getLast_eq_getElem, List.getD_eq_getElem?_getD, List.getElem?_eq_getElem (by simp)]
      rfl
    constructor
    · rintro ⟨hcc, hw, hend⟩
      have : IsLeaf (inSub sf) F c ∧ ∃ i, v = vertOf c i := by
        rcases hcc with ⟨rfl, hv⟩ | ⟨rfl, hv⟩
        · exact ⟨lp, hv⟩
        · exact ⟨lq, hv⟩
      obtain ⟨hlf, i, rfl⟩ := this
      refine ⟨i, _, rfl, hlf, coord_vpos h (mkAt_ex hlf.1) i, ((want_iff _ _).1 hw), fun _ => ?_⟩
      rw [head_iff h (mkAt_ex hlf.1)]
      exact (isEnd_iff h.bis hX (ex_lt h.bis (mkAt_ex hlf.1)) i).1 hend
    · rintro ⟨i, x, rfl, h1, h2, h3, h4⟩
      have hcx := mkAt_ex h1.1
      have hlt := ex_lt h.bis hcx
      have h4' := (head_iff h hcx x).1 (h4 rfl)
      rw [coord_vpos h hcx] at h2
      have h2' := Option.some.inj h2
      refine ⟨?_, ((want_iff _ _).2 h3), (isEnd_iff h.bis hX hlt i).2 (h2' ▸ h4')⟩
      have hbr := box_root hX hlt
      have hbp := box_pos hX hlt c.2
      have hbp' := box_pos hX (ex_lt h.bis (mkAt_ex lp.1)) cp.2
      have hbq' := box_pos hX (ex_lt h.bis (mkAt_ex lq.1)) cq.2
      have hbrp := box_root hX (ex_lt h.bis (mkAt_ex lp.1))
      have hbrq := box_root hX (ex_lt h.bis (mkAt_ex lq.1))
      have hin0 := inc_le hX (Nat.zero_le c.1) (by omega)
      have hinN := inc_le hX (show c.1 + 1 ≤ (a :: xs').length - 1 by omega) (le_refl _)
      have hp1 : (a :: xs').getD 0 0 = (box (fun f => (a :: xs').getD f 0) cp.1 cp.2).1 := by rw [← e1]; rfl
      have hq1 : (a :: xs').getD ((a :: xs').length - 1) 0 = (box (fun f => (a :: xs').getD f 0) cq.1 cq.2).2 := by rw [← e2, ← hlast]
      have hcpq : c = cp ∨ c = cq := by
        rw [← h2', vpos_vertOf] at h4'
        rcases h4' with h4' | h4'
        · left
          fin_cases i
          · have h5 : (box (fun f => (a :: xs').getD f 0) c.1 c.2).1 = _ := h4'
            exact leaf_apart h.bis hX hR h1 lp (by rw [h5, hp1]; exact hbp') (by rw [← hp1, ← h5]; exact hbp)
          · have h5 : (box (fun f => (a :: xs').getD f 0) c.1 c.2).2 = _ := h4'
            exact absurd hbp (by rw [h5]; exact not_lt.2 (hin0.trans hbr.1))
        · right
          fin_cases i
          · have h5 : (box (fun f => (a :: xs').getD f 0) c.1 c.2).1 = _ := h4'
            exact absurd hbp (by rw [h5]; exact not_lt.2 (hbr.2.trans hinN))
          · have h5 : (box (fun f => (a :: xs').getD f 0) c.1 c.2).2 = _ := h4'
            exact leaf_apart h.bis hX hR h1 lq (by rw [← hq1, ← h5]; exact hbp) (by rw [h5, hq1]; exact hbq')
      rcases hcpq with rfl | rfl
      · exact .inl ⟨rfl, i, rfl⟩
      · exact .inr ⟨rfl, i, rfl⟩

/-- Specification: all leaves have their dofs. -/
def Numbered (mk : Itv K → Bool) (F : List (Cell K)) (e : ET) (D : DH) : Prop := ∀ c, IsLeaf mk F c → ∀ p < nd1 e, ∃ a, val D c p = some a

/-- Specification: and all these dofs have a vertex. -/
def Located (mk : Itv K → Bool) (F : List (Cell K)) (e : ET) (D : DH) (V : DV K) : Prop :=
  ∀ c, IsLeaf mk F c → ∀ p < nd1 e, ∃ a x, val D c p = some a ∧ getVert V a = some x

/-- The dofs of a vertex of a leaf (all elements except DQ0). -/
theorem vDofs_some (hx : xs.IsChain (· < ·)) (hN : per = true → 3 ≤ xs.length) (he : e ≠ .DQ0) (h : Uses xs per e F D) {mk : Itv K → Bool}
    (hD : Numbered mk F e D) {c : IN} (hc : IsLeaf mk F c) (i : Fin 2) :
    ∃ a, val D c i = some a ∧ (vDofs e D c (vertOf c i)).bind allSome = some [a] := by
  have hN' : per = true → 2 ≤ xs.length - 1 := fun hp => by have := hN hp; omega
  have hnd := (node_verts e he).1
  have hl := (h.inv hN').1
  obtain ⟨row, hr⟩ := rowOf_ex hl (c := c) (fun p hp => by
    obtain ⟨a, ha⟩ := hD c hc p hp
    rw [ha]; simp)
  have hlen := rowOf_len hl hr
  have hdofs := rowOf_some hr
  have hne := vert_ne (chain_inc hx) (ex_lt h.bis (mkAt_ex hc.1))
  obtain ⟨a, b, l, rfl⟩ : ∃ a b l, row = a :: b :: l := by
    match row, hlen with
    | [], h => simp at h; omega
    | [_], h => simp at h; omega
    | a :: b :: l, _ => exact ⟨a, b, l, rfl⟩
  unfold vDofs
  have hdpv : dpv e = 1 := by cases e <;> first | exact absurd rfl he | rfl
  rw [hdofs, Option.bind_some, hdpv]
  fin_cases i
  · refine ⟨a, (rowOf_val hr 0 a).1 rfl, ?_⟩
    show ((if vertOf c 0 = vertOf c 0 then _ else _ : Option (List (Option Nat)))).bind allSome = _
    rw [if_pos rfl]; rfl
  · refine ⟨b, (rowOf_val hr 1 b).1 rfl, ?_⟩
    show ((if vertOf c 0 = vertOf c 1 then _ else if vertOf c 1 = vertOf c 1 then _ else _ : Option (List (Option Nat)))).bind allSome = _
    rw [if_neg hne, if_pos rfl]; rfl

/-- C71: `get_region_dofs('vertex', flag, on_boundary, subforest_flag)` returns exactly the dofs of the vertices of the region, each once. -/
theorem C71_region_dofs_partial (hx : xs.IsChain (· < ·)) (hl : 2 ≤ xs.length) (hN : per = true → 3 ≤ xs.length) (he : e ≠ .DQ0)
    (h : Uses xs per e F D) (sf : Option Nat) (hs : Submesh (inSub sf) F) (hD : Numbered (inSub sf) F e D) (n : Nat) (hn : nCells F ≤ n)
    (m : Option (VX → Bool)) (bnd : Bool) (hb : bnd = true → per = false) :
    ∃ L, regionDofs m bnd per (inSub sf) F n e D = some L ∧ L.Nodup ∧
      ∀ a, a ∈ L ↔ ∃ c i x, InRegion xs m bnd (inSub sf) F c i x ∧ val D c i = some a := by
  obtain ⟨R, r1, r2⟩ := C71_region_partial hx hl h sf hs n hn m bnd hb
  have hrow : ∀ y ∈ R, ∃ i x a, y.1 = vertOf y.2 i ∧ InRegion xs m bnd (inSub sf) F y.2 i x ∧ val D y.2 i = some a ∧
      (vDofs e D y.2 y.1).bind allSome = some [a] := by
    intro y hy
    obtain ⟨i, x, h1, h2⟩ := (r2 y.1 y.2).1 hy
    obtain ⟨a, h3, h4⟩ := vDofs_some hx hN he h hD h2.1 i
    exact ⟨i, x, a, h1, h2, h3, by rw [h1]; exact h4⟩
  obtain ⟨l, hl'⟩ := allSome_ex (R.map (fun y => (vDofs e D y.2 y.1).bind allSome)) (by
    intro z hz
    obtain ⟨y, hy, rfl⟩ := List.mem_map.1 hz
    obtain ⟨_, _, a, _, _, _, h4⟩ := hrow y hy
    exact ⟨_, h4⟩)
  refine ⟨l.flatten.dedup, ?_, List.nodup_dedup _, fun a => ?_⟩
  · unfold regionDofs
    rw [r1, Option.bind_some, hl']
    rfl
  · have hm := (allSome_some _ _).1 hl'
    rw [List.mem_dedup, List.mem_flatten]
    constructor
    · rintro ⟨w, hw, ha⟩
      have : some w ∈ R.map (fun y => (vDofs e D y.2 y.1).bind allSome) := by rw [hm]; exact List.mem_map_of_mem hw
      obtain ⟨y, hy, hyw⟩ := List.mem_map.1 this
      obtain ⟨i, x, b, _, h2, h3, h4⟩ := hrow y hy
      rw [h4] at hyw
      cases hyw
      rw [List.mem_singleton] at ha
      subst ha
      exact ⟨y.2, i, x, h2, h3⟩
    · rintro ⟨c, i, x, h2, h3⟩
      have hy := (r2 (vertOf c i) c).2 ⟨i, x, rfl, h2⟩
      obtain ⟨b, h5, h4⟩ := vDofs_some hx hN he h hD h2.1 i
      have : some [b] ∈ l.map some := by
        rw [← hm]
        exact List.mem_map.2 ⟨(vertOf c i, c), hy, h4⟩
      obtain ⟨w, hw, hwb⟩ := List.mem_map.1 this
      cases hwb
      refine ⟨[b], hw, ?_⟩
      rw [h3] at h5
      cases h5
      exact List.mem_singleton_self a

theorem getVerts_some {L : List Nat} {ys : List K} (h : getVerts V L = some ys) : ys.length = L.length ∧
    ∀ y, y ∈ L.zip ys → getVert V y.1 = some y.2 := by
  have hm := (allSome_some _ _).1 h
  have hlen : L.length = ys.length := by simpa using congrArg List.length hm
  refine ⟨hlen.symm, ?_⟩
  rintro ⟨a, x⟩ hy
  obtain ⟨k, hk⟩ := List.mem_iff_getElem?.1 hy
  rw [List.getElem?_zip_eq_some] at hk
  have h1 := congrArg (fun l => l[k]?) hm
  simp only [List.getElem?_map, hk.1, hk.2, Option.map_some] at h1
  exact Option.some.inj h1

theorem getVerts_ex {L : List Nat} (h : ∀ a ∈ L, ∃ x, getVert V a = some x) : ∃ ys, getVerts V L = some ys :=
  allSome_ex _ (by
    intro z hz
    obtain ⟨a, ha, rfl⟩ := List.mem_map.1 hz
    exact h a ha)

theorem mem_zip_left {α β : Type} : ∀ {l : List α} {l' : List β}, l'.length = l.length → ∀ {a : α}, a ∈ l → ∃ b, (a, b) ∈ l.zip l' := by
  intro l
  induction l with
  | nil => intro l' _ a h; cases h
  | cons x l ih =>
    intro l' hl a h
    cases l' with
    | nil => simp at hl
    | cons y l' =>
      rcases List.mem_cons.1 h with rfl | h
      · exact ⟨y, by simp⟩
      · obtain ⟨b, hb⟩ := ih (by simpa using hl) h
        exact ⟨b, by simp [hb]⟩

section
variable {R : Type} [Field R] [LinearOrder R] [IsStrictOrderedRing R]

/-- What the two functions read: the dofs of the region, and a vertex of each. -/
theorem dirichlet_list (hx : xs.IsChain (· < ·)) (hl : 2 ≤ xs.length) (hN : per = true → 3 ≤ xs.length) (he : e ≠ .DQ0)
    (h : UsesV close xs per e F D V) (sf : Option Nat) (hs : Submesh (inSub sf) F) (hV : Located (inSub sf) F e D V) (n : Nat) (hn : nCells F ≤ n)
    (m : Option (VX → Bool)) (bnd : Bool) (hb : bnd = true → per = false) :
    ∃ L ys, regionDofs m bnd per (inSub sf) F n e D = some L ∧ getVerts V L = some ys ∧ L.Nodup ∧ ys.length = L.length ∧
      (∀ a, a ∈ L ↔ ∃ c i x, InRegion xs m bnd (inSub sf) F c i x ∧ val D c i = some a) ∧
      ∀ a y, (a, y) ∈ L.zip ys → ∀ c i x, InRegion xs m bnd (inSub sf) F c i x → val D c i = some a → SamePt xs per x y := by
  have hD : Numbered (inSub sf) F e D := fun c hc p hp => by
    obtain ⟨a, _, ha, _⟩ := hV c hc p hp
    exact ⟨a, ha⟩
  obtain ⟨L, r1, r2, r3⟩ := C71_region_dofs_partial hx hl hN he h.uses sf hs hD n hn m bnd hb
  have hnd := (node_verts e he).1
  obtain ⟨ys, hy⟩ := getVerts_ex (V := V) (L := L) (by
    intro a ha
    obtain ⟨c, i, x, h1, h2⟩ := (r3 a).1 ha
    obtain ⟨b, z, h3, h4⟩ := hV c h1.1 i (by have := i.2; omega)
    rw [h2] at h3
    cases h3
    exact ⟨z, h4⟩)
  obtain ⟨g1, g2⟩ := getVerts_some hy
  refine ⟨L, ys, r1, hy, r2, g1, r3, fun a y hay c i x h1 h2 => ?_⟩
  have hi : i.1 < nd1 e := by have := i.2; omega
  obtain ⟨z, hz1, hz2⟩ := C71_vertex hx hN h (g2 _ hay) c i hi h2
  have hcx := mkAt_ex h1.1.1
  rw [nodeX_place h.uses.bis hcx ⟨i.1, hi⟩, place_vert _ he c i hi] at hz1
  have h3 := h1.2.1
  rw [coord_vpos h.uses hcx] at h3
  rw [← Option.some.inj hz1, Option.some.inj h3] at hz2
  exact hz2

/-- C71: `Assembler.add_dirichlet(marker, g)` sets `g(x)` for the dofs at the vertices `x` of the region, and leaves all other entries. -/
theorem C71_dirichlet_partial (hx : xs.IsChain (· < ·)) (hl : 2 ≤ xs.length) (hN : per = true → 3 ≤ xs.length) (he : e ≠ .DQ0)
    (h : UsesV close xs per e F D V) (sf : Option Nat) (hs : Submesh (inSub sf) F) (hV : Located (inSub sf) F e D V) (n : Nat) (hn : nCells F ≤ n)
    (m : Option (VX → Bool)) (bnd : Bool) (hb : bnd = true → per = false) (g : K → R) (d : List (Nat × R)) (hd : (d.map (·.1)).Nodup) :
    ∃ d', addDirichletA m bnd per (inSub sf) F n e D V g d = some d' ∧ (d'.map (·.1)).Nodup ∧
      (∀ c i x a, InRegion xs m bnd (inSub sf) F c i x → val D c i = some a → ∃ y, SamePt xs per x y ∧ look d' a = some (g y)) ∧
      ∀ a, (¬ ∃ c i x, InRegion xs m bnd (inSub sf) F c i x ∧ val D c i = some a) → look d' a = look d a := by
  obtain ⟨L, ys, r1, r2, r3, r4, r5, r6⟩ := dirichlet_list hx hl hN he h sf hs hV n hn m bnd hb
  have hfst : ((L.zip ys).map (fun y => ((y.1, g y.2) : Nat × R))).map (·.1) = L := by
    rw [List.map_map]
    have : ((fun y : Nat × R => y.1) ∘ fun y : Nat × K => ((y.1, g y.2) : Nat × R)) = Prod.fst := rfl
    rw [this, List.map_fst_zip (by omega)]
  obtain ⟨f1, f2⟩ := fold_set ((L.zip ys).map (fun y => ((y.1, g y.2) : Nat × R))) d (by rw [hfst]; exact r3) hd
  rw [List.foldl_map] at f1 f2
  refine ⟨_, by rw [addDirichletA, r1, Option.bind_some, r2]; rfl, f1, ?_, ?_⟩
  · intro c i x a h1 h2
    obtain ⟨y, hy⟩ := mem_zip_left r4 ((r5 a).2 ⟨c, i, x, h1, h2⟩)
    exact ⟨y, r6 a y hy c i x h1 h2, (f2 a _).2 (.inl (List.mem_map.2 ⟨(a, y), hy, rfl⟩))⟩
  · intro a ha
    have hna : a ∉ L := fun h => ha ((r5 a).1 h)
    apply Option.ext
    intro v
    rw [f2, hfst]
    constructor
    · rintro (h1 | ⟨_, h1⟩)
      · obtain ⟨y, hy, heq⟩ := List.mem_map.1 h1
        cases heq
        exact absurd (List.of_mem_zip hy).1 hna
      · exact h1
    · exact fun h1 => .inr ⟨hna, h1⟩

/-- C71: `LinearSystem.add_dirichlet_constraint(marker, g)` appends one constraint `u = g(x)` for each dof at a vertex `x` of the region. -/
theorem C71_constraints_partial (hx : xs.IsChain (· < ·)) (hl : 2 ≤ xs.length) (hN : per = true → 3 ≤ xs.length) (he : e ≠ .DQ0)
    (h : UsesV close xs per e F D V) (sf : Option Nat) (hs : Submesh (inSub sf) F) (hV : Located (inSub sf) F e D V) (n : Nat) (hn : nCells F ≤ n)
    (m : Option (VX → Bool)) (bnd : Bool) (hb : bnd = true → per = false) (g : K → R) (C : List (Linsys.Con R)) :
    ∃ E, addDirichlet m bnd per (inSub sf) F n e D V g C = some (C ++ E) ∧ (E.map (·.dof)).Nodup ∧
      (∀ a, a ∈ E.map (·.dof) ↔ ∃ c i x, InRegion xs m bnd (inSub sf) F c i x ∧ val D c i = some a) ∧
      ∀ k ∈ E, k.supp = [] ∧ ∀ c i x, InRegion xs m bnd (inSub sf) F c i x → val D c i = some k.dof → ∃ y, SamePt xs per x y ∧ k.aff = g y := by
  obtain ⟨L, ys, r1, r2, r3, r4, r5, r6⟩ := dirichlet_list hx hl hN he h sf hs hV n hn m bnd hb
  have hfst : ((L.zip ys).map (fun y => (⟨y.1, [], g y.2⟩ : Linsys.Con R))).map (·.dof) = L := by
    rw [List.map_map]
    have : ((fun y : Linsys.Con R => y.dof) ∘ fun y : Nat × K => (⟨y.1, [], g y.2⟩ : Linsys.Con R)) = Prod.fst := rfl
    rw [this, List.map_fst_zip (by omega)]
  refine ⟨_, by rw [addDirichlet, r1, Option.bind_some, r2]; rfl, by rw [hfst]; exact r3, by rw [hfst]; exact r5, ?_⟩
  intro k hk
  obtain ⟨⟨a, y⟩, hy, rfl⟩ := List.mem_map.1 hk
  exact ⟨rfl, fun c i x h1 h2 => ⟨y, r6 a y hy c i x h1 h2, rfl⟩⟩

/-- C71: for DQ0 (no dofs at vertices) no condition is set, whatever the marker. -/
theorem C71_none_DQ0 (hx : xs.IsChain (· < ·)) (hl : 2 ≤ xs.length) (hN : per = true → 3 ≤ xs.length)
    (h : Uses xs per .DQ0 F D) (sf : Option Nat) (hs : Submesh (inSub sf) F) (hD : Numbered (inSub sf) F .DQ0 D) (n : Nat) (hn : nCells F ≤ n)
    (m : Option (VX → Bool)) (bnd : Bool) (hb : bnd = true → per = false) (g : K → R) (d : List (Nat × R)) :
    addDirichletA m bnd per (inSub sf) F n .DQ0 D V g d = some d := by
  have hN' : per = true → 2 ≤ xs.length - 1 := fun hp => by have := hN hp; omega
  obtain ⟨R, r1, r2⟩ := C71_region_partial hx hl h sf hs n hn m bnd hb
  have h0 : dpv .DQ0 = 0 := rfl
  have hrow : ∀ y ∈ R, (vDofs .DQ0 D y.2 y.1).bind allSome = some [] := by
    intro y hy
    obtain ⟨i, x, h1, h2⟩ := (r2 y.1 y.2).1 hy
    obtain ⟨row, hr⟩ := rowOf_ex (h.inv hN').1 (c := y.2) (fun p hp => by
      obtain ⟨a, ha⟩ := hD y.2 h2.1 p hp
      rw [ha]; simp)
    unfold vDofs
    rw [rowOf_some hr, Option.bind_some, h0, h1]
    fin_cases i
    · show ((if vertOf y.2 0 = vertOf y.2 0 then _ else _ : Option (List (Option Nat)))).bind allSome = _
      rw [if_pos rfl]; rfl
    · show ((if vertOf y.2 0 = vertOf y.2 1 then _ else if vertOf y.2 1 = vertOf y.2 1 then _ else _ : Option (List (Option Nat)))).bind allSome = _
      rw [if_pos (rfl : vertOf y.2 1 = vertOf y.2 1)]
      split_ifs <;> rfl
  have hL : regionDofs m bnd per (inSub sf) F n .DQ0 D = some [] := by
    unfold regionDofs
    rw [r1, Option.bind_some]
    have : R.map (fun y => (vDofs .DQ0 D y.2 y.1).bind allSome) = (R.map (fun _ => ([] : List Nat))).map some := by
      rw [List.map_map]
      exact List.map_congr_left (fun y hy => hrow y hy)
    rw [this, (allSome_some _ _).2 rfl]
    simp
  rw [addDirichletA, hL]
  rfl

end

/-! ### Markers -/

/-- C71: `Mesh1D.mark_region(flag, f, entity_type='vertex', on_boundary, subforest_flag)` marks exactly the vertices of the leaves (the
ends of the mesh) at which `f` holds. -/
theorem C71_mark_partial (hx : xs.IsChain (· < ·)) (hl : 2 ≤ xs.length) (h : Uses xs per e F D) (sf : Option Nat)
    (n : Nat) (hn : nCells F ≤ n) (f : K → Bool) (m : VX → Bool) (bnd : Bool) (hb : bnd = true → per = false) :
    ∃ m', markV f bnd per (inSub sf) F n m = some m' ∧ ∀ c i x, IsLeaf (inSub sf) F c → coord F c i = some x →
      (m' (vertOf c i) = true ↔ m (vertOf c i) = true ∨ f x = true ∧ (bnd = true → xs.head? = some x ∨ xs.getLast? = some x)) := by
  have hX := chain_inc hx
  unfold markV
  cases bnd with
  | false =>
    obtain ⟨L, q1, q2, q3⟩ := leaves1_spec h.bis (inSub sf) n hn
    rw [if_neg (by decide), q1, Option.bind_some]
    have hmem : ∀ y : IN × Fin 2, y ∈ L.flatMap (fun c => [(c, (0 : Fin 2)), (c, 1)]) ↔ IsLeaf (inSub sf) F y.1 := by
      rintro ⟨c, i⟩
      rw [List.mem_flatMap]
      constructor
      · rintro ⟨d, hd, hy⟩
        simp only [List.mem_cons, Prod.mk.injEq, List.not_mem_nil, or_false] at hy
        rcases hy with ⟨rfl, _⟩ | ⟨rfl, _⟩ <;> exact (q3 _).1 hd
      · intro hc
        refine ⟨c, (q3 c).2 hc, ?_⟩
        fin_cases i <;> simp
    have heq : (L.flatMap (fun c => [(c, (0 : Fin 2)), (c, 1)])).map (fun y => (coord F y.1 y.2).map (fun x => (vertOf y.1 y.2, f x))) =
        ((L.flatMap (fun c => [(c, (0 : Fin 2)), (c, 1)])).map (fun y => (vertOf y.1 y.2, f (vpos (fun f => xs.getD f 0) (vertOf y.1 y.2))))).map some := by
      rw [List.map_map]
      refine List.map_congr_left (fun y hy => ?_)
      rw [coord_vpos h (mkAt_ex ((hmem y).1 hy).1)]
      rfl
    rw [heq, (allSome_some _ _).2 rfl]
    refine ⟨_, rfl, fun c i x hc hcx => ?_⟩
    rw [coord_vpos h (mkAt_ex hc.1)] at hcx
    have hcx' := Option.some.inj hcx
    simp only [Bool.or_eq_true, List.any_eq_true, List.mem_map, Bool.and_eq_true, decide_eq_true_eq, Bool.false_eq_true, false_implies, and_true]
    refine or_congr_right ⟨?_, fun hf => ⟨_, ⟨(c, i), (hmem (c, i)).2 hc, rfl⟩, rfl, by simp only; rw [hcx']; exact hf⟩⟩
    rintro ⟨_, ⟨y, _, rfl⟩, h1, h2⟩
    rw [← hcx', ← h1]
    exact h2
  | true =>
    have hp := hb rfl
    subst hp
    rw [if_pos rfl, if_neg (by decide)]
    have hN : 0 < xs.length - 1 := by omega
    have h0 := (ex_root h.bis 0).2 hN
    have hF := h.bis.1
    have h1 : Ex F (F.length - 1, []) := (ex_root h.bis _).2 (by omega)
    have heq : ([((0, []), (0 : Fin 2)), ((F.length - 1, []), 1)] : List (IN × Fin 2)).map (fun y => (coord F y.1 y.2).map (fun x => (vertOf y.1 y.2, f x))) =
        ([(vertOf (0, []) 0, f (xs.getD 0 0)), (vertOf (F.length - 1, []) 1, f (xs.getD (xs.length - 1) 0))]).map some := by
      simp only [List.map_cons, List.map_nil, coord_vpos h h0, coord_vpos h h1, Option.map_some]
      have e2 : vpos (fun f => xs.getD f 0) (vertOf (F.length - 1, []) 1) = xs.getD (xs.length - 1) 0 := by
        show xs.getD (F.length - 1 + 1) 0 = _
        rw [hF, Nat.sub_add_cancel hN]
      rw [e2]
      rfl
    rw [heq, (allSome_some _ _).2 rfl]
    refine ⟨_, rfl, fun c i x hc hcx => ?_⟩
    rw [coord_vpos h (mkAt_ex hc.1)] at hcx
    have hcx' := Option.some.inj hcx
    have hlt := ex_lt h.bis (mkAt_ex hc.1)
    rw [head_iff h (mkAt_ex hc.1)]
    have hv0 := vert_inj hX (c := (0, [])) (c' := c) hN hlt 0 i
    have hv1 := vert_inj hX (c := (F.length - 1, [])) (c' := c) (by show F.length - 1 < _; omega) hlt 1 i
    have e2 : vpos (fun f => xs.getD f 0) (vertOf (F.length - 1, []) 1) = xs.getD (xs.length - 1) 0 := by
      show xs.getD (F.length - 1 + 1) 0 = _
      rw [hF, Nat.sub_add_cancel hN]
    have e0 : vpos (fun f => xs.getD f 0) (vertOf (0, []) 0) = xs.getD 0 0 := rfl
    rw [hcx', e0] at hv0
    rw [hcx', e2] at hv1
    simp only [Bool.or_eq_true, List.any_cons, List.any_nil, Bool.or_false, Bool.and_eq_true, decide_eq_true_eq, forall_const, hv0, hv1]
    refine or_congr_right ⟨?_, ?_⟩
    · rintro (⟨ha, hb⟩ | ⟨ha, hb⟩)
      · exact ⟨ha ▸ hb, .inl ha.symm⟩
      · exact ⟨ha ▸ hb, .inr ha.symm⟩
    · rintro ⟨hf, ha | ha⟩
      · exact .inl ⟨ha.symm, ha ▸ hf⟩
      · exact .inr ⟨ha.symm, ha ▸ hf⟩

/-- C71, `mark_region` and `add_dirichlet` together: if the ends of the mesh where `f` holds are marked, and Dirichlet conditions are set
there, then the values are exactly `g(x)` at the dofs of those ends. -/
theorem C71_marked_dirichlet_partial {R : Type} [Field R] [LinearOrder R] [IsStrictOrderedRing R] (hx : xs.IsChain (· < ·)) (hl : 2 ≤ xs.length)
    (he : e ≠ .DQ0) (h : UsesV close xs false e F D V) (sf : Option Nat) (hs : Submesh (inSub sf) F) (hV : Located (inSub sf) F e D V) (n : Nat)
    (hn : nCells F ≤ n) (f : K → Bool) (g : K → R) :
    ∃ m d, markV f true false (inSub sf) F n (fun _ => false) = some m ∧ addDirichletA (some m) true false (inSub sf) F n e D V g [] = some d ∧
      (d.map (·.1)).Nodup ∧ ∀ a v, look d a = some v ↔ ∃ c i x, IsLeaf (inSub sf) F c ∧ coord F c i = some x ∧
        (xs.head? = some x ∨ xs.getLast? = some x) ∧ f x = true ∧ val D c i.1 = some a ∧ v = g x := by
  have hN : false = true → 3 ≤ xs.length := fun h => by cases h
  obtain ⟨m, hm, hm'⟩ := C71_mark_partial hx hl h.uses sf n hn f (fun _ => false) true (fun _ => rfl)
  obtain ⟨d, d1, d2, d3, d4⟩ := C71_dirichlet_partial hx hl hN he h sf hs hV n hn (some m) true (fun _ => rfl) g [] List.nodup_nil
  have hreg : ∀ c i x, InRegion xs (some m) true (inSub sf) F c i x ↔ IsLeaf (inSub sf) F c ∧ coord F c i = some x ∧
      (xs.head? = some x ∨ xs.getLast? = some x) ∧ f x = true := by
    intro c i x
    constructor
    · rintro ⟨h1, h2, h3, h4⟩
      refine ⟨h1, h2, h4 rfl, ?_⟩
      rcases (hm' c i x h1 h2).1 (h3 m rfl) with h | h
      · cases h
      · exact h.1
    · rintro ⟨h1, h2, h3, h4⟩
      exact ⟨h1, h2, fun m' e1 => Option.some.inj e1 ▸ (hm' c i x h1 h2).2 (.inr ⟨h4, fun _ => h3⟩), fun _ => h3⟩
  have same : ∀ {x y : K}, SamePt xs false x y → x = y := by
    rintro x y (h | ⟨h, _⟩)
    · exact h
    · cases h
  refine ⟨m, d, hm, d1, d2, fun a v => ⟨fun hv => ?_, ?_⟩⟩
  · by_cases hex : ∃ c i x, InRegion xs (some m) true (inSub sf) F c i x ∧ val D c i = some a
    · obtain ⟨c, i, x, h1, h2⟩ := hex
      obtain ⟨y, hy, hv'⟩ := d3 c i x a h1 h2
      rw [hv, ← same hy] at hv'
      obtain ⟨q1, q2, q3, q4⟩ := (hreg c i x).1 h1
      exact ⟨c, i, x, q1, q2, q3, q4, h2, Option.some.inj hv'⟩
    · rw [d4 a hex] at hv
      cases hv
  · rintro ⟨c, i, x, h1, h2, h3, h4, h5, rfl⟩
    obtain ⟨y, hy, hv'⟩ := d3 c i x a ((hreg c i x).2 ⟨h1, h2, h3, h4⟩) h5
    rw [hv', ← same hy]

end
end Verif.Line
