import Verif.Per.ShareP
import Verif.Dof.Props

/-!
# C80: dof numbering on periodic quadrilateral meshes

`SamePt B x y` (Dof/Points.lean): the initial cells are unit squares, glued along their common edges -- on a periodic mesh also
along the paired edges of opposite sides -- and `x` and `y` are the same point of the domain so obtained.
`PUses`, `PFixed` (Per/Model.lean): the histories of a mesh, its periodic pairs and a dof handler.
-/

namespace Verif.Per
open Verif.Fem Verif.Mesh Verif.Dof

section
variable {K : Type} [Field K] {B : Base K} {e : ET} {s : St K} {pr : Pairs} {D : DH}

theorem PUses.minv (hB : B.WF) (hO : PerOk B) (h : PUses B e s pr D) : MReach B s ∧ PInv B s pr :=
  ⟨h.reach.reach, h.reach.inv hB hO.toNice⟩

/-- The invariant of all histories. -/
theorem PUses.snd (hB : B.WF) (hO : PerOk B) (h : PUses B e s pr D) :
    Len e D.dofs ∧ Snd (PtRel B e) (vOf D.dofs) D.count ∧ ∀ (l : Loc e), vOf D.dofs l ≠ none → CEx B.n s.kids l.1 := by
  induction h with
  | new s pr hs => exact ⟨fun c row h => (by cases h), Snd.empty, fun l h => absurd rfl h⟩
  | split s s' pr pr' D c sf hu hc hk hss _ ih =>
    refine ⟨ih.1, ih.2.1, ?_⟩
    have hi := hu.reach.reach.inv hB
    obtain ⟨s'', h1, _, h3, _⟩ := cellSplit_spec hB hi ((hi.mem c).1 hc) hk sf
    rw [hss] at h1
    cases h1
    intro l hl
    have := ih.2.2 l hl
    obtain ⟨⟨f, _ | ⟨k, p⟩⟩, q⟩ := l
    · exact this
    · show s'.kids _ = true
      have hk' : s.kids (f, p) = true := this
      rw [h3]
      by_cases hx : (f, p) = c
      · simp [hx]
      · simp [Function.update_of_ne hx, hk']
  | mark s pr D m hu ih => exact ih
  | perm s pr pr' D hu _ ih => exact ih
  | dist s pr D D' sf n hu hf hn hd ih =>
    obtain ⟨hs, hp⟩ := hu.minv hB hO
    have hi := hs.inv hB
    have hG := geoP hB hO.toNice hi
    obtain ⟨L, l1, l2, l3, l4⟩ := cellsBF_spec hi sf n hn
    have hfold := distP_some hd l1
    obtain ⟨D1, q1, q2, q3, _⟩ := any_gen hG e sf _ (fun c D hc hl => processP_spec hB hO hs hp sf hn c D hc hl)
      (fun D => Snd (PtRel B e) (vOf D.dofs) D.count ∧ ∀ (l : Loc e), vOf D.dofs l ≠ none → CEx B.n s.kids l.1) (by
        rintro c D D' hcv ⟨hI1, hI2⟩ _ _ hE
        refine ⟨hI1.step (ptRel_eqv B e) (fun l l' h => ptRel_same hG (Same.nb h)) (fun l l' h => ptRel_same hG (Same.up h)) hE, ?_⟩
        intro l hl
        rcases hv : vOf D.dofs l with _ | a
        · by_cases hlc : l.1 = c
          · rw [hlc]; exact hcv.1
          · obtain ⟨a, ha⟩ := Option.ne_none_iff_exists'.1 hl
            obtain ⟨l0, h0, _, h2⟩ := hE.new l a hv ha (by rw [sysOf_cell]; exact hlc)
            rw [sysOf_cell] at h0
            rcases h2 with h2 | ⟨hb, h2⟩
            · exact nb_ex hG (h0 ▸ hcv.1) h2
            · rw [sysOf_up] at h2
              obtain ⟨k, h3, _⟩ := upL_some e l l0 h2
              rw [h3, h0]
              show s.kids c = true
              unfold hasCh at hb
              exact (Bool.and_eq_true_iff.1 hb).1
        · exact hI2 l (by rw [hv]; simp)) L D (fun c hc => (l3 c).1 hc) ih.1 ih.2
    rw [hfold] at q1
    cases q1
    exact ⟨q2, q3⟩

theorem distP_num (hB : B.WF) (hO : PerOk B) (hs : MReach B s) (hp : PInv B s pr) (hG : Geo B (CEx B.n s.kids) (cls B))
    {D' : DH} {sf : Bool} {n : Nat} (hl : Len e D.dofs) (hf : sf = false ∨ RootedFlag B s) (hn : 4 * s.cells.length ≤ n)
    (hd : distP sf B.n s pr e n D = some D') (h : NumInv (sysOf hG e) (vOf D.dofs) D.count) :
    NumInv (sysOf hG e) (vOf D'.dofs) D'.count := by
  have hi := hs.inv hB
  obtain ⟨L, l1, l2, l3, l4⟩ := cellsBF_spec hi sf n hn
  have hfold := distP_some hd l1
  obtain ⟨D1, q1, _, q3, _⟩ := loop_gen hG e sf _ (fun c D hc hl => processP_spec hB hO hs hp sf hn c D hc hl) L [] D
    (l4 hf) (fun c hc => (l3 c).1 hc) hl h (by simp)
  rw [hfold] at q1
  cases q1
  exact q3

theorem PFixed.num (hB : B.WF) (hO : PerOk B) (h : PFixed B e s pr D) (hG : Geo B (CEx B.n s.kids) (cls B)) :
    NumInv (sysOf hG e) (vOf D.dofs) D.count := by
  induction h with
  | new s pr hs => exact NumInv.empty
  | mark s pr D m _ ih => exact ih hG
  | perm s pr pr' D _ _ ih => exact ih hG
  | dist s pr D D' sf n hu hf hn hd ih =>
    obtain ⟨hs, hp⟩ := hu.uses.minv hB hO
    exact distP_num hB hO hs hp hG (hu.uses.snd hB hO).1 hf hn hd (ih hG)

theorem PUses.torn_num (hB : B.WF) (hO : PerOk B) (he : torn e = true) (h : PUses B e s pr D) :
    NumInv (tornSys e) (vOf D.dofs) D.count := by
  have hs : ∀ (s : St K) (hG : Geo B (CEx B.n s.kids) (cls B)), sysOf hG e = tornSys e := by
    intro s hG
    unfold sysOf
    rw [dif_neg (by simp [he])]
  induction h with
  | new s pr _ => exact NumInv.empty
  | split s s' pr pr' D c sf _ _ _ _ _ ih => exact ih
  | mark s pr D m _ ih => exact ih
  | perm s pr pr' D _ _ ih => exact ih
  | dist s pr D D' sf n hu hf hn hd ih =>
    obtain ⟨hm, hp⟩ := hu.minv hB hO
    have hG := geoP hB hO.toNice (hm.inv hB)
    have := distP_num hB hO hm hp hG (hu.snd hB hO).1 hf hn hd (by rw [hs]; exact ih)
    rw [hs] at this
    exact this

/-! ### The theorems -/

/-- C80, no failure: on a balanced periodic mesh `distribute_dofs` returns, after any history of refinements and
distributions; no walk about a vertex runs for ever. -/
theorem C80_terminates (hB : B.WF) (hO : PerOk B) (h : PUses B e s pr D) (hb : isBalanced false s = true)
    (sf : Bool) (n : Nat) (hn : 4 * s.cells.length ≤ n) : ∃ D', distP sf B.n s pr e n D = some D' := by
  obtain ⟨hs, hp⟩ := h.minv hB hO
  have hi := hs.inv hB
  have hG := geoP hB hO.toNice hi
  obtain ⟨L, l1, l2, l3, l4⟩ := cellsBF_spec hi sf n hn
  obtain ⟨D', q1, _⟩ := any_gen hG e sf _ (fun c D hc hl => processP_spec hB hO hs hp sf hn c D hc hl) (fun _ => True)
    (fun _ _ _ _ _ _ _ _ => trivial) L D (fun c hc => (l3 c).1 hc) (h.snd hB hO).1 trivial
  exact ⟨D', by rw [distP, l1]; simp [hb, q1]⟩

theorem distP_all (hB : B.WF) (hO : PerOk B) {D' : DH} (h : PUses B e s pr D) {sf : Bool} {n : Nat} (hn : 4 * s.cells.length ≤ n)
    (hd : distP sf B.n s pr e n D = some D') : (∀ (l : Loc e) a, vOf D.dofs l = some a → vOf D'.dofs l = some a) ∧
    ∀ c, Visited B sf s c → ∀ p : Fin (nd2 e), vOf D'.dofs (c, p) ≠ none := by
  obtain ⟨hs, hp⟩ := h.minv hB hO
  have hi := hs.inv hB
  have hG := geoP hB hO.toNice hi
  obtain ⟨L, l1, l2, l3, l4⟩ := cellsBF_spec hi sf n hn
  have hfold := distP_some hd l1
  obtain ⟨D1, q1, _, _, q4, q5⟩ := any_gen hG e sf _ (fun c D hc hl => processP_spec hB hO hs hp sf hn c D hc hl) (fun _ => True)
    (fun _ _ _ _ _ _ _ _ => trivial) L D (fun c hc => (l3 c).1 hc) (h.snd hB hO).1 trivial
  rw [hfold] at q1
  cases q1
  exact ⟨q4, fun c hc => q5 c ((l3 c).2 hc)⟩

/-- C80, completeness: afterwards every cell of the (sub)mesh has all its dofs. -/
theorem C80_complete (hB : B.WF) (hO : PerOk B) {D' : DH} (h : PUses B e s pr D) (sf : Bool) (n : Nat)
    (hn : 4 * s.cells.length ≤ n) (hd : distP sf B.n s pr e n D = some D') (c : CN) (hc : c ∈ s.cells)
    (hm : sf = false ∨ s.mkd c = true) (p : Nat) (hp : p < nd2 e) : ∃ a, val D' c p = some a := by
  rw [val_vOf D' c p hp]
  exact Option.ne_none_iff_exists'.1 ((distP_all hB hO h hn hd).2 c ⟨((h.minv hB hO).1.inv hB).mem c |>.1 hc, hm⟩ ⟨p, hp⟩)

/-- C80, stability: a later `distribute_dofs`, also after refinement and for other flags, never changes a dof. -/
theorem C80_stable (hB : B.WF) (hO : PerOk B) {D' : DH} (h : PUses B e s pr D) (sf : Bool) (n : Nat)
    (hn : 4 * s.cells.length ≤ n) (hd : distP sf B.n s pr e n D = some D') (c : CN) (p a : Nat) (hp : p < nd2 e)
    (ha : val D c p = some a) : val D' c p = some a :=
  (distP_all hB hO h hn hd).1 (c, ⟨p, hp⟩) a ha

/-- C80, numbers: in every history the dofs in use are exactly `0, ..., n_dofs(all_dofs=True) - 1`. -/
theorem C80_numbers (hB : B.WF) (hO : PerOk B) (h : PUses B e s pr D) (a : Nat) :
    a < D.count ↔ ∃ c ∈ s.cells, ∃ p < nd2 e, val D c p = some a := by
  obtain ⟨_, hs, hx⟩ := h.snd hB hO
  have hi := (h.minv hB hO).1.inv hB
  constructor
  · intro ha
    obtain ⟨⟨c, p⟩, hl⟩ := hs.all a ha
    exact ⟨c, (hi.mem c).2 (hx (c, p) (by rw [hl]; simp)), p, p.2, hl⟩
  · rintro ⟨c, _, p, hp, hl⟩
    exact hs.lt (c, ⟨p, hp⟩) a hl

/-- C80, sharing (continuous elements): on one periodic mesh, after any sequence of distributions for rooted flags,
two dofs are equal exactly if their nodes are the same point of the glued domain. -/
theorem C80_shared (hB : B.WF) (hO : PerOk B) (he : torn e = false) (h : PFixed B e s pr D) (c c' : CN)
    (p p' a a' : Nat) (hp : p < nd2 e) (hp' : p' < nd2 e) (ha : val D c p = some a) (ha' : val D c' p' = some a') :
    a = a' ↔ SamePt B (rootPt c (node e p)) (rootPt c' (node e p')) := by
  have hi := (h.uses.minv hB hO).1.inv hB
  have hG := geoP hB hO.toNice hi
  have hn := h.num hB hO hG
  obtain ⟨_, _, hx⟩ := h.uses.snd hB hO
  rw [hn.iff (c, ⟨p, hp⟩) (c', ⟨p', hp'⟩) a a' ha ha']
  have hs : sysOf hG e = contSys hG e he := by unfold sysOf; rw [dif_pos he]
  rw [hs]
  constructor
  · intro h'; exact same_sound hG e he h'
  · intro h'
    exact same_complete hG (fun f q p => CEx_par hi f q p) e he (hx (c, ⟨p, hp⟩) (by show val D c p ≠ none; rw [ha]; simp))
      (hx (c', ⟨p', hp'⟩) (by show val D c' p' ≠ none; rw [ha']; simp)) h'

/-- C80, sharing (continuous elements), all histories: also when the mesh is refined between distributions, equal dofs
are the same point. -/
theorem C80_sound (hB : B.WF) (hO : PerOk B) (he : torn e = false) (h : PUses B e s pr D) (c c' : CN)
    (p p' a : Nat) (hp : p < nd2 e) (hp' : p' < nd2 e) (ha : val D c p = some a) (ha' : val D c' p' = some a) :
    SamePt B (rootPt c (node e p)) (rootPt c' (node e p')) := by
  have := (h.snd hB hO).2.1.same (c, ⟨p, hp⟩) (c', ⟨p', hp'⟩) a ha ha'
  unfold PtRel at this
  rw [if_pos he] at this
  exact this

/-- C80: the number of dofs is the number of points of the glued domain at which the cells have nodes. -/
theorem C80_count (hB : B.WF) (hO : PerOk B) (he : torn e = false) (h : PFixed B e s pr D) :
    Nat.card {x : Quot (SamePt B) // ∃ c p, p < nd2 e ∧ val D c p ≠ none ∧ x = Quot.mk _ (rootPt c (node e p))} = D.count := by
  obtain ⟨_, hs, _⟩ := h.uses.snd hB hO
  have heq : Equivalence (SamePt (R := ℚ) B) := Relation.EqvGen.is_equivalence _
  have hall : ∀ a : Fin D.count, ∃ l : Loc e, vOf D.dofs l = some a.1 := fun a => hs.all a a.2
  choose l hl using hall
  let f : Fin D.count → {x : Quot (SamePt B) // ∃ c p, p < nd2 e ∧ val D c p ≠ none ∧ x = Quot.mk _ (rootPt c (node e p))} :=
    fun a => ⟨Quot.mk _ (rootPt (l a).1 (node e (l a).2)), (l a).1, (l a).2, (l a).2.2, by
      show vOf D.dofs (l a) ≠ none
      rw [hl]; simp, rfl⟩
  have hf : Function.Bijective f := by
    constructor
    · intro a b hab
      have h1 := congrArg Subtype.val hab
      have h2 := (heq.eqvGen_iff).1 (Quot.eqvGen_exact h1)
      exact Fin.ext ((C80_shared hB hO he h _ _ _ _ _ _ (l a).2.2 (l b).2.2 (hl a) (hl b)).2 h2)
    · rintro ⟨x, c, p, hp, hv, rfl⟩
      obtain ⟨a, ha⟩ := Option.ne_none_iff_exists'.1 hv
      have hlt : a < D.count := hs.lt (c, ⟨p, hp⟩) a ha
      refine ⟨⟨a, hlt⟩, Subtype.ext (Quot.sound ?_)⟩
      exact (C80_shared hB hO he h _ _ _ _ a a (l ⟨a, hlt⟩).2.2 hp (hl ⟨a, hlt⟩) ha).1 rfl
  rw [← Nat.card_congr (Equiv.ofBijective f hf), Nat.card_fin]

/-- C80, the API view: neighbours across a half-edge, through a periodic side too, use the same dofs at its two ends, and the same dofs on the
half-edge in opposite order. -/
theorem C80_neighbors (hB : B.WF) (hO : PerOk B) (he : torn e = false) (h : PFixed B e s pr D) (c d : CN)
    (hc : c ∈ s.cells) (i j : Fin 4) (r : HERec) (hr : s.he (s.sides c i) = some r) (hd : d ∈ s.cells)
    (ht : r.twin = some (s.sides d j)) (hac : ∀ p < nd2 e, val D c p ≠ none) (had : ∀ p < nd2 e, val D d p ≠ none) :
    val D c i = val D d ((j + 1 : Fin 4) : Nat) ∧ val D c ((i + 1 : Fin 4) : Nat) = val D d j ∧
    ∀ m < dpe2 e, val D c (4 * dpv e + i * dpe2 e + m) = val D d (4 * dpv e + j * dpe2 e + (dpe2 e - 1 - m)) := by
  have hi := (h.uses.minv hB hO).1.inv hB
  have hcx := (hi.mem c).1 hc
  have hdx := (hi.mem d).1 hd
  have hG := geoP hB hO.toNice hi
  rw [hi.sides c hcx] at hr
  rw [hi.sides d hdx] at ht
  have hv := ((hi.hinv.tw _ r hr _).1 ht).1
  have key : ∀ (p q : Fin (nd2 e)) (ρ : ℚ), 0 ≤ ρ → ρ ≤ 1 → node e p = E i ρ → node e q = E j (1 - ρ) →
      val D c p = val D d q := by
    intro p q ρ h0 h1 e1 e2
    obtain ⟨a, ha⟩ := Option.ne_none_iff_exists'.1 (hac p p.2)
    obtain ⟨b, hb⟩ := Option.ne_none_iff_exists'.1 (had q q.2)
    rw [ha, hb]
    congr 1
    refine (C80_shared hB hO he h c d p q a b p.2 q.2 ha hb).2 ?_
    exact PGlue.same _ _ _ _ _ _ (hG.root _ hcx) (hG.root _ hdx) ⟨i, j, ρ, h0, h1, hv, e1, e2⟩
  refine ⟨?_, ?_, ?_⟩
  · refine key (cpos e he i) (cpos e he (j + 1)) 0 (le_refl _) (by norm_num) (node_cpos e he i) ?_
    rw [node_cpos, ← E_next]
    exact congrArg (E j) (by norm_num)
  · refine key (cpos e he (i + 1)) (cpos e he j) 1 (by norm_num) (le_refl _) ?_ ?_
    · rw [node_cpos, E_next]
    · rw [node_cpos]
      exact congrArg (E j) (by norm_num)
  · intro m hm
    have hρ := epos_range (dpe2 e) ⟨m, hm⟩
    have := key (epos e i ⟨m, hm⟩) (epos e j (Fin.rev ⟨m, hm⟩)) _ hρ.1.le hρ.2.le (node_epos e i ⟨m, hm⟩) (by
      rw [node_epos, epos_flip])
    simp only [epos, Fin.val_rev] at this
    have e1 : dpe2 e - 1 - m = dpe2 e - (m + 1) := by omega
    rw [e1]
    exact this

/-- C80, the API view: every cell that `get_neighbors(vertex)` returns, through a periodic side too, has a vertex at the
same point, and there it uses the same dof. -/
theorem C80_vertex (hB : B.WF) (hO : PerOk B) (he : torn e = false) (h : PFixed B e s pr D) (c d : CN)
    (hc : c ∈ s.cells) (v : VN) (i : Fin 4) (hv : baseOf s (s.sides c i) = some v) (n : Nat) (hn : 4 * s.cells.length ≤ n)
    (l : List CN) (hl : nbsP s pr n c v = some l) (hd : d ∈ l) (hac : ∀ p < nd2 e, val D c p ≠ none)
    (had : ∀ p < nd2 e, val D d p ≠ none) :
    ∃ j : Fin 4, SamePt B (rootPt c (E i (0 : ℚ))) (rootPt d (E j 0)) ∧ val D c i = val D d j := by
  obtain ⟨hs, hp⟩ := h.uses.minv hB hO
  have hi := hs.inv hB
  have hcx := (hi.mem c).1 hc
  have hve : v = vert s c i := by
    obtain ⟨r, g1, g2, _⟩ := vert_eq hi hcx i
    rw [hi.sides c hcx] at hv
    simp only [baseOf, g1, Option.map_some, Option.some.injEq] at hv
    exact hv.symm.trans g2.symm
  subst hve
  obtain ⟨l', h1, _, h3, _⟩ := nbsP_spec hB hO hs hp c i hcx n hn
  rw [hl] at h1
  cases h1
  obtain ⟨z, hz, rfl⟩ := List.mem_map.1 hd
  have hco := conn_co hB hO.toNice hi hcx (h3 z hz)
  have hsame := cls_iff.1 hco.2.2
  refine ⟨z.2, hsame, ?_⟩
  obtain ⟨a, ha⟩ := Option.ne_none_iff_exists'.1 (hac _ (cpos e he i).2)
  obtain ⟨b, hb⟩ := Option.ne_none_iff_exists'.1 (had _ (cpos e he z.2).2)
  have := (C80_shared hB hO he h c z.1 _ _ a b (cpos e he i).2 (cpos e he z.2).2 ha hb).2 (by
    rw [node_cpos, node_cpos]; exact hsame)
  show val D c (cpos e he i) = val D z.1 (cpos e he z.2)
  rw [ha, hb, this]

/-- C80, torn elements, all histories (refinement between distributions included): two cells share no dof unless one
contains the other; within a cell all dofs differ; a shared dof sits at the same point. -/
theorem C80_torn (hB : B.WF) (hO : PerOk B) (he : torn e = true) (h : PUses B e s pr D) (c c' : CN)
    (p p' a : Nat) (hp : p < nd2 e) (hp' : p' < nd2 e) (ha : val D c p = some a) (ha' : val D c' p' = some a) :
    (Anc c c' ∨ Anc c' c) ∧ (c = c' → p = p') ∧ rootPt c (node e p) = rootPt c' (node e p') := by
  have hn := h.torn_num hB hO he
  obtain ⟨t, t', h1, h2, h3⟩ := (hn.iff (c, ⟨p, hp⟩) (c', ⟨p', hp'⟩) a a ha ha').1 rfl
  have h3' : t = t' := h3
  subst h3'
  obtain ⟨g1, g2⟩ := torn_chain he h1 h2
  refine ⟨g1, fun hcc => ?_, (top_anc h1).2.trans (top_anc h2).2.symm⟩
  have := g2 hcc
  simp only [Prod.mk.injEq, Fin.mk.injEq] at this
  exact this.2

/-- C80: the loops over the half-edges never fail: every split of a reachable state has a successor. -/
theorem C80_pairs (hB : B.WF) (hO : PerOk B) (h : PUses B e s pr D) (c : CN) (hc : c ∈ s.cells) (hk : s.kids c = false)
    (sf : Bool) : ∃ s' pr', cellSplit sf s c = .ok s' ∧ PUses B e s' pr' D := by
  have hi := (h.minv hB hO).1.inv hB
  have hcx := (hi.mem c).1 hc
  obtain ⟨s', h1, hi', h3, _⟩ := cellSplit_spec hB hi hcx hk sf
  have hcx' : CEx B.n s'.kids c := by
    obtain ⟨f, _ | ⟨k, p⟩⟩ := c
    · exact hcx
    · show s'.kids _ = true
      have hk' : s.kids (f, p) = true := hcx
      rw [h3, Function.update_apply]
      split_ifs
      · rfl
      · exact hk'
  obtain ⟨pr', h2⟩ := PairAll.total hi' (kidsOf s' c) (by
    intro x hx
    unfold kidsOf at hx
    obtain ⟨i, _, hx⟩ := List.mem_flatMap.1 hx
    rw [hi'.sides c hcx'] at hx
    have hkk : s'.kids (owner (side c i)).1 = true := by rw [owner_side, h3]; simp
    simp only [List.mem_cons, List.not_mem_nil, or_false] at hx
    rcases hx with rfl | rfl
    · exact (kids_owner_kid hi' (side c i) false).2 hkk
    · exact (kids_owner_kid hi' (side c i) true).2 hkk) pr
  exact ⟨s', pr', h1, .split s s' pr pr' D c sf h hc hk h1 h2⟩

end

end Verif.Per
