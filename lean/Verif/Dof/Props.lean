import Verif.Dof.Distribute
import Mathlib.SetTheory.Cardinal.Finite

/-!
# C34: dof numbering

`SamePt B x y` (Points.lean): the initial cells are unit squares, glued along their common edges; `x` and `y` are the same
point of the domain so obtained.  `rootPt c z` is the point of the initial cell that contains `c` at the place `z` of
the unit square of `c`; `node e p` is reference node `p` of the element.
-/

namespace Verif.Dof
open Verif.Fem Verif.Mesh

section
variable {K : Type} [Field K] {B : Base K} {e : ET}

theorem val_vOf (D : DH) (c : CN) (p : Nat) (hp : p < nd2 e) : val D c p = vOf (e := e) D.dofs (c, ⟨p, hp⟩) := rfl

/-! ### The invariant of histories on one mesh -/

theorem dist_num (hB : B.WF) {s : St K} (hs : MReach B s) (hG : Geo B (CEx B.n s.kids) (vert s)) {D D' : DH} {sf : Bool} {n : Nat}
    (hl : Len e D.dofs) (hf : sf = false ∨ RootedFlag B s) (hn : 4 * s.cells.length ≤ n)
    (hd : distributeDofs sf B.n s e n D = some D') (h : NumInv (sysOf hG e) (vOf D.dofs) D.count) :
    NumInv (sysOf hG e) (vOf D'.dofs) D'.count := by
  have hi := hs.inv hB
  obtain ⟨L, l1, l2, l3, l4⟩ := cellsBF_spec hi sf n hn
  have hfold := distribute_some hd l1
  obtain ⟨D1, q1, _, q3, _⟩ := loop_spec hB hi hG e sf hn L [] D (l4 hf) (fun c hc => (l3 c).1 hc) hl h (by simp)
  rw [hfold] at q1
  cases q1
  exact q3

theorem UsesFixed.num (hB : B.WF) (hP : Plain B) {s : St K} {D : DH} (h : UsesFixed B e s D)
    (hG : Geo B (CEx B.n s.kids) (vert s)) : NumInv (sysOf hG e) (vOf D.dofs) D.count := by
  induction h with
  | new s hs => exact NumInv.empty
  | mark s D m _ ih => exact ih hG
  | dist s D D' sf n hu hf hn hd ih => exact dist_num hB hu.uses.reach hG (hu.uses.snd hB hP).1 hf hn hd (ih hG)

theorem Uses.torn_num (hB : B.WF) (hP : Plain B) (he : torn e = true) {s : St K} {D : DH} (h : Uses B e s D) :
    NumInv (tornSys e) (vOf D.dofs) D.count := by
  have hs : ∀ (s : St K) (hG : Geo B (CEx B.n s.kids) (vert s)), sysOf hG e = tornSys e := by
    intro s hG
    unfold sysOf
    rw [dif_neg (by simp [he])]
  induction h with
  | new s _ => exact NumInv.empty
  | split s s' D c sf _ _ _ _ ih => exact ih
  | mark s D m _ ih => exact ih
  | dist s D D' sf n hu hf hn hd ih =>
    have hG := geo hB hP hu.reach
    have := dist_num hB hu.reach hG (hu.snd hB hP).1 hf hn hd (by rw [hs]; exact ih)
    rw [hs] at this
    exact this

/-! ### The theorems -/

/-- C34, no failure: on a balanced mesh `distribute_dofs` returns, after any history of refinements and distributions. -/
theorem C34_terminates (hB : B.WF) (hP : Plain B) {s : St K} {D : DH} (h : Uses B e s D) (hb : isBalanced false s = true)
    (sf : Bool) (n : Nat) (hn : 4 * s.cells.length ≤ n) : ∃ D', distributeDofs sf B.n s e n D = some D' := by
  have hi := h.reach.inv hB
  have hG := geo hB hP h.reach
  obtain ⟨L, l1, l2, l3, l4⟩ := cellsBF_spec hi sf n hn
  obtain ⟨D', q1, _⟩ := loop_any hB hi hG e sf hn (fun _ => True) (fun _ _ _ _ _ _ _ _ => trivial) L D
    (fun c hc => (l3 c).1 hc) (h.snd hB hP).1 trivial
  exact ⟨D', by rw [distributeDofs, l1]; simp [distribute, hb, q1]⟩

/-- C34, completeness: afterwards every cell of the (sub)mesh has all its dofs. -/
theorem C34_complete (hB : B.WF) (hP : Plain B) {s : St K} {D D' : DH} (h : Uses B e s D) (sf : Bool) (n : Nat)
    (hn : 4 * s.cells.length ≤ n) (hd : distributeDofs sf B.n s e n D = some D') (c : CN) (hc : c ∈ s.cells)
    (hm : sf = false ∨ s.mkd c = true) (p : Nat) (hp : p < nd2 e) : ∃ a, val D' c p = some a := by
  have hi := h.reach.inv hB
  have hG := geo hB hP h.reach
  obtain ⟨L, l1, l2, l3, l4⟩ := cellsBF_spec hi sf n hn
  have hfold := distribute_some hd l1
  obtain ⟨D1, q1, _, _, _, q5⟩ := loop_any hB hi hG e sf hn (fun _ => True) (fun _ _ _ _ _ _ _ _ => trivial) L D
    (fun c hc => (l3 c).1 hc) (h.snd hB hP).1 trivial
  rw [hfold] at q1
  cases q1
  rw [val_vOf D' c p hp]
  exact Option.ne_none_iff_exists'.1 (q5 c ((l3 c).2 ⟨(hi.mem c).1 hc, hm⟩) ⟨p, hp⟩)

/-- C34, stability: a later `distribute_dofs`, also after refinement and for other flags, never changes a dof. -/
theorem C34_stable (hB : B.WF) (hP : Plain B) {s : St K} {D D' : DH} (h : Uses B e s D) (sf : Bool) (n : Nat)
    (hn : 4 * s.cells.length ≤ n) (hd : distributeDofs sf B.n s e n D = some D') (c : CN) (p a : Nat) (hp : p < nd2 e)
    (ha : val D c p = some a) : val D' c p = some a := by
  have hi := h.reach.inv hB
  have hG := geo hB hP h.reach
  obtain ⟨L, l1, l2, l3, l4⟩ := cellsBF_spec hi sf n hn
  have hfold := distribute_some hd l1
  obtain ⟨D1, q1, _, _, q4, _⟩ := loop_any hB hi hG e sf hn (fun _ => True) (fun _ _ _ _ _ _ _ _ => trivial) L D
    (fun c hc => (l3 c).1 hc) (h.snd hB hP).1 trivial
  rw [hfold] at q1
  cases q1
  exact q4 (c, ⟨p, hp⟩) a ha

/-- C34, numbers: in every history the dofs in use are exactly `0, ..., n_dofs(all_dofs=True) - 1`. -/
theorem C34_numbers (hB : B.WF) (hP : Plain B) {s : St K} {D : DH} (h : Uses B e s D) (a : Nat) :
    a < D.count ↔ ∃ c ∈ s.cells, ∃ p < nd2 e, val D c p = some a := by
  obtain ⟨_, hs, hx⟩ := h.snd hB hP
  have hi := h.reach.inv hB
  constructor
  · intro ha
    obtain ⟨⟨c, p⟩, hl⟩ := hs.all a ha
    exact ⟨c, (hi.mem c).2 (hx (c, p) (by rw [hl]; simp)), p, p.2, hl⟩
  · rintro ⟨c, _, p, hp, hl⟩
    exact hs.lt (c, ⟨p, hp⟩) a hl

/-- C34, sharing (continuous elements): on one mesh, after any sequence of distributions for rooted flags, two dofs
are equal exactly if their nodes are the same point of the domain. -/
theorem C34_shared (hB : B.WF) (hP : Plain B) (he : torn e = false) {s : St K} {D : DH} (h : UsesFixed B e s D) (c c' : CN)
    (p p' a a' : Nat) (hp : p < nd2 e) (hp' : p' < nd2 e) (ha : val D c p = some a) (ha' : val D c' p' = some a') :
    a = a' ↔ SamePt B (rootPt c (node e p)) (rootPt c' (node e p')) := by
  have hG := geo hB hP h.uses.reach
  have hn := h.num hB hP hG
  obtain ⟨_, _, hx⟩ := h.uses.snd hB hP
  have hi := h.uses.reach.inv hB
  rw [hn.iff (c, ⟨p, hp⟩) (c', ⟨p', hp'⟩) a a' ha ha']
  have hs : sysOf hG e = contSys hG e he := by unfold sysOf; rw [dif_pos he]
  rw [hs]
  constructor
  · intro h'; exact same_sound hG e he h'
  · intro h'
    exact same_complete hG (fun f q p => CEx_par hi f q p) e he (hx (c, ⟨p, hp⟩) (by show val D c p ≠ none; rw [ha]; simp))
      (hx (c', ⟨p', hp'⟩) (by show val D c' p' ≠ none; rw [ha']; simp)) h'

/-- C34, sharing (continuous elements), all histories: also when the mesh is refined between distributions, equal dofs
are the same point. -/
theorem C34_sound (hB : B.WF) (hP : Plain B) (he : torn e = false) {s : St K} {D : DH} (h : Uses B e s D) (c c' : CN)
    (p p' a : Nat) (hp : p < nd2 e) (hp' : p' < nd2 e) (ha : val D c p = some a) (ha' : val D c' p' = some a) :
    SamePt B (rootPt c (node e p)) (rootPt c' (node e p')) := by
  have := (h.snd hB hP).2.1.same (c, ⟨p, hp⟩) (c', ⟨p', hp'⟩) a ha ha'
  unfold PtRel at this
  rw [if_pos he] at this
  exact this

/-- C34: the number of dofs is the number of points of the domain at which the cells have nodes. -/
theorem C34_count (hB : B.WF) (hP : Plain B) (he : torn e = false) {s : St K} {D : DH} (h : UsesFixed B e s D) :
    Nat.card {x : Quot (SamePt B) // ∃ c p, p < nd2 e ∧ val D c p ≠ none ∧ x = Quot.mk _ (rootPt c (node e p))} = D.count := by
  obtain ⟨_, hs, _⟩ := h.uses.snd hB hP
  have heq : Equivalence (SamePt (R := ℚ) B) := Relation.EqvGen.is_equivalence _
  have hall : ∀ a : Fin D.count, ∃ l : Loc e, vOf D.dofs l = some a.1 := fun a => hs.all a a.2
  choose l hl using hall
  let f : Fin D.count → {x : Quot (SamePt B) // ∃ c p, p < nd2 e ∧ val D c p ≠ none ∧ x = Quot.mk _ (rootPt c (node e p))} :=
    fun a => ⟨Quot.mk _ (rootPt (l a).1 (node e (l a).2)), (l a).1, (l a).2, (l a).2.2, by
      show vOf D.dofs (l a) ≠ none
      rw [hl]; simp, rfl⟩
  have hf : Function.Bijective f := by
    constructor
    · intro a b hab
      have h1 := congrArg Subtype.val hab
      have h2 := (heq.eqvGen_iff).1 (Quot.eqvGen_exact h1)
      exact Fin.ext ((C34_shared hB hP he h _ _ _ _ _ _ (l a).2.2 (l b).2.2 (hl a) (hl b)).2 h2)
    · rintro ⟨x, c, p, hp, hv, rfl⟩
      obtain ⟨a, ha⟩ := Option.ne_none_iff_exists'.1 hv
      have hlt : a < D.count := hs.lt (c, ⟨p, hp⟩) a ha
      refine ⟨⟨a, hlt⟩, Subtype.ext (Quot.sound ?_)⟩
      exact (C34_shared hB hP he h _ _ _ _ a a (l ⟨a, hlt⟩).2.2 hp (hl ⟨a, hlt⟩) ha).1 rfl
  rw [← Nat.card_congr (Equiv.ofBijective f hf), Nat.card_fin]

/-- C34, the API view: neighbours across a half-edge use the same dofs at its two ends, and the same dofs on the
half-edge in opposite order. -/
theorem C34_neighbors (hB : B.WF) (hP : Plain B) (he : torn e = false) {s : St K} {D : DH} (h : UsesFixed B e s D) (c d : CN)
    (hc : c ∈ s.cells) (i j : Fin 4) (r : HERec) (hr : s.he (s.sides c i) = some r) (hd : d ∈ s.cells)
    (ht : r.twin = some (s.sides d j)) (hac : ∀ p < nd2 e, val D c p ≠ none) (had : ∀ p < nd2 e, val D d p ≠ none) :
    val D c i = val D d ((j + 1 : Fin 4) : Nat) ∧ val D c ((i + 1 : Fin 4) : Nat) = val D d j ∧
    ∀ m < dpe2 e, val D c (4 * dpv e + i * dpe2 e + m) = val D d (4 * dpv e + j * dpe2 e + (dpe2 e - 1 - m)) := by
  have hi := h.uses.reach.inv hB
  have hcx := (hi.mem c).1 hc
  have hdx := (hi.mem d).1 hd
  have hG := geo hB hP h.uses.reach
  rw [hi.sides c hcx] at hr
  rw [hi.sides d hdx] at ht
  have hv := ((hi.hinv.tw _ r hr _).1 ht).1
  have key : ∀ (p q : Fin (nd2 e)) (ρ : ℚ), 0 ≤ ρ → ρ ≤ 1 → node e p = E i ρ → node e q = E j (1 - ρ) →
      val D c p = val D d q := by
    intro p q ρ h0 h1 e1 e2
    obtain ⟨a, ha⟩ := Option.ne_none_iff_exists'.1 (hac p p.2)
    obtain ⟨b, hb⟩ := Option.ne_none_iff_exists'.1 (had q q.2)
    rw [ha, hb]
    congr 1
    refine (C34_shared hB hP he h c d p q a b p.2 q.2 ha hb).2 ?_
    exact PGlue.same _ _ _ _ _ _ (hG.root _ hcx) (hG.root _ hdx) ⟨i, j, ρ, h0, h1, hv, e1, e2⟩
  refine ⟨?_, ?_, ?_⟩
  · refine key (cpos e he i) (cpos e he (j + 1)) 0 (le_refl _) (by norm_num) (node_cpos e he i) ?_
    rw [node_cpos, ← E_next]
    exact congrArg (E j) (by norm_num)
  · refine key (cpos e he (i + 1)) (cpos e he j) 1 (by norm_num) (le_refl _) ?_ ?_
    · rw [node_cpos, E_next]
    · rw [node_cpos]
      exact congrArg (E j) (by norm_num)
  · intro m hm
    have hρ := epos_range (dpe2 e) ⟨m, hm⟩
    have := key (epos e i ⟨m, hm⟩) (epos e j (Fin.rev ⟨m, hm⟩)) _ hρ.1.le hρ.2.le (node_epos e i ⟨m, hm⟩) (by
      rw [node_epos, epos_flip])
    simp only [epos, Fin.val_rev] at this
    have e1 : dpe2 e - 1 - m = dpe2 e - (m + 1) := by omega
    rw [e1]
    exact this

/-- C34, the API view: all cells that `get_neighbors(vertex)` returns use the same dof at the vertex. -/
theorem C34_vertex (hB : B.WF) (hP : Plain B) (he : torn e = false) {s : St K} {D : DH} (h : UsesFixed B e s D) (c d : CN)
    (hc : c ∈ s.cells) (v : VN) (i : Fin 4) (hv : baseOf s (s.sides c i) = some v) (n : Nat) (hn : 4 * s.cells.length ≤ n)
    (l : List CN) (hl : nbsV s n c v = some l) (hd : d ∈ l) (hac : ∀ p < nd2 e, val D c p ≠ none)
    (had : ∀ p < nd2 e, val D d p ≠ none) : ∃ j : Fin 4, baseOf s (s.sides d j) = some v ∧ val D c i = val D d j := by
  have hi := h.uses.reach.inv hB
  have hcx := (hi.mem c).1 hc
  have hG := geo hB hP h.uses.reach
  have hvv : ∀ d, CEx B.n s.kids d → ∀ j, baseOf s (s.sides d j) = some (vert s d j) := by
    intro d hd j
    obtain ⟨r, g1, g2, _⟩ := vert_eq hi hd j
    rw [hi.sides d hd]
    simp [baseOf, g1, g2]
  have hve : v = vert s c i := by
    have := hvv c hcx i
    rw [hv] at this
    exact Option.some.inj this
  subst hve
  obtain ⟨l', h1, h2, h3, h4, h5⟩ := nbsV_spec hB hi hG c i hcx n hn
  rw [hl] at h1
  cases h1
  obtain ⟨z, hz, rfl⟩ := List.mem_map.1 hd
  obtain ⟨g1, g2⟩ := h5 z hz
  refine ⟨z.2, by rw [hvv z.1 g1, g2], ?_⟩
  have hs := ((orbit_locs hG he c i l' h2 h3 h4 (z.1, cpos e he z.2)).1 ⟨z, hz, rfl⟩).1
  obtain ⟨a, ha⟩ := Option.ne_none_iff_exists'.1 (hac _ (cpos e he i).2)
  obtain ⟨b, hb⟩ := Option.ne_none_iff_exists'.1 (had _ (cpos e he z.2).2)
  have hab : a = b := by
    have hsys : sysOf hG e = contSys hG e he := by unfold sysOf; rw [dif_pos he]
    refine ((h.num hB hP hG).iff (c, cpos e he i) (z.1, cpos e he z.2) a b ha hb).2 ?_
    rw [hsys]
    exact Same.nb hs
  show val D c (cpos e he i) = val D z.1 (cpos e he z.2)
  rw [ha, hb, hab]

/-- `c` is an ancestor of `d`. -/
def Anc (c d : CN) : Prop := ∃ q, d = (c.1, q ++ c.2)

theorem top_anc {l t : Loc e} (h : Top (tornSys e) l t) : Anc t.1 l.1 ∧ rootPt l.1 (node e l.2) = rootPt t.1 (node e t.2) := by
  induction h with
  | top l _ => exact ⟨⟨[], rfl⟩, rfl⟩
  | up l m t hu _ ih =>
    obtain ⟨⟨q, hq⟩, ih2⟩ := ih
    refine ⟨?_, by rw [← ih2]; exact up_root hu⟩
    obtain ⟨k, h1, _⟩ := upL_some e l m hu
    exact ⟨k :: q, by rw [h1, hq]; rfl⟩

/-- A torn element passes each dof to one child at most, so the places of one dof form a chain. -/
theorem torn_chain (he : torn e = true) {l l' t : Loc e} (h : Top (tornSys e) l t) (h' : Top (tornSys e) l' t) :
    (Anc l.1 l'.1 ∨ Anc l'.1 l.1) ∧ (l.1 = l'.1 → l = l') := by
  have key : ∀ (n : Nat) (l l' t : Loc e), level l.1 + level l'.1 ≤ n → Top (tornSys e) l t → Top (tornSys e) l' t →
      level l.1 ≤ level l'.1 → ∃ q, l'.1 = (l.1.1, q ++ l.1.2) ∧ (q = [] → l = l') := by
    intro n
    induction n with
    | zero =>
      intro l l' t hn h h' hle
      have h1 : level l.1 = 0 := by omega
      have h2 : level l'.1 = 0 := by omega
      have hl : ∀ l : Loc e, level l.1 = 0 → upL e l = none := by
        rintro ⟨⟨f, _ | ⟨k, p⟩⟩, q⟩ h
        · rfl
        · simp [level] at h
      have e1 := h.fun l (.top l (hl l h1))
      have e2 := h'.fun l' (.top l' (hl l' h2))
      subst e1 e2
      exact ⟨[], by simp, fun _ => rfl⟩
    | succ n ih =>
      intro l l' t hn h h' hle
      cases h' with
      | top _ hu' =>
        obtain ⟨⟨q, hq⟩, _⟩ := top_anc h
        -- `l'` is on top; `l` is not deeper
        have hq0 : q = [] := by
          rw [hq] at hle
          simp only [level, List.length_append] at hle
          exact List.length_eq_zero_iff.1 (by omega)
        subst hq0
        cases h with
        | top _ _ => exact ⟨[], by simp, fun _ => rfl⟩
        | up _ m _ hu hm =>
          exfalso
          obtain ⟨⟨q', hq'⟩, _⟩ := top_anc hm
          have hlt := upL_lev e l m hu
          rw [hq, hq'] at hlt
          simp [level] at hlt
      | up _ m' _ hu' hm' =>
        have hlt' := upL_lev e l' m' hu'
        obtain ⟨k', h1', h2'⟩ := upL_some e l' m' hu'
        by_cases hlm : level l.1 ≤ level m'.1
        · obtain ⟨q, hq, _⟩ := ih l m' t (by omega) h hm' hlm
          refine ⟨k' :: q, by rw [h1', hq]; rfl, fun h => (by cases h)⟩
        · -- both on the same level
          have hlev : level l.1 = level l'.1 := by
            have : level l'.1 = level m'.1 + 1 := by rw [h1', level_child]
            omega
          cases h with
          | top _ _ =>
            exfalso
            obtain ⟨⟨q', hq'⟩, _⟩ := top_anc hm'
            rw [hq'] at hlm
            simp [level] at hlm
          | up _ m _ hu hm =>
            obtain ⟨k, h1, h2⟩ := upL_some e l m hu
            have hmm : level m.1 ≤ level m'.1 := by
              have a1 : level l'.1 = level m'.1 + 1 := by rw [h1', level_child]
              have a2 : level l.1 = level m.1 + 1 := by rw [h1, level_child]
              omega
            have hmm' : level m'.1 ≤ level m.1 := by
              have a1 : level l'.1 = level m'.1 + 1 := by rw [h1', level_child]
              have a2 : level l.1 = level m.1 + 1 := by rw [h1, level_child]
              omega
            obtain ⟨q, hq, hq2⟩ := ih m m' t (by
              have a1 : level l'.1 = level m'.1 + 1 := by rw [h1', level_child]
              have a2 : level l.1 = level m.1 + 1 := by rw [h1, level_child]
              omega) hm hm' hmm
            have hq0 : q = [] := by
              rw [hq] at hmm'
              simp only [level, List.length_append] at hmm'
              exact List.length_eq_zero_iff.1 (by omega)
            have hmeq := hq2 hq0
            subst hmeq
            obtain ⟨hk, hp⟩ := inherit_once e he k k' l.2 l'.2 m.2 h2 h2'
            subst hk
            have : l = l' := Prod.ext (h1.trans h1'.symm) (Fin.ext hp)
            subst this
            exact ⟨[], by simp, fun _ => rfl⟩
  rcases le_total (level l.1) (level l'.1) with hle | hle
  · obtain ⟨q, hq, hq2⟩ := key _ l l' t (le_refl _) h h' hle
    refine ⟨.inl ⟨q, hq⟩, fun heq => hq2 ?_⟩
    rw [← heq] at hq
    have := congrArg (fun c : CN => c.2.length) hq
    simp only [List.length_append] at this
    exact List.length_eq_zero_iff.1 (by omega)
  · obtain ⟨q, hq, hq2⟩ := key _ l' l t (le_refl _) h' h hle
    refine ⟨.inr ⟨q, hq⟩, fun heq => (hq2 ?_).symm⟩
    rw [heq] at hq
    have := congrArg (fun c : CN => c.2.length) hq
    simp only [List.length_append] at this
    exact List.length_eq_zero_iff.1 (by omega)

/-- C34, torn elements, all histories (refinement between distributions included): two cells share no dof unless one
contains the other; within a cell all dofs differ; a shared dof sits at the same point. -/
theorem C34_torn (hB : B.WF) (hP : Plain B) (he : torn e = true) {s : St K} {D : DH} (h : Uses B e s D) (c c' : CN)
    (p p' a : Nat) (hp : p < nd2 e) (hp' : p' < nd2 e) (ha : val D c p = some a) (ha' : val D c' p' = some a) :
    (Anc c c' ∨ Anc c' c) ∧ (c = c' → p = p') ∧ rootPt c (node e p) = rootPt c' (node e p') := by
  have hn := h.torn_num hB hP he
  obtain ⟨t, t', h1, h2, h3⟩ := (hn.iff (c, ⟨p, hp⟩) (c', ⟨p', hp'⟩) a a ha ha').1 rfl
  have h3' : t = t' := h3
  subst h3'
  obtain ⟨g1, g2⟩ := torn_chain he h1 h2
  refine ⟨g1, fun hcc => ?_, (top_anc h1).2.trans (top_anc h2).2.symm⟩
  have := g2 hcc
  simp only [Prod.mk.injEq, Fin.mk.injEq] at this
  exact this.2

end

/-! ### What fails -/

/-- `cell.split()` (the state itself if it fails). -/
def sp {K : Type} [Field K] (s : St K) (c : CN) : St K :=
  match cellSplit false s c with
  | .ok s' => s'
  | _ => s

theorem sp_reach {K : Type} [Field K] {B : Base K} (hB : B.WF) {s : St K} (hs : MReach B s) (c : CN) (hc : c ∈ s.cells)
    (hk : s.kids c = false) : cellSplit false s c = .ok (sp s c) ∧ MReach B (sp s c) := by
  have hi := hs.inv hB
  obtain ⟨s', h1, _⟩ := cellSplit_spec hB hi ((hi.mem c).1 hc) hk false
  have : sp s c = s' := by unfold sp; rw [h1]
  rw [this]
  exact ⟨h1, .split s s' c false hs hc hk h1⟩

theorem twoB_plain : Plain twoB := ⟨by decide, by decide⟩

/-- The second cell refined, dofs distributed, the first cell refined, dofs distributed. -/
def wit1 : St ℚ := sp (init twoB) (1, [])
def wit2 : St ℚ := sp wit1 (0, [])
def witD1 : DH := (distributeDofs false 2 wit1 .Q1 40 DH.new).getD DH.new
def witD2 : DH := (distributeDofs false 2 wit2 .Q1 40 witD1).getD DH.new

theorem wit1_reach : MReach twoB wit1 := (sp_reach twoB_wf .init (1, []) (by decide +kernel) rfl).2

theorem witD1_uses : UsesFixed twoB .Q1 wit1 witD1 :=
  .dist wit1 DH.new witD1 false 40 (.new wit1 wit1_reach) (.inl rfl) (by decide +kernel) (by
    have : (distributeDofs false 2 wit1 .Q1 40 DH.new).isSome := by decide +kernel
    obtain ⟨D, hD⟩ := Option.isSome_iff_exists.1 this
    unfold witD1
    show distributeDofs false 2 wit1 .Q1 40 DH.new = _
    rw [hD]; rfl)

theorem witD2_uses : Uses twoB .Q1 wit2 witD2 := by
  have h2 := sp_reach twoB_wf wit1_reach (0, []) (by decide +kernel) (by decide +kernel)
  refine .dist wit2 witD1 witD2 false 40 (.split wit1 wit2 witD1 (0, []) false witD1_uses.uses (by decide +kernel)
    (by decide +kernel) h2.1) (.inl rfl) (by decide +kernel) ?_
  have : (distributeDofs false 2 wit2 .Q1 40 witD1).isSome := by decide +kernel
  obtain ⟨D, hD⟩ := Option.isSome_iff_exists.1 this
  unfold witD2
  show distributeDofs false 2 wit2 .Q1 40 witD1 = _
  rw [hD]; rfl

/-- Non-vacuity of the hypotheses of the theorems on one mesh, in a case with sharing: child 0 of the refined cell and the
other cell share a corner, two children share the midpoint of an edge. -/
example : twoB.WF ∧ Plain twoB ∧ UsesFixed twoB .Q1 wit1 witD1 ∧ witD1.count = 11 ∧ isBalanced false wit1 = true ∧
    val witD1 (0, []) 1 = some 1 ∧ val witD1 (1, [0]) 0 = some 1 ∧ val witD1 (1, [0]) 3 = some 8 ∧
    val witD1 (1, [3]) 0 = some 8 :=
  ⟨twoB_wf, twoB_plain, witD1_uses, by decide +kernel, by decide +kernel, by decide +kernel, by decide +kernel,
    by decide +kernel, by decide +kernel⟩

/-- C34 fails after refinement between distributions: the children of both cells at the midpoint of the common edge are at
the same point, all cells have all their dofs, but the dofs there differ (and the cells are neighbours of the same
size, so that the node is not a hanging node). -/
theorem C34_redistribute_violated : ∃ (B : Base ℚ) (s : St ℚ) (D : DH), B.WF ∧ Plain B ∧ Uses B .Q1 s D ∧
    (∀ c ∈ s.cells, ∀ p < 4, val D c p ≠ none) ∧
    getNb false s (s.sides (0, [1]) 1) = some (1, [0]) ∧
    SamePt B (rootPt (0, [1]) (node .Q1 2)) (rootPt (1, [0]) (node .Q1 3)) ∧
    val D (0, [1]) 2 ≠ val D (1, [0]) 3 := by
  refine ⟨twoB, wit2, witD2, twoB_wf, twoB_plain, witD2_uses, by decide +kernel, by decide +kernel, ?_, by decide +kernel⟩
  refine .rel _ _ ⟨1, 3, 1 / 2, by norm_num, by norm_num, by decide, by decide, by decide, ?_, ?_⟩
  · decide +kernel
  · decide +kernel

/-- Two squares that meet in a corner only: vertices 0-6, the upper right corner of the first is the lower left corner of the
second. -/
def bow : Base ℚ where
  n := 2
  b := fun k => [0, 1, 2, 3, 2, 4, 5, 6].getD k 0
  hd := fun k => [1, 2, 3, 0, 4, 5, 6, 2].getD k 0
  T := fun _ => none
  xy := fun k => [⟨0, 0⟩, ⟨1, 0⟩, ⟨1, 1⟩, ⟨0, 1⟩, ⟨2, 1⟩, ⟨2, 2⟩, ⟨1, 2⟩].getD k ⟨0, 0⟩

theorem bow_wf : bow.WF :=
  ⟨fun _ _ h => (by cases h), fun _ _ h => (by cases h), fun _ _ h => (by cases h), by decide⟩

def bowD : DH := (distributeDofs false 2 (init bow) .Q1 40 DH.new).getD DH.new

/-- C34 fails for cells that meet in a vertex but are not connected by edges around it: they share the vertex, not the
dof. -/
theorem C34_bowtie_violated : ∃ (B : Base ℚ) (s : St ℚ) (D : DH), B.WF ∧ Plain B ∧ UsesFixed B .Q1 s D ∧
    (0, []) ∈ s.cells ∧ (1, []) ∈ s.cells ∧ baseOf s (s.sides (0, []) 2) = baseOf s (s.sides (1, []) 0) ∧
    val D (0, []) 2 = some 2 ∧ val D (1, []) 0 = some 4 := by
  refine ⟨bow, init bow, bowD, bow_wf, ⟨by decide, by decide⟩, ?_, by decide +kernel, by decide +kernel, by decide +kernel,
    by decide +kernel, by decide +kernel⟩
  refine .dist _ DH.new bowD false 40 (.new _ .init) (.inl rfl) (by decide +kernel) ?_
  have : (distributeDofs false 2 (init bow) .Q1 40 DH.new).isSome := by decide +kernel
  obtain ⟨D, hD⟩ := Option.isSome_iff_exists.1 this
  unfold bowD
  show distributeDofs false 2 (init bow) .Q1 40 DH.new = _
  rw [hD]; rfl

end Verif.Dof
