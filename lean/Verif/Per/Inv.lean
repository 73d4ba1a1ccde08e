import Verif.Per.Pairs

/-!
# What the periodic pairs contain
-/

namespace Verif.Per
open Verif.Fem Verif.Mesh Verif.Dof

/-! ### The pairs of the initial mesh -/

/-- `v.set_periodic_pair(x)` (mesh.py 1935-1963), if the set is traversed in the order of the list. -/
def setPair (pr : Pairs) (v : VN) (x : CN × VN) : Pairs :=
  Function.update pr v ((pr x.2 ++ [x]).foldl addPair (pr v))

/-- The body of the loop of `pair_periodic_vertices` (mesh.py 2131-2143), in the same order. -/
def pairVtx (pr : Pairs) (c : CN) (v : VN) (d : CN) (w : VN) : Pairs :=
  setPair (setPair (setPair (setPair pr v (c, v)) w (d, w)) v (d, w)) w (c, v)

/-- `pair_periodic_vertices` for half-edge `k` of the initial mesh (mesh.py 2117-2144). -/
def pairRoot {K : Type} (B : Base K) (pr : Pairs) (k : Nat) : Pairs :=
  match B.T k with
  | none => pr
  | some j =>
    if B.per k then
      pairVtx (pairVtx pr (k / 4, []) (.root (B.b k)) (j / 4, []) (.root (B.hd j))) (k / 4, []) (.root (B.hd k)) (j / 4, [])
        (.root (B.b j))
    else pr

/-- The pairs after the loop of `Mesh2D.__init__` (mesh.py 7087-7090). -/
def initPairs {K : Type} (B : Base K) : Pairs := (List.range (4 * B.n)).foldl (pairRoot B) (fun _ => [])

theorem setPair_ok (pr : Pairs) (v : VN) (x : CN × VN) : SetPair pr v x (setPair pr v x) :=
  ⟨pr x.2 ++ [x], by simp, rfl⟩

theorem pairVtx_ok (pr : Pairs) (c : CN) (v : VN) (d : CN) (w : VN) : PairVtx pr c v d w (pairVtx pr c v d w) :=
  ⟨_, _, _, setPair_ok _ _ _, setPair_ok _ _ _, setPair_ok _ _ _, setPair_ok _ _ _⟩

/-- All cells are initial cells. -/
def Lv0 (pr : Pairs) : Prop := ∀ v, ∀ y ∈ pr v, y.1.2 = []

/-- The same pairs, of initial cells. -/
def Eqv (pr pr1 : Pairs) : Prop := (∀ v y, y ∈ pr v ↔ y ∈ pr1 v) ∧ Lv0 pr

theorem addPair_lv0 {l : List (CN × VN)} {x : CN × VN} (hl : ∀ y ∈ l, y.1.2 = []) (hx : x.1.2 = []) (y : CN × VN) :
    y ∈ addPair l x ↔ y ∈ l ∨ y = x := by
  constructor
  · exact addPair_mem
  · rintro (h | rfl)
    · exact addPair_mono h
    · unfold addPair
      split_ifs with h
      · obtain ⟨z, h1, h2⟩ := List.any_eq_true.1 h
        simp only [contains, Bool.and_eq_true, decide_eq_true_eq] at h2
        have : z = y := Prod.ext (Prod.ext h2.2.1 ((hl z h1).trans hx.symm)) h2.1
        rw [← this]; exact h1
      · simp

theorem foldl_lv0 (l : List (CN × VN)) : ∀ (a : List (CN × VN)), (∀ y ∈ a, y.1.2 = []) → (∀ y ∈ l, y.1.2 = []) → ∀ y,
    y ∈ l.foldl addPair a ↔ y ∈ a ∨ y ∈ l := by
  induction l with
  | nil => intro a _ _ y; simp
  | cons x l ih =>
    intro a ha hl y
    have hx := hl x (by simp)
    have h1 := addPair_lv0 ha hx
    rw [List.foldl_cons, ih _ (fun z hz => by
      rcases (h1 z).1 hz with h | rfl
      · exact ha z h
      · exact hx) (fun z hz => hl z (by simp [hz])), h1, List.mem_cons, or_assoc]

theorem SetPair.lv0 {pr pr' : Pairs} {v : VN} {x : CN × VN} (h : SetPair pr v x pr') (h0 : Lv0 pr) (hx : x.1.2 = []) :
    Lv0 pr' ∧ ∀ u y, y ∈ pr' u ↔ y ∈ pr u ∨ u = v ∧ (y ∈ pr x.2 ∨ y = x) := by
  have key : ∀ u y, y ∈ pr' u ↔ y ∈ pr u ∨ u = v ∧ (y ∈ pr x.2 ∨ y = x) := by
    intro u y
    by_cases hu : u = v
    · subst hu
      obtain ⟨l, h1, rfl⟩ := h
      rw [Function.update_self, foldl_lv0 l _ (h0 u) (fun z hz => by
        rcases (h1 z).1 hz with h | rfl
        · exact h0 _ z h
        · exact hx), h1]
      simp
    · rw [h.other hu]; simp [hu]
  refine ⟨?_, key⟩
  intro u y hy
  rcases (key u y).1 hy with h | ⟨_, h | rfl⟩
  · exact h0 _ _ h
  · exact h0 _ _ h
  · exact hx

theorem SetPair.eqv {pr pr' p p' : Pairs} {v : VN} {x : CN × VN} (h : SetPair pr v x pr') (h' : SetPair p v x p')
    (he : Eqv pr p) (hx : x.1.2 = []) : Eqv pr' p' := by
  have h0 : Lv0 p := fun v y hy => he.2 v y ((he.1 v y).2 hy)
  obtain ⟨a1, a2⟩ := h.lv0 he.2 hx
  obtain ⟨_, b2⟩ := h'.lv0 h0 hx
  refine ⟨fun u y => ?_, a1⟩
  rw [a2, b2, he.1, he.1]

theorem PairVtx.eqv {pr pr' p p' : Pairs} {c d : CN} {v w : VN} (h : PairVtx pr c v d w pr') (h' : PairVtx p c v d w p')
    (he : Eqv pr p) (hc : c.2 = []) (hd : d.2 = []) : Eqv pr' p' := by
  obtain ⟨p1, p2, p3, h1, h2, h3, h4⟩ := h
  obtain ⟨q1, q2, q3, g1, g2, g3, g4⟩ := h'
  exact h4.eqv g4 (h3.eqv g3 (h2.eqv g2 (h1.eqv g1 he hc) hd) hd) hc

section
set_option linter.unusedSectionVars false
variable {K : Type} [Field K] {B : Base K} {s : St K} {pr pr' : Pairs}

theorem PairEdge.root (hB : B.WF) {k : Nat} (hk : k < 4 * B.n) (h : PairEdge (init B) (.root k) pr pr') {p : Pairs} (he : Eqv pr p) :
    Eqv pr' (pairRoot B p k) := by
  unfold PairEdge at h
  unfold pairRoot
  simp only [init, if_pos hk] at h
  rcases hj : B.T k with _ | j
  · have hp : B.per k = false := by simp [Base.per, hj]
    rw [hp] at h
    simp only [Bool.false_eq_true, if_false] at h
    rw [h]; exact he
  · simp only
    by_cases hp : B.per k = true
    · rw [if_pos hp] at h ⊢
      simp only [hj, Option.map_some, if_pos (hB.lt k j hj)] at h
      obtain ⟨p1, h1, h2⟩ := h
      exact h2.eqv (pairVtx_ok _ _ _ _ _) (h1.eqv (pairVtx_ok _ _ _ _ _) he rfl rfl) rfl rfl
    · rw [if_neg hp] at h ⊢
      rw [h]; exact he

/-- The pairs of the initial mesh do not depend on the order. -/
theorem init_eqv (hB : B.WF) (h : PairAll (init B) ((List.range (4 * B.n)).map .root) (fun _ => []) pr) :
    Eqv pr (initPairs B) := by
  have key : ∀ (l : List Nat) (pr pr' p : Pairs), (∀ k ∈ l, k < 4 * B.n) → PairAll (init B) (l.map .root) pr pr' → Eqv pr p →
      Eqv pr' (l.foldl (pairRoot B) p) := by
    intro l
    induction l with
    | nil => intro pr pr' p _ h he; rw [show pr' = pr from h]; exact he
    | cons k l ih =>
      rintro pr pr' p hl ⟨p1, h1, h2⟩ he
      exact ih p1 pr' _ (fun x hx => hl x (by simp [hx])) h2 (h1.root hB (hl k (by simp)) he)
  exact key _ _ _ _ (by simp) h ⟨fun _ _ => Iff.rfl, fun _ _ h => (by cases h)⟩

/-- The ends of the periodic half-edges of the initial mesh have pairs. -/
theorem initPairs_ne (hB : B.WF) {k j : Nat} (hk : k < 4 * B.n) (hj : B.T k = some j) (hp : B.per k = true) :
    initPairs B (.root (B.b k)) ≠ [] ∧ initPairs B (.root (B.hd k)) ≠ [] := by
  have hi : CInv B (init B) := (MReach.init (B := B)).inv hB
  have hn := reach_ninv hB (MReach.init (B := B))
  have hm : ∀ h ∈ (List.range (4 * B.n)).map HN.root, ((init B).he h).isSome := by
    intro h hh
    obtain ⟨k, hk, rfl⟩ := List.mem_map.1 hh
    simp only [init, if_pos (List.mem_range.1 hk)]; rfl
  obtain ⟨pr, hpr⟩ := PairAll.total hi _ hm (fun _ => [])
  have hE := init_eqv hB hpr
  obtain ⟨p1, p2, h1, h2⟩ := PairAll.edge hi hn _ _ _ hpr (.root k) (List.mem_map.2 ⟨k, List.mem_range.2 hk, rfl⟩)
  rcases h1.inv hi hn with ⟨_, h3⟩ | ⟨t, r, q, p3, _, _, hr, _, h4, h5⟩
  · refine absurd ⟨hp, .root j, by simp [vt, hj], ?_⟩ h3
    simp only [init, if_pos (hB.lt k j hj)]; rfl
  · have e1 : r.base = .root (B.b k) ∧ r.head = .root (B.hd k) := root_verts hB .init k r hr
    obtain ⟨c1, g1, _⟩ := h4.cov (.inl rfl) (.inl rfl)
    obtain ⟨c2, g2, _⟩ := h5.cov (.inl rfl) (.inl rfl)
    have m1 := (hE.1 _ _).1 (h2 _ _ (h5.mono g1))
    have m2 := (hE.1 _ _).1 (h2 _ _ g2)
    rw [e1.1] at m1
    rw [e1.2] at m2
    exact ⟨List.ne_nil_of_mem m1, List.ne_nil_of_mem m2⟩

/-! ### The pairs of refined meshes -/

/-- The vertices that may have pairs. -/
def MayPair (B : Base K) (s : St K) (v : VN) : Prop :=
  initPairs B v ≠ [] ∨ ∃ h t, v = .mid h ∧ perH B.per h = true ∧ vt B.T h = some t ∧ s.kids (owner h).1 = true ∧
    s.kids (owner t).1 = true

/-- The midpoints of two facing periodic half-edges know the four cells. -/
def FullAt (pr : Pairs) (h t : HN) : Prop :=
  ∀ u, u = .mid h ∨ u = .mid t → ∀ b, ((owner (.kid h b)).1, .mid h) ∈ pr u ∧ ((owner (.kid t b)).1, .mid t) ∈ pr u

/-- What holds for the pairs of every periodic mesh. -/
structure PInv (B : Base K) (s : St K) (pr : Pairs) : Prop where
  sound : Sound B s pr
  ini : ∀ v y, y ∈ initPairs B v → y ∈ pr v
  only : ∀ v, pr v ≠ [] → MayPair B s v
  full : ∀ h t, perH B.per h = true → vt B.T h = some t → s.kids (owner h).1 = true → s.kids (owner t).1 = true → FullAt pr h t

theorem perH_twin (hB : B.WF) : ∀ (h t : HN), vt B.T h = some t → perH B.per t = perH B.per h := by
  intro h
  induction h with
  | root k =>
    intro t ht
    simp only [vt, Option.map_eq_some_iff] at ht
    obtain ⟨j, hj, rfl⟩ := ht
    have hj' := hB.inv k j hj
    simp only [perH, Base.per, hj, hj']
    rw [Bool.eq_iff_iff]
    simp only [Bool.not_eq_true', Bool.and_eq_false_iff, decide_eq_false_iff_not]
    constructor <;> rintro (h | h)
    · exact .inr (fun e => h e.symm)
    · exact .inl (fun e => h e.symm)
    · exact .inr (fun e => h e.symm)
    · exact .inl (fun e => h e.symm)
  | kid h b ih =>
    intro t ht
    simp only [vt, Option.map_eq_some_iff] at ht
    obtain ⟨t', ht', rfl⟩ := ht
    exact ih t' ht'
  | inner c i d =>
    intro t ht
    simp only [vt, Option.some.injEq] at ht
    subst ht
    rfl

/-- The ends of a periodic half-edge that faces an existing half-edge. -/
theorem ends_may (hB : B.WF) (hs : MReach B s) : ∀ (h t : HN) (r : HERec), s.he h = some r → perH B.per h = true → vt B.T h = some t →
    (s.he t).isSome → MayPair B s r.base ∧ MayPair B s r.head := by
  have hi := hs.inv hB
  have hn := reach_ninv hB hs
  intro h
  induction h with
  | root k =>
    intro t r hr hp ht _
    simp only [vt, Option.map_eq_some_iff] at ht
    obtain ⟨j, hj, rfl⟩ := ht
    obtain ⟨e1, e2⟩ := root_verts hB hs k r hr
    have hk : k < 4 * B.n := hB.lt j k (hB.inv k j hj)
    obtain ⟨g1, g2⟩ := initPairs_ne hB hk hj hp
    rw [e1, e2]
    exact ⟨.inl g1, .inl g2⟩
  | kid h b ih =>
    intro t r hr hp ht hte
    simp only [vt, Option.map_eq_some_iff] at ht
    obtain ⟨t', ht', rfl⟩ := ht
    have hh : (s.he h).isSome := hi.hinv.par h b (by rw [hr]; rfl)
    have hk : s.kids (owner h).1 = true := (kids_owner_kid hi h b).1 (by rw [hr]; rfl)
    have hk' : s.kids (owner t').1 = true := (kids_owner_kid hi t' _).1 hte
    obtain ⟨q, hq⟩ := Option.isSome_iff_exists.1 hh
    obtain ⟨i1, i2⟩ := ih t' q hq hp ht' (hi.hinv.par _ _ hte)
    obtain ⟨a0, ha0⟩ := Option.isSome_iff_exists.1 ((kids_owner_kid hi h false).2 hk)
    obtain ⟨a1, ha1⟩ := Option.isSome_iff_exists.1 ((kids_owner_kid hi h true).2 hk)
    obtain ⟨e1, e2, e3, _⟩ := hi.hinv.ends h q a0 a1 hq ha0 ha1
    have hm : a0.head = .mid h := by
      rcases hn.mid h a0 ha0 with e | ⟨e, _⟩
      · exact e
      · rw [show perH B.per h = true from hp] at e; cases e
    have hmid : MayPair B s a0.head := .inr ⟨h, t', hm, hp, ht', hk, hk'⟩
    cases b with
    | false =>
      rw [ha0] at hr; cases hr
      rw [e1]; exact ⟨i1, hmid⟩
    | true =>
      rw [ha1] at hr; cases hr
      rw [← e2, e3]; exact ⟨hmid, i2⟩
  | inner c i d => intro t r _ hp; cases hp

theorem PairEdge.only (hB : B.WF) (hs : MReach B s) {h : HN} (he : PairEdge s h pr pr')
    (ho : ∀ v, pr v ≠ [] → MayPair B s v) : ∀ v, pr' v ≠ [] → MayPair B s v := by
  have hi := hs.inv hB
  rcases he.inv hi (reach_ninv hB hs) with ⟨rfl, _⟩ | ⟨t, r, q, p1, hp, hv, hr, hq, h1, h2⟩
  · exact ho
  · obtain ⟨a1, a2⟩ := ends_may hB hs h t r hr hp hv (by rw [hq]; rfl)
    obtain ⟨b1, b2⟩ := ends_may hB hs t h q hq (by rw [perH_twin hB h t hv]; exact hp) (vt_inv hB.inv _ _ hv) (by rw [hr]; rfl)
    intro v hv'
    by_cases e1 : v = r.base
    · rw [e1]; exact a1
    by_cases e2 : v = r.head
    · rw [e2]; exact a2
    by_cases e3 : v = q.base
    · rw [e3]; exact b1
    by_cases e4 : v = q.head
    · rw [e4]; exact b2
    rw [h2.other e2 e3, h1.other e1 e4] at hv'
    exact ho v hv'

theorem PairAll.only (hB : B.WF) (hs : MReach B s) : ∀ (l : List HN) (pr pr' : Pairs), PairAll s l pr pr' →
    (∀ v, pr v ≠ [] → MayPair B s v) → ∀ v, pr' v ≠ [] → MayPair B s v := by
  intro l
  induction l with
  | nil => rintro pr pr' h hS; rw [show pr' = pr from h]; exact hS
  | cons h l ih =>
    rintro pr pr' ⟨p1, h1, h2⟩ hS
    exact ih p1 pr' h2 (h1.only hB hs hS)

/-- A pair of the midpoint whose cell contains the child is the child. -/
theorem mid_exact (hB : B.WF) (hs : MReach B s) (hS : Sound B s pr) {u : VN} {g : HN} {b : Bool} {c : CN}
    (h1 : (c, VN.mid g) ∈ pr u) (h2 : contains c (owner (.kid g b)).1 = true) : c = (owner (.kid g b)).1 := by
  have hi := hs.inv hB
  have hn := reach_ninv hB hs
  obtain ⟨hc, j, hj, _⟩ := hS u _ h1
  simp only at hc hj
  obtain ⟨r, e1, e2, _⟩ := vert_eq hi hc j
  have hl := (hn.lev _ r e1).1
  rw [← e2, ← hj, owner_side] at hl
  simp only [vlev] at hl
  have hl' := level_kid g b
  simp only [contains, Bool.and_eq_true, decide_eq_true_eq, List.isSuffixOf_iff_suffix] at h2
  refine Prod.ext h2.1 (h2.2.eq_of_length_le ?_)
  unfold level at hl hl'
  omega

/-- After the step for the two halves of a periodic half-edge. -/
theorem full_step (hB : B.WF) (hs : MReach B s) (hS : Sound B s pr') {h t : HN} (hp : perH B.per h = true)
    (hv : vt B.T h = some t) (hk : s.kids (owner h).1 = true) (hk' : s.kids (owner t).1 = true)
    (hst : ∀ b, ∃ p1 p2, PairEdge s (.kid h b) p1 p2 ∧ ∀ v y, y ∈ p2 v → y ∈ pr' v) : FullAt pr' h t := by
  have hi := hs.inv hB
  have hn := reach_ninv hB hs
  have hpt := perH_twin hB h t hv
  -- the midpoints
  have mids : ∀ g, perH B.per g = true → s.kids (owner g).1 = true → ∃ a0 a1, s.he (.kid g false) = some a0 ∧
      s.he (.kid g true) = some a1 ∧ a0.head = .mid g ∧ a1.base = .mid g := by
    intro g hpg hkg
    obtain ⟨a0, ha0⟩ := Option.isSome_iff_exists.1 ((kids_owner_kid hi g false).2 hkg)
    obtain ⟨a1, ha1⟩ := Option.isSome_iff_exists.1 ((kids_owner_kid hi g true).2 hkg)
    obtain ⟨q, hq⟩ := Option.isSome_iff_exists.1 (hi.hinv.par g false (by rw [ha0]; rfl))
    obtain ⟨_, e2, _⟩ := hi.hinv.ends g q a0 a1 hq ha0 ha1
    have hm : a0.head = .mid g := by
      rcases hn.mid g a0 ha0 with e | ⟨e, _⟩
      · exact e
      · rw [hpg] at e; cases e
    exact ⟨a0, a1, ha0, ha1, hm, by rw [← e2]; exact hm⟩
  obtain ⟨a0, a1, ha0, ha1, m0, m1⟩ := mids h hp hk
  obtain ⟨b0, b1, hb0, hb1, n0, n1⟩ := mids t (by rw [hpt]; exact hp) hk'
  have key : ∀ b u, u = VN.mid h ∨ u = .mid t → ((owner (.kid h b)).1, VN.mid h) ∈ pr' u ∧
      ((owner (.kid t (!b))).1, VN.mid t) ∈ pr' u := by
    intro b u hu
    obtain ⟨p1, p2, h1, h2⟩ := hst b
    rcases h1.inv hi hn with ⟨_, h3⟩ | ⟨t', r, q, p3, _, hv', hr, hq, h4, h5⟩
    · exfalso
      refine h3 ⟨hp, .kid t (!b), by simp [vt, hv], ?_⟩
      cases b
      · rw [Bool.not_false, hb1]; rfl
      · rw [Bool.not_true, hb0]; rfl
    · have : t' = .kid t (!b) := by
        have e : vt B.T (.kid h b) = some (.kid t (!b)) := by simp [vt, hv]
        rw [hv'] at e; exact Option.some.inj e
      subst this
      have fin : ∀ p p', (∀ v y, y ∈ p' v → y ∈ pr' v) → PairVtx p (owner (.kid h b)).1 (.mid h) (owner (.kid t (!b))).1 (.mid t) p' →
          ((owner (.kid h b)).1, VN.mid h) ∈ pr' u ∧ ((owner (.kid t (!b))).1, VN.mid t) ∈ pr' u := by
        intro p p' hm hpv
        obtain ⟨c1, g1, g2⟩ := hpv.cov hu (.inl rfl)
        obtain ⟨c2, g3, g4⟩ := hpv.cov hu (.inr rfl)
        have k1 := hm _ _ g1
        have k2 := hm _ _ g3
        have := mid_exact hB hs hS k1 g2
        rw [this] at k1
        have := mid_exact hB hs hS k2 g4
        rw [this] at k2
        exact ⟨k1, k2⟩
      cases b with
      | false =>
        rw [ha0] at hr; cases hr
        rw [Bool.not_false, hb1] at hq; cases hq
        rw [m0, n1] at h5
        exact fin _ _ h2 h5
      | true =>
        rw [ha1] at hr; cases hr
        rw [Bool.not_true, hb0] at hq; cases hq
        rw [m1, n0] at h4
        exact fin _ _ (fun v y hy => h2 v y (h5.mono hy)) h4
  intro u hu b
  refine ⟨(key b u hu).1, ?_⟩
  have := (key (!b) u hu).2
  rwa [Bool.not_not] at this

theorem FullAt.symm {h t : HN} (hf : FullAt pr h t) : FullAt pr t h :=
  fun u hu b => ⟨(hf u hu.symm b).2, (hf u hu.symm b).1⟩

theorem PReach.inv (hB : B.WF) (hN : Nice B) (h : PReach B s pr) : PInv B s pr := by
  induction h with
  | init pr hpr =>
    have hE := init_eqv hB hpr
    refine ⟨?_, fun v y hy => (hE.1 v y).2 hy, ?_, ?_⟩
    · exact PairAll.sound hB hN .init _ _ _ hpr (fun v x hx => by cases hx)
    · intro v hv
      obtain ⟨y, hy⟩ := List.exists_mem_of_ne_nil _ hv
      exact .inl (List.ne_nil_of_mem ((hE.1 v y).1 hy))
    · intro h t _ _ hk; cases hk
  | split s s' pr pr' c sf hr hc hk hss hpa ih =>
    have hs := hr.reach
    have hi := hs.inv hB
    have hs' : MReach B s' := .split s s' c sf hs hc hk hss
    have hi' := hs'.inv hB
    have hn' := reach_ninv hB hs'
    obtain ⟨s'', h1, hkeep, _, h3, _⟩ := cellSplit_keep hB hi ((hi.mem c).1 hc) hk sf
    rw [hss] at h1
    cases h1
    have hkm : ∀ d, s.kids d = true → s'.kids d = true := by
      intro d hd
      rw [h3]
      by_cases hx : d = c
      · simp [hx]
      · rw [Function.update_of_ne hx]; exact hd
    have hcm : ∀ d, CEx B.n s.kids d → CEx B.n s'.kids d := by
      rintro ⟨f, _ | ⟨k, p⟩⟩ hd
      · exact hd
      · exact hkm _ hd
    have hS : Sound B s' pr := by
      intro v x hx
      obtain ⟨g1, j, g2, g3⟩ := ih.sound v x hx
      refine ⟨hcm _ g1, j, ?_, g3⟩
      obtain ⟨r, e1, e2, _⟩ := vert_eq hi g1 j
      obtain ⟨r', e3, e4, _⟩ := hkeep _ r e1
      rw [g2, e2, ← e4]
      simp [vert, baseOf, e3]
    have hS' := PairAll.sound hB hN hs' _ _ _ hpa hS
    have hm := PairAll.mono hi' hn' _ _ _ hpa
    refine ⟨hS', fun v y hy => hm v y (ih.ini v y hy), ?_, ?_⟩
    · refine PairAll.only hB hs' _ _ _ hpa ?_
      intro v hv
      rcases ih.only v hv with h | ⟨h, t, g1, g2, g3, g4, g5⟩
      · exact .inl h
      · exact .inr ⟨h, t, g1, g2, g3, hkm _ g4, hkm _ g5⟩
    · -- the steps for the halves of the sides of the cell
      have hmem : ∀ g, (owner g).1 = c → ∀ b, HN.kid g b ∈ kidsOf s' c := by
        intro g hg b
        unfold kidsOf
        refine List.mem_flatMap.2 ⟨(owner g).2, four_mem _, ?_⟩
        rw [hi'.sides c (hcm _ ((hi.mem c).1 hc)), ← hg, side_owner]
        cases b <;> simp
      intro h t hp hv hkh hkt
      by_cases hhc : (owner h).1 = c
      · exact full_step hB hs' hS' hp hv hkh hkt (fun b => PairAll.edge hi' hn' _ _ _ hpa _ (hmem h hhc b))
      by_cases htc : (owner t).1 = c
      · exact (full_step hB hs' hS' (by rw [perH_twin hB h t hv]; exact hp) (vt_inv hB.inv _ _ hv) hkt hkh
          (fun b => PairAll.edge hi' hn' _ _ _ hpa _ (hmem t htc b))).symm
      rw [h3, Function.update_of_ne hhc] at hkh
      rw [h3, Function.update_of_ne htc] at hkt
      have := ih.full h t hp hv hkh hkt
      exact fun u hu b => ⟨hm _ _ (this u hu b).1, hm _ _ (this u hu b).2⟩
  | mark s pr m _ ih => exact ⟨ih.sound, ih.ini, ih.only, ih.full⟩
  | perm s pr pr' _ hp ih =>
    have hm : ∀ v y, y ∈ pr' v ↔ y ∈ pr v := fun v y => (hp v).mem_iff
    refine ⟨fun v x hx => ih.sound v x ((hm v x).1 hx), fun v y hy => (hm v y).2 (ih.ini v y hy), ?_, ?_⟩
    · intro v hv
      refine ih.only v (fun e => hv ?_)
      have := hp v
      rw [e] at this
      exact this.eq_nil
    · intro h t g1 g2 g3 g4 u hu b
      exact ⟨(hm _ _).2 (ih.full h t g1 g2 g3 g4 u hu b).1, (hm _ _).2 (ih.full h t g1 g2 g3 g4 u hu b).2⟩

end

end Verif.Per
