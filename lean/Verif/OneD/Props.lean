import Verif.OneD.Neighbors
import Mathlib.Algebra.BigOperators.Group.List.Basic

/-! # Properties C15-C18 and C46 in one dimension -/

namespace Verif.OneD
open Verif.Geom

variable {K : Type} [Field K] [LinearOrder K]

/-! ## Helper facts -/

theorem adj_iff (l : List Path) (q p : Path) :
    Adj l q p ↔ ∃ n : Nat, l[n]? = some q ∧ l[n + 1]? = some p := by
  constructor
  · rintro ⟨pre, post, rfl⟩
    exact ⟨pre.length, by simp, by simp [List.getElem?_append_right]⟩
  · rintro ⟨n, h1, h2⟩
    obtain ⟨hn1, h1⟩ := List.getElem?_eq_some_iff.1 h1
    obtain ⟨hn2, h2⟩ := List.getElem?_eq_some_iff.1 h2
    refine ⟨l.take n, l.drop (n + 2), ?_⟩
    conv_lhs => rw [← List.take_append_drop n l]
    rw [List.drop_eq_getElem_cons hn1, List.drop_eq_getElem_cons hn2, h1, h2]

theorem nodup_idx {l : List Path} (h : l.Nodup) {m n : Nat} {x : Path}
    (h1 : l[m]? = some x) (h2 : l[n]? = some x) : m = n := by
  obtain ⟨a1, b1⟩ := List.getElem?_eq_some_iff.1 h1
  obtain ⟨a2, b2⟩ := List.getElem?_eq_some_iff.1 h2
  exact (List.Nodup.getElem_inj_iff h).1 (b1.trans b2.symm)

theorem Tiles.adj {a b : K} {bs : List (K × K)} (h : Tiles a b bs) (n : Nat) (u v : K × K)
    (h1 : bs[n]? = some u) (h2 : bs[n + 1]? = some v) : u.2 = v.1 := by
  induction bs generalizing a n with
  | nil => simp at h1
  | cons x bs ih =>
    cases n with
    | zero =>
      simp at h1 h2
      subst h1
      cases bs with
      | nil => simp at h2
      | cons y bs => simp at h2; subst h2; exact h.2.2.1.symm
    | succ n => exact ih h.2.2 n (by simpa using h1) (by simpa using h2)

theorem Tiles.le {a b : K} {bs : List (K × K)} (h : Tiles a b bs) :
    a ≤ b ∧ ∀ u ∈ bs, a ≤ u.1 ∧ u.1 < u.2 ∧ u.2 ≤ b := by
  induction bs generalizing a with
  | nil => exact ⟨le_of_eq h, by simp⟩
  | cons x bs ih =>
    obtain ⟨h1, h2, h3⟩ := h
    obtain ⟨i1, i2⟩ := ih h3
    refine ⟨h1 ▸ (h2.le.trans i1), ?_⟩
    intro u hu
    rcases List.mem_cons.1 hu with rfl | hu
    · exact ⟨h1.ge, h2, i1⟩
    · obtain ⟨j1, j2, j3⟩ := i2 u hu
      exact ⟨h1 ▸ (h2.le.trans j1), j2, j3⟩

theorem Tiles.last {a b : K} {bs : List (K × K)} {u : K × K} (h : Tiles a b (bs ++ [u])) :
    u.2 = b := by
  induction bs generalizing a with
  | nil => exact h.2.2
  | cons x bs ih => exact ih h.2.2

theorem Tiles.cover {a b : K} {bs : List (K × K)} (h : Tiles a b bs) (hne : bs ≠ []) (x : K)
    (h1 : a ≤ x) (h2 : x ≤ b) : ∃ u ∈ bs, u.1 ≤ x ∧ x ≤ u.2 := by
  induction bs generalizing a with
  | nil => exact absurd rfl hne
  | cons y bs ih =>
    obtain ⟨e1, e2, e3⟩ := h
    rcases le_total x y.2 with hx | hx
    · exact ⟨y, by simp, e1 ▸ h1, hx⟩
    · cases bs with
      | nil => exact ⟨y, by simp, e1 ▸ h1, by rw [show y.2 = b from e3]; exact h2⟩
      | cons z bs =>
        obtain ⟨u, hu, hh⟩ := ih e3 (by simp) hx
        exact ⟨u, List.mem_cons_of_mem _ hu, hh⟩

/-- With `subforest_flag=None` the whole mesh is a submesh. -/
theorem submesh_none (F : List (Cell K)) : Submesh (inSub none) F := by
  have : ∀ t : Cell K, Closed (inSub none) t := by
    intro t
    induction t using GTree.ind with
    | h d ks ih => exact .node _ _ (fun _ => rfl) (fun _ _ _ => rfl) ih
  exact fun t _ => ⟨rfl, this t⟩

/-- The mesh obtained from the points `a < x₁ < ...` by a history of operations. -/
def mesh (a : K) (xs : List K) (ops : List Op) : List (Cell K) := run (roots (a :: xs)) ops

variable [IsStrictOrderedRing K]

theorem mesh_conf (a : K) (xs : List K) (hs : (a :: xs).IsChain (· < ·)) (ops : List Op) :
    ConfL a ((a :: xs).getLast (by simp)) (mesh a xs ops) :=
  run_conf ops _ _ _ (roots_conf a xs hs)

omit [IsStrictOrderedRing K] in
theorem leaves_ends (mk : Itv K → Bool) (F : List (Cell K)) (a b : K) (h : ConfL a b F) :
    ∃ bs, (rl.go mk F 0).map (endsAt F) = bs.map some ∧ Tiles a b bs :=
  ⟨leafEnds.go mk F, rl_go_ends mk F, leafEndsGo_tiles mk F a b h⟩

omit [IsStrictOrderedRing K] in
theorem idx_ends {l : List Path} {F : List (Cell K)} {bs : List (K × K)}
    (h : l.map (endsAt F) = bs.map some) (n : Nat) (p : Path) (hp : l[n]? = some p) :
    ∃ u, bs[n]? = some u ∧ endsAt F p = some u := by
  have := congrArg (fun m => m[n]?) h
  simp only [List.getElem?_map, hp, Option.map_some] at this
  cases hb : bs[n]? with
  | none => simp [hb] at this
  | some u => simp [hb] at this; exact ⟨u, rfl, this⟩

/-! ## C15: refinement tiles the root interval -/

/-- Splitting an interval: `n` children that tile it. -/
theorem C15_split (d : Itv K) (ks : List (Cell K)) (h : d.lo < d.hi) (hn : 0 < d.n) :
    (split (.node d ks)).data = d ∧ (split (.node d ks)).kids.length = d.n ∧
    Tiles d.lo d.hi ((split (.node d ks)).kids.map ends) ∧
    ∀ k ∈ (split (.node d ks)).kids, k.data.hi - k.data.lo = (d.hi - d.lo) / d.n := by
  have hn' : (d.n : K) ≠ 0 := by exact_mod_cast hn.ne'
  refine ⟨rfl, ?_, (splitLoop_tiles d.lo d.hi h d.n hn d.n 0 d.lo (by omega) (by simp)).1, ?_⟩
  · have : ∀ r i base, (splitLoop d.lo d.hi d.n i r base).length = r := by
      intro r
      induction r with
      | zero => intro i base; rfl
      | succ r ih => intro i base; simp [splitLoop, ih]
    exact this _ _ _
  · have : ∀ r i base, i + r = d.n → base = d.lo + (i : K) * (d.hi - d.lo) / d.n →
        ∀ k ∈ splitLoop d.lo d.hi d.n i r base, k.data.hi - k.data.lo = (d.hi - d.lo) / d.n := by
      intro r
      induction r with
      | zero => intro i base _ _ k hk; simp [splitLoop] at hk
      | succ r ih =>
        intro i base hi hb k hk
        have hhead : (if i = d.n - 1 then d.hi else d.lo + (i + 1 : K) * (d.hi - d.lo) / d.n)
            = d.lo + ((i + 1 : Nat) : K) * (d.hi - d.lo) / d.n := by
          split
          · next h =>
            have : i + 1 = d.n := by omega
            rw [this]; field_simp; ring
          · push_cast; rfl
        simp only [splitLoop, hhead] at hk
        rcases List.mem_cons.1 hk with rfl | hk
        · simp only [GTree.data_node, hb]; push_cast; ring
        · exact ih (i + 1) _ (by omega) rfl k hk
    exact this _ _ _ (by omega) (by simp)

/-- After any history the leaves (of the mesh or of a submesh) listed from left to right
tile the domain, with strictly increasing break points. -/
theorem C15_leaves_tile (a : K) (xs : List K) (hs : (a :: xs).IsChain (· < ·)) (ops : List Op)
    (sf : Option Nat) (hsub : Submesh (inSub sf) (mesh a xs ops)) :
    let F := mesh a xs ops
    ∃ bs, (leavesL (inSub sf) F [] 0).map (endsAt F) = bs.map some ∧
      Tiles a ((a :: xs).getLast (by simp)) bs ∧
      (∀ p, p ∈ leavesL (inSub sf) F [] 0 ↔ SubLeaf (inSub sf) F p) ∧
      (leavesL (inSub sf) F [] 0).Nodup := by
  intro F
  obtain ⟨bs, h1, h2⟩ := leaves_ends (inSub sf) F _ _ (mesh_conf a xs hs ops)
  have e : leavesL (inSub sf) F [] 0 = rl.go (inSub sf) F 0 := by
    rw [leavesL_rl]; simp
  rw [e]
  exact ⟨bs, h1, h2, fun p => mem_leaves_iff _ F hsub p, nodup_rl_go _ _ _⟩

/-- `Mesh1D(box=[a,b], resolution=(n,))` starts from strictly increasing points from `a`
to `b`. -/
theorem C15_box (a b : K) (hab : a < b) (n : Nat) (hn : 0 < n) :
    (linspace a b n).IsChain (· < ·) ∧ (linspace a b n).length = n + 1 ∧
    (linspace a b n)[0]? = some a ∧ (linspace a b n)[n]? = some b := by
  refine ⟨linspace_chain a b hab n hn, by simp [linspace], ?_, ?_⟩
  · simp [linspace, hn.ne]
  · simp [linspace]

/-! A concrete mesh: points 0 < 1 < 3, first interval split, its second child split. -/

def exOps : List Op := [.split [0], .split [0, 1], .mark [0] 7, .mark [1] 7, .mark [0, 0] 7,
  .mark [0, 1] 7]

def exMesh : List (Cell ℚ) := mesh 0 [1, 3] exOps

theorem exMesh_eq : exMesh =
    [.node ⟨0, 1, 2, {7}⟩ [.node ⟨0, 1/2, 2, {7}⟩ [], .node ⟨1/2, 1, 2, {7}⟩
        [.node ⟨1/2, 3/4, 2, ∅⟩ [], .node ⟨3/4, 1, 2, ∅⟩ []]],
     .node ⟨1, 3, 2, {7}⟩ []] := by
  simp only [exMesh, mesh, exOps, run, List.foldl, step, roots, modifyL, split, splitLoop, mark,
    List.modify_succ_cons, List.modify_zero_cons, GTree.data, GTree.kids]
  norm_num

theorem exChain : ((0 : ℚ) :: [1, 3]).IsChain (· < ·) := by
  simp

/-- The marked cells of the example form a submesh (with leaves 00, 01, 1). -/
theorem exSub : Submesh (inSub (some 7)) exMesh := by
  rw [exMesh_eq]
  intro t ht
  simp only [List.mem_cons, List.not_mem_nil, or_false] at ht
  rcases ht with rfl | rfl
  · refine ⟨by simp [inSub], .node _ _ (by simp [inSub]) ?_ ?_⟩
    · simp [inSub]
    · intro k hk
      simp only [List.mem_cons, List.not_mem_nil, or_false] at hk
      rcases hk with rfl | rfl
      · exact .node _ _ (by simp [inSub]) (by simp) (by simp)
      · refine .node _ _ (by simp [inSub]) (by simp [inSub, hasKids]) ?_
        intro k hk
        simp only [List.mem_cons, List.not_mem_nil, or_false] at hk
        rcases hk with rfl | rfl
        · exact .node _ _ (by simp [inSub, hasKids]) (by simp) (by simp)
        · exact .node _ _ (by simp [inSub, hasKids]) (by simp) (by simp)
  · exact ⟨by simp [inSub], .node _ _ (by simp [inSub]) (by simp) (by simp)⟩

example : leavesL (inSub none) exMesh [] 0 = [[0, 0], [0, 1, 0], [0, 1, 1], [1]] := by
  rw [exMesh_eq]; rfl

example : leavesL (inSub (some 7)) exMesh [] 0 = [[0, 0], [0, 1], [1]] := by
  rw [exMesh_eq]
  simp [leavesL, leavesT, hasKids, inSub]

/-! ## C16: physical neighbours -/

omit [IsStrictOrderedRing K] in
theorem leftNbr_spec (mk : Itv K → Bool) (per : Bool) (F : List (Cell K)) (p : Path) :
    leftNbr mk per F p = match lup p with
      | some q => (getL F q).map (fun t => q ++ lastLeaf mk t)
      | none => if per then (getL F [F.length - 1]).map (fun t => [F.length - 1] ++ lastLeaf mk t)
          else none := by
  unfold leftNbr lup
  cases h : leftUp p.reverse with
  | some q => simp only [Option.map_some]; cases getL F q.reverse <;> rfl
  | none =>
    cases per with
    | false => rfl
    | true => simp only [if_true, Option.map_none]; cases getL F [F.length - 1] <;> rfl

omit [IsStrictOrderedRing K] in
theorem rightNbr_spec (mk : Itv K → Bool) (per : Bool) (F : List (Cell K)) (p : Path) :
    rightNbr mk per F p = match rup F p with
      | some q => (getL F q).map (fun t => q ++ firstLeaf mk t)
      | none => if per then (getL F [0]).map (fun t => [0] ++ firstLeaf mk t) else none := by
  unfold rightNbr rup
  cases h : rightUp F p.reverse with
  | some q => simp only [Option.map_some]; cases getL F q.reverse <;> rfl
  | none =>
    cases per with
    | false => rfl
    | true => simp only [if_true, Option.map_none]; cases getL F [0] <;> rfl

omit [IsStrictOrderedRing K] in
/-- Neighbours in terms of positions in the list of leaves. -/
theorem left_index (mk : Itv K → Bool) (F : List (Cell K)) (n : Nat) (p : Path)
    (hp : (rl.go mk F 0)[n]? = some p) :
    leftNbr mk false F p = if n = 0 then none else (rl.go mk F 0)[n - 1]? := by
  have hmem := List.mem_of_getElem? hp
  have hnd := nodup_rl_go mk F 0
  have := left_adj mk p F hmem
  rw [leftNbr_spec]
  cases hl : lup p with
  | none =>
    simp only [hl] at this
    obtain ⟨post, h⟩ := this
    have h0 : (rl.go mk F 0)[0]? = some p := by rw [h]; rfl
    have := nodup_idx hnd hp h0
    simp [this]
  | some q =>
    simp only [hl] at this
    obtain ⟨t, h1, h2⟩ := this
    obtain ⟨m, h3, h4⟩ := (adj_iff _ _ _).1 h2
    have := nodup_idx hnd hp h4
    subst this
    simp [h1, h3]

omit [IsStrictOrderedRing K] in
theorem right_index (mk : Itv K → Bool) (F : List (Cell K)) (n : Nat) (p : Path)
    (hp : (rl.go mk F 0)[n]? = some p) :
    rightNbr mk false F p = (rl.go mk F 0)[n + 1]? := by
  have hmem := List.mem_of_getElem? hp
  have hnd := nodup_rl_go mk F 0
  have := right_adj mk p F hmem
  rw [rightNbr_spec]
  cases hl : rup F p with
  | none =>
    simp only [hl] at this
    obtain ⟨pre, h⟩ := this
    have h0 : (rl.go mk F 0)[pre.length]? = some p := by rw [h]; simp
    have := nodup_idx hnd hp h0
    simp [this, h]
  | some q =>
    simp only [hl] at this
    obtain ⟨t, h1, h2⟩ := this
    obtain ⟨m, h3, h4⟩ := (adj_iff _ _ _).1 h2
    have := nodup_idx hnd hp h3
    subst this
    simp [h1, h4]

omit [IsStrictOrderedRing K] in
theorem left_index_per (mk : Itv K → Bool) (F : List (Cell K)) (n : Nat) (p : Path)
    (hp : (rl.go mk F 0)[n]? = some p) :
    leftNbr mk true F p =
      if n = 0 then (rl.go mk F 0)[(rl.go mk F 0).length - 1]? else (rl.go mk F 0)[n - 1]? := by
  have h := left_index mk F n p hp
  have hmem := List.mem_of_getElem? hp
  have hadj := left_adj mk p F hmem
  rw [leftNbr_spec] at h ⊢
  cases hl : lup p with
  | some q =>
    simp only [hl] at h hadj ⊢
    obtain ⟨t, h1, h2⟩ := hadj
    rw [h]
    rw [h1] at h
    by_cases hn : n = 0
    · simp [hn] at h
    · simp [hn]
  | none =>
    simp only [hl] at hadj ⊢
    obtain ⟨post, hpost⟩ := hadj
    have h0 : (rl.go mk F 0)[0]? = some p := by rw [hpost]; rfl
    have hn := nodup_idx (nodup_rl_go mk F 0) hp h0
    subst hn
    simp only [if_true]
    -- the last root exists
    obtain ⟨j, q, k, -, hk, -⟩ := (mem_rl_go mk F 0 p).1 hmem
    have hlen : 0 < F.length := by
      rw [List.getElem?_eq_some_iff] at hk; obtain ⟨hk, -⟩ := hk; omega
    have hm : F[F.length - 1]? = some (F[F.length - 1]'(by omega)) :=
      List.getElem?_eq_getElem (by omega)
    set k' := F[F.length - 1]'(by omega)
    have hsp := rl_go_split mk F 0 (F.length - 1) k' hm
    have hd : F.drop (F.length - 1 + 1) = [] := List.drop_eq_nil_of_le (by omega)
    rw [hd] at hsp
    simp only [rl.go, List.append_nil, Nat.zero_add] at hsp
    have hrl := lastLeaf_rl mk k'
    have hdec := List.dropLast_append_getLast (rl_ne_nil mk k')
    rw [hrl] at hdec
    rw [← hdec] at hsp
    simp only [List.map_append, List.map_cons, List.map_nil, ← List.append_assoc] at hsp
    have hg : getL F [F.length - 1] = some k' := by simpa [getL] using hm
    rw [hg, hsp]
    simp

omit [IsStrictOrderedRing K] in
theorem right_index_per (mk : Itv K → Bool) (F : List (Cell K)) (n : Nat) (p : Path)
    (hp : (rl.go mk F 0)[n]? = some p) :
    rightNbr mk true F p =
      if n + 1 = (rl.go mk F 0).length then (rl.go mk F 0)[0]? else (rl.go mk F 0)[n + 1]? := by
  have h := right_index mk F n p hp
  have hmem := List.mem_of_getElem? hp
  have hadj := right_adj mk p F hmem
  rw [rightNbr_spec] at h ⊢
  cases hl : rup F p with
  | some q =>
    simp only [hl] at h hadj ⊢
    obtain ⟨t, h1, h2⟩ := hadj
    rw [h]
    rw [h1] at h
    by_cases hn : n + 1 = (rl.go mk F 0).length
    · simp [hn] at h
    · simp [hn]
  | none =>
    simp only [hl] at hadj ⊢
    obtain ⟨pre, hpre⟩ := hadj
    have h0 : (rl.go mk F 0)[pre.length]? = some p := by rw [hpre]; simp
    have hn := nodup_idx (nodup_rl_go mk F 0) hp h0
    have hn' : n + 1 = (rl.go mk F 0).length := by rw [hpre, hn]; simp
    simp only [if_true, hn']
    obtain ⟨j, q, k, -, hk, -⟩ := (mem_rl_go mk F 0 p).1 hmem
    cases F with
    | nil => simp at hk
    | cons k' ks =>
      obtain ⟨post, hf⟩ := firstLeaf_rl mk k'
      have hg : getL (k' :: ks) [0] = some k' := by simp [getL]
      rw [hg, rl.go, hf]
      simp

/-- Left neighbour in a non-periodic mesh: `None` exactly for the leaf at the left end of
the domain; otherwise a leaf of the submesh whose right end is the given left end, and
the relation is mutual. -/
theorem C16_left (a : K) (xs : List K) (hs : (a :: xs).IsChain (· < ·)) (ops : List Op)
    (sf : Option Nat) (hsub : Submesh (inSub sf) (mesh a xs ops)) (p : Path)
    (hp : SubLeaf (inSub sf) (mesh a xs ops) p) :
    let F := mesh a xs ops
    ∃ lo hi, endsAt F p = some (lo, hi) ∧
    match leftNbr (inSub sf) false F p with
    | none => lo = a
    | some q => a < lo ∧ SubLeaf (inSub sf) F q ∧ (∃ l, endsAt F q = some (l, lo)) ∧
        rightNbr (inSub sf) false F q = some p := by
  intro F
  obtain ⟨bs, h1, h2⟩ := leaves_ends (inSub sf) F _ _ (mesh_conf a xs hs ops)
  have hmem := (mem_leaves_iff _ F hsub p).2 hp
  obtain ⟨n, hn⟩ := List.mem_iff_getElem?.1 hmem
  obtain ⟨u, hu, he⟩ := idx_ends h1 n p hn
  refine ⟨u.1, u.2, he, ?_⟩
  rw [left_index _ F n p hn]
  by_cases h0 : n = 0
  · subst h0
    simp only [if_true]
    cases bs with
    | nil => simp at hu
    | cons x bs => simp at hu; subst hu; exact h2.1
  · obtain ⟨m, rfl⟩ : ∃ m, n = m + 1 := ⟨n - 1, by omega⟩
    simp only [h0, if_false, Nat.add_sub_cancel]
    have hlt : m < (rl.go (inSub sf) F 0).length := by
      rw [List.getElem?_eq_some_iff] at hn; obtain ⟨hn, -⟩ := hn; omega
    have hq : (rl.go (inSub sf) F 0)[m]? = some ((rl.go (inSub sf) F 0)[m]'hlt) :=
      List.getElem?_eq_getElem hlt
    set q := (rl.go (inSub sf) F 0)[m]'hlt
    obtain ⟨v, hv, he'⟩ := idx_ends h1 m q hq
    rw [hq]
    have hadj := h2.adj m v u hv hu
    have hle := h2.le.2 v (List.mem_of_getElem? hv)
    refine ⟨?_, (mem_leaves_iff _ F hsub q).1 (List.mem_of_getElem? hq), ⟨v.1, ?_⟩, ?_⟩
    · rw [← hadj]; exact lt_of_le_of_lt hle.1 hle.2.1
    · rw [he', ← hadj]
    · rw [right_index _ F m q hq]; exact hn

/-- Right neighbour in a non-periodic mesh. -/
theorem C16_right (a : K) (xs : List K) (hs : (a :: xs).IsChain (· < ·)) (ops : List Op)
    (sf : Option Nat) (hsub : Submesh (inSub sf) (mesh a xs ops)) (p : Path)
    (hp : SubLeaf (inSub sf) (mesh a xs ops) p) :
    let F := mesh a xs ops
    ∃ lo hi, endsAt F p = some (lo, hi) ∧
    match rightNbr (inSub sf) false F p with
    | none => hi = (a :: xs).getLast (by simp)
    | some q => hi < (a :: xs).getLast (by simp) ∧ SubLeaf (inSub sf) F q ∧
        (∃ h, endsAt F q = some (hi, h)) ∧ leftNbr (inSub sf) false F q = some p := by
  intro F
  obtain ⟨bs, h1, h2⟩ := leaves_ends (inSub sf) F _ _ (mesh_conf a xs hs ops)
  have hmem := (mem_leaves_iff _ F hsub p).2 hp
  obtain ⟨n, hn⟩ := List.mem_iff_getElem?.1 hmem
  obtain ⟨u, hu, he⟩ := idx_ends h1 n p hn
  refine ⟨u.1, u.2, he, ?_⟩
  rw [right_index _ F n p hn]
  cases hq : (rl.go (inSub sf) F 0)[n + 1]? with
  | none =>
    have hlen : bs.length = (rl.go (inSub sf) F 0).length := by
      have := congrArg List.length h1; simpa using this.symm
    rw [List.getElem?_eq_none_iff] at hq
    have hnl : n < bs.length := by rw [List.getElem?_eq_some_iff] at hu; exact hu.1
    have : bs = bs.take n ++ [u] := by
      conv_lhs => rw [← List.take_append_drop n bs]
      rw [List.drop_eq_getElem_cons hnl, List.drop_eq_nil_of_le (by omega)]
      rw [List.getElem?_eq_getElem hnl] at hu
      simp at hu; rw [hu]
    rw [this] at h2
    exact h2.last
  | some q =>
    obtain ⟨v, hv, he'⟩ := idx_ends h1 (n + 1) q hq
    have hadj := h2.adj n u v hu hv
    have hle := h2.le.2 v (List.mem_of_getElem? hv)
    refine ⟨?_, (mem_leaves_iff _ F hsub q).1 (List.mem_of_getElem? hq), ⟨v.2, ?_⟩, ?_⟩
    · rw [hadj]; exact lt_of_lt_of_le hle.2.1 hle.2.2
    · rw [he', hadj]
    · rw [left_index _ F (n + 1) q hq]; simpa using hn

/-- In a periodic mesh every leaf has a left and a right neighbour; they share the end
point, or the end points are the two ends of the domain; the relation is mutual. -/
theorem C16_periodic (a : K) (xs : List K) (hs : (a :: xs).IsChain (· < ·)) (ops : List Op)
    (sf : Option Nat) (hsub : Submesh (inSub sf) (mesh a xs ops)) (p : Path)
    (hp : SubLeaf (inSub sf) (mesh a xs ops) p) :
    let F := mesh a xs ops
    let b := (a :: xs).getLast (by simp)
    ∃ q l h l' h', leftNbr (inSub sf) true F p = some q ∧ SubLeaf (inSub sf) F q ∧
      endsAt F p = some (l, h) ∧ endsAt F q = some (l', h') ∧
      (h' = l ∨ (l = a ∧ h' = b)) ∧ rightNbr (inSub sf) true F q = some p := by
  intro F b
  obtain ⟨bs, h1, h2⟩ := leaves_ends (inSub sf) F _ _ (mesh_conf a xs hs ops)
  have hmem := (mem_leaves_iff _ F hsub p).2 hp
  obtain ⟨n, hn⟩ := List.mem_iff_getElem?.1 hmem
  obtain ⟨u, hu, he⟩ := idx_ends h1 n p hn
  have hlen : bs.length = (rl.go (inSub sf) F 0).length := by
    have := congrArg List.length h1; simpa using this.symm
  have hnl : n < (rl.go (inSub sf) F 0).length := by
    rw [List.getElem?_eq_some_iff] at hn; exact hn.1
  rw [left_index_per _ F n p hn]
  by_cases h0 : n = 0
  · subst h0
    simp only [if_true]
    set N := (rl.go (inSub sf) F 0).length with hN
    have hlt : N - 1 < (rl.go (inSub sf) F 0).length := by omega
    have hq : (rl.go (inSub sf) F 0)[N - 1]? = some ((rl.go (inSub sf) F 0)[N - 1]'hlt) :=
      List.getElem?_eq_getElem hlt
    set q := (rl.go (inSub sf) F 0)[N - 1]'hlt
    obtain ⟨v, hv, he'⟩ := idx_ends h1 (N - 1) q hq
    have hfirst : u.1 = a := by
      cases bs with
      | nil => simp at hu
      | cons x bs => simp at hu; subst hu; exact h2.1
    have hlast : v.2 = b := by
      have hnl : N - 1 < bs.length := by omega
      have : bs = bs.take (N - 1) ++ [v] := by
        conv_lhs => rw [← List.take_append_drop (N - 1) bs]
        rw [List.drop_eq_getElem_cons hnl, List.drop_eq_nil_of_le (by omega)]
        rw [List.getElem?_eq_getElem hnl] at hv
        simp at hv; rw [hv]
      rw [this] at h2
      exact h2.last
    refine ⟨q, u.1, u.2, v.1, v.2, hq, (mem_leaves_iff _ F hsub q).1 (List.mem_of_getElem? hq),
      he, he', .inr ⟨hfirst, hlast⟩, ?_⟩
    rw [right_index_per _ F (N - 1) q hq, if_pos (by omega)]; exact hn
  · obtain ⟨m, rfl⟩ : ∃ m, n = m + 1 := ⟨n - 1, by omega⟩
    simp only [h0, if_false, Nat.add_sub_cancel]
    have hlt : m < (rl.go (inSub sf) F 0).length := by omega
    have hq : (rl.go (inSub sf) F 0)[m]? = some ((rl.go (inSub sf) F 0)[m]'hlt) :=
      List.getElem?_eq_getElem hlt
    set q := (rl.go (inSub sf) F 0)[m]'hlt
    obtain ⟨v, hv, he'⟩ := idx_ends h1 m q hq
    have hadj := h2.adj m v u hv hu
    refine ⟨q, u.1, u.2, v.1, v.2, hq, (mem_leaves_iff _ F hsub q).1 (List.mem_of_getElem? hq),
      he, he', .inl hadj, ?_⟩
    rw [right_index_per _ F m q hq, if_neg (by omega)]; exact hn

/-- `get_boundary_cells` returns the leftmost and the rightmost leaf, whatever the order
in which the leaves are visited. -/
theorem C16_boundary_cells (a : K) (xs : List K) (hs : (a :: xs).IsChain (· < ·))
    (hne : xs ≠ []) (ops : List Op)
    (sf : Option Nat) (hsub : Submesh (inSub sf) (mesh a xs ops)) (order : List Path)
    (hord : ∀ p, p ∈ order ↔ SubLeaf (inSub sf) (mesh a xs ops) p) :
    let F := mesh a xs ops
    ∃ p q h l, boundaryCells (inSub sf) false F order = some (p, q) ∧
      SubLeaf (inSub sf) F p ∧ SubLeaf (inSub sf) F q ∧
      endsAt F p = some (a, h) ∧ endsAt F q = some (l, (a :: xs).getLast (by simp)) := by
  intro F
  -- there is a leftmost and a rightmost leaf
  obtain ⟨bs, h1, h2⟩ := leaves_ends (inSub sf) F _ _ (mesh_conf a xs hs ops)
  have hlen : bs.length = (rl.go (inSub sf) F 0).length := by
    have := congrArg List.length h1; simpa using this.symm
  have hab : a < (a :: xs).getLast (by simp) := by
    cases xs with
    | nil => exact absurd rfl hne
    | cons b r =>
      rw [List.isChain_cons_cons] at hs
      have := (roots_conf b r hs.2).1
      have := (this.le).1
      exact lt_of_lt_of_le hs.1 (by simpa using this)
  have hpos : 0 < bs.length := by
    rcases bs with _ | ⟨x, bs⟩
    · exact absurd h2 hab.ne
    · simp
  have e0 : (rl.go (inSub sf) F 0)[0]? = some ((rl.go (inSub sf) F 0)[0]'(by omega)) :=
    List.getElem?_eq_getElem _
  set N := (rl.go (inSub sf) F 0).length with hN
  have eN : (rl.go (inSub sf) F 0)[N - 1]? = some ((rl.go (inSub sf) F 0)[N - 1]'(by omega)) :=
    List.getElem?_eq_getElem _
  set p0 := (rl.go (inSub sf) F 0)[0]'(by omega)
  set pN := (rl.go (inSub sf) F 0)[N - 1]'(by omega)
  -- left none iff p0, right none iff pN
  have hL : ∀ p ∈ order, (leftNbr (inSub sf) false F p = none ↔ p = p0) := by
    intro p hp
    obtain ⟨n, hn⟩ := List.mem_iff_getElem?.1 ((mem_leaves_iff _ F hsub p).2 ((hord p).1 hp))
    rw [left_index _ F n p hn]
    constructor
    · intro h
      by_cases h0 : n = 0
      · subst h0; rw [hn] at e0; simpa using e0
      · rw [if_neg h0, List.getElem?_eq_none_iff] at h
        rw [List.getElem?_eq_some_iff] at hn
        obtain ⟨hn, -⟩ := hn
        omega
    · rintro rfl
      have := nodup_idx (nodup_rl_go _ _ _) hn e0
      simp [this]
  have hR : ∀ p ∈ order, (rightNbr (inSub sf) false F p = none ↔ p = pN) := by
    intro p hp
    obtain ⟨n, hn⟩ := List.mem_iff_getElem?.1 ((mem_leaves_iff _ F hsub p).2 ((hord p).1 hp))
    rw [right_index _ F n p hn, List.getElem?_eq_none_iff]
    have hnl : n < N := by rw [List.getElem?_eq_some_iff] at hn; exact hn.1
    constructor
    · intro h
      have : n = N - 1 := by omega
      subst this; rw [hn] at eN; simpa using eN
    · rintro rfl
      have := nodup_idx (nodup_rl_go _ _ _) hn eN
      omega
  have hfold : ∀ (l : List Path) (acc : Option Path × Option Path), (∀ p ∈ l, p ∈ order) →
      l.foldl (fun (acc : Option Path × Option Path) p =>
        (if leftNbr (inSub sf) false F p = none then some p else acc.1,
         if rightNbr (inSub sf) false F p = none then some p else acc.2)) acc
      = (if p0 ∈ l then some p0 else acc.1, if pN ∈ l then some pN else acc.2) := by
    intro l
    induction l with
    | nil => intro acc _; simp
    | cons p l ih =>
      intro acc hl
      rw [List.foldl_cons, ih _ (fun p hp => hl p (by simp [hp]))]
      have g1 := hL p (hl p (by simp))
      have g2 := hR p (hl p (by simp))
      simp only [g1, g2, List.mem_cons]
      congr 1
      · by_cases m0 : p0 ∈ l
        · simp [m0]
        · by_cases m1 : p = p0 <;> simp [m0, m1, eq_comm]
      · by_cases m0 : pN ∈ l
        · simp [m0]
        · by_cases m1 : p = pN <;> simp [m0, m1, eq_comm]
  have m0 : p0 ∈ order := (hord p0).2 ((mem_leaves_iff _ F hsub p0).1 (List.mem_of_getElem? e0))
  have mN : pN ∈ order := (hord pN).2 ((mem_leaves_iff _ F hsub pN).1 (List.mem_of_getElem? eN))
  obtain ⟨u, hu, hu'⟩ := idx_ends h1 0 p0 e0
  obtain ⟨v, hv, hv'⟩ := idx_ends h1 (N - 1) pN eN
  refine ⟨p0, pN, u.2, v.1, ?_, (hord _).1 m0, (hord _).1 mN, ?_, ?_⟩
  · unfold boundaryCells
    rw [hfold order (none, none) (fun p hp => hp)]
    simp [m0, mN]
  · rw [hu']
    cases bs with
    | nil => simp at hu
    | cons x bs => simp at hu; subst hu; rw [← h2.1]
  · rw [hv']
    have hnl : N - 1 < bs.length := by omega
    have : bs = bs.take (N - 1) ++ [v] := by
      conv_lhs => rw [← List.take_append_drop (N - 1) bs]
      rw [List.drop_eq_getElem_cons hnl, List.drop_eq_nil_of_le (by omega)]
      rw [List.getElem?_eq_getElem hnl] at hv
      simp at hv; rw [hv]
    rw [this] at h2
    rw [← h2.last]

example : leftNbr (inSub none) false exMesh [0, 1, 0] = some [0, 0] ∧
    rightNbr (inSub none) false exMesh [0, 1, 1] = some [1] ∧
    rightNbr (inSub (some 7)) false exMesh [0, 0] = some [0, 1] ∧
    leftNbr (inSub none) false exMesh [0, 0] = none ∧
    leftNbr (inSub none) true exMesh [0, 0] = some [1] := by
  rw [exMesh_eq]
  refine ⟨rfl, rfl, ?_, rfl, rfl⟩
  simp [rightNbr, rightUp, nSib, getL, firstLeaf, hasKids, inSub]

/-! ## C17: reference map -/

omit [LinearOrder K] [IsStrictOrderedRing K] in
/-- Two-sided inverse and end points. -/
theorem C17_round_trip (d : Itv K) (h : d.lo ≠ d.hi) (x : K) :
    toRef d (toPhys d x) = x ∧ toPhys d (toRef d x) = x ∧
    toPhys d 0 = d.lo ∧ toPhys d 1 = d.hi ∧ toRef d d.lo = 0 ∧ toRef d d.hi = 1 := by
  have h' : d.hi - d.lo ≠ 0 := sub_ne_zero.2 (Ne.symm h)
  refine ⟨?_, ?_, ?_, ?_, ?_, ?_⟩ <;> simp only [toRef, toPhys] <;> field_simp <;> ring

omit [LinearOrder K] [IsStrictOrderedRing K] in
/-- The jacobians are the slopes of the two affine maps (hence their derivatives) and are
inverse to each other; the hessian of an affine map is zero. -/
theorem C17_jacobian (d : Itv K) (h : d.lo ≠ d.hi) (x y : K) :
    toPhys d y - toPhys d x = jacR2P d * (y - x) ∧
    toRef d y - toRef d x = jacP2R d * (y - x) ∧ jacR2P d * jacP2R d = 1 := by
  have h' : d.hi - d.lo ≠ 0 := sub_ne_zero.2 (Ne.symm h)
  refine ⟨?_, ?_, ?_⟩ <;> simp only [toRef, toPhys, jacR2P, jacP2R] <;> field_simp <;> ring

/-- A point lies in the cell iff its reference coordinate lies in `[0,1]`. -/
theorem C17_contains (d : Itv K) (h : d.lo < d.hi) (x : K) :
    contains d x = true ↔ 0 ≤ toRef d x ∧ toRef d x ≤ 1 := by
  have h' : 0 < d.hi - d.lo := sub_pos.2 h
  simp only [contains, toRef, Bool.and_eq_true, Bool.not_eq_true', decide_eq_false_iff_not,
    not_lt]
  rw [le_div_iff₀ h', div_le_one h']
  constructor
  · rintro ⟨h1, h2⟩; exact ⟨by linarith, by linarith⟩
  · rintro ⟨h1, h2⟩; exact ⟨by linarith, by linarith⟩

omit [IsStrictOrderedRing K] in
theorem conf_getT (q : Path) : ∀ (t : Cell K), Conf t → ∀ s, getT t q = some s →
    t.data.lo ≤ s.data.lo ∧ s.data.lo < s.data.hi ∧ s.data.hi ≤ t.data.hi := by
  induction q with
  | nil => intro t h s hs; simp [getT] at hs; subst hs; exact ⟨le_refl _, h.pos, le_refl _⟩
  | cons j q ih =>
    intro t h s hs
    cases h with
    | node d ks pos tile below =>
    simp only [getT, List.cons_ne_nil, if_false, GTree.kids_node] at hs
    cases hk : ks[j]? with
    | none => cases q <;> simp [getL, hk] at hs
    | some k =>
      rw [getL_cons ks j q k hk] at hs
      have hmem := List.mem_of_getElem? hk
      obtain ⟨i1, i2, i3⟩ := ih k (below k hmem) s hs
      have hne : ks ≠ [] := by rintro rfl; simp at hk
      have := (tile.resolve_left hne).le.2 (ends k) (List.mem_map_of_mem hmem)
      exact ⟨this.1.trans i1, i2, i3.trans this.2.2⟩

/-- For every cell of every refinement history and every descendant of it,
`subcell_position` succeeds and the reference map of the descendant is that of the cell
composed with `t ↦ pos + width * t`. -/
theorem C17_subcell (a : K) (xs : List K) (hs : (a :: xs).IsChain (· < ·)) (ops : List Op)
    (p q : Path) (t s : Cell K) (ht : getL (mesh a xs ops) p = some t)
    (hsq : getT t q = some s) :
    ∃ pos width, subcellPosition t.data s.data = .ok (pos, width) ∧
      0 ≤ pos ∧ 0 < width ∧ pos + width ≤ 1 ∧
      ∀ x, toPhys s.data x = toPhys t.data (pos + width * x) := by
  have hconf : Conf t := by
    have : ∀ (p : Path) (F : List (Cell K)), (∀ t ∈ F, Conf t) → ∀ t, getL F p = some t →
        Conf t := by
      intro p
      induction p with
      | nil => intro F _ t h; simp [getL] at h
      | cons i p ih =>
        intro F hF t h
        cases hk : F[i]? with
        | none => cases p <;> simp [getL, hk] at h
        | some k =>
          have hmem := List.mem_of_getElem? hk
          rw [getL_cons F i p k hk] at h
          cases p with
          | nil => simp [getT] at h; subst h; exact hF k hmem
          | cons j p =>
            simp only [getT, List.cons_ne_nil, if_false] at h
            refine ih k.kids ?_ t h
            have := hF k hmem
            cases this with | node d ks _ _ b => exact b
    exact this p _ (mesh_conf a xs hs ops).2 t ht
  obtain ⟨h1, h2, h3⟩ := conf_getT q t hconf s hsq
  have hp : 0 < t.data.hi - t.data.lo := sub_pos.2 hconf.pos
  have hpos : 0 ≤ (s.data.lo - t.data.lo) / (t.data.hi - t.data.lo) :=
    div_nonneg (by linarith) hp.le
  have hle : (s.data.lo - t.data.lo) / (t.data.hi - t.data.lo) ≤ 1 := by
    rw [div_le_one hp]; linarith
  refine ⟨_, _, ?_, hpos, div_pos (sub_pos.2 h2) hp, ?_, ?_⟩
  · simp only [subcellPosition]; rw [if_pos ⟨hpos, hle⟩]
  · rw [← add_div, div_le_one hp]; linarith
  · intro x
    simp only [toPhys]
    have := hp.ne'
    field_simp
    ring

/-- `subcell_position` of the `i`-th of `n` children is `(i/n, 1/n)`. -/
theorem C17_subcell_child (d : Itv K) (ks : List (Cell K)) (h : d.lo < d.hi) (hn : 0 < d.n)
    (i : Nat) (k : Cell K) (hk : (split (.node d ks)).kids[i]? = some k) :
    subcellPosition d k.data = .ok ((i : K) / d.n, 1 / d.n) := by
  have hn' : (0 : K) < d.n := by exact_mod_cast hn
  have hd : (0 : K) < d.hi - d.lo := sub_pos.2 h
  have key : ∀ r i0 base, i0 + r = d.n → base = d.lo + (i0 : K) * (d.hi - d.lo) / d.n →
      ∀ j k, (splitLoop d.lo d.hi d.n i0 r base)[j]? = some k →
        i0 + j < d.n ∧ k.data.lo = d.lo + ((i0 + j : Nat) : K) * (d.hi - d.lo) / d.n ∧
        k.data.hi = d.lo + ((i0 + j + 1 : Nat) : K) * (d.hi - d.lo) / d.n := by
    intro r
    induction r with
    | zero => intro i0 base _ _ j k hk; simp [splitLoop] at hk
    | succ r ih =>
      intro i0 base hi hb j k hk
      have hhead : (if i0 = d.n - 1 then d.hi else d.lo + (i0 + 1 : K) * (d.hi - d.lo) / d.n)
          = d.lo + ((i0 + 1 : Nat) : K) * (d.hi - d.lo) / d.n := by
        split
        · next h =>
          have : i0 + 1 = d.n := by omega
          rw [this]; field_simp; ring
        · push_cast; rfl
      simp only [splitLoop, hhead] at hk
      cases j with
      | zero =>
        simp at hk; subst hk
        exact ⟨by omega, by simp [hb], by simp⟩
      | succ j =>
        simp only [List.getElem?_cons_succ] at hk
        obtain ⟨g0, g1, g2⟩ := ih (i0 + 1) _ (by omega) rfl j k hk
        refine ⟨by omega, ?_, ?_⟩
        · rw [g1]; congr 3; push_cast; ring
        · rw [g2]; congr 3; push_cast; ring
  obtain ⟨g0, g1, g2⟩ := key d.n 0 d.lo (by omega) (by simp) i k hk
  simp only [Nat.zero_add] at g0 g1 g2
  have e1 : (k.data.lo - d.lo) / (d.hi - d.lo) = (i : K) / d.n := by rw [g1]; field_simp; ring
  have e2 : (k.data.hi - k.data.lo) / (d.hi - d.lo) = 1 / (d.n : K) := by
    rw [g1, g2]; push_cast; field_simp; ring
  have h0 : (0 : K) ≤ (i : K) / d.n := div_nonneg (by positivity) hn'.le
  have h1 : (i : K) / d.n ≤ 1 := by
    rw [div_le_one hn']; exact_mod_cast g0.le
  simp only [subcellPosition]
  rw [e1, e2, if_pos ⟨h0, h1⟩]

example : subcellPosition (⟨0, 1, 2, ∅⟩ : Itv ℚ) ⟨3/4, 1, 2, ∅⟩ = .ok (3/4, 1/4) := by
  norm_num [subcellPosition]

/-! ## C18: binning points in one dimension -/

omit [IsStrictOrderedRing K] in
theorem contains_iff (d : Itv K) (x : K) : contains d x = true ↔ d.lo ≤ x ∧ x ≤ d.hi := by
  simp [contains, not_lt]

omit [IsStrictOrderedRing K] in
theorem cov_of_conf (mk : Itv K → Bool) (t : Cell K) (hc : Conf t) (hcl : Closed mk t) :
    Cov contains mk t := by
  induction t using GTree.ind with
  | h d ks ih =>
    cases hc with
    | node _ _ pos tile below =>
    cases hcl with
    | node _ _ up sib below' =>
    refine .node _ _ ?_ (fun k hk => ih k hk (below k hk) (below' k hk))
    intro hk x hx
    have hne : ks ≠ [] := by rintro rfl; simp [hasKids] at hk
    obtain ⟨h1, h2⟩ := (contains_iff d x).1 hx
    obtain ⟨u, hu, hu1, hu2⟩ := (tile.resolve_left hne).cover (by simpa using hne) x h1 h2
    obtain ⟨k, hkm, rfl⟩ := List.mem_map.1 hu
    exact ⟨k, hkm, sib hk k hkm, (contains_iff _ _).2 ⟨hu1, hu2⟩⟩

/-- `Mesh1D.bin_points`: for every history, submesh and list of indexed points in the
domain the call succeeds and returns a correct binning; if a point is outside the domain
it raises an assertion error. -/
theorem C18_mesh1d (a : K) (xs : List K) (hs : (a :: xs).IsChain (· < ·)) (hne : xs ≠ [])
    (ops : List Op) (sf : Option Nat) (hsub : Submesh (inSub sf) (mesh a xs ops))
    {ι : Type} (pts : List (ι × K)) :
    let b := (a :: xs).getLast (by simp)
    ((∀ x ∈ pts, a ≤ x.2 ∧ x.2 ≤ b) →
      ∃ bins, meshBin contains (inSub sf) (mesh a xs ops) pts = .ok bins ∧
        GoodBins contains (inSub sf) (mesh a xs ops) pts bins) ∧
    (∀ x ∈ pts, (x.2 < a ∨ b < x.2) →
      meshBin contains (inSub sf) (mesh a xs ops) pts = .error .assertion) := by
  intro b
  have hconf := mesh_conf a xs hs ops
  have hcov : ∀ t ∈ mesh a xs ops, Cov contains (inSub sf) t :=
    fun t ht => cov_of_conf _ t (hconf.2 t ht) (hsub t ht).2
  have hab : a < b := by
    cases xs with
    | nil => exact absurd rfl hne
    | cons c r =>
      rw [List.isChain_cons_cons] at hs
      have := (roots_conf c r hs.2).1
      have := (this.le).1
      exact lt_of_lt_of_le hs.1 (by simpa [b] using this)
  constructor
  · intro hin
    refine meshBin_good contains (inSub sf) _ hcov pts ?_
    intro x hx
    have hne' : (mesh a xs ops).map ends ≠ [] := by
      intro h
      have := hconf.1
      rw [h] at this
      exact hab.ne this
    obtain ⟨u, hu, hu1, hu2⟩ := hconf.1.cover hne' x.2 (hin x hx).1 (hin x hx).2
    obtain ⟨k, hkm, rfl⟩ := List.mem_map.1 hu
    exact ⟨k, hkm, (hsub k hkm).1, (contains_iff _ _).2 ⟨hu1, hu2⟩⟩
  · intro x hx hout
    refine meshBin_outside contains (inSub sf) _ hcov pts x hx ?_
    intro t ht _
    by_contra hcon
    obtain ⟨h1, h2⟩ := (contains_iff _ _).1 (by simpa using hcon)
    have := hconf.1.le.2 (ends t) (List.mem_map_of_mem ht)
    simp only [ends] at this
    rcases hout with h | h
    · exact absurd (this.1.trans h1) (not_le.2 h)
    · exact absurd (h2.trans this.2.2) (not_le.2 h)

omit [IsStrictOrderedRing K] in
/-- Ancestors exist, are conforming and closed, and contain the cell. -/
theorem ancestors (mk : Itv K → Bool) (F : List (Cell K)) (hF : ∀ t ∈ F, Conf t)
    (hsub : Submesh mk F) (p q : Path) (hp : p ≠ []) (s : Cell K)
    (h : getL F (p ++ q) = some s) :
    ∃ t, getL F p = some t ∧ Conf t ∧ Closed mk t ∧
      t.data.lo ≤ s.data.lo ∧ s.data.hi ≤ t.data.hi := by
  have main : ∀ (p : Path) (F : List (Cell K)), (∀ t ∈ F, Conf t ∧ Closed mk t) → p ≠ [] →
      getL F (p ++ q) = some s →
      ∃ t, getL F p = some t ∧ Conf t ∧ Closed mk t ∧ getT t q = some s := by
    intro p
    induction p with
    | nil => intro F _ h; exact absurd rfl h
    | cons i p ih =>
      intro F hF _ h
      simp only [List.cons_append] at h
      cases hk : F[i]? with
      | none => cases hpq : p ++ q <;> simp [getL, hk, hpq] at h
      | some k =>
        have hmem := List.mem_of_getElem? hk
        rw [getL_cons F i _ k hk] at h
        cases p with
        | nil => exact ⟨k, by simpa [getL] using hk, (hF k hmem).1, (hF k hmem).2, by simpa using h⟩
        | cons j p =>
          simp only [getT, List.cons_append, List.cons_ne_nil, if_false] at h
          have hkk : ∀ t ∈ k.kids, Conf t ∧ Closed mk t := by
            obtain ⟨h1, h2⟩ := hF k hmem
            cases h1 with
            | node d ks _ _ b =>
              cases h2 with
              | node _ _ _ _ b' => exact fun t ht => ⟨b t ht, b' t ht⟩
          obtain ⟨t, g1, g2⟩ := ih k.kids hkk (by simp) (by simpa using h)
          refine ⟨t, ?_, g2⟩
          rw [getL_cons F i _ k hk]; simpa [getT] using g1
  obtain ⟨t, h1, h2, h3, h4⟩ := main p F (fun t ht => ⟨hF t ht, (hsub t ht).2⟩) hp h
  obtain ⟨g1, -, g3⟩ := conf_getT q t h2 s h4
  exact ⟨t, h1, h2, h3, g1, g3⟩

/-- `Interval.bin_points` on any cell (in the submesh or not), for points in that cell. -/
theorem C18_interval (a : K) (xs : List K) (hs : (a :: xs).IsChain (· < ·))
    (ops : List Op) (sf : Option Nat) (hsub : Submesh (inSub sf) (mesh a xs ops))
    (p : Path) (s : Cell K) (hp : getL (mesh a xs ops) p = some s)
    {ι : Type} (pts : List (ι × K)) (hin : ∀ x ∈ pts, s.data.lo ≤ x.2 ∧ x.2 ≤ s.data.hi) :
    ∃ bins, cellBin contains (inSub sf) (mesh a xs ops) p.reverse pts = .ok bins ∧
      GoodBins contains (inSub sf) (mesh a xs ops) pts bins := by
  have hconf := mesh_conf a xs hs ops
  have hne : p ≠ [] := by rintro rfl; simp [getL] at hp
  refine cellBin_good contains (inSub sf) _ pts p.reverse ?_ ?_
  · intro r hr hsuf
    obtain ⟨u, hu⟩ := hsuf
    have e : p = r.reverse ++ u.reverse := by
      have := congrArg List.reverse hu; simpa using this.symm
    rw [e] at hp
    obtain ⟨t, h1, h2, h3, h4, h5⟩ := ancestors (inSub sf) _ hconf.2 hsub _ _ (by simpa using hr) s hp
    refine ⟨t, h1, cov_of_conf _ t h2 h3, fun x hx => (contains_iff _ _).2 ?_⟩
    exact ⟨h4.trans (hin x hx).1, (hin x hx).2.trans h5⟩
  · cases p with
    | nil => exact absurd rfl hne
    | cons i p =>
      have e : (i :: p) = [i] ++ p := rfl
      rw [e] at hp
      obtain ⟨t, h1, -⟩ := ancestors (inSub sf) _ hconf.2 hsub [i] p (by simp) s hp
      refine ⟨[i], t, by simp, ⟨p.reverse, by simp⟩, by simpa using h1, ?_⟩
      have : (mesh a xs ops)[i]? = some t := by simpa [getL] using h1
      exact (hsub t (List.mem_of_getElem? this)).1

/-- Without sibling-closedness points get lost silently: a cell with only its first child
in the submesh; the point 1 is in the mesh but in no bin. -/
theorem C18_lost_points_violated :
    ∃ (ops : List Op) (pts : List (Nat × ℚ)),
      meshBin contains (inSub (some 7)) (mesh 0 [1] ops) pts = .ok [] ∧ pts ≠ [] ∧
      ∀ x ∈ pts, (0 : ℚ) ≤ x.2 ∧ x.2 ≤ 1 := by
  refine ⟨[.split [0], .mark [0] 7, .mark [0, 0] 7], [(0, 1)], ?_, by simp, by simp⟩
  have : mesh (0 : ℚ) [1] [.split [0], .mark [0] 7, .mark [0, 0] 7] =
      [.node ⟨0, 1, 2, {7}⟩ [.node ⟨0, 1/2, 2, {7}⟩ [], .node ⟨1/2, 1, 2, ∅⟩ []]] := by
    simp only [mesh, run, List.foldl, step, roots, modifyL, split, splitLoop, mark,
      List.modify_zero_cons, GTree.data, GTree.kids]
    norm_num
  rw [this]
  simp [meshBin, binKids, bin, hasKids, inSub, contains]
  norm_num

example : meshBin contains (inSub none) exMesh [(0, (1/4 : ℚ)), (1, 3/4), (2, 2), (3, 1)] =
    .ok [([0, 0], [0]), ([0, 1, 0], [1]), ([0, 1, 1], [3]), ([1], [2])] := by
  rw [exMesh_eq]
  norm_num [meshBin, binKids, bin, hasKids, inSub, contains, List.filter_cons]

/-! ## C46: level-wise neighbours -/

/-- What works: siblings and roots. -/
theorem C46_siblings_partial (mk : Itv K → Bool) (per : Bool) (F : List (Cell K)) (p : Path)
    (i : Nat) : levelLeft mk per F (p ++ [i + 1]) = some (p ++ [i]) := by
  simp [levelLeft]

/-- A cell whose level-wise left neighbour exists (the last child of the neighbouring
root) but `get_neighbor(0, mode='level-wise')` returns `None`. -/
theorem C46_cousin_violated :
    ∃ (ops : List Op) (p q : Path) (x y z : ℚ),
      endsAt (mesh (0 : ℚ) [1, 2] ops) p = some (y, z) ∧ endsAt (mesh (0 : ℚ) [1, 2] ops) q = some (x, y) ∧
      p.length = q.length ∧
      levelLeft (inSub none) false (mesh (0 : ℚ) [1, 2] ops) p = none := by
  refine ⟨[.split [0], .split [1]], [1, 0], [0, 1], 1/2, 1, 3/2, ?_, ?_, rfl, ?_⟩
  · simp only [mesh, run, List.foldl, step, roots, modifyL, split, splitLoop, endsAt, getL, ends,
      List.modify_zero_cons, List.modify_succ_cons, GTree.data, GTree.kids]
    norm_num [ends]
  · simp only [mesh, run, List.foldl, step, roots, modifyL, split, splitLoop, endsAt, getL, ends,
      List.modify_zero_cons, List.modify_succ_cons, GTree.data, GTree.kids]
    norm_num [ends]
  · simp [levelLeft]

/-- In a periodic mesh the level-wise left neighbour of the leftmost cell of a level is
not the rightmost cell of that level: the code returns a cell that does not touch the
right end of the domain. -/
theorem C46_periodic_violated :
    ∃ (ops : List Op) (p q : Path) (x y : ℚ),
      endsAt (mesh (0 : ℚ) [1, 2] ops) p = some (0, 1/2) ∧
      levelLeft (inSub none) true (mesh (0 : ℚ) [1, 2] ops) p = some q ∧
      endsAt (mesh (0 : ℚ) [1, 2] ops) q = some (x, y) ∧ y ≠ 2 := by
  refine ⟨[.split [0], .split [1]], [0, 0], [1, 0], 1, 3/2, ?_, ?_, ?_, by norm_num⟩
  · simp only [mesh, run, List.foldl, step, roots, modifyL, split, splitLoop, endsAt, getL, ends,
      List.modify_zero_cons, List.modify_succ_cons, GTree.data, GTree.kids]
    norm_num [ends]
  · simp only [mesh, run, List.foldl, step, roots, modifyL, split, splitLoop, levelLeft, descend,
      List.modify_zero_cons, List.modify_succ_cons, GTree.data, GTree.kids]
    norm_num [descend, hasKids, inSub]
  · simp only [mesh, run, List.foldl, step, roots, modifyL, split, splitLoop, endsAt, getL, ends,
      List.modify_zero_cons, List.modify_succ_cons, GTree.data, GTree.kids]
    norm_num [ends]

end Verif.OneD
