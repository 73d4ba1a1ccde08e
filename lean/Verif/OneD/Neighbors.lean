import Verif.OneD.Tiling

/-! # Leaves as a list of paths; neighbours are adjacent in that list -/

namespace Verif.OneD
open Verif.Geom

variable {K : Type} [Field K] [LinearOrder K]

/-- Leaves as relative paths. -/
def rl (mk : Itv K → Bool) (t : Cell K) : List Path :=
  match t with
  | .node d ks => if hasKids mk (.node d ks) then go mk ks 0 else [[]]
where
  go (mk : Itv K → Bool) : List (Cell K) → Nat → List Path
    | [], _ => []
    | k :: ks, i => (rl mk k).map (i :: ·) ++ go mk ks (i + 1)

theorem leaves_rl (mk : Itv K → Bool) (t : Cell K) :
    ∀ p, leavesT mk t p = (rl mk t).map (p ++ ·) := by
  induction t using GTree.ind with
  | h d ks ih =>
    intro p
    rw [leavesT, rl]
    split
    · have : ∀ (ks : List (Cell K)) (i : Nat),
          (∀ k ∈ ks, ∀ p, leavesT mk k p = (rl mk k).map (p ++ ·)) →
          leavesL mk ks p i = (rl.go mk ks i).map (p ++ ·) := by
        intro ks
        induction ks with
        | nil => intro i _; simp [leavesL, rl.go]
        | cons k ks ihk =>
          intro i h
          rw [leavesL, rl.go, h k (by simp), ihk (i + 1) (fun k hk => h k (by simp [hk]))]
          simp [List.map_append, Function.comp_def]
      exact this ks 0 ih
    · simp

theorem leavesL_rl (mk : Itv K → Bool) (F : List (Cell K)) (p : Path) (i : Nat) :
    leavesL mk F p i = (rl.go mk F i).map (p ++ ·) := by
  induction F generalizing i with
  | nil => simp [leavesL, rl.go]
  | cons k ks ih =>
    rw [leavesL, rl.go, leaves_rl, ih]
    simp [List.map_append, Function.comp_def]

theorem rl_ne_nil (mk : Itv K → Bool) (t : Cell K) : rl mk t ≠ [] := by
  induction t using GTree.ind with
  | h d ks ih =>
    rw [rl]
    split
    · next hk =>
      cases ks with
      | nil => simp [hasKids] at hk
      | cons k ks =>
        rw [rl.go]
        have := ih k (by simp)
        simp [this]
    · simp

/-- Membership in the list of leaves. -/
theorem mem_rl_go (mk : Itv K → Bool) (ks : List (Cell K)) (i : Nat) (p : Path) :
    p ∈ rl.go mk ks i ↔ ∃ j q k, p = (i + j) :: q ∧ ks[j]? = some k ∧ q ∈ rl mk k := by
  induction ks generalizing i with
  | nil => simp [rl.go]
  | cons k ks ih =>
    rw [rl.go, List.mem_append, List.mem_map, ih]
    constructor
    · rintro (⟨q, hq, rfl⟩ | ⟨j, q, k', rfl, hk', hq⟩)
      · exact ⟨0, q, k, by simp, by simp, hq⟩
      · exact ⟨j + 1, q, k', by congr 1; omega, by simpa using hk', hq⟩
    · rintro ⟨j, q, k', rfl, hk', hq⟩
      cases j with
      | zero => left; simp at hk'; subst hk'; exact ⟨q, hq, by simp⟩
      | succ j => right; exact ⟨j, q, k', by congr 1; omega, by simpa using hk', hq⟩

theorem nodup_rl (mk : Itv K → Bool) (t : Cell K) : (rl mk t).Nodup := by
  induction t using GTree.ind with
  | h d ks ih =>
    rw [rl]
    split
    · have : ∀ (ks : List (Cell K)) (i : Nat), (∀ k ∈ ks, (rl mk k).Nodup) →
          (rl.go mk ks i).Nodup := by
        intro ks
        induction ks with
        | nil => intro i _; simp [rl.go]
        | cons k ks ihk =>
          intro i h
          rw [rl.go, List.nodup_append]
          refine ⟨(h k (by simp)).map (fun a b h => by simpa using h),
            ihk _ (fun k hk => h k (by simp [hk])), ?_⟩
          intro a ha b hb hab
          obtain ⟨q, -, rfl⟩ := List.mem_map.1 ha
          obtain ⟨j, q', k', rfl, -⟩ := (mem_rl_go mk ks (i + 1) b).1 hb
          simp only [List.cons.injEq] at hab
          omega
      exact this ks 0 ih
    · simp

theorem nodup_rl_go (mk : Itv K → Bool) (ks : List (Cell K)) (i : Nat) :
    (rl.go mk ks i).Nodup := by
  induction ks generalizing i with
  | nil => simp [rl.go]
  | cons k ks ihk =>
    rw [rl.go, List.nodup_append]
    refine ⟨(nodup_rl mk k).map (fun a b h => by simpa using h), ihk _, ?_⟩
    intro a ha b hb hab
    obtain ⟨q, -, rfl⟩ := List.mem_map.1 ha
    obtain ⟨j, q', k', rfl, -⟩ := (mem_rl_go mk ks (i + 1) b).1 hb
    simp only [List.cons.injEq] at hab
    omega

/-- In a submesh the listed leaves are the submesh leaves. -/
theorem mem_rl_closed (mk : Itv K → Bool) (t : Cell K) (hc : Closed mk t)
    (hm : mk t.data = true) (q : Path) :
    q ∈ rl mk t ↔ ∃ s, getT t q = some s ∧ mk s.data = true ∧ hasKids mk s = false := by
  induction t using GTree.ind generalizing q with
  | h d ks ih =>
    cases hc with
    | node _ _ up sib below =>
    rw [rl]
    by_cases hk : hasKids mk (.node d ks) = true
    · rw [if_pos hk, mem_rl_go]
      constructor
      · rintro ⟨j, q, k, rfl, hkj, hq⟩
        have hmem := List.mem_of_getElem? hkj
        obtain ⟨s, h1, h2⟩ := (ih k hmem (below k hmem) (sib hk k hmem) q).1 hq
        refine ⟨s, ?_, h2⟩
        simp only [Nat.zero_add, getT, GTree.kids_node, List.cons_ne_nil, if_false]
        rw [getL_cons ks j q k hkj]; exact h1
      · rintro ⟨s, h1, h2, h3⟩
        cases q with
        | nil =>
          simp only [getT, if_true, Option.some.injEq] at h1
          subst h1; rw [hk] at h3; cases h3
        | cons j q =>
          simp only [getT, List.cons_ne_nil, if_false, GTree.kids_node] at h1
          cases hkj : ks[j]? with
          | none => cases q <;> simp [getL, hkj] at h1
          | some k =>
            rw [getL_cons ks j q k hkj] at h1
            have hmem := List.mem_of_getElem? hkj
            exact ⟨j, q, k, by simp, hkj,
              (ih k hmem (below k hmem) (sib hk k hmem) q).2 ⟨s, h1, h2, h3⟩⟩
    · rw [if_neg hk]
      constructor
      · intro h
        rw [List.mem_singleton] at h
        subst h
        exact ⟨_, rfl, hm, by simpa using hk⟩
      · rintro ⟨s, h1, h2, h3⟩
        cases q with
        | nil => simp
        | cons j q =>
          exfalso
          -- no cell below is in the submesh
          have none_below : ∀ (q : Path) (k : Cell K), Closed mk k → mk k.data = false →
              ∀ s, getT k q = some s → mk s.data = false := by
            intro q
            induction q with
            | nil => intro k _ h s hs; simp [getT] at hs; subst hs; exact h
            | cons a q ihq =>
              intro k hck h s hs
              cases hck with
              | node d' ks' up' sib' below' =>
                simp only [getT, List.cons_ne_nil, if_false, GTree.kids_node] at hs
                cases hka : ks'[a]? with
                | none => cases q <;> simp [getL, hka] at hs
                | some k' =>
                  rw [getL_cons ks' a q k' hka] at hs
                  have hmem := List.mem_of_getElem? hka
                  refine ihq k' (below' k' hmem) ?_ s hs
                  by_contra hcon
                  have : hasKids mk (.node d' ks') = true := by
                    simp only [hasKids, GTree.kids_node, List.any_eq_true]
                    exact ⟨k', hmem, by simpa using hcon⟩
                  have := up' this
                  simp only [GTree.data_node] at h
                  rw [h] at this; cases this
          simp only [getT, List.cons_ne_nil, if_false, GTree.kids_node] at h1
          cases hkj : ks[j]? with
          | none => cases q <;> simp [getL, hkj] at h1
          | some k =>
            rw [getL_cons ks j q k hkj] at h1
            have hmem := List.mem_of_getElem? hkj
            have hmk : mk k.data = false := by
              by_contra hcon
              apply hk
              simp only [hasKids, GTree.kids_node, List.any_eq_true]
              exact ⟨k, hmem, by simpa using hcon⟩
            have := none_below q k (below k hmem) hmk s h1
            rw [h2] at this; cases this

theorem mem_leaves_iff (mk : Itv K → Bool) (F : List (Cell K)) (hF : Submesh mk F) (p : Path) :
    p ∈ rl.go mk F 0 ↔ SubLeaf mk F p := by
  rw [mem_rl_go]
  constructor
  · rintro ⟨j, q, k, rfl, hkj, hq⟩
    have hmem := List.mem_of_getElem? hkj
    obtain ⟨s, h1, h2⟩ := (mem_rl_closed mk k (hF k hmem).2 (hF k hmem).1 q).1 hq
    exact ⟨s, by rw [Nat.zero_add, getL_cons F j q k hkj]; exact h1, h2⟩
  · rintro ⟨s, h1, h2⟩
    cases p with
    | nil => simp [getL] at h1
    | cons j q =>
      cases hkj : F[j]? with
      | none => cases q <;> simp [getL, hkj] at h1
      | some k =>
        rw [getL_cons F j q k hkj] at h1
        have hmem := List.mem_of_getElem? hkj
        exact ⟨j, q, k, by simp, hkj,
          (mem_rl_closed mk k (hF k hmem).2 (hF k hmem).1 q).2 ⟨s, h1, h2⟩⟩

/-- End points along the list of leaves. -/
theorem rl_ends (mk : Itv K → Bool) (t : Cell K) :
    (rl mk t).map (fun q => (getT t q).map ends) = (leafEnds mk t).map some := by
  induction t using GTree.ind with
  | h d ks ih =>
    rw [rl, leafEnds]
    split
    · have : ∀ (ks' : List (Cell K)) (i : Nat) ,
          (∀ k ∈ ks', (rl mk k).map (fun q => (getT k q).map ends) = (leafEnds mk k).map some) →
          (∀ j, ks[i + j]? = ks'[j]?) →
          (rl.go mk ks' i).map (fun q => (getT (.node d ks) q).map ends)
            = (leafEnds.go mk ks').map some := by
        intro ks'
        induction ks' with
        | nil => intro i _ _; simp [rl.go, leafEnds.go]
        | cons k ks' ihk =>
          intro i h hks
          rw [rl.go, leafEnds.go, List.map_append, List.map_append,
            ihk (i + 1) (fun k hk => h k (by simp [hk])) (fun j => by
              have := hks (j + 1)
              rw [show i + 1 + j = i + (j + 1) by omega, this]; simp), ← h k (by simp)]
          congr 1
          rw [List.map_map]
          apply List.map_congr_left
          intro q _
          simp only [Function.comp, getT, List.cons_ne_nil, if_false, GTree.kids_node]
          have h0 := hks 0
          simp only [Nat.add_zero, List.getElem?_cons_zero] at h0
          rw [getL_cons ks i q k h0]; rfl
      exact this ks 0 ih (by simp)
    · simp [getT, ends]

theorem rl_go_ends (mk : Itv K → Bool) (F : List (Cell K)) :
    (rl.go mk F 0).map (endsAt F) = (leafEnds.go mk F).map some := by
  have : ∀ (ks' : List (Cell K)) (i : Nat), (∀ j, F[i + j]? = ks'[j]?) →
      (rl.go mk ks' i).map (endsAt F) = (leafEnds.go mk ks').map some := by
    intro ks'
    induction ks' with
    | nil => intro i _; simp [rl.go, leafEnds.go]
    | cons k ks' ihk =>
      intro i hks
      rw [rl.go, leafEnds.go, List.map_append, List.map_append,
        ihk (i + 1) (fun j => by
          have := hks (j + 1)
          rw [show i + 1 + j = i + (j + 1) by omega, this]; simp), ← rl_ends mk k]
      congr 1
      rw [List.map_map]
      apply List.map_congr_left
      intro q _
      have h0 := hks 0
      simp only [Nat.add_zero, List.getElem?_cons_zero] at h0
      simp only [Function.comp, endsAt]
      rw [getL_cons F i q k h0]
  exact this F 0 (by simp)

/-! ## The descents -/

theorem lastLeaf_rl (mk : Itv K → Bool) (t : Cell K) :
    (rl mk t).getLast (rl_ne_nil mk t) = lastLeaf mk t := by
  induction t using GTree.ind with
  | h d ks ih =>
    have hgo : ∀ (ks : List (Cell K)) (i : Nat) (h : rl.go mk ks i ≠ []),
        (∀ k ∈ ks, (rl mk k).getLast (rl_ne_nil mk k) = lastLeaf mk k) →
        (rl.go mk ks i).getLast h = lastLeaf.go mk ks i := by
      intro ks
      induction ks with
      | nil => intro i h; simp [rl.go] at h
      | cons k ks ihk =>
        intro i h hall
        cases ks with
        | nil =>
          simp only [rl.go, lastLeaf.go, List.append_nil]
          rw [List.getLast_map, hall k (by simp)]
        | cons k' ks' =>
          have hne : rl.go mk (k' :: ks') (i + 1) ≠ [] := by
            rw [rl.go]; simp [rl_ne_nil mk k']
          have := ihk (i + 1) hne (fun k hk => hall k (by simp [hk]))
          rw [lastLeaf.go, ← this]
          simp only [rl.go]
          rw [List.getLast_append_of_ne_nil _ (by simpa [rl.go] using hne)]
    by_cases hk : hasKids mk (.node d ks) = true
    · have h1 : rl mk (.node d ks) = rl.go mk ks 0 := by rw [rl, if_pos hk]
      have h2 : lastLeaf mk (.node d ks) = lastLeaf.go mk ks 0 := by rw [lastLeaf, if_pos hk]
      rw [h2, ← hgo ks 0 (h1 ▸ rl_ne_nil mk _) ih]
      simp only [h1]
    · have h1 : rl mk (.node d ks) = [[]] := by rw [rl, if_neg hk]
      have h2 : lastLeaf mk (.node d ks) = [] := by rw [lastLeaf, if_neg hk]
      rw [h2]; simp only [h1, List.getLast_singleton]

theorem firstLeaf_rl (mk : Itv K → Bool) (t : Cell K) :
    ∃ post, rl mk t = firstLeaf mk t :: post := by
  induction t using GTree.ind with
  | h d ks ih =>
    cases ks with
    | nil => exact ⟨[], by simp [rl, firstLeaf, hasKids]⟩
    | cons k ks =>
      rw [rl, firstLeaf]
      split
      · obtain ⟨post, h⟩ := ih k (by simp)
        exact ⟨post.map (0 :: ·) ++ rl.go mk ks 1, by rw [rl.go, h]; simp⟩
      · exact ⟨[], rfl⟩

/-! ## Adjacent leaves -/

/-- `q` is immediately followed by `p` in the list. -/
def Adj (l : List Path) (q p : Path) : Prop := ∃ pre post, l = pre ++ q :: p :: post

theorem leftUp_append (r : Path) (i : Nat) :
    leftUp (r ++ [i]) = match leftUp r with
      | some q => some (q ++ [i])
      | none => if i = 0 then none else some [i - 1] := by
  induction r with
  | nil => by_cases h : i = 0 <;> simp [leftUp, h]
  | cons j r ih =>
    by_cases h : j = 0
    · simp [leftUp, h, ih]
    · simp [leftUp, h]

/-- Left neighbour candidate (unreversed): top-down recursion. -/
def lup (p : Path) : Option Path := (leftUp p.reverse).map List.reverse

theorem lup_cons (i : Nat) (p : Path) : lup (i :: p) = match lup p with
    | some q => some (i :: q)
    | none => if i = 0 then none else some [i - 1] := by
  simp only [lup, List.reverse_cons, leftUp_append]
  cases leftUp p.reverse with
  | none => by_cases h : i = 0 <;> simp [h]
  | some q => simp

theorem lup_ne_nil (p q : Path) (h : lup p = some q) : q ≠ [] := by
  cases p with
  | nil => simp [lup, leftUp] at h
  | cons i p =>
    rw [lup_cons] at h
    split at h
    · simp at h; rw [← h]; simp
    · split at h <;> simp at h
      rw [← h]; simp

theorem rl_go_split (mk : Itv K → Bool) (ks : List (Cell K)) (i j : Nat) (k : Cell K)
    (h : ks[j]? = some k) :
    rl.go mk ks i = rl.go mk (ks.take j) i ++ (rl mk k).map ((i + j) :: ·)
      ++ rl.go mk (ks.drop (j + 1)) (i + j + 1) := by
  induction ks generalizing i j with
  | nil => simp at h
  | cons a ks ih =>
    cases j with
    | zero => simp at h; subst h; simp [rl.go]
    | succ j =>
      simp only [List.getElem?_cons_succ] at h
      rw [rl.go, ih (i + 1) j h]
      simp only [List.take_succ_cons, rl.go, List.drop_succ_cons, List.append_assoc]
      rw [show i + 1 + j = i + (j + 1) by omega]

theorem rl_go_append (mk : Itv K → Bool) (ks ks' : List (Cell K)) (i : Nat) :
    rl.go mk (ks ++ ks') i = rl.go mk ks i ++ rl.go mk ks' (i + ks.length) := by
  induction ks generalizing i with
  | nil => simp [rl.go]
  | cons a ks ih =>
    simp only [List.cons_append, rl.go, ih, List.append_assoc, List.length_cons]
    rw [show i + 1 + ks.length = i + (ks.length + 1) by omega]

/-- Key lemma, left: the cell found by going up and descending to the right is the
predecessor in the list of leaves. -/
theorem left_adj (mk : Itv K → Bool) (p : Path) : ∀ (F : List (Cell K)),
    p ∈ rl.go mk F 0 →
    match lup p with
    | none => ∃ post, rl.go mk F 0 = p :: post
    | some q => ∃ t, getL F q = some t ∧ Adj (rl.go mk F 0) (q ++ lastLeaf mk t) p := by
  induction p with
  | nil => intro F h; obtain ⟨j, q, k, h, -⟩ := (mem_rl_go mk F 0 []).1 h; cases h
  | cons i p ih =>
    intro F h
    obtain ⟨j, q, k, hp, hk, hq⟩ := (mem_rl_go mk F 0 _).1 h
    simp only [Nat.zero_add, List.cons.injEq] at hp
    obtain ⟨rfl, rfl⟩ := hp
    have hsplit := rl_go_split mk F 0 i k hk
    simp only [Nat.zero_add] at hsplit
    -- inside k
    have inner : match lup p with
        | none => ∃ post, rl mk k = p :: post
        | some q => ∃ t, getT k q = some t ∧ Adj (rl mk k) (q ++ lastLeaf mk t) p := by
      cases k with
      | node d ks =>
        by_cases hkk : hasKids mk (.node d ks) = true
        · have hrl : rl mk (.node d ks) = rl.go mk ks 0 := by rw [rl, if_pos hkk]
          rw [hrl] at hq ⊢
          have := ih ks hq
          cases hl : lup p with
          | none => simpa only [hl] using this
          | some q =>
            simp only [hl] at this
            obtain ⟨t, h1, h2⟩ := this
            refine ⟨t, ?_, h2⟩
            simp only [getT, lup_ne_nil p q hl, if_false]; exact h1
        · have hrl : rl mk (.node d ks) = [[]] := by rw [rl, if_neg hkk]
          rw [hrl] at hq ⊢
          rw [List.mem_singleton] at hq
          subst hq
          exact ⟨[], rfl⟩
    rw [lup_cons]
    cases hl : lup p with
    | some q =>
      simp only [hl] at inner ⊢
      obtain ⟨t, h1, pre, post, h2⟩ := inner
      refine ⟨t, by rw [getL_cons F i q k hk]; exact h1, ?_⟩
      refine ⟨rl.go mk (F.take i) 0 ++ pre.map (i :: ·), post.map (i :: ·) ++
        rl.go mk (F.drop (i + 1)) (i + 1), ?_⟩
      rw [hsplit, h2]; simp
    | none =>
      simp only [hl] at inner
      obtain ⟨post, h2⟩ := inner
      by_cases hi : i = 0
      · subst hi
        simp only [if_true]
        refine ⟨post.map (0 :: ·) ++ rl.go mk (F.drop 1) 1, ?_⟩
        rw [hsplit, h2]; simp [rl.go]
      · simp only [if_neg hi]
        obtain ⟨m, rfl⟩ : ∃ m, i = m + 1 := ⟨i - 1, by omega⟩
        have hlt : m + 1 < F.length := by
          rw [List.getElem?_eq_some_iff] at hk; exact hk.1
        have hm : F[m]? = some (F[m]'(by omega)) := List.getElem?_eq_getElem (by omega)
        set k' := F[m]'(by omega) with hk'
        refine ⟨k', by simpa [getL] using hm, ?_⟩
        have htake : F.take (m + 1) = F.take m ++ [k'] := by
          rw [List.take_succ, hm]; rfl
        have hlen : (F.take m).length = m := by simp; omega
        have hrl := lastLeaf_rl mk k'
        have hdec := List.dropLast_append_getLast (rl_ne_nil mk k')
        rw [hrl] at hdec
        refine ⟨rl.go mk (F.take m) 0 ++ ((rl mk k').dropLast).map (m :: ·),
          post.map ((m + 1) :: ·) ++ rl.go mk (F.drop (m + 1 + 1)) (m + 1 + 1), ?_⟩
        rw [hsplit, htake, rl_go_append, h2, hlen]
        simp only [rl.go, Nat.zero_add, List.append_nil]
        conv_lhs => rw [← hdec]
        simp

/-- Right neighbour candidate (unreversed). -/
def rup (F : List (Cell K)) (p : Path) : Option Path := (rightUp F p.reverse).map List.reverse

theorem rightUp_append (F : List (Cell K)) (i : Nat) (t : Cell K) (ht : F[i]? = some t)
    (r : Path) :
    rightUp F (r ++ [i]) = match rightUp t.kids r with
      | some q => some (q ++ [i])
      | none => if i + 1 < F.length then some [i + 1] else none := by
  induction r with
  | nil => by_cases h : i + 1 < F.length <;> simp [rightUp, nSib, h]
  | cons j r ih =>
    have hm : nSib F (r ++ [i]) = nSib t.kids r := by
      cases r with
      | nil => simp [nSib, getL, ht]
      | cons a r =>
        simp only [List.cons_append, nSib]
        have e : (a :: (r ++ [i])).reverse = i :: (a :: r).reverse := by simp
        rw [e, getL_cons F i _ t ht, getT, if_neg (by simp)]
    simp only [List.cons_append, rightUp, hm]
    by_cases h1 : j + 1 < nSib t.kids r
    · simp [h1]
    · simp only [h1, if_false]; exact ih

theorem rup_cons (F : List (Cell K)) (i : Nat) (p : Path) (t : Cell K) (ht : F[i]? = some t) :
    rup F (i :: p) = match rup t.kids p with
      | some q => some (i :: q)
      | none => if i + 1 < F.length then some [i + 1] else none := by
  simp only [rup, List.reverse_cons, rightUp_append F i t ht]
  cases rightUp t.kids p.reverse with
  | none => by_cases h : i + 1 < F.length <;> simp [h]
  | some q => simp

theorem rup_ne_nil (F : List (Cell K)) (p q : Path) (h : rup F p = some q) : q ≠ [] := by
  simp only [rup, Option.map_eq_some_iff] at h
  obtain ⟨r, hr, rfl⟩ := h
  have : ∀ (p r : Path), rightUp F p = some r → r ≠ [] := by
    intro p
    induction p with
    | nil => intro r h; simp [rightUp] at h
    | cons i p ih =>
      intro r h
      rw [rightUp] at h
      split at h
      · simp at h; rw [← h]; simp
      · exact ih r h
  simpa using this _ _ hr

/-- Key lemma, right. -/
theorem right_adj (mk : Itv K → Bool) (p : Path) : ∀ (F : List (Cell K)),
    p ∈ rl.go mk F 0 →
    match rup F p with
    | none => ∃ pre, rl.go mk F 0 = pre ++ [p]
    | some q => ∃ t, getL F q = some t ∧ Adj (rl.go mk F 0) p (q ++ firstLeaf mk t) := by
  induction p with
  | nil => intro F h; obtain ⟨j, q, k, h, -⟩ := (mem_rl_go mk F 0 []).1 h; cases h
  | cons i p ih =>
    intro F h
    obtain ⟨j, q, k, hp, hk, hq⟩ := (mem_rl_go mk F 0 _).1 h
    simp only [Nat.zero_add, List.cons.injEq] at hp
    obtain ⟨rfl, rfl⟩ := hp
    have hsplit := rl_go_split mk F 0 i k hk
    simp only [Nat.zero_add] at hsplit
    have inner : match rup k.kids p with
        | none => ∃ pre, rl mk k = pre ++ [p]
        | some q => ∃ t, getT k q = some t ∧ Adj (rl mk k) p (q ++ firstLeaf mk t) := by
      cases k with
      | node d ks =>
        by_cases hkk : hasKids mk (.node d ks) = true
        · have hrl : rl mk (.node d ks) = rl.go mk ks 0 := by rw [rl, if_pos hkk]
          rw [hrl] at hq ⊢
          have := ih ks hq
          simp only [GTree.kids_node]
          cases hl : rup ks p with
          | none => simpa only [hl] using this
          | some q =>
            simp only [hl] at this
            obtain ⟨t, h1, h2⟩ := this
            refine ⟨t, ?_, h2⟩
            simp only [getT, rup_ne_nil ks p q hl, if_false]; exact h1
        · have hrl : rl mk (.node d ks) = [[]] := by rw [rl, if_neg hkk]
          rw [hrl] at hq ⊢
          rw [List.mem_singleton] at hq
          subst hq
          exact ⟨[], rfl⟩
    rw [rup_cons F i p k hk]
    cases hl : rup k.kids p with
    | some q =>
      simp only [hl] at inner ⊢
      obtain ⟨t, h1, pre, post, h2⟩ := inner
      refine ⟨t, by rw [getL_cons F i q k hk]; exact h1, ?_⟩
      refine ⟨rl.go mk (F.take i) 0 ++ pre.map (i :: ·), post.map (i :: ·) ++
        rl.go mk (F.drop (i + 1)) (i + 1), ?_⟩
      rw [hsplit, h2]; simp
    | none =>
      simp only [hl] at inner
      obtain ⟨pre, h2⟩ := inner
      have hlt : i < F.length := by rw [List.getElem?_eq_some_iff] at hk; exact hk.1
      by_cases hi : i + 1 < F.length
      · simp only [if_pos hi]
        have hm : F[i + 1]? = some (F[i + 1]'hi) := List.getElem?_eq_getElem hi
        set k' := F[i + 1]'hi with hk'
        refine ⟨k', by simpa [getL] using hm, ?_⟩
        have hdrop : F.drop (i + 1) = k' :: F.drop (i + 1 + 1) := by
          rw [List.drop_eq_getElem_cons hi]
        obtain ⟨post, hf⟩ := firstLeaf_rl mk k'
        refine ⟨rl.go mk (F.take i) 0 ++ pre.map (i :: ·), post.map ((i + 1) :: ·) ++
          rl.go mk (F.drop (i + 1 + 1)) (i + 1 + 1), ?_⟩
        rw [hsplit, h2, hdrop, rl.go, hf]
        simp
      · simp only [if_neg hi]
        have : F.drop (i + 1) = [] := List.drop_eq_nil_of_le (by omega)
        refine ⟨rl.go mk (F.take i) 0 ++ pre.map (i :: ·), ?_⟩
        rw [hsplit, h2, this]
        simp [rl.go]

end Verif.OneD
