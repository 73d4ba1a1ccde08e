import Verif.Geom.GTree

/-! # `bin_points` is correct on every covered tree (generic part of C18) -/

namespace Verif.Geom

variable {D P ι : Type}

/-- Cell at a path relative to `t` (empty path = `t`). -/
def getT (t : GTree D) (q : Path) : Option (GTree D) :=
  if q = [] then some t else getL t.kids q

theorem getL_cons (ks : List (GTree D)) (j : Nat) (q : Path) (k : GTree D)
    (hj : ks[j]? = some k) : getL ks (j :: q) = getT k q := by
  cases q with
  | nil => simp [getL, getT, hj]
  | cons a q => simp [getL, getT, hj]

theorem getL_succ (k : GTree D) (ks : List (GTree D)) (j : Nat) (q : Path) :
    getL (k :: ks) ((j + 1) :: q) = getL ks (j :: q) := by
  cases q with
  | nil => simp [getL]
  | cons a q => simp [getL]

theorem getL_zero (k : GTree D) (ks : List (GTree D)) (q : Path) :
    getL (k :: ks) (0 :: q) = getT k q := getL_cons _ _ _ _ (by simp)

/-- What is proved of one bin. -/
def BinOK (C : D → P → Bool) (mk : D → Bool) (pts : List (ι × P)) (s : GTree D)
    (is : List ι) : Prop :=
  mk s.data = true ∧ hasKids mk s = false ∧ ∀ i ∈ is, ∃ x, (i, x) ∈ pts ∧ C s.data x = true

theorem BinOK.mono {C : D → P → Bool} {mk : D → Bool} {pts pts' : List (ι × P)} {s : GTree D}
    {is : List ι} (h : BinOK C mk pts s is) (hs : ∀ x ∈ pts, x ∈ pts') :
    BinOK C mk pts' s is :=
  ⟨h.1, h.2.1, fun i hi => by
    obtain ⟨x, hx, hc⟩ := h.2.2 i hi
    exact ⟨x, hs _ hx, hc⟩⟩

def TGood (C : D → P → Bool) (mk : D → Bool) (ι : Type) (t : GTree D) : Prop :=
  ∀ (p : Path) (pts : List (ι × P)), (∀ x ∈ pts, C t.data x.2 = true) → mk t.data = true →
    ∃ b, bin C mk t p pts = .ok b ∧ (b.flatMap Prod.snd).Perm (pts.map Prod.fst) ∧
      (∀ e ∈ b, ∃ q s, e.1 = p ++ q ∧ getT t q = some s ∧ BinOK C mk pts s e.2) ∧
      (b.map Prod.fst).Nodup

theorem binKids_good (C : D → P → Bool) (mk : D → Bool) (ks : List (GTree D))
    (ih : ∀ k ∈ ks, TGood C mk ι k) (p : Path) (i : Nat) (pts : List (ι × P)) :
    ∃ b rest, binKids C mk ks p i pts = .ok (b, rest) ∧
      (∀ x ∈ rest, x ∈ pts ∧ ∀ k ∈ ks, mk k.data = true → C k.data x.2 = false) ∧
      (b.flatMap Prod.snd ++ rest.map Prod.fst).Perm (pts.map Prod.fst) ∧
      (∀ e ∈ b, ∃ j q s, e.1 = p ++ (i + j) :: q ∧ getL ks (j :: q) = some s ∧
        BinOK C mk pts s e.2) ∧
      (b.map Prod.fst).Nodup := by
  induction ks generalizing i pts with
  | nil => exact ⟨[], pts, rfl, fun x hx => ⟨hx, by simp⟩, by simp, by simp, by simp⟩
  | cons k ks ihk =>
    have ihk := ihk (fun k' hk' => ih k' (List.mem_cons_of_mem _ hk'))
    by_cases hc : (mk k.data && pts.any (fun x => C k.data x.2)) = true
    · have hmk : mk k.data = true := by
        simp only [Bool.and_eq_true] at hc; exact hc.1
      obtain ⟨b, hb, hperm, hgood, hnd⟩ := ih k (by simp) (p ++ [i])
        (pts.filter (fun x => C k.data x.2))
        (fun x hx => (List.mem_filter.1 hx).2) hmk
      obtain ⟨r, rest, hr, hrest, hperm2, hgood2, hnd2⟩ := ihk (i + 1)
        (pts.filter (fun x => !C k.data x.2))
      refine ⟨b ++ r, rest, ?_, ?_, ?_, ?_, ?_⟩
      · rw [binKids, if_pos hc, hb]; simp only [hr]
      · intro x hx
        obtain ⟨h1, h2⟩ := hrest x hx
        have h1' := List.mem_filter.1 h1
        refine ⟨h1'.1, ?_⟩
        intro k' hk' hm
        rcases List.mem_cons.1 hk' with rfl | hk'
        · simpa using h1'.2
        · exact h2 k' hk' hm
      · rw [List.flatMap_append, List.append_assoc]
        refine (List.Perm.append hperm hperm2).trans ?_
        rw [← List.map_append]
        exact (List.filter_append_perm _ pts).map _
      · intro e he
        rcases List.mem_append.1 he with he | he
        · obtain ⟨q, s, h1, h2, h3⟩ := hgood e he
          refine ⟨0, q, s, by simp [h1], by rw [getL_zero]; exact h2, ?_⟩
          exact h3.mono (fun x hx => (List.mem_filter.1 hx).1)
        · obtain ⟨j, q, s, h1, h2, h3⟩ := hgood2 e he
          refine ⟨j + 1, q, s, ?_, by rw [getL_succ]; exact h2, ?_⟩
          · rw [h1]; congr 2; omega
          exact h3.mono (fun x hx => (List.mem_filter.1 hx).1)
      · rw [List.map_append, List.nodup_append]
        refine ⟨hnd, hnd2, ?_⟩
        intro a ha c hcc hac
        obtain ⟨e, he, rfl⟩ := List.mem_map.1 ha
        obtain ⟨e', he', rfl⟩ := List.mem_map.1 hcc
        obtain ⟨q, s, h1, -⟩ := hgood e he
        obtain ⟨j, q', s', h2, -⟩ := hgood2 e' he'
        rw [h1, h2, List.append_assoc] at hac
        have := List.append_cancel_left hac
        simp only [List.cons_append, List.nil_append, List.cons.injEq] at this
        omega
    · obtain ⟨r, rest, hr, hrest, hperm2, hgood2, hnd2⟩ := ihk (i + 1) pts
      refine ⟨r, rest, ?_, ?_, hperm2, ?_, hnd2⟩
      · rw [binKids, if_neg hc]; exact hr
      · intro x hx
        obtain ⟨h1, h2⟩ := hrest x hx
        refine ⟨h1, ?_⟩
        intro k' hk' hm
        rcases List.mem_cons.1 hk' with rfl | hk'
        · simp only [hm, Bool.true_and, List.any_eq_true, not_exists, not_and] at hc
          simpa using hc x h1
        · exact h2 k' hk' hm
      · intro e he
        obtain ⟨j, q, s, h1, h2, h3⟩ := hgood2 e he
        refine ⟨j + 1, q, s, ?_, by rw [getL_succ]; exact h2, h3⟩
        rw [h1]; congr 2; omega

theorem bin_good (C : D → P → Bool) (mk : D → Bool) (t : GTree D) (hcov : Cov C mk t) :
    TGood C mk ι t := by
  induction t using GTree.ind with
  | h d ks ih =>
    cases hcov with
    | node _ _ here below =>
    intro p pts hall hmk
    have hall' : pts.all (fun x => C d x.2) = true := by
      simpa [List.all_eq_true] using hall
    by_cases hk : hasKids mk (.node d ks) = true
    · obtain ⟨b, rest, hb, hrest, hperm, hgood, hnd⟩ :=
        binKids_good C mk ks (fun k hk => ih k hk (below k hk)) p 0 pts
      have hr0 : rest = [] := by
        rcases rest with _ | ⟨x, rest⟩
        · rfl
        · obtain ⟨h1, h2⟩ := hrest x (by simp)
          obtain ⟨k, hkm, hm, hc⟩ := here hk x.2 (hall x h1)
          have := h2 k hkm hm
          simp [hc] at this
      subst hr0
      refine ⟨b, ?_, by simpa using hperm, ?_, hnd⟩
      · rw [bin, if_pos hall', if_pos hk, hb]
      · intro e he
        obtain ⟨j, q, s, h1, h2, h3⟩ := hgood e he
        refine ⟨j :: q, s, by simpa using h1, ?_, h3⟩
        simpa [getT] using h2
    · refine ⟨[(p, pts.map Prod.fst)], ?_, by simp, ?_, by simp⟩
      · rw [bin, if_pos hall', if_neg hk]
      · intro e he
        rw [List.mem_singleton] at he
        subst he
        refine ⟨[], .node d ks, by simp, by simp [getT], hmk, by simpa using hk, ?_⟩
        intro i hi
        obtain ⟨x, hx, rfl⟩ := List.mem_map.1 hi
        exact ⟨x.2, hx, hall x hx⟩

/-- Mesh level: the bins are correct iff-style; the call raises an assertion exactly when
some point lies in no (submesh) root cell. -/
theorem meshBin_good (C : D → P → Bool) (mk : D → Bool) (F : List (GTree D))
    (hcov : ∀ t ∈ F, Cov C mk t) (pts : List (ι × P)) :
    (∀ x ∈ pts, ∃ t ∈ F, mk t.data = true ∧ C t.data x.2 = true) →
    ∃ b, meshBin C mk F pts = .ok b ∧ GoodBins C mk F pts b := by
  intro hin
  obtain ⟨b, rest, hb, hrest, hperm, hgood, hnd⟩ :=
    binKids_good C mk F (fun k hk => bin_good C mk k (hcov k hk)) [] 0 pts
  have hr0 : rest = [] := by
    rcases rest with _ | ⟨x, rest⟩
    · rfl
    · obtain ⟨h1, h2⟩ := hrest x (by simp)
      obtain ⟨k, hkm, hm, hc⟩ := hin x h1
      have := h2 k hkm hm
      simp [hc] at this
  subst hr0
  refine ⟨b, by simp [meshBin, hb], by simpa using hperm, ?_, ?_, hnd⟩
  · intro e he
    obtain ⟨j, q, s, h1, h2, h3⟩ := hgood e he
    have h1 : e.1 = j :: q := by simpa using h1
    exact ⟨s, by rw [h1]; exact h2, h3.1, h3.2.1⟩
  · intro e he i hi
    obtain ⟨j, q, s, h1, h2, h3⟩ := hgood e he
    have h1 : e.1 = j :: q := by simpa using h1
    obtain ⟨x, hx, hc⟩ := h3.2.2 i hi
    exact ⟨x, s, hx, by rw [h1]; exact h2, hc⟩

/-- ... and conversely: if some point is in no root cell of the submesh the call fails. -/
theorem meshBin_outside (C : D → P → Bool) (mk : D → Bool) (F : List (GTree D))
    (hcov : ∀ t ∈ F, Cov C mk t) (pts : List (ι × P))
    (x : ι × P) (hx : x ∈ pts)
    (hout : ∀ t ∈ F, mk t.data = true → C t.data x.2 = false) :
    meshBin C mk F pts = .error .assertion := by
  have key : ∀ (F : List (GTree D)), (∀ t ∈ F, Cov C mk t) →
      (∀ t ∈ F, mk t.data = true → C t.data x.2 = false) → ∀ p i pts, x ∈ pts →
      ∃ b rest, binKids C mk F p i pts = .ok (b, rest) ∧ x ∈ rest := by
    intro F
    induction F with
    | nil => intro _ _ p i pts hx; exact ⟨[], pts, rfl, hx⟩
    | cons k ks ih =>
      intro hcov hout p i pts hx
      have ih := ih (fun t ht => hcov t (List.mem_cons_of_mem _ ht))
        (fun t ht => hout t (List.mem_cons_of_mem _ ht)) p (i + 1)
      by_cases hc : (mk k.data && pts.any (fun x => C k.data x.2)) = true
      · have hmk : mk k.data = true := by
          simp only [Bool.and_eq_true] at hc; exact hc.1
        obtain ⟨b, hb, -⟩ := bin_good C mk k (hcov k (by simp)) (p ++ [i])
          (pts.filter (fun x => C k.data x.2))
          (fun x hx => (List.mem_filter.1 hx).2) hmk
        have hxk := hout k (by simp) hmk
        obtain ⟨r, rest, hr, hrest⟩ := ih (pts.filter (fun x => !C k.data x.2))
          (List.mem_filter.2 ⟨hx, by simp [hxk]⟩)
        exact ⟨b ++ r, rest, by rw [binKids, if_pos hc, hb]; simp only [hr], hrest⟩
      · obtain ⟨r, rest, hr, hrest⟩ := ih pts hx
        exact ⟨r, rest, by rw [binKids, if_neg hc]; exact hr, hrest⟩
  obtain ⟨b, rest, h1, h2⟩ := key F hcov hout [] 0 pts hx
  rw [meshBin, h1]
  cases rest with
  | nil => simp at h2
  | cons a as => simp

theorem getL_getT (F : List (GTree D)) (p q : Path) (t : GTree D) (hp : getL F p = some t) :
    getL F (p ++ q) = getT t q := by
  by_cases hq : q = []
  · subst hq; simp [getT, hp]
  · rw [getL_append F p q t hp hq]; simp [getT, hq]

/-- Binning from a cell (at reversed path `r`): if every ancestor-or-self of the cell
contains the points and is covered, and some ancestor-or-self is in the submesh, the
result is a correct binning. -/
theorem cellBin_good (C : D → P → Bool) (mk : D → Bool) (F : List (GTree D))
    (pts : List (ι × P)) (r : Path)
    (hanc : ∀ s, s ≠ [] → s <:+ r → ∃ t, getL F s.reverse = some t ∧ Cov C mk t ∧
      ∀ x ∈ pts, C t.data x.2 = true)
    (hmk : ∃ s t, s ≠ [] ∧ s <:+ r ∧ getL F s.reverse = some t ∧ mk t.data = true) :
    ∃ b, cellBin C mk F r pts = .ok b ∧ GoodBins C mk F pts b := by
  induction r with
  | nil =>
    obtain ⟨s, t, h1, h2, -⟩ := hmk
    exact absurd (List.suffix_nil.1 h2) h1
  | cons i r ih =>
    obtain ⟨t, ht, hcov, hin⟩ := hanc (i :: r) (by simp) (List.suffix_refl _)
    by_cases hm : mk t.data = true
    · obtain ⟨b, hb, h1, h2, h3⟩ := bin_good (ι := ι) C mk t hcov (i :: r).reverse pts hin hm
      refine ⟨b, by simp only [cellBin, ht, hm, if_true, hb], h1, ?_, ?_, h3⟩
      · intro e he
        obtain ⟨q, s, e1, e2, e3⟩ := h2 e he
        exact ⟨s, by rw [e1, getL_getT F _ q t ht]; exact e2, e3.1, e3.2.1⟩
      · intro e he i' hi'
        obtain ⟨q, s, e1, e2, e3⟩ := h2 e he
        obtain ⟨x, hx, hc⟩ := e3.2.2 i' hi'
        exact ⟨x, s, hx, by rw [e1, getL_getT F _ q t ht]; exact e2, hc⟩
    · have hall : pts.all (fun x => C t.data x.2) = true := by simpa [List.all_eq_true] using hin
      obtain ⟨b, hb, hg⟩ := ih (fun s hs hsuf => hanc s hs (hsuf.trans (List.suffix_cons _ _)))
        (by
          obtain ⟨s, t', h1, h2, h3, h4⟩ := hmk
          rcases List.suffix_cons_iff.1 h2 with h | h
          · subst h; rw [ht] at h3; cases h3; exact absurd h4 hm
          · exact ⟨s, t', h1, h, h3, h4⟩)
      exact ⟨b, by simp only [cellBin, ht, hm, if_false, hall, if_true, hb]; rfl, hg⟩

end Verif.Geom
