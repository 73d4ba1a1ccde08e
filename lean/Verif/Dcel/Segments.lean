import Verif.Dcel.Boundary
import Mathlib.Data.List.Perm.Basic
import Mathlib.Data.List.Nodup

/-!
# When no boundary half-edge is lost: C50
-/

namespace Verif.Dcel
open Verif.Geom

/-- Every member but the last is followed by a member. -/
def Chained (C : Nat → Nat × Nat) (g : List Nat) : Prop :=
  ∀ x ∈ g, g.getLast? ≠ some x → ∃ y ∈ g, (C x).2 = (C y).1

/-- A set of half-edges that closes up: every member is followed by a member. -/
def ClosedUp (C : Nat → Nat × Nat) (g : List Nat) : Prop := ∀ x ∈ g, ∃ y ∈ g, (C x).2 = (C y).1

/-- The invariant of the list of deques. -/
structure SegInv (C : Nat → Nat × Nat) (b : List Nat) (L : List (List Nat)) : Prop where
  perm : L.flatten.Perm b
  ne : ∀ g ∈ L, g ≠ []
  ch : ∀ g ∈ L, Chained C g

variable {C : Nat → Nat × Nat} {b : List Nat}

theorem SegInv.of_perm {L L' : List (List Nat)} (h : SegInv C b L) (hp : L'.Perm L) : SegInv C b L' :=
  ⟨hp.flatten.trans h.perm, fun g hg => h.ne g (hp.subset hg), fun g hg => h.ch g (hp.subset hg)⟩

theorem SegInv.merge {R : List (List Nat)} {g1 g2 g : List Nat} (h : SegInv C b (g1 :: g2 :: R)) (hg : g.Perm (g1 ++ g2))
    (hne : g ≠ []) (hc : Chained C g) : SegInv C b (g :: R) := by
  refine ⟨?_, ?_, ?_⟩
  · refine List.Perm.trans ?_ h.perm
    simp only [List.flatten_cons]
    rw [← List.append_assoc]
    exact hg.append_right _
  · intro x hx
    rcases List.mem_cons.1 hx with rfl | hx
    · exact hne
    · exact h.ne x (by simp [hx])
  · intro x hx
    rcases List.mem_cons.1 hx with rfl | hx
    · exact hc
    · exact h.ch x (by simp [hx])

/-- Two deques at different places are different. -/
theorem SegInv.inj {L : List (List Nat)} (h : SegInv C b L) (hb : b.Nodup) : L.Nodup := by
  have hf : L.flatten.Nodup := h.perm.nodup_iff.2 hb
  rw [List.nodup_flatten] at hf
  refine hf.2.imp_of_mem ?_
  intro x y hx hy hd he
  subst he
  obtain ⟨a, ha⟩ := List.exists_mem_of_ne_nil _ (h.ne x hx)
  exact hd ha ha

/-- `b` has no closed part but itself. -/
def OneLoop (C : Nat → Nat × Nat) (b : List Nat) : Prop := ∀ g : List Nat, g ≠ [] → g ⊆ b → ClosedUp C g → b ⊆ g

theorem SegInv.alone {R : List (List Nat)} {g : List Nat} (h : SegInv C b (g :: R)) (hb : b.Nodup) (ho : OneLoop C b)
    (hg : ClosedUp C g) : R = [] := by
  rcases R with _ | ⟨g', R⟩
  · rfl
  · exfalso
    have hsub : g ⊆ b := fun x hx => h.perm.subset (by simp [hx])
    have hall := ho g (h.ne g (by simp)) hsub hg
    obtain ⟨a, ha⟩ := List.exists_mem_of_ne_nil _ (h.ne g' (by simp))
    have h1 : a ∈ g := hall (h.perm.subset (by simp [ha]))
    have hf : (g :: g' :: R).flatten.Nodup := h.perm.nodup_iff.2 hb
    simp only [List.flatten_cons] at hf
    exact (List.nodup_append.1 hf).2.2 a h1 a (by simp [ha]) rfl

/-- The state of the inner loop. -/
def MSInv (C : Nat → Nat × Nat) (b : List Nat) (s : MS) : Prop :=
  SegInv C b s.L ∧ ∃ i, s.i = some i ∧ s.L[i]? = some s.g1

theorem findIdx_nodup {L : List (List Nat)} (hn : L.Nodup) {j : Nat} {g : List Nat} (hj : L[j]? = some g) :
    L.findIdx (· = g) = j := by
  obtain ⟨hlt, he⟩ := List.getElem?_eq_some_iff.1 hj
  rw [List.findIdx_eq hlt]
  refine ⟨by simp [he], ?_⟩
  intro k hk
  simp only [decide_eq_false_iff_not]
  intro hkg
  have := (List.Nodup.getElem_inj_iff hn (hi := by omega) (hj := hlt)).1 (hkg.trans he.symm)
  omega

theorem erase_nodup {L : List (List Nat)} (hn : L.Nodup) {j : Nat} {g : List Nat} (hj : L[j]? = some g) :
    L.erase g = L.eraseIdx j := by
  obtain ⟨hlt, he⟩ := List.getElem?_eq_some_iff.1 hj
  rw [List.erase_eq_eraseIdx_of_idxOf]
  rw [← he]
  exact List.Nodup.idxOf_getElem hn j hlt

theorem at_erase {L : List (List Nat)} {i j : Nat} (hij : i ≠ j) {g1 : List Nat} (hi : L[i]? = some g1) :
    (L.eraseIdx j)[if j < i then i - 1 else i]? = some g1 := by
  rw [List.getElem?_eraseIdx]
  split_ifs with h1 h2 h2
  · exfalso; omega
  · rw [show i - 1 + 1 = i by omega]; exact hi
  · exact hi
  · exfalso; omega

theorem set_perm' {L : List (List Nat)} {i : Nat} {a : List Nat} (x : List Nat) (h : L[i]? = some a) :
    ∃ R, L.Perm (a :: R) ∧ (L.set i x).Perm (x :: R) := by
  obtain ⟨hlt, he⟩ := List.getElem?_eq_some_iff.1 h
  refine ⟨L.eraseIdx i, ?_, List.set_perm_cons_eraseIdx hlt x⟩
  rw [← he]
  exact (List.getElem_cons_eraseIdx_perm hlt).symm

theorem merge_step {s : MS} {i j : Nat} {g2 x : List Nat} (hb : b.Nodup) (hI : SegInv C b s.L) (hi : s.i = some i)
    (h1 : s.L[i]? = some s.g1) (hj : s.L[j]? = some g2) (hij : i ≠ j) (hx : x.Perm (s.g1 ++ g2)) (hne : x ≠ []) (hc : Chained C x) :
    MSInv C b ⟨setAt (popFirst s.L g2) (shift s.i (s.L.findIdx (· = g2))) x, shift s.i (s.L.findIdx (· = g2)), x, true⟩ := by
  have hn := hI.inj hb
  rw [findIdx_nodup hn hj, hi]
  have hs : shift (some i) j = some (if j < i then i - 1 else i) := by
    unfold shift
    simp only
    split_ifs with h2 h3
    · rfl
    · exact absurd h3.symm hij
    · rfl
  rw [hs]
  simp only [setAt, popFirst]
  rw [erase_nodup hn hj]
  have ha := at_erase hij h1
  obtain ⟨R, r1, r2⟩ := set_perm' x ha
  obtain ⟨hlt, he⟩ := List.getElem?_eq_some_iff.1 hj
  have hp : s.L.Perm (s.g1 :: g2 :: R) := by
    refine (List.getElem_cons_eraseIdx_perm hlt).symm.trans ?_
    rw [he]
    exact (r1.cons g2).trans (List.Perm.swap _ _ _)
  refine ⟨((hI.of_perm hp.symm).merge hx hne hc).of_perm r2, _, rfl, ?_⟩
  simp only
  rw [List.getElem?_set_self]
  exact (List.getElem?_eq_some_iff.1 ha).1

theorem mergeBody_seg {s : MS} {j : Nat} {g2 : List Nat} (hb : b.Nodup) (ho : OneLoop C b) (h : MSInv C b s) (hj : s.L[j]? = some g2) :
    MSInv C b (mergeBody C s g2) := by
  obtain ⟨hI, i, hi, h1⟩ := h
  have hg1 : s.g1 ∈ s.L := List.mem_of_getElem? h1
  have hg2 : g2 ∈ s.L := List.mem_of_getElem? hj
  have c1 := hI.ch _ hg1
  have c2 := hI.ch _ hg2
  have hself : ∀ p q, s.g1.getLast? = some p → q ∈ s.g1 → (C p).2 = (C q).1 → s.L.length > 1 → False := by
    intro p q hp hq hpq hl
    have hcl : ClosedUp C s.g1 := by
      intro x hx
      by_cases hxp : s.g1.getLast? = some x
      · rw [hp] at hxp
        cases hxp
        exact ⟨q, hq, hpq⟩
      · exact c1 x hx hxp
    obtain ⟨hlt, he⟩ := List.getElem?_eq_some_iff.1 h1
    have hp := (List.getElem_cons_eraseIdx_perm hlt)
    rw [he] at hp
    have := (hI.of_perm hp).alone hb ho hcl
    have hlen := hp.length_eq
    rw [this] at hlen
    simp at hlen
    omega
  unfold mergeBody
  split
  · rename_i a p c d ha hp hc hd
    have hpm : p ∈ s.g1 := List.mem_of_getLast? hp
    have ham : a ∈ s.g1 := List.mem_of_head? ha
    have hcm : c ∈ g2 := List.mem_of_head? hc
    have hdm : d ∈ g2 := List.mem_of_getLast? hd
    have e2 : i = j → g2 = s.g1 := by
      rintro rfl
      rw [h1] at hj
      exact (Option.some.inj hj).symm
    split_ifs with q1 q2 q3 q4
    · refine merge_step hb hI hi h1 hj ?_ (List.Perm.refl _) (by intro h0; rw [(List.append_eq_nil_iff.1 h0).1] at hpm; cases hpm) ?_
      · intro hij
        rw [e2 hij] at hcm
        exact hself p c hp hcm q1 q2
      · intro x hx hl
        rw [List.getLast?_append, hd, Option.some_or] at hl
        rcases List.mem_append.1 hx with hx | hx
        · by_cases hxp : s.g1.getLast? = some x
          · rw [hp] at hxp
            cases hxp
            exact ⟨c, List.mem_append_right _ hcm, q1⟩
          · obtain ⟨y, hy, e⟩ := c1 x hx hxp
            exact ⟨y, List.mem_append_left _ hy, e⟩
        · obtain ⟨y, hy, e⟩ := c2 x hx (by rw [hd]; exact hl)
          exact ⟨y, List.mem_append_right _ hy, e⟩
    · exact ⟨hI, i, hi, h1⟩
    · refine merge_step hb hI hi h1 hj ?_ ?_ (by intro h0; rw [(List.append_eq_nil_iff.1 h0).2] at hpm; cases hpm) ?_
      · intro hij
        rw [e2 hij, hp] at hd
        cases hd
        exact hself p a hp ham q3.symm q4
      · exact ((List.reverse_perm g2).append_right _).trans List.perm_append_comm
      · intro x hx hl
        rw [List.getLast?_append, hp, Option.some_or] at hl
        rcases List.mem_append.1 hx with hx | hx
        · by_cases hxd : g2.getLast? = some x
          · rw [hd] at hxd
            cases hxd
            exact ⟨a, List.mem_append_right _ ham, q3.symm⟩
          · obtain ⟨y, hy, e⟩ := c2 x (List.mem_reverse.1 hx) hxd
            exact ⟨y, List.mem_append_left _ (List.mem_reverse.2 hy), e⟩
        · obtain ⟨y, hy, e⟩ := c1 x hx (by rw [hp]; exact hl)
          exact ⟨y, List.mem_append_right _ hy, e⟩
    · exact ⟨hI, i, hi, h1⟩
    · exact ⟨hI, i, hi, h1⟩
  · exact ⟨hI, i, hi, h1⟩

theorem innerLoop_seg (hb : b.Nodup) (ho : OneLoop C b) : ∀ (n j : Nat) (s : MS), MSInv C b s → SegInv C b (innerLoop C n j s).L := by
  intro n
  induction n with
  | zero => intro j s h; exact h.1
  | succ n ih =>
    intro j s h
    unfold innerLoop
    rcases hj : s.L[j]? with _ | g2
    · exact h.1
    · exact ih _ _ (mergeBody_seg hb ho h hj)

theorem outerLoop_seg (hb : b.Nodup) (ho : OneLoop C b) : ∀ (n i : Nat) (L : List (List Nat)) (a : Bool), SegInv C b L →
    SegInv C b (outerLoop C n i L a).1 := by
  intro n
  induction n with
  | zero => intro i L a h; exact h
  | succ n ih =>
    intro i L a h
    unfold outerLoop
    rcases hi : L[i]? with _ | g1
    · exact h
    · exact ih _ _ _ (innerLoop_seg hb ho _ _ _ ⟨h, i, rfl, hi⟩)

theorem whileLoop_seg (hb : b.Nodup) (ho : OneLoop C b) : ∀ (n : Nat) (L : List (List Nat)), SegInv C b L →
    SegInv C b (whileLoop C n L) := by
  intro n
  induction n with
  | zero => intro L h; exact h
  | succ n ih =>
    intro L h
    unfold whileLoop
    have := outerLoop_seg hb ho L.length 0 L false h
    rcases ho' : outerLoop C L.length 0 L false with ⟨L', a⟩
    rw [ho'] at this
    cases a
    · exact this
    · exact ih L' this

/-- Nothing is lost if no proper part of the boundary closes up: then `get_boundary_half_edges` returns every half-edge
without twin exactly once. -/
theorem C50_complete (H : List HE) (tw : Nat → Int) (segs : List (List Nat)) (h : boundaryHalfEdges H tw = .ok segs)
    (ho : ∀ g : List Nat, g ≠ [] → (∀ i ∈ g, i < H.length ∧ tw i = -1) → (∀ i ∈ g, ∃ j ∈ g, (conn H i).2 = (conn H j).1) →
      ∀ i < H.length, tw i = -1 → i ∈ g) :
    segs.flatten.Nodup ∧ (∀ i, i ∈ segs.flatten ↔ i < H.length ∧ tw i = -1) ∧ segs.flatten.Perm (bndHes H.length tw) := by
  have mem : ∀ i, i ∈ bndHes H.length tw ↔ i < H.length ∧ tw i = -1 := by
    intro i
    simp [bndHes]
  have hb : (bndHes H.length tw).Nodup := List.nodup_range.filter _
  unfold boundaryHalfEdges at h
  simp only at h
  split_ifs at h with h0
  cases h
  have hI := whileLoop_seg (C := conn H) hb (by
    intro g hg hs hc i hi
    exact ho g hg (fun i hi => (mem i).1 (hs hi)) hc i ((mem i).1 hi).1 ((mem i).1 hi).2)
    ((bndHes H.length tw).length + 1) ((bndHes H.length tw).map (fun i => [i])) ⟨by
      rw [← List.flatMap_def]
      simp, by
      intro g hg
      obtain ⟨i, _, rfl⟩ := List.mem_map.1 hg
      simp, by
      intro g hg
      obtain ⟨i, _, rfl⟩ := List.mem_map.1 hg
      intro x hx hl
      rw [List.mem_singleton] at hx
      subst hx
      exact absurd rfl hl⟩
  exact ⟨hI.perm.nodup_iff.2 hb, fun i => by rw [hI.perm.mem_iff, mem], hI.perm⟩

/-- The hypothesis holds for one square, also if it is periodic in one direction; on two triangles it fails. -/
example : ∃ segs, boundaryHalfEdges (halfEdges [[0, 1, 2, 3]]) (twin (halfEdges [[0, 1, 2, 3]])) = .ok segs ∧
    segs.flatten.Perm [0, 1, 2, 3] := by
  have h0 : ∀ i < 4, twin (halfEdges [[0, 1, 2, 3]]) i = -1 := by decide +kernel
  have hC : ∀ i < 4, ∀ j < 4, (conn (halfEdges [[0, 1, 2, 3]]) i).2 = (conn (halfEdges [[0, 1, 2, 3]]) j).1 → j = (i + 1) % 4 := by
    decide +kernel
  have hb : boundaryHalfEdges (halfEdges [[0, 1, 2, 3]]) (twin (halfEdges [[0, 1, 2, 3]])) = .ok (segsOf [[0, 1, 2, 3]]) := by
    decide +kernel
  refine ⟨_, hb, ?_⟩
  refine (C50_complete _ _ _ hb ?_).2.2.trans (by decide +kernel)
  intro g hg hs hc
  have st : ∀ i ∈ g, (i + 1) % 4 ∈ g := by
    intro i hi
    obtain ⟨j, hj, he⟩ := hc i hi
    rw [← hC i (hs i hi).1 j (hs j hj).1 he]
    exact hj
  obtain ⟨a, ha⟩ := List.exists_mem_of_ne_nil _ hg
  have a4 : a < 4 := (hs a ha).1
  have a1 := st a ha
  have a2 := st _ a1
  have a3 := st _ a2
  intro i hi _
  have hi : i < 4 := hi
  have : i = a ∨ i = (a + 1) % 4 ∨ i = ((a + 1) % 4 + 1) % 4 ∨ i = (((a + 1) % 4 + 1) % 4 + 1) % 4 := by omega
  rcases this with h | h | h | h <;> rw [h] <;> assumption

end Verif.Dcel
