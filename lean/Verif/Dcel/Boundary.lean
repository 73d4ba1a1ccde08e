import Verif.Dcel.Grid

/-! # Boundary half-edges and periodic twins: C50, C51 -/

namespace Verif.Dcel
open Verif.Geom

/-! ## C50 -/

/-- All members of the deques satisfy `P`. -/
def AllIn (P : Nat → Prop) (L : List (List Nat)) : Prop := ∀ g ∈ L, ∀ x ∈ g, P x

theorem mergeBody_in (P : Nat → Prop) (C : Nat → Nat × Nat) (s : MS) (g2 : List Nat)
    (h1 : AllIn P s.L) (h2 : ∀ x ∈ s.g1, P x) (h3 : ∀ x ∈ g2, P x) :
    AllIn P (mergeBody C s g2).L ∧ ∀ x ∈ (mergeBody C s g2).g1, P x := by
  have her : AllIn P (popFirst s.L g2) := fun g hg => h1 g (List.mem_of_mem_erase hg)
  have hset : ∀ i g, (∀ x ∈ g, P x) → AllIn P (setAt (popFirst s.L g2) i g) := by
    intro i g hg
    unfold setAt
    cases i with
    | none => exact her
    | some i =>
      intro g' hg' x hx
      rcases List.mem_or_eq_of_mem_set hg' with h | h
      · exact her g' h x hx
      · subst h; exact hg x hx
  have ha : ∀ x ∈ s.g1 ++ g2, P x := fun x hx => (List.mem_append.1 hx).elim (h2 x) (h3 x)
  have hb : ∀ x ∈ g2.reverse ++ s.g1, P x := fun x hx =>
    (List.mem_append.1 hx).elim (fun h => h3 x (List.mem_reverse.1 h)) (h2 x)
  unfold mergeBody
  split
  · split_ifs
    · exact ⟨hset _ _ ha, ha⟩
    · exact ⟨h1, h2⟩
    · exact ⟨hset _ _ hb, hb⟩
    · exact ⟨h1, h2⟩
    · exact ⟨h1, h2⟩
  · exact ⟨h1, h2⟩

theorem innerLoop_in (P : Nat → Prop) (C : Nat → Nat × Nat) (fuel j : Nat) (s : MS)
    (h1 : AllIn P s.L) (h2 : ∀ x ∈ s.g1, P x) : AllIn P (innerLoop C fuel j s).L := by
  induction fuel generalizing j s with
  | zero => exact h1
  | succ fuel ih =>
    unfold innerLoop
    cases hg : s.L[j]? with
    | none => exact h1
    | some g2 =>
      have h3 : ∀ x ∈ g2, P x := h1 g2 (List.mem_of_getElem? hg)
      obtain ⟨a, b⟩ := mergeBody_in P C s g2 h1 h2 h3
      exact ih (j + 1) _ a b

theorem outerLoop_in (P : Nat → Prop) (C : Nat → Nat × Nat) (fuel i : Nat) (L : List (List Nat))
    (a : Bool) (h1 : AllIn P L) : AllIn P (outerLoop C fuel i L a).1 := by
  induction fuel generalizing i L a with
  | zero => exact h1
  | succ fuel ih =>
    unfold outerLoop
    cases hg : L[i]? with
    | none => exact h1
    | some g1 =>
      exact ih (i + 1) _ _ (innerLoop_in P C _ _ _ h1 (h1 g1 (List.mem_of_getElem? hg)))

theorem whileLoop_in (P : Nat → Prop) (C : Nat → Nat × Nat) (fuel : Nat) (L : List (List Nat))
    (h1 : AllIn P L) : AllIn P (whileLoop C fuel L) := by
  induction fuel generalizing L with
  | zero => exact h1
  | succ fuel ih =>
    unfold whileLoop
    have := outerLoop_in P C L.length 0 L false h1
    rcases ho : outerLoop C L.length 0 L false with ⟨L', b⟩
    rw [ho] at this
    cases b
    · exact this
    · exact ih L' this

/-- Every half-edge that `get_boundary_half_edges` returns is a half-edge without twin.
(Completeness and order fail, see below.) -/
theorem C50_sound_partial (H : List HE) (tw : Nat → Int) (segs : List (List Nat))
    (h : boundaryHalfEdges H tw = .ok segs) :
    ∀ seg ∈ segs, ∀ i ∈ seg, i < H.length ∧ tw i = -1 := by
  unfold boundaryHalfEdges at h
  simp only at h
  split_ifs at h with hb
  cases h
  refine whileLoop_in (fun i => i < H.length ∧ tw i = -1) _ _ _ ?_
  intro g hg x hx
  obtain ⟨i, hi, rfl⟩ := List.mem_map.1 hg
  rw [List.mem_singleton] at hx
  subst hx
  obtain ⟨a, b⟩ := List.mem_filter.1 hi
  exact ⟨List.mem_range.1 a, by simpa using b⟩

/-- The result as a list; `[]` for an error. -/
def segsOf (fs : List (List Nat)) : List (List Nat) :=
  match boundaryHalfEdges (halfEdges fs) (twin (halfEdges fs)) with
  | .ok l => l
  | .error _ => []

/-- On a single row of two squares the boundary is found, in order. -/
example : segsOf twoSquares = [[6, 2, 3, 0, 4, 5]] := by decide +kernel

/-- **Violation** (completeness): with two boundary components, a closed component is popped
into itself and is lost: for two disjoint triangles the half-edge 0 has no twin but is not
returned. -/
theorem C50_lost_violated : ∃ fs : List (List Nat), Oriented fs ∧
    twin (halfEdges fs) 0 = -1 ∧ segsOf fs = [[3, 4, 5]] :=
  ⟨[[0, 1, 2], [3, 4, 5]], oriented_of _ (by decide) (by decide) (by decide), by decide,
    by decide +kernel⟩

/-- A list of half-edges is a path: each starts where the one before ended. -/
def isPath (H : List HE) : List Nat → Bool
  | a :: b :: r => decide ((conn H a).2 = (conn H b).1) && isPath H (b :: r)
  | _ => true

/-- **Violation** (order): already on a 3 by 3 grid, with one boundary loop, the returned
sequence is not a path, because `extendleft` reverses the deque it prepends. -/
theorem C50_order_violated : (segsOf (gridFaces 3 3)).map (isPath (halfEdges (gridFaces 3 3))) = [false] := by
  decide +kernel

/-- **Violation**: a grid without boundary (the surface of a tetrahedron) raises an error
instead of returning an empty list. -/
theorem C50_closed_violated : ∃ fs : List (List Nat), Oriented fs ∧
    (∀ i < (halfEdges fs).length, twin (halfEdges fs) i ≠ -1) ∧
    (match boundaryHalfEdges (halfEdges fs) (twin (halfEdges fs)) with
      | .error .name => true
      | _ => false) = true :=
  ⟨[[0, 1, 2], [0, 3, 1], [1, 3, 2], [2, 3, 0]],
    oriented_of _ (by decide) (by decide) (by decide), by decide, by decide⟩

/-- **Violation**: `get_boundary_points` of a 2D grid returns one pair (base, head) per
segment instead of the boundary points: the two squares have six boundary points. -/
theorem C50_points_violated :
    (match boundaryPoints (halfEdges twoSquares) (twin (halfEdges twoSquares)) with
      | .ok l => l
      | .error _ => []) = [(5, 4)] := by
  decide +kernel

/-! ## C51 -/

section Periodic
variable {K : Type}

theorem findTwin_spec (close : K → K → Bool) (l : Nat × K × K) (R : List (Nat × K × K)) (r : Nat)
    (R' : List (Nat × K × K)) (h : findTwin close l R = some (r, R')) :
    ∃ e, e.1 = r ∧ (e :: R').Perm R ∧ close l.2.1 e.2.2 = true ∧ close l.2.2 e.2.1 = true := by
  induction R generalizing r R' with
  | nil => simp [findTwin] at h
  | cons a R ih =>
    unfold findTwin at h
    split_ifs at h with hc
    · simp only [Option.some.injEq, Prod.mk.injEq] at h
      obtain ⟨rfl, rfl⟩ := h
      rw [Bool.and_eq_true] at hc
      exact ⟨a, rfl, List.Perm.refl _, hc.1, hc.2⟩
    · cases hf : findTwin close l R with
      | none => simp [hf] at h
      | some x =>
        rw [hf] at h
        simp only [Option.map_some, Option.some.injEq, Prod.mk.injEq] at h
        obtain ⟨rfl, rfl⟩ := h
        obtain ⟨e, e1, e2, e3⟩ := ih x.1 x.2 hf
        exact ⟨e, e1, (List.Perm.swap _ _ _).trans (e2.cons a), e3⟩

/-- What the pairing loop achieves: `M` is the list of pairs it made. -/
theorem pairLoop_spec (close : K → K → Bool) (ls R : List (Nat × K × K)) (tw tw' : Nat → Int)
    (R' : List (Nat × K × K)) (hnd : ((ls ++ R).map Prod.fst).Nodup)
    (h : pairLoop close ls R tw = (tw', R')) :
    ∃ M : List ((Nat × K × K) × (Nat × K × K)), (M.map Prod.fst).Sublist ls ∧
      (M.map Prod.snd ++ R').Perm R ∧
      (∀ m ∈ M, close m.1.2.1 m.2.2.2 = true ∧ close m.1.2.2 m.2.2.1 = true) ∧
      (∀ m ∈ M, tw' m.1.1 = m.2.1 ∧ tw' m.2.1 = m.1.1) ∧
      (∀ i, (∀ m ∈ M, i ≠ m.1.1 ∧ i ≠ m.2.1) → tw' i = tw i) := by
  induction ls generalizing R tw with
  | nil =>
    simp only [pairLoop, Prod.mk.injEq] at h
    obtain ⟨rfl, rfl⟩ := h
    exact ⟨[], List.Sublist.refl _, by simp, by simp, by simp, fun _ _ => rfl⟩
  | cons l ls ih =>
    unfold pairLoop at h
    cases hf : findTwin close l R with
    | none =>
      rw [hf] at h
      simp only at h
      obtain ⟨M, a, b, c, d, e⟩ := ih R tw (by
        simp only [List.cons_append, List.map_cons, List.nodup_cons] at hnd; exact hnd.2) h
      exact ⟨M, a.trans (List.sublist_cons_self _ _), b, c, d, e⟩
    | some x =>
      obtain ⟨r, R1⟩ := x
      rw [hf] at h
      simp only at h
      obtain ⟨e, rfl, hperm, hc1, hc2⟩ := findTwin_spec close l R r R1 hf
      have hnd2 : ((l :: e :: (ls ++ R1)).map Prod.fst).Nodup := by
        refine (List.Perm.nodup_iff (List.Perm.map _ ?_)).1 hnd
        refine List.Perm.cons l ?_
        refine ((List.Perm.append_left ls hperm).symm).trans ?_
        exact List.perm_middle
      simp only [List.map_cons, List.nodup_cons, List.mem_cons, not_or] at hnd2
      obtain ⟨⟨hle, hl⟩, he, hn⟩ := hnd2
      obtain ⟨M, a, b, c, d, f⟩ := ih R1 _ hn h
      have hM : ∀ m ∈ M, m.1.1 ∈ (ls ++ R1).map Prod.fst ∧ m.2.1 ∈ (ls ++ R1).map Prod.fst := by
        intro m hm
        constructor
        · refine List.mem_map.2 ⟨m.1, List.mem_append_left _ (a.subset (List.mem_map.2 ⟨m, hm, rfl⟩)), rfl⟩
        · refine List.mem_map.2 ⟨m.2, List.mem_append_right _ (b.subset ?_), rfl⟩
          exact List.mem_append_left _ (List.mem_map.2 ⟨m, hm, rfl⟩)
      refine ⟨(l, e) :: M, ?_, ?_, ?_, ?_, ?_⟩
      · simpa using a.cons_cons l
      · simp only [List.map_cons, List.cons_append]
        exact (b.cons e).trans hperm
      · intro m hm
        rcases List.mem_cons.1 hm with rfl | hm
        · exact ⟨hc1, hc2⟩
        · exact c m hm
      · intro m hm
        rcases List.mem_cons.1 hm with rfl | hm
        · constructor
          · rw [f l.1 (fun m hm => ⟨fun h => hl (h ▸ (hM m hm).1), fun h => hl (h ▸ (hM m hm).2)⟩),
              if_neg hle, if_pos rfl]
          · rw [f e.1 (fun m hm => ⟨fun h => he (h ▸ (hM m hm).1), fun h => he (h ▸ (hM m hm).2)⟩),
              if_pos rfl]
        · exact d m hm
      · intro i hi
        rw [f i (fun m hm => hi m (List.mem_cons_of_mem _ hm))]
        obtain ⟨h1, h2⟩ := hi (l, e) List.mem_cons_self
        rw [if_neg h2, if_neg h1]

/-- Twin tables: an involution. -/
def Invol (tw : Nat → Int) : Prop := ∀ i j : Nat, tw i = j → tw j = i

/-- Making a direction periodic.  Given the half-edges `L`, `R` on the two sides (different,
and without twins before), if the operation succeeds, then afterwards every half-edge of `L`
has as twin a half-edge of `R` with matching end coordinates (base with head), and vice
versa; `twin` is still an involution; no other twin changed. -/
theorem C51_pair_sides (close : K → K → Bool) (L R : List (Nat × K × K)) (tw tw' : Nat → Int)
    (hnd : ((L ++ R).map Prod.fst).Nodup) (hb : ∀ e ∈ L ++ R, tw e.1 = -1) (hinv : Invol tw)
    (h : pairSides close L R tw = .ok tw') :
    Invol tw' ∧
    (∀ l ∈ L, ∃ r ∈ R, tw' l.1 = r.1 ∧ tw' r.1 = l.1 ∧
      close l.2.1 r.2.2 = true ∧ close l.2.2 r.2.1 = true) ∧
    (∀ r ∈ R, ∃ l ∈ L, tw' l.1 = r.1 ∧ tw' r.1 = l.1 ∧
      close l.2.1 r.2.2 = true ∧ close l.2.2 r.2.1 = true) ∧
    (∀ i, (∀ e ∈ L ++ R, i ≠ e.1) → tw' i = tw i) := by
  unfold pairSides at h
  split_ifs at h with hlen
  rcases hp : pairLoop close L.reverse R tw with ⟨t, R'⟩
  rw [hp] at h
  cases R' with
  | cons _ _ => cases h
  | nil =>
    simp only [Except.ok.injEq] at h
    subst h
    have hnd' : ((L.reverse ++ R).map Prod.fst).Nodup :=
      (List.Perm.nodup_iff (List.Perm.map _ (List.Perm.append_right R (List.reverse_perm L).symm))).1 hnd
    obtain ⟨M, a, b, c, d, e⟩ := pairLoop_spec close _ _ _ _ _ hnd' hp
    rw [List.append_nil] at b
    have hL : M.map Prod.fst = L.reverse := by
      refine a.eq_of_length ?_
      have := b.length_eq
      simp only [List.length_map] at this
      simp [this, hlen]
    have memL : ∀ l ∈ L, ∃ m ∈ M, m.1 = l := by
      intro l hl
      have : l ∈ M.map Prod.fst := by rw [hL]; exact List.mem_reverse.2 hl
      exact List.mem_map.1 this
    have memR : ∀ r ∈ R, ∃ m ∈ M, m.2 = r := fun r hr => List.mem_map.1 (b.symm.subset hr)
    have inL : ∀ m ∈ M, m.1 ∈ L := by
      intro m hm
      have : m.1 ∈ M.map Prod.fst := List.mem_map.2 ⟨m, hm, rfl⟩
      rw [hL] at this; exact List.mem_reverse.1 this
    have inR : ∀ m ∈ M, m.2 ∈ R := fun m hm => b.subset (List.mem_map.2 ⟨m, hm, rfl⟩)
    refine ⟨?_, ?_, ?_, ?_⟩
    · intro i j hij
      by_cases hi : ∀ m ∈ M, i ≠ m.1.1 ∧ i ≠ m.2.1
      · rw [e i hi] at hij
        have hji := hinv i j hij
        rw [e j ?_, hji]
        intro m hm
        constructor
        · rintro rfl
          have := hb m.1 (List.mem_append_left _ (inL m hm)); omega
        · rintro rfl
          have := hb m.2 (List.mem_append_right _ (inR m hm)); omega
      · push Not at hi
        obtain ⟨m, hm, hi⟩ := hi
        by_cases h1 : i = m.1.1
        · subst h1
          rw [(d m hm).1] at hij
          have : j = m.2.1 := by exact_mod_cast hij.symm
          subst this; exact (d m hm).2
        · have h2 := hi h1
          subst h2
          rw [(d m hm).2] at hij
          have : j = m.1.1 := by exact_mod_cast hij.symm
          subst this; exact (d m hm).1
    · intro l hl
      obtain ⟨m, hm, rfl⟩ := memL l hl
      exact ⟨m.2, inR m hm, (d m hm).1, (d m hm).2, (c m hm).1, (c m hm).2⟩
    · intro r hr
      obtain ⟨m, hm, rfl⟩ := memR r hr
      exact ⟨m.1, inL m hm, (d m hm).1, (d m hm).2, (c m hm).1, (c m hm).2⟩
    · intro i hi
      exact e i (fun m hm => ⟨hi m.1 (List.mem_append_left _ (inL m hm)),
        hi m.2 (List.mem_append_right _ (inR m hm))⟩)

/-- Non-vacuous: the left side 3 (from y=1 down to 0) and the right side 1 of one square. -/
example : ∃ tw', pairSides (fun a b : ℚ => decide (a = b)) [(3, 1, 0)] [(1, 0, 1)]
    (fun _ => -1) = .ok tw' ∧ tw' 3 = 1 ∧ tw' 1 = 3 ∧ tw' 0 = -1 := by
  refine ⟨_, rfl, ?_, ?_, ?_⟩ <;> decide

end Periodic

end Verif.Dcel
