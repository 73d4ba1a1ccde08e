import Verif.Dcel.Model
import Mathlib.Tactic.Linarith
import Mathlib.Algebra.Order.Group.Int
import Mathlib.Algebra.BigOperators.Group.List.Basic
import Mathlib.Data.Nat.ModEq

/-! # Half-edge connectivity: C25, C26 -/

namespace Verif.Dcel
open Verif.Geom

/-- Number of the first half-edge of face `k` (specification). -/
def off (fs : List (List Nat)) (k : Nat) : Nat := ((fs.take k).map List.length).sum

/-- Specification: half-edge `m` of the table is side `i` of face `k` with vertex list `fc`. -/
def IsSide (fs : List (List Nat)) (m k i : Nat) (fc : List Nat) : Prop :=
  fs[k]? = some fc ∧ i < fc.length ∧ m = off fs k + i

theorem off_succ (fc : List Nat) (fs : List (List Nat)) (k : Nat) :
    off (fc :: fs) (k + 1) = fc.length + off fs k := by
  simp [off]

theorem faceHEs_get (k c : Nat) (fc : List Nat) (m : Nat) (h : HE) :
    (faceHEs k c fc)[m]? = some h ↔ m < fc.length ∧
      h = ⟨fc.getD m 0, fc.getD ((m + 1) % fc.length) 0, c + (m + fc.length - 1) % fc.length,
        c + (m + 1) % fc.length, k⟩ := by
  unfold faceHEs
  rw [List.getElem?_map]
  by_cases hm : m < fc.length
  · rw [List.getElem?_range hm]
    simp only [Option.map_some, Option.some.injEq, hm, true_and, Nat.mod_eq_of_lt hm]
    exact eq_comm
  · rw [List.getElem?_eq_none (by simpa using hm)]
    simp [hm]

theorem heLoop_get (fs : List (List Nat)) (k0 c m : Nat) (h : HE) :
    (heLoop fs k0 c)[m]? = some h ↔ ∃ k i fc, IsSide fs m k i fc ∧
      h = ⟨fc.getD i 0, fc.getD ((i + 1) % fc.length) 0,
        c + off fs k + (i + fc.length - 1) % fc.length,
        c + off fs k + (i + 1) % fc.length, k0 + k⟩ := by
  induction fs generalizing k0 c m with
  | nil => simp [heLoop, IsSide]
  | cons fc fs ih =>
    have hlen : (faceHEs k0 c fc).length = fc.length := by simp [faceHEs]
    rw [heLoop, List.getElem?_append, hlen]
    by_cases hm : m < fc.length
    · rw [if_pos hm, faceHEs_get]
      constructor
      · rintro ⟨_, rfl⟩
        exact ⟨0, m, fc, ⟨rfl, hm, by simp [off]⟩, by simp [off]⟩
      · rintro ⟨k, i, fc', ⟨h1, h2, h3⟩, rfl⟩
        cases k with
        | zero =>
          simp only [List.getElem?_cons_zero, Option.some.injEq] at h1
          subst h1
          have : m = i := by simpa [off] using h3
          subst this
          exact ⟨hm, by simp [off]⟩
        | succ k => rw [off_succ] at h3; omega
    · rw [if_neg hm, ih]
      constructor
      · rintro ⟨k, i, fc', ⟨h1, h2, h3⟩, rfl⟩
        refine ⟨k + 1, i, fc', ⟨by simpa using h1, h2, by rw [off_succ]; omega⟩, ?_⟩
        rw [off_succ]; congr 1 <;> omega
      · rintro ⟨k, i, fc', ⟨h1, h2, h3⟩, rfl⟩
        cases k with
        | zero =>
          simp only [List.getElem?_cons_zero, Option.some.injEq] at h1
          subst h1
          simp only [off, List.take_zero, List.map_nil, List.sum_nil, Nat.zero_add] at h3
          omega
        | succ k =>
          rw [off_succ] at h3
          refine ⟨k, i, fc', ⟨by simpa using h1, h2, by omega⟩, ?_⟩
          rw [off_succ]; congr 1 <;> omega

theorem get_iff (fs : List (List Nat)) (m : Nat) (h : HE) :
    (halfEdges fs)[m]? = some h ↔ ∃ k i fc, IsSide fs m k i fc ∧
      h = ⟨fc.getD i 0, fc.getD ((i + 1) % fc.length) 0,
        off fs k + (i + fc.length - 1) % fc.length,
        off fs k + (i + 1) % fc.length, k⟩ := by
  unfold halfEdges; rw [heLoop_get]; simp

theorem off_le (fs : List (List Nat)) (k k' : Nat) (fc : List Nat) (h : fs[k]? = some fc)
    (hk : k < k') : off fs k + fc.length ≤ off fs k' := by
  induction fs generalizing k k' with
  | nil => simp at h
  | cons a fs ih =>
    cases k' with
    | zero => omega
    | succ k' =>
      cases k with
      | zero =>
        simp only [List.getElem?_cons_zero, Option.some.injEq] at h
        subst h; rw [off_succ]; simp [off]
      | succ k =>
        rw [off_succ, off_succ]
        have := ih k k' (by simpa using h) (by omega)
        omega

/-- A half-edge is a side of one face only. -/
theorem IsSide.unique {fs : List (List Nat)} {m k i k' i' : Nat} {fc fc' : List Nat}
    (h : IsSide fs m k i fc) (h' : IsSide fs m k' i' fc') : k = k' ∧ i = i' ∧ fc = fc' := by
  obtain ⟨a1, a2, a3⟩ := h
  obtain ⟨b1, b2, b3⟩ := h'
  rcases Nat.lt_trichotomy k k' with hk | hk | hk
  · have := off_le fs k k' fc a1 hk; omega
  · subst hk
    rw [a1] at b1
    exact ⟨rfl, by omega, by simpa using b1⟩
  · have := off_le fs k' k fc' b1 hk; omega

/-! ## C25 -/

/-- The table of half-edges lists the sides of the faces: half-edge `off k + i` belongs to
face `k` and runs from its vertex `i` to its vertex `i+1` (cyclically); there are no
others. -/
theorem C25_sides (fs : List (List Nat)) :
    (halfEdges fs).length = (fs.map List.length).sum ∧
    (∀ k fc i, fs[k]? = some fc → i < fc.length → ∃ h, (halfEdges fs)[off fs k + i]? = some h ∧
      h.face = k ∧ fc[i]? = some h.base ∧ fc[(i + 1) % fc.length]? = some h.head) ∧
    (∀ m h, (halfEdges fs)[m]? = some h → ∃ k i fc, fs[k]? = some fc ∧ i < fc.length ∧
      m = off fs k + i) := by
  refine ⟨?_, ?_, ?_⟩
  · have : ∀ k c, (heLoop fs k c).length = (fs.map List.length).sum := by
      induction fs with
      | nil => simp [heLoop]
      | cons fc fs ih => intro k c; simp [heLoop, faceHEs, ih]
    exact this 0 0
  · intro k fc i hk hi
    refine ⟨_, (get_iff fs _ _).2 ⟨k, i, fc, ⟨hk, hi, rfl⟩, rfl⟩, rfl, ?_, ?_⟩
    · simp [List.getElem?_eq_getElem hi]
    · have : (i + 1) % fc.length < fc.length := Nat.mod_lt _ (by omega)
      simp [List.getElem?_eq_getElem this]
  · intro m h hm
    obtain ⟨k, i, fc, ⟨h1, h2, h3⟩, _⟩ := (get_iff fs m h).1 hm
    exact ⟨k, i, fc, h1, h2, h3⟩

theorem mod_pred_succ (i n : Nat) (h : i < n) : ((i + n - 1) % n + 1) % n = i := by
  rcases Nat.eq_zero_or_pos i with rfl | hi
  · rw [Nat.mod_eq_of_lt (by omega : 0 + n - 1 < n), Nat.zero_add, Nat.sub_add_cancel (by omega),
      Nat.mod_self]
  · have e : i + n - 1 = (i - 1) + n := by omega
    rw [e, Nat.add_mod_right, Nat.mod_eq_of_lt (by omega : i - 1 < n), Nat.sub_add_cancel hi,
      Nat.mod_eq_of_lt h]

theorem mod_succ_pred (i n : Nat) (h : i < n) : ((i + 1) % n + n - 1) % n = i := by
  rcases Nat.lt_or_ge (i + 1) n with hi | hi
  · rw [Nat.mod_eq_of_lt hi]
    have e : i + 1 + n - 1 = i + n := by omega
    rw [e, Nat.add_mod_right, Nat.mod_eq_of_lt h]
  · have e : i + 1 = n := by omega
    rw [e, Nat.mod_self, Nat.zero_add, Nat.mod_eq_of_lt (by omega)]; omega

/-- `next` and `prev` are inverse to each other, stay in the face, and `next` starts where the
half-edge ends. -/
theorem C25_next_prev (fs : List (List Nat)) (m : Nat) (h : HE)
    (hm : (halfEdges fs)[m]? = some h) :
    (∃ g, (halfEdges fs)[h.next]? = some g ∧ g.prev = m ∧ g.face = h.face ∧ g.base = h.head) ∧
    (∃ g, (halfEdges fs)[h.prev]? = some g ∧ g.next = m ∧ g.face = h.face ∧ g.head = h.base) := by
  obtain ⟨k, i, fc, ⟨h1, h2, h3⟩, rfl⟩ := (get_iff fs m h).1 hm
  have hn : (i + 1) % fc.length < fc.length := Nat.mod_lt _ (by omega)
  have hp : (i + fc.length - 1) % fc.length < fc.length := Nat.mod_lt _ (by omega)
  constructor
  · refine ⟨_, (get_iff fs _ _).2 ⟨k, _, fc, ⟨h1, hn, rfl⟩, rfl⟩, ?_, rfl, rfl⟩
    simp only [mod_succ_pred i fc.length h2, h3]
  · refine ⟨_, (get_iff fs _ _).2 ⟨k, _, fc, ⟨h1, hp, rfl⟩, rfl⟩, ?_, rfl, ?_⟩
    · simp only [mod_pred_succ i fc.length h2, h3]
    · simp only [mod_pred_succ i fc.length h2]

/-- The table `next` as a function. -/
def nxt (H : List HE) (m : Nat) : Nat := match H[m]? with
  | some h => h.next
  | none => m

/-- Following `next` cycles once around the face: after `s` steps one is at side `i+s`
(modulo the number of sides), so each side of the face is met exactly once before coming
back. -/
theorem C25_cycle (fs : List (List Nat)) (k : Nat) (fc : List Nat) (hk : fs[k]? = some fc) (i s : Nat)
    (hi : i < fc.length) :
    (nxt (halfEdges fs))^[s] (off fs k + i) = off fs k + (i + s) % fc.length := by
  induction s with
  | zero => simp [Nat.mod_eq_of_lt hi]
  | succ s ih =>
    rw [Function.iterate_succ_apply', ih]
    have hn : (i + s) % fc.length < fc.length := Nat.mod_lt _ (by omega)
    have := (get_iff fs (off fs k + (i + s) % fc.length) _).2 ⟨k, _, fc, ⟨hk, hn, rfl⟩, rfl⟩
    rw [nxt, this]
    simp [Nat.add_assoc]

/-! ### Twins -/

/-- Specification: half-edge `m` runs from vertex `a` to vertex `b`. -/
def Runs (fs : List (List Nat)) (m a b : Nat) : Prop :=
  ∃ h, (halfEdges fs)[m]? = some h ∧ h.base = a ∧ h.head = b

/-- Specification of an oriented surface: no directed edge occurs twice, and every face has
at least three, pairwise different, vertices. -/
structure Oriented (fs : List (List Nat)) : Prop where
  uniq : ∀ m m' a b, Runs fs m a b → Runs fs m' a b → m = m'
  three : ∀ fc ∈ fs, 3 ≤ fc.length
  nodup : ∀ fc ∈ fs, fc.Nodup

theorem mem_rows (H : List HE) (h : HE) (j : Nat) :
    j ∈ rows H h ↔ ∃ g, H[j]? = some g ∧ g.base = h.head ∧ g.head = h.base := by
  unfold rows
  rw [List.mem_filter, List.mem_range]
  constructor
  · rintro ⟨h1, h2⟩
    rw [List.getElem?_eq_getElem h1] at h2 ⊢
    exact ⟨_, rfl, by simpa using h2⟩
  · rintro ⟨g, h1, h2⟩
    refine ⟨(List.getElem?_eq_some_iff.1 h1).1, ?_⟩
    rw [h1]; simpa using h2

theorem rows_nodup (H : List HE) (h : HE) : (rows H h).Nodup := List.nodup_range.filter _

/-- What the code stores: the twin is `j` exactly if `j` is the one and only half-edge with
the two end points swapped, and `-1` otherwise.  (For every list of faces.) -/
theorem C25_twin_iff (fs : List (List Nat)) (i a b : Nat) (hi : Runs fs i a b) :
    (∀ j : Nat, twin (halfEdges fs) i = j ↔ (Runs fs j b a ∧ ∀ j', Runs fs j' b a → j' = j)) ∧
    (twin (halfEdges fs) i = -1 ↔ ¬ ∃ j, Runs fs j b a ∧ ∀ j', Runs fs j' b a → j' = j) := by
  obtain ⟨h, hh, rfl, rfl⟩ := hi
  have key : ∀ j, j ∈ rows (halfEdges fs) h ↔ Runs fs j h.head h.base := mem_rows _ h
  have hnd := rows_nodup (halfEdges fs) h
  unfold twin
  rw [hh]
  simp only
  rcases hr : rows (halfEdges fs) h with _ | ⟨x, _ | ⟨y, r⟩⟩
  · rw [hr] at key
    simp only
    refine ⟨fun j => ⟨fun h => by omega, fun h => ?_⟩, fun _ => ?_, fun _ => trivial⟩
    · exact absurd ((key j).2 h.1) (by simp)
    · rintro ⟨j, h, _⟩; exact absurd ((key j).2 h) (by simp)
  · rw [hr] at key
    simp only [List.mem_singleton] at key
    simp only
    refine ⟨fun j => ⟨fun h => ?_, fun h => ?_⟩, fun h => by omega, fun h => ?_⟩
    · have : x = j := by exact_mod_cast h
      subst this
      exact ⟨(key x).1 rfl, fun j' h' => (key j').2 h'⟩
    · exact_mod_cast ((key j).2 h.1).symm
    · exact absurd ⟨x, (key x).1 rfl, fun j' h' => (key j').2 h'⟩ h
  · rw [hr] at key hnd
    have hxy : x ≠ y := by
      intro e; subst e; simp at hnd
    have hx := (key x).1 (by simp)
    have hy := (key y).1 (by simp)
    simp only
    refine ⟨fun j => ⟨fun h => by omega, fun h => ?_⟩, fun _ => ?_, fun _ => trivial⟩
    · exact absurd ((h.2 x hx).trans (h.2 y hy).symm) hxy
    · rintro ⟨j, _, h⟩; exact hxy ((h x hx).trans (h y hy).symm)

/-- On an oriented surface: the twin of a half-edge runs the other way, in a different face,
twin is an involution without fixed points, and a half-edge has no twin exactly if no other
half-edge runs the other way. -/
theorem C25_twin (fs : List (List Nat)) (ho : Oriented fs) (i a b : Nat) (hi : Runs fs i a b) :
    (∀ j : Nat, twin (halfEdges fs) i = j ↔ Runs fs j b a) ∧
    (∀ j : Nat, twin (halfEdges fs) i = j → twin (halfEdges fs) j = i ∧ j ≠ i ∧
      ∀ g h, (halfEdges fs)[i]? = some h → (halfEdges fs)[j]? = some g → g.face ≠ h.face) ∧
    (twin (halfEdges fs) i = -1 ↔ ∀ j, ¬ Runs fs j b a) := by
  have h1 : ∀ j : Nat, twin (halfEdges fs) i = j ↔ Runs fs j b a := fun j => by
    rw [(C25_twin_iff fs i a b hi).1 j]
    exact ⟨fun h => h.1, fun h => ⟨h, fun j' h' => ho.uniq _ _ _ _ h' h⟩⟩
  have hface : ∀ j g h, Runs fs j b a → (halfEdges fs)[i]? = some h →
      (halfEdges fs)[j]? = some g → g.face ≠ h.face := by
    intro j g h hj hhi hhj hf
    obtain ⟨h', e1, e2, e3⟩ := hi
    obtain ⟨g', e4, e5, e6⟩ := hj
    rw [hhi] at e1; cases e1
    rw [hhj] at e4; cases e4
    obtain ⟨k, x, fc, ⟨s1, s2, s3⟩, rfl⟩ := (get_iff fs i h).1 hhi
    obtain ⟨k', y, fc', ⟨t1, t2, t3⟩, rfl⟩ := (get_iff fs j g).1 hhj
    simp only at hf e2 e3 e5 e6
    subst hf
    rw [s1] at t1; cases t1
    have hmem : fc ∈ fs := List.mem_of_getElem? s1
    have h3 := ho.three fc hmem
    have hnd := ho.nodup fc hmem
    have hx1 : (x + 1) % fc.length < fc.length := Nat.mod_lt _ (by omega)
    have hy1 : (y + 1) % fc.length < fc.length := Nat.mod_lt _ (by omega)
    simp only [List.getD_eq_getElem?_getD, List.getElem?_eq_getElem s2,
      List.getElem?_eq_getElem t2, List.getElem?_eq_getElem hx1,
      List.getElem?_eq_getElem hy1, Option.getD_some] at e2 e3 e5 e6
    have a1 : x = (y + 1) % fc.length := (hnd.getElem_inj_iff).1 (e2.trans e6.symm)
    have a2 : (x + 1) % fc.length = y := (hnd.getElem_inj_iff).1 (e3.trans e5.symm)
    have a3 : (y + 2) % fc.length = y % fc.length := by
      rw [a1, Nat.mod_add_mod] at a2
      rw [Nat.mod_eq_of_lt t2]; exact a2
    have := (Nat.ModEq.add_left_cancel' y (show y + 2 ≡ y + 0 [MOD fc.length] from a3))
    have : 2 % fc.length = 0 := by simpa [Nat.ModEq] using this
    rw [Nat.mod_eq_of_lt (by omega)] at this
    omega
  refine ⟨h1, ?_, ?_⟩
  · intro j hj
    have hj' := (h1 j).1 hj
    refine ⟨?_, ?_, fun g h e1 e2 => hface j g h hj' e1 e2⟩
    · rw [(C25_twin_iff fs j b a hj').1 i]
      exact ⟨hi, fun j' h' => ho.uniq _ _ _ _ h' hi⟩
    · rintro rfl
      obtain ⟨h, e1, _⟩ := id hi
      exact hface j h h hj' e1 e1 rfl
  · rw [(C25_twin_iff fs i a b hi).2]
    constructor
    · intro h j hj
      exact h ⟨j, hj, fun j' h' => ho.uniq _ _ _ _ h' hj⟩
    · rintro h ⟨j, hj, _⟩; exact h j hj

/-- Two squares sharing an edge. -/
def twoSquares : List (List Nat) := [[0, 1, 4, 3], [1, 2, 5, 4]]

/-- A checkable form of `Oriented`. -/
theorem oriented_of (fs : List (List Nat))
    (h1 : ((halfEdges fs).map (fun h => (h.base, h.head))).Nodup)
    (h2 : ∀ fc ∈ fs, 3 ≤ fc.length) (h3 : ∀ fc ∈ fs, fc.Nodup) : Oriented fs := by
  refine ⟨?_, h2, h3⟩
  rintro m m' a b ⟨h, e1, rfl, rfl⟩ ⟨h', e2, e3, e4⟩
  obtain ⟨l1, e1⟩ := List.getElem?_eq_some_iff.1 e1
  obtain ⟨l2, e2⟩ := List.getElem?_eq_some_iff.1 e2
  have := (h1.getElem_inj_iff (i := m) (j := m') (hi := by simpa using l1) (hj := by simpa using l2)).1
    (by simp only [List.getElem_map, e1, e2, e3, e4])
  exact this

/-- The hypotheses are met by two squares sharing an edge, with a twin pair and boundary. -/
example : Oriented twoSquares ∧ twin (halfEdges twoSquares) 1 = 7 ∧
    twin (halfEdges twoSquares) 0 = -1 :=
  ⟨oriented_of _ (by decide) (by decide) (by decide), by decide, by decide⟩

/-- **Violation** without the hypothesis: when the same directed edge occurs in two faces
(a non-orientable or non-manifold grid), `twin` is not an involution: half-edges 0 and 3
both have twin 6, which has none. -/
theorem C25_nonmanifold_violated : ∃ fs : List (List Nat), (∀ fc ∈ fs, fc.Nodup ∧ 3 ≤ fc.length) ∧
    twin (halfEdges fs) 0 = 6 ∧ twin (halfEdges fs) 3 = 6 ∧ twin (halfEdges fs) 6 = -1 :=
  ⟨[[0, 1, 2], [0, 1, 3], [1, 0, 4]], by decide, by decide, by decide, by decide⟩

/-! ## C26 -/

/-- 2D, interior edge: the face on the other side. -/
theorem C26_interior_partial (fs : List (List Nat)) (e j : Nat) (h g : HE)
    (he : (halfEdges fs)[e]? = some h) (ht : twin (halfEdges fs) e = j)
    (hj : (halfEdges fs)[j]? = some g) :
    neighbor2 (halfEdges fs) (twin (halfEdges fs)) h.face e = .ok (some g.face) ∧
    g.base = h.head ∧ g.head = h.base := by
  constructor
  · unfold neighbor2
    rw [he]
    simp only [if_true]
    rw [ht, npGet, if_pos (by omega)]
    simp only [Int.toNat_natCast, hj]
    rw [if_pos (by omega)]
  · have := ((C25_twin_iff fs e _ _ ⟨h, he, rfl, rfl⟩).1 j).1 ht
    obtain ⟨g', e1, e2, e3⟩ := this.1
    rw [hj] at e1; cases e1
    exact ⟨e2, e3⟩

/-- **Violation**, for every grid and every boundary edge: instead of `None`, the last face of
the grid is returned (the table `face` is read at index `-1`). -/
theorem C26_boundary_violated (fs : List (List Nat)) (fc : List Nat) (hne : fc ≠ []) (e : Nat) (h : HE)
    (he : (halfEdges (fs ++ [fc]))[e]? = some h) (ht : twin (halfEdges (fs ++ [fc])) e = -1) :
    neighbor2 (halfEdges (fs ++ [fc])) (twin (halfEdges (fs ++ [fc]))) h.face e =
      .ok (some fs.length) := by
  have hlen : 0 < fc.length := List.length_pos_iff.2 hne
  have hoff : off (fs ++ [fc]) fs.length = (fs.map List.length).sum := by
    simp [off]
  have hH : (halfEdges (fs ++ [fc])).length = (fs.map List.length).sum + fc.length := by
    rw [(C25_sides _).1]; simp
  have hlast := (get_iff (fs ++ [fc]) (off (fs ++ [fc]) fs.length + (fc.length - 1)) _).2
    ⟨fs.length, fc.length - 1, fc, ⟨by simp, by omega, rfl⟩, rfl⟩
  unfold neighbor2
  rw [he]
  simp only [if_true]
  rw [ht, npGet, if_neg (by omega), if_pos (by omega)]
  have : ((halfEdges (fs ++ [fc])).length + (-1 : Int)).toNat =
      off (fs ++ [fc]) fs.length + (fc.length - 1) := by omega
  rw [this, hlast]
  simp only
  rw [if_pos (by omega)]

/-- Concretely: the bottom edge of the left of two squares has "neighbour" 1. -/
example : neighbor2 (halfEdges twoSquares) (twin (halfEdges twoSquares)) 0 0 = .ok (some 1) ∧
    ¬ ∃ j, Runs twoSquares j 1 0 := by
  refine ⟨by decide, ?_⟩
  have ho : Oriented twoSquares := oriented_of _ (by decide) (by decide) (by decide)
  have := (C25_twin twoSquares ho 0 0 1 ⟨_, rfl, rfl, rfl⟩).2.2.1 (by decide)
  rintro ⟨j, hj⟩; exact this j hj

theorem neighbor1_left (prev next : Nat → Int) (i : Nat) :
    neighbor1 prev next i i = .ok (if prev i = -1 then none else some (prev i)) := by
  simp [neighbor1]

theorem neighbor1_right (prev next : Nat → Int) (i : Nat) :
    neighbor1 prev next i (i + 1) = .ok (if next i = -1 then none else some (next i)) := by
  simp [neighbor1]

/-- 1D: with `n ≥ 2` points, interval `i` runs from point `i` to point `i+1`; its neighbour
across a point is the other interval at this point, and None exactly at the two ends. -/
theorem C26_1d (n i : Nat) (hi : i < n - 1) :
    neighbor1 (prev1 n) (next1 n) i i = .ok (if i = 0 then none else some ((i : Int) - 1)) ∧
    neighbor1 (prev1 n) (next1 n) i (i + 1) =
      .ok (if i + 1 = n - 1 then none else some ((i : Int) + 1)) := by
  rw [neighbor1_left, neighbor1_right]
  constructor
  · by_cases h : i = 0
    · subst h; simp [prev1]
    · have : prev1 n i ≠ -1 := by unfold prev1; omega
      rw [if_neg this, if_neg h]; rfl
  · by_cases h : i + 1 = n - 1
    · have : next1 n i = -1 := by unfold next1; rw [if_neg (by omega)]
      rw [if_pos this, if_pos h]
    · have : next1 n i = i + 1 := by unfold next1; rw [if_pos (by omega)]
      rw [this, if_neg (by omega), if_neg h]

/-- After `make_periodic` in 1D: the neighbours wrap around and are never None. -/
theorem C26_1d_periodic (n i : Nat) (hi : i < n - 1) :
    neighbor1 (perPrev1 n) (perNext1 n) i i =
      .ok (some (((i + (n - 1) - 1) % (n - 1) : Nat) : Int)) ∧
    neighbor1 (perPrev1 n) (perNext1 n) i (i + 1) = .ok (some (((i + 1) % (n - 1) : Nat) : Int)) := by
  rw [neighbor1_left, neighbor1_right]
  constructor
  · have : perPrev1 n i = (((i + (n - 1) - 1) % (n - 1) : Nat) : Int) := by
      unfold perPrev1 prev1
      by_cases h : i = 0
      · subst h
        rw [if_pos rfl, Nat.mod_eq_of_lt (by omega)]; omega
      · rw [if_neg h]
        have e : i + (n - 1) - 1 = (i - 1) + (n - 1) := by omega
        rw [e, Nat.add_mod_right, Nat.mod_eq_of_lt (by omega)]; omega
    rw [this, if_neg (by omega)]
  · have : perNext1 n i = (((i + 1) % (n - 1) : Nat) : Int) := by
      unfold perNext1 next1
      by_cases h : i = n - 2
      · have e : i + 1 = n - 1 := by omega
        rw [if_pos h, e, Nat.mod_self]; rfl
      · rw [if_neg h, if_pos (by omega), Nat.mod_eq_of_lt (by omega)]; rfl
    rw [this, if_neg (by omega)]

example : neighbor1 (perPrev1 4) (perNext1 4) 0 0 = .ok (some 2) := (C26_1d_periodic 4 0 (by decide)).1

end Verif.Dcel
