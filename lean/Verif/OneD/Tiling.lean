import Verif.OneD.Model
import Verif.Geom.Bin
import Mathlib.Tactic.Linarith
import Mathlib.Tactic.FieldSimp
import Mathlib.Tactic.Ring
import Mathlib.Tactic.Push

/-! # Specification of tilings and the invariant of 1D refinement histories -/

namespace Verif.OneD
open Verif.Geom

variable {K : Type} [Field K] [LinearOrder K]

/-! ## Specification -/

/-- The consecutive intervals `l` tile `[a, b]`: each starts where the previous one ends
and has positive length. -/
def Tiles (a b : K) : List (K × K) → Prop
  | [] => a = b
  | (l, h) :: r => l = a ∧ l < h ∧ Tiles h b r

/-- The end points of a cell. -/
def ends (t : Cell K) : K × K := (t.data.lo, t.data.hi)

/-- The end points of the cell at path `p`. -/
def endsAt (F : List (Cell K)) (p : Path) : Option (K × K) := (getL F p).map ends

/-- A leaf of the submesh: a cell of the submesh without children in the submesh. -/
def SubLeaf (mk : Itv K → Bool) (F : List (Cell K)) (p : Path) : Prop :=
  ∃ t, getL F p = some t ∧ mk t.data = true ∧ hasKids mk t = false

/-- The submesh is rooted and sibling-closed below `t`: children in the submesh have their
parent in the submesh, and a cell has all or none of its children in the submesh. -/
inductive Closed (mk : Itv K → Bool) : Cell K → Prop
  | node (d : Itv K) (ks : List (Cell K))
      (up : hasKids mk (.node d ks) = true → mk d = true)
      (sib : hasKids mk (.node d ks) = true → ∀ k ∈ ks, mk k.data = true)
      (below : ∀ k ∈ ks, Closed mk k) : Closed mk (.node d ks)

/-- A submesh of the mesh: all roots, closed below. -/
def Submesh (mk : Itv K → Bool) (F : List (Cell K)) : Prop :=
  ∀ t ∈ F, mk t.data = true ∧ Closed mk t

/-! ## Conforming interval trees -/

/-- Each refined cell is tiled by its children. -/
inductive Conf : Cell K → Prop
  | node (d : Itv K) (ks : List (Cell K)) (pos : d.lo < d.hi)
      (tile : ks = [] ∨ Tiles d.lo d.hi (ks.map ends))
      (below : ∀ k ∈ ks, Conf k) : Conf (.node d ks)

def ConfL (a b : K) (F : List (Cell K)) : Prop := Tiles a b (F.map ends) ∧ ∀ t ∈ F, Conf t

theorem Conf.pos {t : Cell K} (h : Conf t) : t.data.lo < t.data.hi := by
  cases h with | node _ _ p _ _ => exact p

theorem Conf.kids {t : Cell K} (h : Conf t) :
    t.kids = [] ∨ ConfL t.data.lo t.data.hi t.kids := by
  cases h with
  | node d ks p tl b =>
    rcases tl with h | h
    · exact .inl h
    · exact .inr ⟨h, b⟩

variable [IsStrictOrderedRing K]

theorem splitLoop_tiles (x0 x1 : K) (hx : x0 < x1) (n : Nat) (hn : 0 < n) :
    ∀ (r i : Nat) (base : K), i + r = n → base = x0 + (i : K) * (x1 - x0) / n →
      Tiles base x1 ((splitLoop x0 x1 n i r base).map ends) ∧
      ∀ k ∈ splitLoop x0 x1 n i r base, Conf k := by
  have hn' : (0 : K) < n := by exact_mod_cast hn
  intro r
  induction r with
  | zero =>
    intro i base hi hb
    have : i = n := by omega
    subst this
    refine ⟨?_, by simp [splitLoop]⟩
    simp only [splitLoop, List.map_nil, Tiles, hb]
    field_simp
    ring
  | succ r ih =>
    intro i base hi hb
    have hhead : (if i = n - 1 then x1 else x0 + (i + 1 : K) * (x1 - x0) / n)
        = x0 + ((i + 1 : Nat) : K) * (x1 - x0) / n := by
      split
      · next h =>
        have : i + 1 = n := by omega
        rw [this]; field_simp; ring
      · push_cast; rfl
    have hlt : base < x0 + ((i + 1 : Nat) : K) * (x1 - x0) / n := by
      rw [hb]
      have : (0 : K) < (x1 - x0) / n := div_pos (by linarith) hn'
      have e1 : (i : K) * (x1 - x0) / n = i * ((x1 - x0) / n) := by ring
      have e2 : ((i + 1 : Nat) : K) * (x1 - x0) / n = i * ((x1 - x0) / n) + (x1 - x0) / n := by
        push_cast; ring
      rw [e1, e2]; linarith
    have := ih (i + 1) _ (by omega) rfl
    simp only [splitLoop, hhead]
    refine ⟨⟨rfl, hlt, this.1⟩, ?_⟩
    intro k hk
    rcases List.mem_cons.1 hk with rfl | hk
    · exact .node _ _ hlt (.inl rfl) (by simp)
    · exact this.2 k hk

theorem split_conf (t : Cell K) (h : Conf t) : Conf (split t) := by
  cases h with
  | node d ks p tl b =>
    rcases Nat.eq_zero_or_pos d.n with h0 | hn
    · rw [split, h0]
      exact .node _ _ p (.inl rfl) (by simp [splitLoop])
    · have := splitLoop_tiles d.lo d.hi p d.n hn d.n 0 d.lo (by omega) (by simp)
      exact .node _ _ p (.inr this.1) this.2

omit [IsStrictOrderedRing K] in
theorem modifyL_conf (f : Cell K → Cell K) (hf : ∀ t, Conf t → Conf (f t) ∧ ends (f t) = ends t) :
    ∀ (p : Path) (F : List (Cell K)) (a b : K), ConfL a b F → ConfL a b (modifyL f F p) := by
  have key : ∀ (g : Cell K → Cell K), (∀ t, Conf t → Conf (g t) ∧ ends (g t) = ends t) →
      ∀ (F : List (Cell K)) (i : Nat) (a b : K), ConfL a b F → ConfL a b (F.modify i g) := by
    intro g hg F i a b ⟨h1, h2⟩
    constructor
    · have : (F.modify i g).map ends = F.map ends := by
        apply List.ext_getElem?
        intro m
        simp only [List.getElem?_map, List.getElem?_modify]
        cases hm : F[m]? with
        | none => simp
        | some t =>
          have := (hg t (h2 t (List.mem_of_getElem? hm))).2
          by_cases him : i = m <;> simp [him, this]
      rw [this]; exact h1
    · intro t ht
      obtain ⟨m, hm⟩ := List.mem_iff_getElem?.1 ht
      rw [List.getElem?_modify] at hm
      cases hm' : F[m]? with
      | none => simp [hm'] at hm
      | some s =>
        have hs := h2 s (List.mem_of_getElem? hm')
        by_cases him : i = m
        · simp [hm', him] at hm; rw [← hm]; exact (hg s hs).1
        · simp [hm', him] at hm; rw [← hm]; exact hs
  intro p
  induction p with
  | nil => intro F a b h; simpa [modifyL] using h
  | cons i p ih =>
    intro F a b h
    cases p with
    | nil => rw [modifyL]; exact key f hf F i a b h
    | cons j p =>
      rw [modifyL]
      refine key _ ?_ F i a b h
      intro t ht
      refine ⟨?_, rfl⟩
      cases ht with
      | node d ks p' tl b' =>
        rcases tl with rfl | tl
        · refine .node _ _ p' (.inl ?_) ?_
          · cases p <;> simp [modifyL]
          · cases p <;> simp [modifyL]
        · obtain ⟨g1, g2⟩ := ih ks d.lo d.hi ⟨tl, b'⟩
          exact .node _ _ p' (.inr g1) g2

theorem step_conf (op : Op) (F : List (Cell K)) (a b : K) (h : ConfL a b F) :
    ConfL a b (step F op) := by
  cases op with
  | split p => exact modifyL_conf _ (fun t ht => ⟨split_conf t ht, by cases t; rfl⟩) p F a b h
  | coarsen p =>
    refine modifyL_conf _ (fun t ht => ⟨?_, by cases t; rfl⟩) p F a b h
    cases ht with | node d ks p' _ _ => exact .node _ _ p' (.inl rfl) (by simp)
  | mark p f =>
    refine modifyL_conf _ (fun t ht => ⟨?_, by cases t; rfl⟩) p F a b h
    cases ht with | node d ks p' tl b' => exact .node _ _ p' tl b'
  | unmark p f =>
    refine modifyL_conf _ (fun t ht => ⟨?_, by cases t; rfl⟩) p F a b h
    cases ht with | node d ks p' tl b' => exact .node _ _ p' tl b'

theorem run_conf (ops : List Op) (F : List (Cell K)) (a b : K) (h : ConfL a b F) :
    ConfL a b (run F ops) := by
  induction ops generalizing F with
  | nil => exact h
  | cons op ops ih => exact ih _ (step_conf op F a b h)

omit [IsStrictOrderedRing K] in
/-- The mesh of a strictly increasing list of points. -/
theorem roots_conf (a : K) (xs : List K) (hs : (a :: xs).IsChain (· < ·)) :
    ConfL a ((a :: xs).getLast (by simp)) (roots (a :: xs)) := by
  induction xs generalizing a with
  | nil => exact ⟨rfl, by simp [roots]⟩
  | cons b r ih =>
    rw [List.isChain_cons_cons] at hs
    obtain ⟨h1, h2⟩ := ih b hs.2
    rw [roots]
    refine ⟨⟨rfl, hs.1, ?_⟩, ?_⟩
    · simpa [ends] using h1
    · intro t ht
      rcases List.mem_cons.1 ht with rfl | ht
      · exact .node _ _ hs.1 (.inl rfl) (by simp)
      · exact h2 t ht

theorem linspace_chain (a b : K) (hab : a < b) (n : Nat) (hn : 0 < n) :
    (linspace a b n).IsChain (· < ·) := by
  have hn' : (0 : K) < n := by exact_mod_cast hn
  rw [List.isChain_iff_getElem]
  intro i hi
  simp only [linspace, List.length_map, List.length_range] at hi
  simp only [linspace, List.getElem_map, List.getElem_range]
  have hd : (0 : K) < (b - a) / n := div_pos (by linarith) hn'
  have hb : b = a + n * ((b - a) / n) := by field_simp; ring
  have h1 : i ≠ n := by omega
  rw [if_neg h1]
  split
  · next h =>
    have hi2 : (n : K) = i + 1 := by rw [← h]; push_cast; rfl
    have : (i : K) * ((b - a) / n) < (n : K) * ((b - a) / n) := by
      apply mul_lt_mul_of_pos_right _ hd
      rw [hi2]; linarith
    calc _ < a + n * ((b - a) / n) := by linarith
      _ = b := hb.symm
  · push_cast
    have : ((i : K) + 1) * ((b - a) / n) = i * ((b - a) / n) + (b - a) / n := by ring
    rw [this]; linarith

/-! ## Leaves -/

omit [Field K] [IsStrictOrderedRing K] in
theorem Tiles.append {a b c : K} {l m : List (K × K)} (h1 : Tiles a b l) (h2 : Tiles b c m) :
    Tiles a c (l ++ m) := by
  induction l generalizing a with
  | nil => simp only [Tiles] at h1; subst h1; simpa using h2
  | cons x l ih => exact ⟨h1.1, h1.2.1, ih h1.2.2⟩

/-- End points of the leaves below a cell / below a list of cells, left to right. -/
def leafEnds (mk : Itv K → Bool) (t : Cell K) : List (K × K) :=
  match t with
  | .node d ks => if hasKids mk (.node d ks) then go mk ks else [(d.lo, d.hi)]
where
  go (mk : Itv K → Bool) : List (Cell K) → List (K × K)
    | [] => []
    | k :: ks => leafEnds mk k ++ go mk ks

omit [IsStrictOrderedRing K] in
theorem leafEnds_tiles (mk : Itv K → Bool) (t : Cell K) (h : Conf t) :
    Tiles t.data.lo t.data.hi (leafEnds mk t) := by
  induction t using GTree.ind with
  | h d ks ih =>
    cases h with
    | node _ _ p tl b =>
      rw [leafEnds]
      split
      · next hk =>
        have hne : ks ≠ [] := by rintro rfl; simp [hasKids] at hk
        have tl := tl.resolve_left hne
        clear hk hne
        have : ∀ (ks : List (Cell K)) (a : K), (∀ k ∈ ks, Conf k) →
            (∀ k ∈ ks, Conf k → Tiles k.data.lo k.data.hi (leafEnds mk k)) →
            Tiles a d.hi (ks.map ends) → Tiles a d.hi (leafEnds.go mk ks) := by
          intro ks
          induction ks with
          | nil => intro a _ _ h; simpa [leafEnds.go] using h
          | cons k ks ihk =>
            intro a hc ht htl
            rw [leafEnds.go]
            simp only [List.map_cons, ends, Tiles] at htl
            have h1 := ht k (by simp) (hc k (by simp))
            rw [htl.1] at h1
            exact h1.append (ihk _ (fun k hk => hc k (by simp [hk]))
              (fun k hk => ht k (by simp [hk])) htl.2.2)
        exact this ks d.lo b ih tl
      · exact ⟨rfl, p, rfl⟩

omit [IsStrictOrderedRing K] in
theorem leafEndsGo_tiles (mk : Itv K → Bool) (F : List (Cell K)) (a b : K) (h : ConfL a b F) :
    Tiles a b (leafEnds.go mk F) := by
  obtain ⟨h1, h2⟩ := h
  induction F generalizing a with
  | nil => simpa [leafEnds.go, Tiles] using h1
  | cons k ks ih =>
    rw [leafEnds.go]
    simp only [List.map_cons, ends, Tiles] at h1
    have := leafEnds_tiles mk k (h2 k (by simp))
    rw [h1.1] at this
    exact this.append (ih _ h1.2.2 (fun t ht => h2 t (by simp [ht])))

end Verif.OneD
