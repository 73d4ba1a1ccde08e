import Verif.Line.VProps

/-!
# Vertices, their coordinates, and the leaves of one-dimensional meshes
-/

namespace Verif.Line
open Verif.Fem Verif.OneD Verif.Geom
open Verif.Dof (Sys Same Top)

/-! ### Names and paths -/

theorem nameOf_pathOf (c : IN) : nameOf (pathOf c) = c := by
  obtain ⟨f, p⟩ := c
  simp only [pathOf, nameOf, List.map_map, Prod.mk.injEq, true_and]
  rw [← List.map_reverse, List.reverse_reverse]
  conv_rhs => rw [← List.map_id p]
  apply List.map_congr_left
  intro k _
  fin_cases k <;> rfl

section
set_option linter.unusedSectionVars false
variable {K : Type} [Field K] [LinearOrder K] [IsStrictOrderedRing K]
variable {N : Nat} {X : Nat → K} {F : List (Cell K)}

theorem bis_kids {t : Cell K} (h : Bis t) : t.kids.length ≤ 2 := by
  cases h <;> simp [GTree.kids]

theorem path_ex (hF : BisL N X F) : ∀ (r : Path) (t : Cell K), r ≠ [] → getL F r.reverse = some t → ∃ c, r.reverse = pathOf c ∧ cellAt F c = some t := by
  intro r
  induction r with
  | nil => intro t h; exact absurd rfl h
  | cons i r ih =>
    intro t _ ht
    rw [List.reverse_cons] at ht ⊢
    rcases Nat.eq_zero_or_pos r.length with h0 | h0
    · rw [List.length_eq_zero_iff] at h0
      subst h0
      exact ⟨(i, []), rfl, ht⟩
    · have hne : r ≠ [] := List.ne_nil_of_length_pos h0
      rcases hg : getL F r.reverse with _ | s
      · rw [getL_none F r.reverse [i] (by simpa using hne) hg] at ht
        cases ht
      · obtain ⟨c, h1, h2⟩ := ih s hne hg
        have hb := (cellAt_bis hF h2).2.1
        rw [getL_append F _ _ s hg (by simp)] at ht
        have ht' : s.kids[i]? = some t := ht
        have hi : i < 2 := lt_of_lt_of_le (List.getElem?_eq_some_iff.1 ht').1 (bis_kids hb)
        refine ⟨child c ⟨i, hi⟩, ?_, ?_⟩
        · rw [h1]; simp [pathOf, child]
        · rw [cellAt_child, h2]; exact ht'

theorem sub_leaf (mk : Itv K → Bool) (c : IN) : SubLeaf mk F (pathOf c) ↔ IsLeaf mk F c := by
  unfold SubLeaf IsLeaf mkAt hasCh cellAt
  rcases getL F (pathOf c) with _ | t
  · simp
  · simp

theorem sub_leaf_ex (hF : BisL N X F) {mk : Itv K → Bool} {p : Path} (h : SubLeaf mk F p) : ∃ c, p = pathOf c ∧ IsLeaf mk F c := by
  obtain ⟨t, h1, h2⟩ := h
  have hp : p ≠ [] := by rintro rfl; simp [getL] at h1
  obtain ⟨c, h3, h4⟩ := path_ex hF p.reverse t (by simpa using hp) (by rwa [List.reverse_reverse])
  rw [List.reverse_reverse] at h3
  exact ⟨c, h3, (sub_leaf mk c).1 (h3 ▸ ⟨t, h1, h2⟩)⟩

/-! ### Two leaves do not overlap -/

theorem mk_up {mk : Itv K → Bool} (hR : Rooted mk F) (f : Nat) (p : List (Fin 2)) : ∀ q : List (Fin 2), mkAt mk F (f, q ++ p) = true →
    mkAt mk F (f, p) = true := by
  intro q
  induction q with
  | nil => exact id
  | cons k q ih => exact fun h => ih (hR (f, q ++ p) k h)

theorem leaf_top (hF : BisL N X F) {mk : Itv K → Bool} (hR : Rooted mk F) {f : Nat} {p q : List (Fin 2)} (h : IsLeaf mk F (f, p))
    (h' : mkAt mk F (f, q ++ p) = true) : q = [] := by
  rcases List.eq_nil_or_concat q with rfl | ⟨q, k, rfl⟩
  · rfl
  · exfalso
    have := mk_up hR f (k :: p) q (by simpa using h')
    have h2 := (hasCh_iff hF mk (f, p)).2 ⟨k, this⟩
    rw [h.2] at h2
    cases h2

/-- The boxes of different children of a cell do not overlap. -/
theorem box_apart (hX : Inc N X) {f : Nat} (hf : f < N) {s : List (Fin 2)} {k j : Fin 2} (r r' : List (Fin 2)) (h : k ≠ j) :
    (box X f (r ++ k :: s)).2 ≤ (box X f (r' ++ j :: s)).1 ∨ (box X f (r' ++ j :: s)).2 ≤ (box X f (r ++ k :: s)).1 := by
  have h1 := box_sub hX hf r (k :: s)
  have h2 := box_sub hX hf r' (j :: s)
  fin_cases k <;> fin_cases j
  · exact absurd rfl h
  · left; exact h1.2.trans h2.1
  · right; exact h2.2.trans h1.1
  · exact absurd rfl h

theorem box_root (hX : Inc N X) {c : IN} (hc : c.1 < N) : X c.1 ≤ (box X c.1 c.2).1 ∧ (box X c.1 c.2).2 ≤ X (c.1 + 1) := by
  have := box_sub hX hc c.2 []
  rwa [List.append_nil] at this

theorem leaf_apart (hF : BisL N X F) (hX : Inc N X) {mk : Itv K → Bool} (hR : Rooted mk F) {c c' : IN} (h : IsLeaf mk F c) (h' : IsLeaf mk F c')
    (h1 : (box X c.1 c.2).1 < (box X c'.1 c'.2).2) (h2 : (box X c'.1 c'.2).1 < (box X c.1 c.2).2) : c = c' := by
  obtain ⟨f, p⟩ := c
  obtain ⟨g, q⟩ := c'
  have hf := ex_lt hF (mkAt_ex h.1)
  have hg := ex_lt hF (mkAt_ex h'.1)
  have hb := box_root hX hf
  have hb' := box_root hX hg
  simp only at *
  have hfg : f = g := by
    rcases lt_trichotomy f g with hlt | heq | hlt
    · exact absurd (inc_le hX (show f + 1 ≤ g from hlt) (by omega)) (by linarith)
    · exact heq
    · exact absurd (inc_le hX (show g + 1 ≤ f from hlt) (by omega)) (by linarith)
  subst hfg
  rcases tails p q with ⟨r, rfl⟩ | ⟨r, rfl⟩ | ⟨s, k, j, r, r', hne, rfl, rfl⟩
  · rw [leaf_top hF hR h' h.1]; rfl
  · rw [leaf_top hF hR h h'.1]; rfl
  · rcases box_apart hX hf r r' hne with h3 | h3
    · exact absurd h3 (by linarith)
    · exact absurd h3 (by linarith)

/-! ### Vertices -/

/-- The coordinate of a vertex. -/
theorem coord_box (hF : BisL N X F) {c : IN} (hc : Ex F c) (i : Fin 2) :
    coord F c i = some (if i = 0 then (box X c.1 c.2).1 else (box X c.1 c.2).2) := by
  obtain ⟨t, ht⟩ := Option.isSome_iff_exists.1 hc
  obtain ⟨_, _, h3⟩ := cellAt_bis hF ht
  have hlo : t.data.lo = (box X c.1 c.2).1 := congrArg Prod.fst h3
  have hhi : t.data.hi = (box X c.1 c.2).2 := congrArg Prod.snd h3
  simp only [coord, ht, Option.map_some, hlo, hhi]

/-- The position of a vertex. -/
def vpos (X : Nat → K) : VX → K
  | .root i => X i
  | .mid c => ((box X c.1 c.2).1 + (box X c.1 c.2).2) / 2

theorem vpos_vertOf (X : Nat → K) (c : IN) (i : Fin 2) : vpos X (vertOf c i) = if i = 0 then (box X c.1 c.2).1 else (box X c.1 c.2).2 := by
  obtain ⟨f, p⟩ := c
  induction p with
  | nil => fin_cases i <;> rfl
  | cons k p ih =>
    simp only [vertOf, vertL] at ih ⊢
    by_cases hki : k = i
    · subst hki
      rw [if_pos rfl, ih]
      fin_cases k <;> rfl
    · rw [if_neg hki]
      fin_cases k <;> fin_cases i
      · exact absurd rfl hki
      · rfl
      · rfl
      · exact absurd rfl hki

theorem node_verts (e : ET) (he : e ≠ .DQ0) : 1 < nd1 e ∧ node e 0 = 0 ∧ node e 1 = 1 := by
  cases e <;> first | exact absurd rfl he | decide +kernel

/-- The position of vertex `i` in the nodes. -/
theorem place_vert (X : Nat → K) {e : ET} (he : e ≠ .DQ0) (c : IN) (i : Fin 2) (hi : i.1 < nd1 e) :
    place X (e := e) (c, ⟨i.1, hi⟩) = vpos X (vertOf c i) := by
  obtain ⟨_, h0, h1⟩ := node_verts e he
  rw [vpos_vertOf]
  fin_cases i
  · show pos X c (node e 0) = _
    rw [h0, pos_zero]; rfl
  · show pos X c (node e 1) = _
    rw [h1, pos_one]; rfl

theorem vert_up {l m : Loc .Q1} (h : upL .Q1 l = some m) (i j : Fin 2) (hi : l.2.1 = i) (hj : m.2.1 = j) : vertOf l.1 i = vertOf m.1 j := by
  obtain ⟨k, h1, h2⟩ := upL_some .Q1 l m h
  rw [inherit_tab] at h2
  rw [hi, hj] at h2
  rw [h1]
  fin_cases k <;> fin_cases i <;> fin_cases j <;> first | rfl | (exfalso; revert h2; decide)

theorem vert_next {c d : IN} (h : next N c = some d) : vertOf c 1 = vertOf d 0 := by
  obtain ⟨f, _ | ⟨k, p⟩⟩ := c
  · simp only [next] at h
    split_ifs at h
    cases h; rfl
  · simp only [next] at h
    split_ifs at h with hk
    cases h; subst hk; rfl

/-- Two vertices are identical exactly if they have the same coordinate. -/
theorem vert_inj (hX : Inc N X) {c c' : IN} (hc : c.1 < N) (hc' : c'.1 < N) (i j : Fin 2) :
    vertOf c i = vertOf c' j ↔ vpos X (vertOf c i) = vpos X (vertOf c' j) := by
  constructor
  · intro h; rw [h]
  · intro h
    have hN : false = true → 2 ≤ N := fun h => by cases h
    rw [← place_vert X (e := .Q1) (by decide) c i i.2, ← place_vert X (e := .Q1) (by decide) c' j j.2] at h
    have hs := same_complete (e := .Q1) (per := false) rfl hX hN (l := (c, ⟨i.1, i.2⟩)) (l' := (c', ⟨j.1, j.2⟩)) hc hc' (.inl h)
    obtain ⟨t, t', h1, h2, h3⟩ := hs
    have htop : ∀ {l t : Loc .Q1}, Top (contSys hN .Q1 rfl) l t → ∀ i : Fin 2, l.2.1 = i → ∃ j : Fin 2, t.2.1 = j ∧ vertOf l.1 i = vertOf t.1 j := by
      intro l t ht
      induction ht with
      | top l h => exact fun i hi => ⟨i, hi, rfl⟩
      | up l m t h _ ih =>
        intro i hi
        obtain ⟨j, hj, e2⟩ := ih ⟨m.2.1, m.2.2⟩ rfl
        exact ⟨j, hj, (vert_up h i ⟨m.2.1, m.2.2⟩ hi rfl).trans e2⟩
    obtain ⟨a, ha, e1⟩ := htop h1 i rfl
    obtain ⟨b, hb, e2⟩ := htop h2 j rfl
    have e1' : vertOf c i = vertOf t.1 a := e1
    have e2' : vertOf c' j = vertOf t'.1 b := e2
    rw [e1', e2']
    have hj : ∀ {t t' : Loc .Q1} {a b : Fin 2}, t.2.1 = a → t'.2.1 = b → Jn N false t t' → vertOf t.1 a = vertOf t'.1 b := by
      intro t t' a b ha hb hJ
      obtain ⟨hr, h1, h0⟩ := hJ
      have ea : a = 1 := Fin.ext (by rw [← ha, h1]; rfl)
      have eb : b = 0 := Fin.ext (by rw [← hb, h0]; rfl)
      subst ea eb
      rcases hr with hr | ⟨hr, _⟩
      · exact vert_next hr
      · cases hr
    rcases h3 with rfl | h3 | h3
    · have : a = b := Fin.ext (ha.symm.trans hb)
      rw [this]
    · exact hj ha hb h3
    · exact (hj hb ha h3).symm

theorem vert_ne (hX : Inc N X) {c : IN} (hc : c.1 < N) : vertOf c 0 ≠ vertOf c 1 := by
  intro h
  have := (vert_inj hX hc hc 0 1).1 h
  rw [vpos_vertOf, vpos_vertOf] at this
  exact absurd this (ne_of_lt (box_pos hX hc c.2))

/-- The boundary vertices are those with the first or the last coordinate. -/
theorem isEnd_iff (hF : BisL N X F) (hX : Inc N X) {c : IN} (hc : c.1 < N) (i : Fin 2) :
    isEnd F (vertOf c i) = true ↔ vpos X (vertOf c i) = X 0 ∨ vpos X (vertOf c i) = X N := by
  have hN : 0 < N := lt_of_le_of_lt (Nat.zero_le _) hc
  unfold isEnd
  rw [Bool.or_eq_true, decide_eq_true_iff, decide_eq_true_iff, hF.1]
  rw [vert_inj hX hc (c' := (0, [])) hN i 0, vert_inj hX hc (c' := (N - 1, [])) (by simp; omega) i 1]
  have e1 : vpos X (vertOf (0, []) 0) = X 0 := rfl
  have e2 : vpos X (vertOf (N - 1, []) 1) = X N := by
    show X (N - 1 + 1) = X N
    rw [Nat.sub_add_cancel hN]
  rw [e1, e2]

end
end Verif.Line
