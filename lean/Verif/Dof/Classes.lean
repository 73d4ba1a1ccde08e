import Verif.Dof.Points
import Verif.Dof.Number

/-!
# The places of dofs: what the cells share is what the domain identifies
-/

namespace Verif.Dof
open Verif.Fem Verif.Mesh

/-- What the argument uses of a refined mesh: the cells that exist and the vertices of the cells. -/
structure Geo {K W : Type} (B : Base K) (ex : CN → Prop) (V : CN → Fin 4 → W) : Prop where
  inv : ∀ k j, B.T k = some j → B.T j = some k
  par : ∀ c k, ex (child c k) → ex c
  sib : ∀ c k k', ex (child c k) → ex (child c k')
  root : ∀ c, ex c → c.1 < B.n
  roots : ∀ f, f < B.n → ex (f, [])
  swap : ∀ c d i j, ex c → ex d → vt B.T (side c i) = some (side d j) → V c i = V d (j + 1) ∧ V c (i + 1) = V d j
  inj : ∀ c i j, ex c → V c i = V c j → i = j

/-- A place: dof `p` of a cell. -/
abbrev Loc (e : ET) := CN × Fin (nd2 e)

/-- Where the place is in its cell. -/
def pt {e : ET} (l : Loc e) : CN × (ℚ × ℚ) := (l.1, node e l.2)

open Classical in
/-- The place of the parent cell that passes its dof on to this place. -/
noncomputable def upL (e : ET) (l : Loc e) : Option (Loc e) :=
  match l.1.2 with
  | [] => none
  | k :: t => if h : ∃ q : Fin (nd2 e), (l.2.1, q.1) ∈ inherit e k then some ((l.1.1, t), h.choose) else none

theorem upL_iff (e : ET) (c : CN) (k : Fin 4) (p : Fin (nd2 e)) (m : Loc e) :
    upL e (child c k, p) = some m ↔ m.1 = c ∧ (p.1, m.2.1) ∈ inherit e k := by
  unfold upL
  simp only [child]
  split_ifs with h
  · have hs := h.choose_spec
    constructor
    · intro e'
      cases e'
      exact ⟨rfl, hs⟩
    · rintro ⟨h1, h2⟩
      have := inherit_fun e k _ _ _ hs h2
      congr 1
      exact Prod.ext h1.symm (Fin.ext this)
  · simp only [reduceCtorEq, false_iff, not_and]
    intro _ h2
    exact h ⟨m.2, h2⟩

theorem upL_root (e : ET) (f : Nat) (p : Fin (nd2 e)) : upL e ((f, []), p) = none := rfl

theorem upL_some (e : ET) (l m : Loc e) (h : upL e l = some m) : ∃ k, l.1 = child m.1 k ∧ (l.2.1, m.2.1) ∈ inherit e k := by
  obtain ⟨⟨f, _ | ⟨k, t⟩⟩, p⟩ := l
  · cases h
  · obtain ⟨h1, h2⟩ := (upL_iff e (f, t) k p m).1 h
    exact ⟨k, by rw [h1]; rfl, h2⟩

theorem inherit_iff (e : ET) (he : torn e = false) (k : Fin 4) (p q : Fin (nd2 e)) :
    (p.1, q.1) ∈ inherit e k ↔ emb k (node e p) = node e q :=
  ⟨fun h => (inherit_sound e k _ h).2.2, fun h => inherit_complete e he k p p.2 q q.2 h⟩

/-! ### Nodes -/

/-- The parameter of a point on side `i`. -/
def par (i : Fin 4) (z : ℚ × ℚ) : ℚ :=
  match i with
  | 0 => z.1
  | 1 => z.2
  | 2 => 1 - z.1
  | 3 => 1 - z.2

theorem par_E (i : Fin 4) (r : ℚ) : par i (E i r) = r := by
  fin_cases i <;> simp [par, E]

theorem node_insq (e : ET) (p : Fin (nd2 e)) : InSq (node e p) := by
  unfold node InSq
  rw [nodes_tab]
  revert e p
  decide +kernel

/-- The corners are nodes of a continuous element. -/
theorem cor_node (e : ET) (he : torn e = false) (i : Fin 4) : ∃ p : Fin (nd2 e), node e p = E i 0 := by
  unfold node
  rw [nodes_tab]
  have : ∀ e : ET, torn e = true ∨ ∀ i : Fin 4, ∃ p : Fin (nd2 e), (nodeTab e).getD p (0, 0) = E i 0 := by decide +kernel
  exact (this e).resolve_left (by simp [he]) i

theorem corner_iff {R : Type} [Field R] [LinearOrder R] [IsStrictOrderedRing R] (z : R × R) : Corner z ↔ ∃ i, z = E i 0 := by
  constructor
  · obtain ⟨z1, z2⟩ := z
    rintro ⟨h1 | h1, h2 | h2⟩ <;> simp only at h1 h2 <;> subst h1 h2
    · exact ⟨0, rfl⟩
    · exact ⟨3, by simp [E]⟩
    · exact ⟨1, rfl⟩
    · exact ⟨2, by simp [E]⟩
  · rintro ⟨i, rfl⟩
    rw [E_corner]; exact .inl rfl

/-- The node facing a node on a side. -/
theorem flip_node (e : ET) (i j : Fin 4) (p : Fin (nd2 e)) (r : ℚ) (h : node e p = E i r) :
    ∃ q : Fin (nd2 e), node e q = E j (1 - r) := by
  have key : ∀ e : ET, ∀ i j : Fin 4, ∀ p : Fin (nd2 e), (nodeTab e).getD p (0, 0) ≠ E i (par i ((nodeTab e).getD p (0, 0))) ∨
      ∃ q : Fin (nd2 e), (nodeTab e).getD q (0, 0) = E j (1 - par i ((nodeTab e).getD p (0, 0))) := by decide +kernel
  have hn : ∀ p, node e p = (nodeTab e).getD p (0, 0) := by intro p; unfold node; rw [nodes_tab]
  have hr : par i (node e p) = r := by rw [h, par_E]
  have := key e i j p
  rw [← hn, hr] at this
  obtain ⟨q, hq⟩ := this.resolve_left (by simp [h])
  exact ⟨q, by rw [hn]; exact hq⟩

/-- A node of a cell that lies in a child is a node of the child. -/
theorem nest_node (e : ET) (he : torn e = false) (k : Fin 4) (z : ℚ × ℚ) (hz : InSq z) (q : Fin (nd2 e))
    (h : emb k z = node e q) : ∃ p : Fin (nd2 e), node e p = z := by
  have key : ∀ e : ET, torn e = true ∨ ∀ k : Fin 4, ∀ q : Fin (nd2 e),
      let y := (nodeTab e).getD q (0, 0)
      let z : ℚ × ℚ := (2 * y.1 - (if k = 1 ∨ k = 2 then 1 else 0), 2 * y.2 - (if k = 2 ∨ k = 3 then 1 else 0))
      ¬ InSq z ∨ ∃ p : Fin (nd2 e), (nodeTab e).getD p (0, 0) = z := by
    unfold InSq
    decide +kernel
  have hn : ∀ p, node e p = (nodeTab e).getD p (0, 0) := by intro p; unfold node; rw [nodes_tab]
  have := (key e).resolve_left (by simp [he]) k q
  rw [← hn, ← h] at this
  have hz' : z = (2 * (emb k z).1 - (if k = 1 ∨ k = 2 then 1 else 0), 2 * (emb k z).2 - (if k = 2 ∨ k = 3 then 1 else 0)) := by
    obtain ⟨z1, z2⟩ := z
    fin_cases k <;> simp [emb] <;> ring_nf <;> trivial
  simp only [← hz'] at this
  obtain ⟨p, hp⟩ := this.resolve_left (by simp [hz])
  exact ⟨p, by rw [hn]; exact hp⟩

section
variable {K W : Type} {B : Base K} {ex : CN → Prop} {V : CN → Fin 4 → W}

/-- Places of neighbours that are glued along a side. -/
def Adj (B : Base K) (ex : CN → Prop) (e : ET) (l l' : Loc e) : Prop := ex l.1 ∧ ex l'.1 ∧ PGlue B.T (pt l) (pt l')

theorem node_eq {e : ET} {p q : Fin (nd2 e)} (h : node e p = node e q) : p = q :=
  Fin.ext (node_inj e p q p.2 q.2 h)

/-- The classes of glued places: corners around a vertex, or two places on an edge. -/
theorem adj_class (hG : Geo B ex V) (e : ET) {l l' : Loc e} (h : Relation.EqvGen (Adj B ex e) l l') :
    l = l' ∨ (¬ Corner (node e l.2) ∧ ¬ Corner (node e l'.2) ∧ Adj B ex e l l') ∨
    ∃ i j, node e l.2 = E i 0 ∧ node e l'.2 = E j 0 ∧ V l.1 i = V l'.1 j ∧ ex l.1 ∧ ex l'.1 := by
  induction h with
  | rel l l' h =>
    have h' := h
    obtain ⟨x1, x2, hg⟩ := h'
    by_cases hc : Corner (node e l.2)
    · right; right
      obtain ⟨i, j, r, r0, r1, hv, e1, e2⟩ := hg
      simp only [pt] at hv e1 e2
      obtain ⟨s1, s2⟩ := hG.swap l.1 l'.1 i j x1 x2 hv
      rw [e1, E_corner] at hc
      rcases hc with rfl | rfl
      · refine ⟨i, j + 1, e1, ?_, s1, x1, x2⟩
        rw [e2, ← E_next]; congr 1; norm_num
      · exact ⟨i + 1, j, by rw [e1, E_next], by rw [e2]; congr 1; norm_num, s2, x1, x2⟩
    · exact .inr (.inl ⟨hc, fun h => hc (hg.corner.2 h), h⟩)
  | refl l => exact .inl rfl
  | symm l l' _ ih =>
    rcases ih with h | ⟨h1, h2, h3, h4, h5⟩ | ⟨i, j, h1, h2, h3, h4, h5⟩
    · exact .inl h.symm
    · exact .inr (.inl ⟨h2, h1, h4, h3, h5.symm hG.inv⟩)
    · exact .inr (.inr ⟨j, i, h2, h1, h3.symm, h5, h4⟩)
  | trans l l' l'' _ _ ih1 ih2 =>
    rcases ih1 with rfl | ⟨h1, h2, h3⟩ | ⟨i, j, h1, h2, h3, h4, h5⟩
    · exact ih2
    · rcases ih2 with rfl | ⟨g1, g2, g3⟩ | ⟨i, j, g1, _⟩
      · exact .inr (.inl ⟨h1, h2, h3⟩)
      · left
        have := PGlue.unique (h3.2.2.symm hG.inv) g3.2.2 h2
        simp only [pt, Prod.mk.injEq] at this
        exact Prod.ext this.1 (node_eq this.2)
      · exact absurd ((corner_iff _).2 ⟨i, g1⟩) h2
    · rcases ih2 with rfl | ⟨g1, g2, g3⟩ | ⟨i', j', g1, g2, g3, g4, g5⟩
      · exact .inr (.inr ⟨i, j, h1, h2, h3, h4, h5⟩)
      · exact absurd ((corner_iff _).2 ⟨j, h2⟩) g1
      · have : j = i' := E_zero (h2.symm.trans g1)
        subst this
        exact .inr (.inr ⟨i, j', h1, g2, h3.trans g3, h4, g5⟩)
where
  E_zero {i j : Fin 4} (h : E i (0 : ℚ) = E j 0) : i = j := by
    revert h
    fin_cases i <;> fin_cases j <;> simp [E]

theorem no_self (hG : Geo B ex V) {c : CN} (hc : ex c) (i j : Fin 4) : vt B.T (side c i) ≠ some (side c j) := by
  intro h
  obtain ⟨h1, h2⟩ := hG.swap c c i j hc hc h
  have e1 := hG.inj c _ _ hc h1
  have e2 := hG.inj c _ _ hc h2
  rw [e1] at e2
  revert e2
  clear * -
  revert j
  decide

theorem adj_up (hG : Geo B ex V) (e : ET) (he : torn e = false) {l l' : Loc e} (h : Relation.EqvGen (Adj B ex e) l l') :
    (upL e l = none ∧ upL e l' = none) ∨ ∃ m m', upL e l = some m ∧ upL e l' = some m' ∧
      Relation.EqvGen (Adj B ex e) m m' := by
  induction h with
  | rel l l' h =>
    obtain ⟨⟨f, c⟩, p⟩ := l
    obtain ⟨⟨g, d⟩, q⟩ := l'
    obtain ⟨x1, x2, hg⟩ := h
    simp only [pt] at x1 x2 hg
    have hl : c.length = d.length := by
      obtain ⟨i, j, r, _, _, hv, _⟩ := hg
      have := vt_level _ _ hv
      rw [owner_side, owner_side] at this
      exact this
    cases c with
    | nil =>
      cases d with
      | nil => exact .inl ⟨rfl, rfl⟩
      | cons k d => simp at hl
    | cons k c =>
      cases d with
      | nil => simp at hl
      | cons k' d =>
        have hP : ex (f, c) := hG.par (f, c) k x1
        have hP' : ex (g, d) := hG.par (g, d) k' x2
        have up1 := upL_iff e (f, c) k p
        have up2 := upL_iff e (g, d) k' q
        simp only [child] at up1 up2
        rcases PGlue.up (P := (f, c)) (P' := (g, d)) hg with ⟨h1, h2⟩ | h1
        · by_cases hn : ∃ m : Fin (nd2 e), emb k (node e p) = node e m
          · obtain ⟨m, hm⟩ := hn
            right
            refine ⟨((f, c), m), ((g, d), m), (up1 _).2 ⟨rfl, (inherit_iff e he k p m).2 hm⟩,
              (up2 _).2 ⟨rfl, (inherit_iff e he k' q m).2 (h2 ▸ hm)⟩, ?_⟩
            rw [h1]
            exact .refl _
          · left
            constructor
            · rw [Option.eq_none_iff_forall_ne_some]
              intro m hm
              exact hn ⟨m.2, (inherit_iff e he k p m.2).1 ((up1 m).1 hm).2⟩
            · rw [Option.eq_none_iff_forall_ne_some]
              intro m hm
              exact hn ⟨m.2, h2.trans ((inherit_iff e he k' q m.2).1 ((up2 m).1 hm).2)⟩
        · have flip : ∀ (x y : CN × (ℚ × ℚ)), PGlue B.T x y → (∃ m : Fin (nd2 e), x.2 = node e m) →
              ∃ m : Fin (nd2 e), y.2 = node e m := by
            rintro x y ⟨i, j, r, _, _, _, e1, e2⟩ ⟨m, hm⟩
            obtain ⟨m', hm'⟩ := flip_node e i j m r (hm.symm.trans e1)
            exact ⟨m', by rw [hm', e2]⟩
          by_cases hn : ∃ m : Fin (nd2 e), emb k (node e p) = node e m
          · obtain ⟨m', hm'⟩ := flip _ _ h1 hn
            obtain ⟨m, hm⟩ := hn
            simp only at hm'
            right
            refine ⟨((f, c), m), ((g, d), m'), (up1 _).2 ⟨rfl, (inherit_iff e he k p m).2 hm⟩,
              (up2 _).2 ⟨rfl, (inherit_iff e he k' q m').2 hm'⟩, .rel _ _ ⟨hP, hP', ?_⟩⟩
            rw [hm, hm'] at h1
            exact h1
          · left
            constructor
            · rw [Option.eq_none_iff_forall_ne_some]
              intro m hm
              exact hn ⟨m.2, (inherit_iff e he k p m.2).1 ((up1 m).1 hm).2⟩
            · rw [Option.eq_none_iff_forall_ne_some]
              intro m hm
              exact hn (flip _ _ (h1.symm hG.inv) ⟨m.2, (inherit_iff e he k' q m.2).1 ((up2 m).1 hm).2⟩)
  | refl l =>
    rcases h : upL e l with _ | m
    · exact .inl ⟨rfl, rfl⟩
    · exact .inr ⟨m, m, rfl, rfl, .refl _⟩
  | symm l l' _ ih =>
    rcases ih with ⟨h1, h2⟩ | ⟨m, m', h1, h2, h3⟩
    · exact .inl ⟨h2, h1⟩
    · exact .inr ⟨m', m, h2, h1, h3.symm⟩
  | trans l l' l'' _ _ ih1 ih2 =>
    rcases ih1 with ⟨h1, h2⟩ | ⟨m, m', h1, h2, h3⟩
    · rcases ih2 with ⟨g1, g2⟩ | ⟨n, n', g1, _⟩
      · exact .inl ⟨h1, g2⟩
      · rw [h2] at g1; cases g1
    · rcases ih2 with ⟨g1, g2⟩ | ⟨n, n', g1, g2, g3⟩
      · rw [h2] at g1; cases g1
      · rw [h2] at g1; cases g1
        exact .inr ⟨m, n', h1, g2, h3.trans _ _ _ g3⟩

theorem upL_lev (e : ET) (l m : Loc e) (h : upL e l = some m) : level m.1 < level l.1 := by
  obtain ⟨k, h1, _⟩ := upL_some e l m h
  rw [h1, level_child]; omega

/-- The places of a continuous element. -/
noncomputable def contSys (hG : Geo B ex V) (e : ET) (he : torn e = false) : Sys (Loc e) CN where
  cell := Prod.fst
  lev := fun l => level l.1
  up := upL e
  nb := Relation.EqvGen (Adj B ex e)
  eqv := Relation.EqvGen.is_equivalence _
  up_lev := upL_lev e
  nb_up := fun _ _ h => adj_up hG e he h
  self := by
    intro l l' h hc
    rcases adj_class hG e h with h1 | ⟨h1, _, h2, _, h3⟩ | ⟨i, j, h1, h2, h3, h4, _⟩
    · exact h1
    · obtain ⟨i, j, r, _, _, hv, _⟩ := h3
      simp only [pt, ← hc] at hv
      exact absurd hv (no_self hG h2 i j)
    · rw [← hc] at h3
      have := hG.inj _ _ _ h4 h3
      subst this
      exact Prod.ext hc (node_eq (h1.trans h2.symm))

/-- The places of a torn element: nothing is shared with neighbours. -/
noncomputable def tornSys (e : ET) : Sys (Loc e) CN where
  cell := Prod.fst
  lev := fun l => level l.1
  up := upL e
  nb := Eq
  eqv := ⟨fun _ => rfl, fun h => h.symm, fun h h' => h.trans h'⟩
  up_lev := upL_lev e
  nb_up := by
    rintro l l' rfl
    rcases upL e l with _ | m
    · exact .inl ⟨rfl, rfl⟩
    · exact .inr ⟨m, m, rfl, rfl, rfl⟩
  self := fun _ _ h _ => h

/-! ### Places that share a dof are the same point, and conversely -/

theorem up_root {e : ET} {l m : Loc e} (h : upL e l = some m) :
    rootPt l.1 (node e l.2) = rootPt m.1 (node e m.2) := by
  obtain ⟨k, h1, h2⟩ := upL_some e l m h
  rw [h1, ← (inherit_sound e k _ h2).2.2]
  rfl

theorem same_sound (hG : Geo B ex V) (e : ET) (he : torn e = false) {l l' : Loc e} (h : Same (contSys hG e he) l l') :
    SamePt B (rootPt l.1 (node e l.2)) (rootPt l'.1 (node e l'.2)) := by
  obtain ⟨t, t', h1, h2, h3⟩ := h
  have top : ∀ l t, Top (contSys hG e he) l t → rootPt l.1 (node e l.2) = rootPt t.1 (node e t.2) := by
    intro l t h
    induction h with
    | top l _ => rfl
    | up l m t hu _ ih => rw [← ih]; exact up_root hu
  rw [top l t h1, top l' t' h2]
  clear h1 h2 top
  have h3' : Relation.EqvGen (Adj B ex e) t t' := h3
  induction h3' with
  | rel a b h =>
    obtain ⟨x1, x2, hg⟩ := h
    exact PGlue.same _ _ _ _ _ _ (hG.root _ x1) (hG.root _ x2) hg
  | refl a => exact .refl _
  | symm a b _ ih => exact (ih (by assumption)).symm
  | trans a b c h1 h2 ih1 ih2 => exact (ih1 h1).trans _ _ _ (ih2 h2)

theorem corner_same (hG : Geo B ex V) (p q : List (Fin 4)) (f g : Nat) (z w : ℚ × ℚ) (hl : p.length = q.length)
    (hz : InSq z) (hw : InSq w) (h : SamePt B (rootPt (f, p) z) (rootPt (g, q) w)) (hc : Corner z) : Corner w := by
  by_contra hc'
  rcases same_noncorner hG.inv q p g f w z hl.symm hw hz h.symm hc' with ⟨_, h1⟩ | h1
  · exact hc' (h1 ▸ hc)
  · exact hc' (h1.corner.2 hc)

/-- Gluing children of the same cell along the half-edge from the midpoint of side `k` to the center. -/
theorem glue_inner (T : Nat → Option Nat) (P : CN) (k : Fin 4) (r : ℚ) (h0 : 0 ≤ r) (h1 : r ≤ 1) :
    PGlue T (child P k, E (k + 1) r) (child P (k + 1), E (k + 3) (1 - r)) := by
  refine ⟨k + 1, k + 3, r, h0, h1, ?_, rfl, rfl⟩
  have e1 := side_k1 P k
  have e2 := side_k2 P (k + 1)
  rw [fin4_succ_pred, fin4_g] at e2
  simp only
  rw [e1, e2]
  rfl

/-- Gluing children across a side of the parents. -/
theorem glue_across (T : Nat → Option Nat) (P P' : CN) (i j : Fin 4) (h : vt T (side P i) = some (side P' j)) (r : ℚ)
    (h0 : 0 ≤ r) (h1 : r ≤ 1) : PGlue T (child P i, E i r) (child P' (j + 1), E j (1 - r)) := by
  refine ⟨i, j, r, h0, h1, ?_, rfl, rfl⟩
  have e1 := side_k P i
  have e2 := side_k3 P' (j + 1)
  rw [fin4_succ_pred, fin4_h] at e2
  simp only
  rw [e1, e2, vt, h]
  rfl

theorem fin4_i (k : Fin 4) : k + 3 = k + 2 + 1 := by revert k; decide
theorem fin4_j (k : Fin 4) : k + 1 + 1 + 3 = k + 1 := by revert k; decide

/-- Corners of two cells of the same level that are the same point of the domain share their dof. -/
theorem corner_conn (hG : Geo B ex V) (e : ET) (he : torn e = false) : ∀ (p q : List (Fin 4)) (f g : Nat)
    (a b : Fin (nd2 e)), p.length = q.length → ex (f, p) → ex (g, q) → Corner (node e a) → Corner (node e b) →
    SamePt B (rootPt (f, p) (node e a)) (rootPt (g, q) (node e b)) →
    Same (contSys hG e he) ((f, p), a) ((g, q), b) := by
  have cor : ∀ z, Corner z → ∃ p : Fin (nd2 e), node e p = z := by
    intro z hz
    obtain ⟨i, rfl⟩ := (corner_iff z).1 hz
    exact cor_node e he i
  intro p
  induction p with
  | nil =>
    intro q f g a b hl hx hx' hc hc' h
    cases q with
    | cons k q => simp at hl
    | nil =>
      have key : ∀ x y, SamePt B x y → (Corner x.2 ↔ Corner y.2) ∧ ∀ a b : Fin (nd2 e), Corner x.2 → node e a = x.2 →
          node e b = y.2 → Relation.EqvGen (Adj B ex e) ((x.1, []), a) ((y.1, []), b) := by
        intro x y h
        induction h with
        | rel x y h =>
          have h' := h
          obtain ⟨_, _, _, _, _, hx, hy, _⟩ := h
          have h1 := (glued_iff x.1 y.1 x.2 y.2 hx hy).1 h'
          refine ⟨h1.corner, fun a b _ ha hb => .rel _ _ ⟨hG.roots _ hx, hG.roots _ hy, ?_⟩⟩
          simp only [pt, ha, hb]
          exact h1
        | refl x =>
          refine ⟨Iff.rfl, fun a b _ ha hb => ?_⟩
          rw [node_eq (ha.trans hb.symm)]
          exact .refl _
        | symm x y _ ih =>
          refine ⟨ih.1.symm, fun a b hc ha hb => (ih.2 b a (ih.1.2 hc) hb ha).symm⟩
        | trans x y z _ _ ih1 ih2 =>
          refine ⟨ih1.1.trans ih2.1, fun a b hc ha hb => ?_⟩
          obtain ⟨m, hm⟩ := cor y.2 (ih1.1.1 hc)
          exact (ih1.2 a m hc ha hm).trans _ _ _ (ih2.2 m b (ih1.1.1 hc) hm hb)
      exact Same.nb ((key _ _ h).2 a b hc rfl rfl)
  | cons k p ih =>
    intro q f g a b hl hx hx' hc hc' h
    cases q with
    | nil => simp at hl
    | cons k' q =>
      simp only [List.length_cons, Nat.add_right_cancel_iff] at hl
      have hP : ex (f, p) := hG.par (f, p) k hx
      have hP' : ex (g, q) := hG.par (g, q) k' hx'
      have hz := hc.insq
      have hw := hc'.insq
      have kx : ∀ i, ex (child (f, p) i) := fun i => hG.sib (f, p) k i hx
      have kx' : ∀ i, ex (child (g, q) i) := fun i => hG.sib (g, q) k' i hx'
      -- adjacent places
      have adj : ∀ (c d : CN) (u v : Fin (nd2 e)), ex c → ex d → PGlue B.T (c, node e u) (d, node e v) →
          Relation.EqvGen (Adj B ex e) (c, u) (d, v) := fun c d u v h1 h2 h3 => .rel _ _ ⟨h1, h2, h3⟩
      -- all four children share the center
      have cen1 : ∀ (P : CN) (k : Fin 4) (u v : Fin (nd2 e)), (∀ i, ex (child P i)) → node e u = E (k + 1) 1 →
          node e v = E (k + 2) 1 → Relation.EqvGen (Adj B ex e) (child P k, u) (child P (k + 1), v) := by
        intro P k u v hx hu hv
        refine adj _ _ u v (hx _) (hx _) ?_
        have := glue_inner B.T P k 1 (by norm_num) (by norm_num)
        rw [hu, hv, E_next (k + 2)]
        rw [fin4_i] at this
        simpa using this
      by_cases hZ : Corner (emb k (node e a))
      · have hW := corner_same hG p q f g _ _ hl (emb_insq k hz) (emb_insq k' hw) h hZ
        obtain ⟨m, hm⟩ := cor _ hZ
        obtain ⟨m', hm'⟩ := cor _ hW
        have h1 : Same (contSys hG e he) ((f, p), m) ((g, q), m') := by
          refine ih q f g m m' hl hP hP' (hm ▸ hZ) (hm' ▸ hW) ?_
          rw [hm, hm']
          exact h
        have u1 : Same (contSys hG e he) ((f, k :: p), a) ((f, p), m) :=
          Same.up ((upL_iff e (f, p) k a _).2 ⟨rfl, (inherit_iff e he k a m).2 hm.symm⟩)
        have u2 : Same (contSys hG e he) ((g, k' :: q), b) ((g, q), m') :=
          Same.up ((upL_iff e (g, q) k' b _).2 ⟨rfl, (inherit_iff e he k' b m').2 hm'.symm⟩)
        exact u1.trans (h1.trans u2.symm)
      · refine Same.nb (S := contSys hG e he) ?_
        show Relation.EqvGen (Adj B ex e) (child (f, p) k, a) (child (g, q) k', b)
        rcases same_noncorner hG.inv p q f g (emb k (node e a)) (emb k' (node e b)) hl (emb_insq k hz)
          (emb_insq k' hw) h hZ with ⟨h1, h2⟩ | h1
        · -- the same parent
          rw [h1]
          rw [h1] at kx'
          rcases emb_eq k k' hz hw h2.symm with ⟨rfl, e1⟩ | ⟨rfl, r, r0, r1, e1, e2⟩ | ⟨rfl, r, r0, r1, e1, e2⟩ |
            ⟨rfl, e1, e2⟩
          · rw [node_eq e1]; exact .refl _
          · refine adj _ _ a b (kx _) (kx _) ?_
            rw [e1, e2]
            exact glue_inner B.T (f, p) k r r0 r1
          · refine (adj _ _ b a (kx _) (kx _) ?_).symm
            rw [e1, e2]
            exact glue_inner B.T (f, p) k' r r0 r1
          · obtain ⟨m, hm⟩ := cor (E (k + 2) 1) (by rw [E_corner]; exact .inr rfl)
            refine (cen1 (f, p) k a m kx e1 hm).trans _ _ _ ?_
            have e3 : k + 2 = k + 1 + 1 := by clear * -; revert k; decide
            have := cen1 (f, p) (k + 1) m b kx (by rw [hm, e3]) (by
              rw [e2]
              have : k + 2 + 1 = k + 1 + 2 := by clear * -; revert k; decide
              rw [this])
            rw [e3]
            exact this
        · -- glued parents
          obtain ⟨i, j, r, r0, r1, hv, e1, e2⟩ := h1
          simp only at hv e1 e2
          have hvs := vt_inv hG.inv _ _ hv
          have hr : r = 1 / 2 := by
            rcases emb_on_side k i hz e1 with ⟨_, hz', hr⟩ | ⟨_, hz', hr⟩
            · rw [hz', E_corner] at hc
              rw [e1, E_corner] at hZ
              rcases hc with h | h
              · exact absurd (.inl (by linarith)) hZ
              · linarith
            · rw [hz', E_corner] at hc
              rw [e1, E_corner] at hZ
              rcases hc with h | h
              · linarith
              · exact absurd (.inr (by linarith)) hZ
          subst hr
          -- the two children at the midpoint of a side
          have mid : ∀ (P : CN) (i : Fin 4) (u v : Fin (nd2 e)), (∀ i, ex (child P i)) → node e u = E i 1 →
              node e v = E i 0 → Relation.EqvGen (Adj B ex e) (child P i, u) (child P (i + 1), v) := by
            intro P i u v hx hu hv
            refine adj _ _ u v (hx _) (hx _) ?_
            have := glue_inner B.T P i 0 (by norm_num) (by norm_num)
            have e3 : E (i + 3) ((1 : ℚ) - 0) = E i 0 := by
              rw [sub_zero, E_next]
              congr 1
              clear * -; revert i; decide
            rw [e3, ← E_next] at this
            rw [hu, hv]
            exact this
          obtain ⟨m, hm⟩ := cor (E i 0) (by rw [E_corner]; exact .inl rfl)
          obtain ⟨m1, hm1⟩ := cor (E i 1) (by rw [E_corner]; exact .inr rfl)
          obtain ⟨n, hn⟩ := cor (E j 0) (by rw [E_corner]; exact .inl rfl)
          obtain ⟨n1, hn1⟩ := cor (E j 1) (by rw [E_corner]; exact .inr rfl)
          have A := mid (f, p) i m1 m kx hm1 hm
          have A' := mid (g, q) j n1 n kx' hn1 hn
          have C1 : Relation.EqvGen (Adj B ex e) (child (f, p) i, m1) (child (g, q) (j + 1), n) := by
            refine adj _ _ _ _ (kx _) (kx' _) ?_
            rw [hm1, hn]
            have := glue_across B.T _ _ i j hv 1 (by norm_num) (by norm_num)
            simpa using this
          have hka : (k = i ∧ a = m1) ∨ (k = i + 1 ∧ a = m) := by
            rcases emb_on_side k i hz e1 with ⟨h1, hz', _⟩ | ⟨h1, hz', _⟩
            · exact .inl ⟨h1, node_eq (by rw [hz', hm1]; congr 1; norm_num)⟩
            · exact .inr ⟨h1, node_eq (by rw [hz', hm]; congr 1; norm_num)⟩
          have hkb : (k' = j ∧ b = n1) ∨ (k' = j + 1 ∧ b = n) := by
            rcases emb_on_side k' j hw e2 with ⟨h1, hz', _⟩ | ⟨h1, hz', _⟩
            · exact .inl ⟨h1, node_eq (by rw [hz', hn1]; congr 1; norm_num)⟩
            · exact .inr ⟨h1, node_eq (by rw [hz', hn]; congr 1; norm_num)⟩
          rcases hka with ⟨rfl, rfl⟩ | ⟨rfl, rfl⟩ <;> rcases hkb with ⟨rfl, rfl⟩ | ⟨rfl, rfl⟩
          · exact C1.trans _ _ _ A'.symm
          · exact C1
          · exact A.symm.trans _ _ _ (C1.trans _ _ _ A'.symm)
          · exact A.symm.trans _ _ _ C1

/-- A place of a descendant whose point is a node of the ancestor shares the dof of the ancestor. -/
theorem anc_conn (hG : Geo B ex V) (e : ET) (he : torn e = false) (f : Nat) (p : List (Fin 4)) :
    ∀ (q : List (Fin 4)) (a b : Fin (nd2 e)), climb q (node e a) = node e b →
      Same (contSys hG e he) ((f, q ++ p), a) ((f, p), b) := by
  have nest : ∀ (q : List (Fin 4)) (z : ℚ × ℚ), InSq z → (∃ b : Fin (nd2 e), climb q z = node e b) →
      ∃ a : Fin (nd2 e), node e a = z := by
    intro q
    induction q with
    | nil => rintro z _ ⟨b, hb⟩; exact ⟨b, hb.symm⟩
    | cons k q ih =>
      rintro z hz hb
      obtain ⟨a, ha⟩ := ih (emb k z) (emb_insq k hz) hb
      exact nest_node e he k z hz a ha.symm
  intro q
  induction q with
  | nil =>
    intro a b h
    rw [node_eq (h : node e a = node e b)]
    exact Same.refl _
  | cons k q ih =>
    intro a b h
    obtain ⟨m, hm⟩ := nest q (emb k (node e a)) (emb_insq k (node_insq e a)) ⟨b, h⟩
    have u1 : Same (contSys hG e he) ((f, k :: q ++ p), a) ((f, q ++ p), m) :=
      Same.up ((upL_iff e (f, q ++ p) k a _).2 ⟨rfl, (inherit_iff e he k a m).2 hm.symm⟩)
    exact u1.trans (ih m b (by rw [hm]; exact h))

theorem climb_append {R : Type} [Field R] (q p : List (Fin 4)) (z : R × R) : climb (q ++ p) z = climb p (climb q z) := by
  induction q generalizing z with
  | nil => rfl
  | cons k q ih => exact ih (emb k z)

/-- Places at the same point of the domain share their dof. -/
theorem same_complete (hG : Geo B ex V) (hpar : ∀ f q p, ex (f, q ++ p) → ex (f, p)) (e : ET) (he : torn e = false)
    {l l' : Loc e} (hl : ex l.1) (hl' : ex l'.1)
    (h : SamePt B (rootPt l.1 (node e l.2)) (rootPt l'.1 (node e l'.2))) : Same (contSys hG e he) l l' := by
  have key : ∀ (l l' : Loc e), ex l.1 → ex l'.1 → level l.1 ≤ level l'.1 →
      SamePt B (rootPt l.1 (node e l.2)) (rootPt l'.1 (node e l'.2)) → Same (contSys hG e he) l l' := by
    rintro ⟨⟨f, p⟩, a⟩ ⟨⟨g, d⟩, b⟩ hx hx' hle h
    simp only at hx hx' h
    simp only [level] at hle
    -- the ancestor on the level of the first cell
    obtain ⟨q', q, rfl, hq⟩ : ∃ q' q, d = q' ++ q ∧ p.length = q.length :=
      ⟨d.take (d.length - p.length), d.drop (d.length - p.length), (List.take_append_drop _ _).symm, by
        rw [List.length_drop]; omega⟩
    have hxq := hpar g q' q hx'
    have hin := climb_insq q' (node_insq e b)
    have h' : SamePt B (rootPt (f, p) (node e a)) (rootPt (g, q) (climb q' (node e b))) := by
      have : rootPt (g, q' ++ q) (node e b) = rootPt (g, q) (climb q' (node e b)) := by
        simp only [rootPt, climb_append]
      rw [← this]; exact h
    by_cases hc : Corner (node e a)
    · have hc' := corner_same hG p q f g _ _ hq (node_insq e a) hin h' hc
      obtain ⟨i, hi⟩ := (corner_iff _).1 hc'
      obtain ⟨m, hm⟩ := cor_node e he i
      have hm' := hi.trans hm.symm
      rw [hm'] at h'
      exact (corner_conn hG e he p q f g a m hq hx hxq hc (hm' ▸ hc') h').trans (anc_conn hG e he g q q' b m hm').symm
    · rcases same_noncorner hG.inv p q f g _ _ hq (node_insq e a) hin h' hc with ⟨h1, h2⟩ | h1
      · have := anc_conn hG e he g q q' b a h2
        rw [h1] at this
        exact this.symm
      · have h1' := h1
        obtain ⟨i, j, r, _, _, _, e1, e2⟩ := h1
        obtain ⟨m, hm⟩ := flip_node e i j a r e1
        have hm' := e2.trans hm.symm
        simp only at hm'
        rw [hm'] at h1'
        have : Same (contSys hG e he) ((f, p), a) ((g, q), m) :=
          Same.nb (S := contSys hG e he) (.rel _ _ ⟨hx, hxq, h1'⟩)
        exact this.trans (anc_conn hG e he g q q' b m hm').symm
  rcases le_total (level l.1) (level l'.1) with hle | hle
  · exact key l l' hl hl' hle h
  · exact (key l' l hl' hl hle h.symm).symm

end

end Verif.Dof
