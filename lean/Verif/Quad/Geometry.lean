import Verif.Quad.Model
import Verif.Geom.Bin
import Mathlib.Tactic.Linarith
import Mathlib.Tactic.LinearCombination
import Mathlib.Tactic.FieldSimp
import Mathlib.Tactic.Ring
import Mathlib.Tactic.Positivity
import Mathlib.Tactic.NormNum

/-! # Geometry of quadrilaterals: C19, C20, C21, C22 -/

namespace Verif.Quad
open Verif.Geom

variable {K : Type} [Field K]

/-! ## Specification -/

/-- Twice the signed area of the triangle `a b c`. -/
def tri (a b c : Pt K) : K := (b.x - a.x) * (c.y - a.y) - (c.x - a.x) * (b.y - a.y)

variable [LinearOrder K]

/-- Strictly convex with counter-clockwise vertices: a left turn at every vertex. -/
def ConvexCCW (q : QD K) : Prop :=
  0 < tri q.v0 q.v1 q.v2 ∧ 0 < tri q.v1 q.v2 q.v3 ∧ 0 < tri q.v2 q.v3 q.v0 ∧
    0 < tri q.v3 q.v0 q.v1

/-- `p` is a convex combination of the four vertices. -/
def InHull (q : QD K) (p : Pt K) : Prop :=
  ∃ a b c d : K, 0 ≤ a ∧ 0 ≤ b ∧ 0 ≤ c ∧ 0 ≤ d ∧ a + b + c + d = 1 ∧
    p.x = a * q.v0.x + b * q.v1.x + c * q.v2.x + d * q.v3.x ∧
    p.y = a * q.v0.y + b * q.v1.y + c * q.v2.y + d * q.v3.y

/-! ## Children explicitly -/

omit [LinearOrder K] in
theorem child_0 (q : QD K) (fl) : q.child fl 0 =
    ⟨q.v0, mid q.v0 q.v1, q.center, mid q.v3 q.v0, fl⟩ := rfl
omit [LinearOrder K] in
theorem child_1 (q : QD K) (fl) : q.child fl 1 =
    ⟨mid q.v0 q.v1, q.v1, mid q.v1 q.v2, q.center, fl⟩ := rfl
omit [LinearOrder K] in
theorem child_2 (q : QD K) (fl) : q.child fl 2 =
    ⟨q.center, mid q.v1 q.v2, q.v2, mid q.v2 q.v3, fl⟩ := rfl
omit [LinearOrder K] in
theorem child_3 (q : QD K) (fl) : q.child fl 3 =
    ⟨mid q.v3 q.v0, q.center, mid q.v2 q.v3, q.v3, fl⟩ := rfl

variable [IsStrictOrderedRing K]

omit [IsStrictOrderedRing K] [LinearOrder K] in
theorem two_area (q : QD K) [NeZero (2 : K)] :
    q.area = (1 / 2) * (tri q.v0 q.v1 q.v2 + tri q.v2 q.v3 q.v0) := by
  simp only [QD.area, QD.edges, List.foldl, tri]
  ring

/-! ## C19 -/

/-- The children of any quadrilateral have areas that sum to the parent's. -/
theorem C19_area_sum (q : QD K) (fl : Finset Nat) :
    (q.child fl 0).area + (q.child fl 1).area + (q.child fl 2).area + (q.child fl 3).area
      = q.area := by
  simp only [child_0, child_1, child_2, child_3, QD.area, QD.edges, List.foldl, mid, QD.center]
  field_simp
  ring

theorem area_pos (q : QD K) (h : ConvexCCW q) : 0 < q.area := by
  obtain ⟨h1, h2, h3, h4⟩ := h
  rw [two_area]
  linarith

/-- The children of a strictly convex counter-clockwise cell are strictly convex and
counter-clockwise and have positive area. -/
theorem C19_child_convex (q : QD K) (h : ConvexCCW q) (fl : Finset Nat) (i : Nat) (hi : i < 4) :
    ConvexCCW (q.child fl i) ∧ 0 < (q.child fl i).area := by
  have key : ConvexCCW (q.child fl i) := by
    obtain ⟨h1, h2, h3, h4⟩ := h
    have e : tri q.v0 q.v1 q.v2 + tri q.v2 q.v3 q.v0 = tri q.v1 q.v2 q.v3 + tri q.v3 q.v0 q.v1 := by
      simp only [tri]; ring
    have hcases : i = 0 ∨ i = 1 ∨ i = 2 ∨ i = 3 := by omega
    rcases hcases with rfl | rfl | rfl | rfl
    · rw [child_0]
      refine ⟨?_, ?_, ?_, ?_⟩
      · have : tri q.v0 (mid q.v0 q.v1) q.center =
            (1 / 8) * (tri q.v0 q.v1 q.v2 + tri q.v3 q.v0 q.v1) := by
          simp only [tri, mid, QD.center]; ring
        simp only [this]; linarith
      · have : tri (mid q.v0 q.v1) q.center (mid q.v3 q.v0) =
            (1 / 8) * (tri q.v0 q.v1 q.v2 + tri q.v2 q.v3 q.v0) := by
          simp only [tri, mid, QD.center]; ring
        simp only [this]; linarith
      · have : tri q.center (mid q.v3 q.v0) q.v0 =
            (1 / 8) * (tri q.v3 q.v0 q.v1 + tri q.v2 q.v3 q.v0) := by
          simp only [tri, mid, QD.center]; ring
        simp only [this]; linarith
      · have : tri (mid q.v3 q.v0) q.v0 (mid q.v0 q.v1) = (1 / 4) * tri q.v3 q.v0 q.v1 := by
          simp only [tri, mid]; ring
        simp only [this]; linarith
    · rw [child_1]
      refine ⟨?_, ?_, ?_, ?_⟩
      · have : tri (mid q.v0 q.v1) q.v1 (mid q.v1 q.v2) = (1 / 4) * tri q.v0 q.v1 q.v2 := by
          simp only [tri, mid]; ring
        simp only [this]; linarith
      · have : tri q.v1 (mid q.v1 q.v2) q.center =
            (1 / 8) * (tri q.v0 q.v1 q.v2 + tri q.v1 q.v2 q.v3) := by
          simp only [tri, mid, QD.center]; ring
        simp only [this]; linarith
      · have : tri (mid q.v1 q.v2) q.center (mid q.v0 q.v1) =
            (1 / 8) * (tri q.v0 q.v1 q.v2 + tri q.v2 q.v3 q.v0) := by
          simp only [tri, mid, QD.center]; ring
        simp only [this]; linarith
      · have : tri q.center (mid q.v0 q.v1) q.v1 =
            (1 / 8) * (tri q.v0 q.v1 q.v2 + tri q.v3 q.v0 q.v1) := by
          simp only [tri, mid, QD.center]; ring
        simp only [this]; linarith
    · rw [child_2]
      refine ⟨?_, ?_, ?_, ?_⟩
      · have : tri q.center (mid q.v1 q.v2) q.v2 =
            (1 / 8) * (tri q.v0 q.v1 q.v2 + tri q.v1 q.v2 q.v3) := by
          simp only [tri, mid, QD.center]; ring
        simp only [this]; linarith
      · have : tri (mid q.v1 q.v2) q.v2 (mid q.v2 q.v3) = (1 / 4) * tri q.v1 q.v2 q.v3 := by
          simp only [tri, mid]; ring
        simp only [this]; linarith
      · have : tri q.v2 (mid q.v2 q.v3) q.center =
            (1 / 8) * (tri q.v2 q.v3 q.v0 + tri q.v1 q.v2 q.v3) := by
          simp only [tri, mid, QD.center]; ring
        simp only [this]; linarith
      · have : tri (mid q.v2 q.v3) q.center (mid q.v1 q.v2) =
            (1 / 8) * (tri q.v0 q.v1 q.v2 + tri q.v2 q.v3 q.v0) := by
          simp only [tri, mid, QD.center]; ring
        simp only [this]; linarith
    · rw [child_3]
      refine ⟨?_, ?_, ?_, ?_⟩
      · have : tri (mid q.v3 q.v0) q.center (mid q.v2 q.v3) =
            (1 / 8) * (tri q.v0 q.v1 q.v2 + tri q.v2 q.v3 q.v0) := by
          simp only [tri, mid, QD.center]; ring
        simp only [this]; linarith
      · have : tri q.center (mid q.v2 q.v3) q.v3 =
            (1 / 8) * (tri q.v2 q.v3 q.v0 + tri q.v1 q.v2 q.v3) := by
          simp only [tri, mid, QD.center]; ring
        simp only [this]; linarith
      · have : tri (mid q.v2 q.v3) q.v3 (mid q.v3 q.v0) = (1 / 4) * tri q.v2 q.v3 q.v0 := by
          simp only [tri, mid]; ring
        simp only [this]; linarith
      · have : tri q.v3 (mid q.v3 q.v0) q.center =
            (1 / 8) * (tri q.v2 q.v3 q.v0 + tri q.v3 q.v0 q.v1) := by
          simp only [tri, mid, QD.center]; ring
        simp only [this]; linarith
  exact ⟨key, area_pos _ key⟩

/-- Hence splitting an unrefined convex cell never fails, and it creates exactly the four
children. -/
theorem C19_split_total (q : QD K) (h : ConvexCCW q) (flag : Option Nat) :
    ∃ fl : Finset Nat, (fl = match flag with | some f => {f} | none => ∅) ∧
    split flag (.node q []) = .ok (.node q
      [.node (q.child fl 0) [], .node (q.child fl 1) [], .node (q.child fl 2) [],
       .node (q.child fl 3) []]) := by
  refine ⟨_, rfl, ?_⟩
  have hp := fun i hi => (C19_child_convex q h (match flag with | some f => {f} | none => ∅) i hi).2
  simp only [split]
  rw [if_neg (by simp), if_pos]
  · rfl
  · simp only [List.all_cons, List.all_nil, Bool.and_true, Bool.and_eq_true, decide_eq_true_eq]
    exact ⟨hp 0 (by omega), hp 1 (by omega), hp 2 (by omega), hp 3 (by omega)⟩

/-- A cell that already has children cannot be split again (assertion). -/
theorem C19_split_refused (q : QD K) (ks : List (Cell K)) (h : ks ≠ []) (flag : Option Nat) :
    split flag (.node q ks) = .error .assertion := by
  simp [split, h]

/-! ### Histories -/

/-- Same vertices. -/
def SameVerts (a b : QD K) : Prop := a.v0 = b.v0 ∧ a.v1 = b.v1 ∧ a.v2 = b.v2 ∧ a.v3 = b.v3

/-- Every refined cell has exactly its four geometric children; all cells convex. -/
inductive Conf : Cell K → Prop
  | node (q : QD K) (ks : List (Cell K)) (cvx : ConvexCCW q)
      (kids : ks = [] ∨ ∃ c0 c1 c2 c3, ks = [c0, c1, c2, c3] ∧
        SameVerts c0.data (q.child ∅ 0) ∧ SameVerts c1.data (q.child ∅ 1) ∧
        SameVerts c2.data (q.child ∅ 2) ∧ SameVerts c3.data (q.child ∅ 3))
      (below : ∀ k ∈ ks, Conf k) : Conf (.node q ks)

omit [IsStrictOrderedRing K] in
theorem Conf.cvx {t : Cell K} (h : Conf t) : ConvexCCW t.data := by
  cases h with | node _ _ c _ _ => exact c

omit [IsStrictOrderedRing K] in
theorem modify_conf (g : Cell K → Cell K) (i : Nat) (F : List (Cell K))
    (hg : ∀ t, F[i]? = some t → Conf t → Conf (g t)) (hF : ∀ t ∈ F, Conf t) :
    ∀ t ∈ F.modify i g, Conf t := by
  intro t ht
  obtain ⟨m, hm⟩ := List.mem_iff_getElem?.1 ht
  rw [List.getElem?_modify] at hm
  cases hm' : F[m]? with
  | none => simp [hm'] at hm
  | some s =>
    have hs := hF s (List.mem_of_getElem? hm')
    by_cases him : i = m
    · subst him; simp [hm'] at hm; rw [← hm]; exact hg s hm' hs
    · simp [hm', him] at hm; rw [← hm]; exact hs

omit [IsStrictOrderedRing K] in
/-- In-place update at a path preserves conformity if the update does and keeps the
vertices of the updated cell. -/
theorem modifyL_conf (f : Cell K → Cell K) (p : Path) : ∀ (F : List (Cell K)),
    (∀ t, getL F p = some t → Conf t → Conf (f t) ∧ SameVerts (f t).data t.data) →
    (∀ t ∈ F, Conf t) →
    (∀ t ∈ modifyL f F p, Conf t) ∧ (modifyL f F p).length = F.length ∧
    ∀ (i : Nat) (t : Cell K), F[i]? = some t → ∃ t' : Cell K, (modifyL f F p)[i]? = some t' ∧ SameVerts t'.data t.data := by
  induction p with
  | nil => intro F _ hF; exact ⟨by simpa [modifyL] using hF, rfl,
      fun i t h => ⟨t, h, rfl, rfl, rfl, rfl⟩⟩
  | cons i p ih =>
    intro F hf hF
    have keep : ∀ (g : Cell K → Cell K), (∀ t, F[i]? = some t → SameVerts (g t).data t.data) →
        ∀ (j : Nat) (t : Cell K), F[j]? = some t → ∃ t' : Cell K, (F.modify i g)[j]? = some t' ∧ SameVerts t'.data t.data := by
      intro g hg j t hj
      by_cases h : i = j
      · subst h; exact ⟨g t, by simp [List.getElem?_modify, hj], hg t hj⟩
      · exact ⟨t, by simp [List.getElem?_modify, hj, h], rfl, rfl, rfl, rfl⟩
    cases p with
    | nil =>
      simp only [modifyL]
      refine ⟨modify_conf f i F (fun t ht hc => (hf t (by simpa [getL] using ht) hc).1) hF,
        by simp, keep f ?_⟩
      intro t ht
      exact (hf t (by simpa [getL] using ht) (hF t (List.mem_of_getElem? ht))).2
    | cons j p =>
      simp only [modifyL]
      refine ⟨modify_conf _ i F ?_ hF, by simp, keep _ (fun t _ => ⟨rfl, rfl, rfl, rfl⟩)⟩
      intro t ht hc
      cases hc with
      | node q ks cvx kids below =>
      have hrec := ih ks (fun s hs hcs => hf s (by
        rw [getL_cons F i (j :: p) _ ht]; simpa [getT] using hs) hcs) below
      obtain ⟨h1, h2, h3⟩ := hrec
      refine .node _ _ cvx ?_ h1
      rcases kids with rfl | ⟨c0, c1, c2, c3, rfl, e0, e1, e2, e3⟩
      · left
        simpa using h2
      · right
        obtain ⟨d0, g0, s0⟩ := h3 0 c0 rfl
        obtain ⟨d1, g1, s1⟩ := h3 1 c1 rfl
        obtain ⟨d2, g2, s2⟩ := h3 2 c2 rfl
        obtain ⟨d3, g3, s3⟩ := h3 3 c3 rfl
        have htr : ∀ {a b c : QD K}, SameVerts a b → SameVerts b c → SameVerts a c :=
          fun h k => ⟨h.1.trans k.1, h.2.1.trans k.2.1, h.2.2.1.trans k.2.2.1,
            h.2.2.2.trans k.2.2.2⟩
        refine ⟨d0, d1, d2, d3, ?_, htr s0 e0, htr s1 e1, htr s2 e2, htr s3 e3⟩
        simp only [List.length_cons, List.length_nil] at h2
        simp only [GTree.kids_node]
        generalize modifyL f [c0, c1, c2, c3] (j :: p) = L at h2 g0 g1 g2 g3 ⊢
        rcases L with _ | ⟨a, _ | ⟨b, _ | ⟨c, _ | ⟨d, _ | ⟨e, L⟩⟩⟩⟩⟩ <;>
          simp only [List.length_cons, List.length_nil] at h2 <;> try omega
        simp at g0 g1 g2 g3
        rw [g0, g1, g2, g3]

theorem step_conf (op : Op) (F F' : List (Cell K)) (hF : ∀ t ∈ F, Conf t)
    (h : step F op = .ok F') :
    (∀ t ∈ F', Conf t) ∧ F'.length = F.length ∧
    ∀ (i : Nat) (t : Cell K), F[i]? = some t → ∃ t' : Cell K, F'[i]? = some t' ∧ SameVerts t'.data t.data := by
  cases op with
  | split p flag =>
    simp only [step] at h
    cases hp : getL F p with
    | none => simp [hp] at h
    | some t =>
      simp only [hp] at h
      cases hs : split flag t with
      | error e => simp [hs] at h
      | ok t' =>
        simp only [hs, Except.ok.injEq] at h
        subst h
        refine modifyL_conf (fun _ => t') p F ?_ hF
        intro s hps hcs
        rw [hp] at hps; cases hps
        cases hcs with
        | node q ks cvx kids below =>
        by_cases hk : ks = []
        · subst hk
          obtain ⟨fl, -, e⟩ := C19_split_total q cvx flag
          rw [hs] at e
          cases e
          refine ⟨.node _ _ cvx (.inr ⟨_, _, _, _, rfl, ?_, ?_, ?_, ?_⟩) ?_, rfl, rfl, rfl, rfl⟩
          · simp [child_0, SameVerts]
          · simp [child_1, SameVerts]
          · simp [child_2, SameVerts]
          · simp [child_3, SameVerts]
          · intro k hk
            have := fun i hi => (C19_child_convex q cvx fl i hi).1
            simp only [List.mem_cons, List.not_mem_nil, or_false] at hk
            rcases hk with rfl | rfl | rfl | rfl
            · exact .node _ _ (this 0 (by omega)) (.inl rfl) (by simp)
            · exact .node _ _ (this 1 (by omega)) (.inl rfl) (by simp)
            · exact .node _ _ (this 2 (by omega)) (.inl rfl) (by simp)
            · exact .node _ _ (this 3 (by omega)) (.inl rfl) (by simp)
        · rw [C19_split_refused q ks hk] at hs; cases hs
  | coarsen p =>
    simp only [step, Except.ok.injEq] at h; subst h
    refine modifyL_conf _ p F ?_ hF
    intro t _ hc
    cases hc with
    | node q ks cvx kids below =>
      exact ⟨.node _ _ cvx (.inl rfl) (by simp), rfl, rfl, rfl, rfl⟩
  | mark p f =>
    simp only [step, Except.ok.injEq] at h; subst h
    refine modifyL_conf _ p F ?_ hF
    intro t _ hc
    cases hc with
    | node q ks cvx kids below =>
      exact ⟨.node _ _ cvx kids below, rfl, rfl, rfl, rfl⟩
  | unmark p f =>
    simp only [step, Except.ok.injEq] at h; subst h
    refine modifyL_conf _ p F ?_ hF
    intro t _ hc
    cases hc with
    | node q ks cvx kids below =>
      exact ⟨.node _ _ cvx kids below, rfl, rfl, rfl, rfl⟩

theorem run_conf (ops : List Op) (F F' : List (Cell K)) (hF : ∀ t ∈ F, Conf t)
    (h : run F ops = .ok F') :
    (∀ t ∈ F', Conf t) ∧ F'.length = F.length ∧
    ∀ (i : Nat) (t : Cell K), F[i]? = some t → ∃ t' : Cell K, F'[i]? = some t' ∧ SameVerts t'.data t.data := by
  induction ops generalizing F with
  | nil =>
    simp only [run, Except.ok.injEq] at h; subst h
    exact ⟨hF, rfl, fun i t h => ⟨t, h, rfl, rfl, rfl, rfl⟩⟩
  | cons op ops ih =>
    simp only [run] at h
    cases hs : step F op with
    | error e => simp [hs] at h
    | ok F1 =>
      simp only [hs] at h
      obtain ⟨a1, a2, a3⟩ := step_conf op F F1 hF hs
      obtain ⟨b1, b2, b3⟩ := ih F1 a1 h
      refine ⟨b1, b2.trans a2, ?_⟩
      intro i t ht
      obtain ⟨t1, h1, s1⟩ := a3 i t ht
      obtain ⟨t2, h2, s2⟩ := b3 i t1 h1
      exact ⟨t2, h2, s2.1.trans s1.1, s2.2.1.trans s1.2.1, s2.2.2.1.trans s1.2.2.1,
        s2.2.2.2.trans s1.2.2.2⟩

omit [IsStrictOrderedRing K] in
theorem roots_conf (qs : List (QD K)) (h : ∀ q ∈ qs, ConvexCCW q) :
    ∀ t ∈ rootCells qs, Conf t := by
  intro t ht
  simp only [rootCells, List.mem_map] at ht
  obtain ⟨q, hq, rfl⟩ := ht
  exact .node _ _ (h q hq) (.inl rfl) (by simp)

/-! ### Total area of the leaves -/

/-- Sum of the areas of the cells at the given paths. -/
def areaAt (F : List (Cell K)) (p : Path) : K :=
  match getL F p with
  | some t => t.data.area
  | none => 0

omit [LinearOrder K] [IsStrictOrderedRing K] in
theorem area_same {a b : QD K} (h : SameVerts a b) : a.area = b.area := by
  obtain ⟨h0, h1, h2, h3⟩ := h
  simp only [QD.area, QD.edges, h0, h1, h2, h3]

omit [LinearOrder K] [IsStrictOrderedRing K] in
theorem leavesL_getL (mk : QD K → Bool) (ks : List (Cell K)) (i : Nat) (p : Path) :
    leavesL mk ks p i = (leavesL mk ks [] i).map (p ++ ·) := by
  have hT : ∀ (t : Cell K), ∀ p q, leavesT mk t (p ++ q) = (leavesT mk t q).map (p ++ ·) := by
    intro t
    induction t using GTree.ind with
    | h d ks ih =>
      intro p q
      rw [leavesT, leavesT]
      split
      · have : ∀ (ks : List (Cell K)) (i : Nat),
            (∀ k ∈ ks, ∀ p q, leavesT mk k (p ++ q) = (leavesT mk k q).map (p ++ ·)) →
            leavesL mk ks (p ++ q) i = (leavesL mk ks q i).map (p ++ ·) := by
          intro ks
          induction ks with
          | nil => intro i _; simp [leavesL]
          | cons k ks ihk =>
            intro i h
            rw [leavesL, leavesL, List.map_append, ihk (i + 1) (fun k hk => h k (by simp [hk])),
              List.append_assoc, h k (by simp)]
        exact this ks 0 ih
      · simp
  induction ks generalizing i with
  | nil => simp [leavesL]
  | cons k ks ih =>
    rw [leavesL, leavesL, List.map_append, ih, ← hT]
    simp

/-- The leaf areas below a conforming cell add up to its area. -/
theorem leaf_area (mk : QD K → Bool) (t : Cell K) (h : Conf t) (F : List (Cell K)) (p : Path)
    (hp : getL F p = some t) :
    ((leavesT mk t p).map (areaAt F)).sum = t.data.area := by
  induction t using GTree.ind generalizing p with
  | h d ks ih =>
    cases h with
    | node _ _ cvx kids below =>
    rw [leavesT]
    split
    · next hk =>
      have hne : ks ≠ [] := by rintro rfl; simp [hasKids] at hk
      obtain ⟨c0, c1, c2, c3, rfl, e0, e1, e2, e3⟩ := kids.resolve_left hne
      have hg : ∀ i k, [c0, c1, c2, c3][i]? = some k → getL F (p ++ [i]) = some k := by
        intro i k hik
        rw [getL_append F p [i] _ hp (by simp)]
        simpa [getL] using hik
      simp only [leavesL, List.append_nil, List.map_append, List.sum_append]
      rw [ih c0 (by simp) (below c0 (by simp)) _ (hg 0 c0 rfl),
        ih c1 (by simp) (below c1 (by simp)) _ (hg 1 c1 rfl),
        ih c2 (by simp) (below c2 (by simp)) _ (hg 2 c2 rfl),
        ih c3 (by simp) (below c3 (by simp)) _ (hg 3 c3 rfl)]
      rw [area_same e0, area_same e1, area_same e2, area_same e3]
      have := C19_area_sum d ∅
      simp only [GTree.data_node]
      rw [← this]; ring
    · simp [areaAt, hp]

/-- After any history on convex roots the areas of the leaves (of the mesh or of a
sibling-closed submesh) sum to the total root area, and all cells have positive area. -/
theorem C19_leaf_areas (qs : List (QD K)) (hq : ∀ q ∈ qs, ConvexCCW q) (ops : List Op)
    (F : List (Cell K)) (hrun : run (rootCells qs) ops = .ok F) (sf : Option Nat) :
    ((leavesL (inSub sf) F [] 0).map (areaAt F)).sum = (qs.map QD.area).sum ∧
    ∀ p t, getL F p = some t → ConvexCCW t.data ∧ 0 < t.data.area := by
  obtain ⟨h1, h2, h3⟩ := run_conf ops _ F (roots_conf qs hq) hrun
  constructor
  · have e : (F.map (fun t => t.data.area)) = qs.map QD.area := by
      apply List.ext_getElem?
      intro i
      simp only [List.getElem?_map]
      cases hi : qs[i]? with
      | none =>
        have : F[i]? = none := by
          rw [List.getElem?_eq_none_iff] at hi ⊢
          rw [h2]; simpa [rootCells] using hi
        simp [this]
      | some q =>
        obtain ⟨t', g1, g2⟩ := h3 i (.node q []) (by simp [rootCells, hi])
        simp [g1, area_same g2]
    rw [← e]
    have : ∀ (G : List (Cell K)) (i : Nat), (∀ t ∈ G, Conf t) →
        (∀ j t, G[j]? = some t → getL F [i + j] = some t) →
        ((leavesL (inSub sf) G [] i).map (areaAt F)).sum = (G.map (fun t => t.data.area)).sum := by
      intro G
      induction G with
      | nil => intro i _ _; simp [leavesL]
      | cons k G ih =>
        intro i hG hget
        rw [leavesL, List.map_append, List.sum_append, ih (i + 1) (fun t ht => hG t (by simp [ht]))
          (fun j t hj => by
            have := hget (j + 1) t (by simpa using hj)
            rw [show i + 1 + j = i + (j + 1) by omega]; exact this)]
        rw [leaf_area (inSub sf) k (hG k (by simp)) F _ (by simpa using hget 0 k rfl)]
        simp
    exact this F 0 h1 (fun j t hj => by simpa [getL] using hj)
  · intro p t hp
    have hc : Conf t := by
      have : ∀ (p : Path) (F : List (Cell K)), (∀ t ∈ F, Conf t) → ∀ t, getL F p = some t →
          Conf t := by
        intro p
        induction p with
        | nil => intro F _ t h; simp [getL] at h
        | cons i p ih =>
          intro F hF t h
          cases hk : F[i]? with
          | none => cases p <;> simp [getL, hk] at h
          | some k =>
            have hmem := List.mem_of_getElem? hk
            rw [getL_cons F i p k hk] at h
            cases p with
            | nil => simp [getT] at h; subst h; exact hF k hmem
            | cons j p =>
              simp only [getT, List.cons_ne_nil, if_false] at h
              refine ih k.kids ?_ t h
              have := hF k hmem
              cases this with | node d ks _ _ b => exact b
      exact this p F h1 t hp
    exact ⟨hc.cvx, area_pos _ hc.cvx⟩

/-- The unit square is convex, can be split twice, and a skewed quadrilateral too. -/
def unitSq : QD ℚ := ⟨⟨0, 0⟩, ⟨1, 0⟩, ⟨1, 1⟩, ⟨0, 1⟩, ∅⟩
def skewQ : QD ℚ := ⟨⟨0, 0⟩, ⟨2, 0⟩, ⟨3, 2⟩, ⟨0, 1⟩, ∅⟩

theorem unitSq_convex : ConvexCCW unitSq := by
  norm_num [ConvexCCW, unitSq, tri]

theorem skewQ_convex : ConvexCCW skewQ := by
  norm_num [ConvexCCW, skewQ, tri]

/-- In every reachable mesh every leaf can be split. -/
theorem C19_split_always (qs : List (QD K)) (hq : ∀ q ∈ qs, ConvexCCW q) (ops : List Op)
    (F : List (Cell K)) (hrun : run (rootCells qs) ops = .ok F) (p : Path) (t : Cell K)
    (hp : getL F p = some t) (hl : t.kids = []) (flag : Option Nat) :
    ∃ F', step F (.split p flag) = .ok F' := by
  have hc := (C19_leaf_areas qs hq ops F hrun none).2 p t hp
  cases t with
  | node q ks =>
    simp only [GTree.kids_node] at hl
    subst hl
    obtain ⟨fl, -, e⟩ := C19_split_total q hc.1 flag
    exact ⟨_, by simp only [step, hp, e]; rfl⟩

example : ∃ F, run (rootCells [skewQ, unitSq]) [.split [0] none] = .ok F := by
  have h : ∀ q ∈ [skewQ, unitSq], ConvexCCW q := by simp [skewQ_convex, unitSq_convex]
  obtain ⟨F, hF⟩ := C19_split_always _ h [] _ rfl [0] _ rfl rfl none
  exact ⟨F, by simp only [run, hF]⟩

/-- For a non-convex cell of positive area `split` can fail: the winding-order check of a
child raises an assertion error. -/
theorem C19_nonconvex_split_violated :
    ∃ q : QD ℚ, 0 < q.area ∧ split none (.node q []) = .error .assertion := by
  refine ⟨⟨⟨0, 0⟩, ⟨10, 0⟩, ⟨1, 1⟩, ⟨0, 10⟩, ∅⟩, ?_, ?_⟩
  · norm_num [QD.area, QD.edges]
  · norm_num [split, child_0, child_1, child_2, child_3, QD.area, QD.edges, mid, QD.center]

end Verif.Quad
