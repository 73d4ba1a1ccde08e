import Verif.Quad.Contains

/-! # Point location: C93

`Mesh2D.locate_point` promises "the smallest (flagged) cell containing a given point, or
None".  It only looks at the cells of the coarsest mesh. -/

namespace Verif.Quad
open Verif.Geom

/-- The loop of `Mesh2D.locate_point` (mesh.py 7140-7147) over `self.cells.get_children()`
(mesh.py 1160-1190, all trees): the first cell that is marked with the flag (if one is
given) and contains the point.  Cells are given by their address; `C` is
`contains_points` for one point, `mk` is `is_marked(flag)` (constantly true without flag). -/
def locateFrom {D P : Type} (C : D → P → Bool) (mk : D → Bool) (x : P) :
    List (GTree D) → Nat → Option Path
  | [], _ => none
  | t :: ts, i => if mk t.data && C t.data x then some [i] else locateFrom C mk x ts (i + 1)

/-- `mesh.locate_point(point, flag)` (mesh.py 7127-7147). -/
def locate {D P : Type} (C : D → P → Bool) (mk : D → Bool) (F : List (GTree D)) (x : P) :
    Option Path := locateFrom C mk x F 0

/-! ## Specification -/

/-- A (flagged) cell of the forest that contains the point. -/
def Holds {D P : Type} (C : D → P → Bool) (mk : D → Bool) (F : List (GTree D)) (x : P)
    (p : Path) : Prop :=
  ∃ t, getL F p = some t ∧ mk t.data = true ∧ C t.data x = true

/-- A smallest one: no proper descendant is such a cell. -/
def Smallest {D P : Type} (C : D → P → Bool) (mk : D → Bool) (F : List (GTree D)) (x : P)
    (p : Path) : Prop :=
  Holds C mk F x p ∧ ∀ q, q ≠ [] → ¬ Holds C mk F x (p ++ q)

/-- What the documentation says. -/
def LocateSpec {D P : Type} (C : D → P → Bool) (mk : D → Bool) (F : List (GTree D)) (x : P)
    (r : Option Path) : Prop :=
  match r with
  | some p => Smallest C mk F x p
  | none => ∀ p, ¬ Holds C mk F x p

section Generic
variable {D P ι : Type} (C : D → P → Bool) (mk : D → Bool)

theorem locateFrom_some (x : P) (ts : List (GTree D)) (n : Nat) (p : Path)
    (h : locateFrom C mk x ts n = some p) :
    ∃ i t, p = [n + i] ∧ ts[i]? = some t ∧ mk t.data = true ∧ C t.data x = true ∧
      ∀ j < i, ∀ s, ts[j]? = some s → mk s.data = true → C s.data x = false := by
  induction ts generalizing n with
  | nil => simp [locateFrom] at h
  | cons t ts ih =>
    by_cases hc : (mk t.data && C t.data x) = true
    · rw [locateFrom, if_pos hc] at h
      rw [Bool.and_eq_true] at hc
      exact ⟨0, t, by simpa using h.symm, rfl, hc.1, hc.2, fun j hj => absurd hj (Nat.not_lt_zero _)⟩
    · rw [locateFrom, if_neg hc] at h
      obtain ⟨i, s, h1, h2, h3, h4, h5⟩ := ih (n + 1) h
      refine ⟨i + 1, s, by rw [h1]; congr 1; omega, by simpa using h2, h3, h4, ?_⟩
      intro j hj s' hs' hm
      cases j with
      | zero =>
        simp only [List.getElem?_cons_zero, Option.some.injEq] at hs'
        subst hs'
        simpa [hm] using hc
      | succ j => exact h5 j (by omega) s' (by simpa using hs') hm

theorem locateFrom_none (x : P) (ts : List (GTree D)) (n : Nat) :
    locateFrom C mk x ts n = none ↔ ∀ t ∈ ts, mk t.data = true → C t.data x = false := by
  induction ts generalizing n with
  | nil => simp [locateFrom]
  | cons t ts ih =>
    by_cases hc : (mk t.data && C t.data x) = true
    · rw [locateFrom, if_pos hc]
      rw [Bool.and_eq_true] at hc
      simp [hc.1, hc.2]
    · rw [locateFrom, if_neg hc, ih]
      simp only [List.mem_cons, forall_eq_or_imp]
      refine ⟨fun h => ⟨fun hm => by simpa [hm] using hc, h⟩, fun h => h.2⟩

/-- The cell that is returned is a cell of the coarsest mesh, it is flagged and it contains
the point. -/
theorem C93_locate_sound (F : List (GTree D)) (x : P) (p : Path)
    (h : locate C mk F x = some p) : Holds C mk F x p ∧ p.length = 1 := by
  obtain ⟨i, t, h1, h2, h3, h4, -⟩ := locateFrom_some C mk x F 0 p h
  refine ⟨⟨t, ?_, h3, h4⟩, by simp [h1]⟩
  rw [h1]; simpa [getL] using h2

/-- None is returned exactly if no flagged cell of the coarsest mesh contains the point. -/
theorem C93_locate_none (F : List (GTree D)) (x : P) :
    locate C mk F x = none ↔ ∀ i, ¬ Holds C mk F x [i] := by
  rw [locate, locateFrom_none]
  constructor
  · rintro h i ⟨t, h1, h2, h3⟩
    have := h t (List.mem_of_getElem? (by simpa [getL] using h1)) h2
    simp [this] at h3
  · intro h t ht hm
    obtain ⟨i, hi⟩ := List.mem_iff_getElem?.1 ht
    by_contra hc
    exact h i ⟨t, by simpa [getL] using hi, hm, by simpa using hc⟩

/-- On a mesh that has not been refined `locate_point` does what it promises (what is
missing: any refined mesh, see `C93_locate_violated`). -/
theorem C93_locate_unrefined_partial (F : List (GTree D)) (hF : ∀ t ∈ F, t.kids = []) (x : P) :
    LocateSpec C mk F x (locate C mk F x) := by
  have key : ∀ i q, q ≠ [] → getL F (i :: q) = none := by
    intro i q hq
    cases hi : F[i]? with
    | none => cases q <;> simp [getL, hi]
    | some t =>
      obtain ⟨j, q', rfl⟩ : ∃ j q', q = j :: q' := by
        cases q with
        | nil => exact absurd rfl hq
        | cons j q' => exact ⟨j, q', rfl⟩
      rw [getL_cons F i _ t hi]
      simp only [getT, List.cons_ne_nil, if_false, hF t (List.mem_of_getElem? hi)]
      cases q' <;> simp [getL]
  cases h : locate C mk F x with
  | some p =>
    obtain ⟨h1, h2⟩ := C93_locate_sound C mk F x p h
    refine ⟨h1, fun q hq => ?_⟩
    obtain ⟨i, rfl⟩ := List.length_eq_one_iff.1 h2
    rintro ⟨t, h3, -⟩
    rw [List.singleton_append, key i q hq] at h3
    exact absurd h3 (by simp)
  | none =>
    have hn := (C93_locate_none C mk F x).1 h
    rintro p ⟨t, h1, h2⟩
    cases p with
    | nil => simp [getL] at h1
    | cons i q =>
      by_cases hq : q = []
      · subst hq; exact hn i ⟨t, h1, h2⟩
      · rw [key i q hq] at h1; exact absurd h1 (by simp)

theorem binKids_nil (ks : List (GTree D)) (p : Path) (i : Nat) :
    binKids (ι := ι) C mk ks p i [] = .ok ([], []) := by
  induction ks generalizing i with
  | nil => rfl
  | cons k ks ih => rw [binKids, if_neg (by simp)]; exact ih _

theorem binKids_single (ks : List (GTree D)) (n : Nat) (i : ι) (x : P) :
    binKids C mk ks [] n [(i, x)] =
      match locateFrom C mk x ks n with
      | none => .ok ([], [(i, x)])
      | some p => match getL ks [p.headD 0 - n] with
        | none => .ok ([], [(i, x)])
        | some t => match bin C mk t p [(i, x)] with
          | .error e => .error e
          | .ok b => .ok (b, []) := by
  induction ks generalizing n with
  | nil => rfl
  | cons k ks ih =>
    by_cases hc : (mk k.data && C k.data x) = true
    · have hc' := hc
      rw [Bool.and_eq_true] at hc'
      rw [binKids, if_pos (by simpa using hc), locateFrom, if_pos hc]
      simp only [List.filter_cons, hc'.2, List.filter_nil, if_true, Bool.not_true, Bool.false_eq_true,
        if_false, List.nil_append, binKids_nil, getL, List.headD_cons, Nat.sub_self,
        List.getElem?_cons_zero, List.append_nil]
      cases bin C mk k [n] [(i, x)] <;> rfl
    · rw [binKids, if_neg (by simpa using hc), locateFrom, if_neg hc, ih]
      cases h : locateFrom C mk x ks (n + 1) with
      | none => rfl
      | some p =>
        obtain ⟨j, t, h1, h2, -⟩ := locateFrom_some C mk x ks (n + 1) p h
        subst h1
        have e1 : n + 1 + j - (n + 1) = j := by omega
        have e2 : n + 1 + j - n = j + 1 := by omega
        simp only [List.headD_cons, e1, e2, getL, List.getElem?_cons_succ]

/-- `bin_points` for a single point starts from the cell that `locate_point` returns, and
raises an assertion error where `locate_point` returns None. -/
theorem C93_locate_bins (F : List (GTree D)) (i : ι) (x : P) :
    (∀ p, locate C mk F x = some p → ∃ t, getL F p = some t ∧
      meshBin C mk F [(i, x)] = bin C mk t p [(i, x)]) ∧
    (locate C mk F x = none → meshBin C mk F [(i, x)] = .error .assertion) := by
  constructor
  · intro p h
    obtain ⟨j, t, h1, h2, -⟩ := locateFrom_some C mk x F 0 p h
    have h1 : p = [j] := by simpa using h1
    subst h1
    refine ⟨t, by simpa [getL] using h2, ?_⟩
    rw [meshBin, binKids_single]
    rw [locate] at h
    simp only [h, List.headD_cons, Nat.sub_zero, getL, h2]
    cases bin C mk t [j] [(i, x)] <;> rfl
  · intro h
    rw [meshBin, binKids_single]
    rw [locate] at h
    simp only [h]
    rfl

end Generic

/-! ## Meshes of quadrilaterals -/

section Mesh
variable {K : Type} [Field K] [LinearOrder K] [IsStrictOrderedRing K]

omit [IsStrictOrderedRing K] in
theorem run_append (xs ys : List Op) (F F' : List (Cell K)) (h : run F xs = .ok F') :
    run F (xs ++ ys) = run F' ys := by
  induction xs generalizing F with
  | nil => simp only [run, Except.ok.injEq] at h; subst h; rfl
  | cons op xs ih =>
    simp only [run, List.cons_append] at h ⊢
    cases hs : step F op with
    | error e => simp [hs] at h
    | ok G => simp only [hs] at h ⊢; exact ih G h

/-- A point of a child is a point of its parent. -/
theorem child_hull (q : QD K) (c : QD K) (p : Pt K)
    (hc : SameVerts c (q.child ∅ 0) ∨ SameVerts c (q.child ∅ 1) ∨
      SameVerts c (q.child ∅ 2) ∨ SameVerts c (q.child ∅ 3))
    (h : InHull c p) : InHull q p := by
  obtain ⟨a, b, g, d, ha, hb, hg, hd, hs, hx, hy⟩ := h
  simp only [child_0, child_1, child_2, child_3, SameVerts] at hc
  have hE : d = 1 - a - b - g := by linarith
  rcases hc with ⟨x0, x1, x2, x3⟩ | ⟨x0, x1, x2, x3⟩ | ⟨x0, x1, x2, x3⟩ | ⟨x0, x1, x2, x3⟩
  · refine ⟨a + b / 2 + g / 4 + d / 2, b / 2 + g / 4, g / 4, d / 2 + g / 4, by positivity,
      by positivity, by positivity, by positivity, by linarith, ?_, ?_⟩
    · rw [hx, x0, x1, x2, x3]; simp only [mid, QD.center]; ring
    · rw [hy, x0, x1, x2, x3]; simp only [mid, QD.center]; ring
  · refine ⟨a / 2 + d / 4, a / 2 + b + g / 2 + d / 4, g / 2 + d / 4, d / 4, by positivity,
      by positivity, by positivity, by positivity, by linarith, ?_, ?_⟩
    · rw [hx, x0, x1, x2, x3]; simp only [mid, QD.center]; ring
    · rw [hy, x0, x1, x2, x3]; simp only [mid, QD.center]; ring
  · refine ⟨a / 4, b / 2 + a / 4, g + b / 2 + d / 2 + a / 4, d / 2 + a / 4, by positivity,
      by positivity, by positivity, by positivity, by linarith, ?_, ?_⟩
    · rw [hx, x0, x1, x2, x3]; simp only [mid, QD.center]; ring
    · rw [hy, x0, x1, x2, x3]; simp only [mid, QD.center]; ring
  · refine ⟨a / 2 + b / 4, b / 4, g / 2 + b / 4, a / 2 + d + g / 2 + b / 4, by positivity,
      by positivity, by positivity, by positivity, by linarith, ?_, ?_⟩
    · rw [hx, x0, x1, x2, x3]; simp only [mid, QD.center]; ring
    · rw [hy, x0, x1, x2, x3]; simp only [mid, QD.center]; ring

/-- Without tolerance a point of any cell of a tree is a point of its root. -/
theorem conf_root_contains (x : Pt K) : ∀ (t : Cell K), Conf t → ∀ (p : Path) (s : Cell K),
    getT t p = some s → contains 0 s.data x = true → contains 0 t.data x = true := by
  intro t
  induction t using GTree.ind with
  | h d ks ih =>
    intro hc p s hp hs
    cases hc with
    | node _ _ pos kids below =>
    cases p with
    | nil => simp [getT] at hp; subst hp; exact hs
    | cons j p =>
      simp only [getT, List.cons_ne_nil, if_false, GTree.kids_node] at hp
      cases hj : ks[j]? with
      | none => cases p <;> simp [getL, hj] at hp
      | some k =>
        have hm := List.mem_of_getElem? hj
        rw [getL_cons ks j p k hj] at hp
        have hk := ih k hm (below k hm) p s hp hs
        have hcv : ConvexCCW k.data := by
          have := below k hm
          cases k with
          | node d' ks' => cases this with | node _ _ pos' _ _ => exact pos'
        rw [C22_hull _ hcv] at hk
        have hne : ks ≠ [] := by rintro rfl; simp at hm
        obtain ⟨c0, c1, c2, c3, rfl, e0, e1, e2, e3⟩ := kids.resolve_left hne
        simp only [GTree.data_node]
        rw [C22_hull _ pos]
        refine child_hull d k.data x ?_ hk
        simp only [List.mem_cons, List.not_mem_nil, or_false] at hm
        rcases hm with rfl | rfl | rfl | rfl
        · exact .inl e0
        · exact .inr (.inl e1)
        · exact .inr (.inr (.inl e2))
        · exact .inr (.inr (.inr e3))

/-- After any history of splitting, coarsening and marking: if `locate_point` finds a cell,
then the point lies in a leaf of the mesh below (or equal to) the cell that is returned; if
it finds none then (without tolerance) no cell of the mesh contains the point. -/
theorem C93_locate_history (qs : List (QD K)) (hq : ∀ q ∈ qs, ConvexCCW q) (ops : List Op)
    (F : List (Cell K)) (hrun : run (rootCells qs) ops = .ok F) (x : Pt K) :
    (∀ tol, 0 ≤ tol → ∀ p, locate (contains tol) (inSub none) F x = some p →
      ∃ q t, getL F (p ++ q) = some t ∧ t.kids = [] ∧ contains tol t.data x = true) ∧
    (locate (contains 0) (inSub none) F x = none →
      ∀ p t, getL F p = some t → contains 0 t.data x = false) := by
  obtain ⟨h1, h2, h3⟩ := run_conf ops _ F (roots_conf qs hq) hrun
  constructor
  · intro tol ht p hp
    obtain ⟨⟨t, g1, g2, g3⟩, g4⟩ := C93_locate_sound _ _ F x p hp
    obtain ⟨i, rfl⟩ := List.length_eq_one_iff.1 g4
    have hm : t ∈ F := List.mem_of_getElem? (by simpa [getL] using g1)
    obtain ⟨b, -, k2, k3, -⟩ := bin_good (contains tol) (inSub none) t
      (cov_of_conf tol ht _ t (h1 t hm) (submesh_none F t hm).2) [i] [((), x)]
      (by simpa using g3) rfl
    have hb : b ≠ [] := by rintro rfl; simp at k2
    have hi : () ∈ b.flatMap Prod.snd := (k2.mem_iff).2 (by simp)
    obtain ⟨e, he, hie⟩ := List.mem_flatMap.1 hi
    obtain ⟨q, s, e1, e2, -, e4, e5⟩ := k3 e he
    obtain ⟨y, hy, hcy⟩ := e5 () hie
    have hyx : y = x := by simpa using hy
    subst hyx
    refine ⟨q, s, by rw [getL_getT F _ q t g1]; exact e2, ?_, hcy⟩
    cases hks : s.kids with
    | nil => rfl
    | cons k ks => simp [hasKids, hks, inSub] at e4
  · intro hn p t hp
    rw [C93_locate_none] at hn
    by_contra hc
    have hc : contains 0 t.data x = true := by simpa using hc
    cases p with
    | nil => simp [getL] at hp
    | cons i q =>
      cases hi : F[i]? with
      | none => cases q <;> simp [getL, hi] at hp
      | some r =>
        have hm := List.mem_of_getElem? hi
        rw [getL_cons F i q r hi] at hp
        exact hn i ⟨r, by simpa [getL] using hi, rfl,
          conf_root_contains x r (h1 r hm) q t hp hc⟩

/-- The promise is broken as soon as the mesh is refined: for the refined unit square the
whole square is returned for a point of its first quarter. -/
theorem C93_locate_violated : ∃ (ops : List Op) (F : List (Cell ℚ)) (x : Pt ℚ),
    run (rootCells [unitSq]) ops = .ok F ∧
      ¬ LocateSpec (contains (1 / 10 ^ 10)) (inSub none) F x
        (locate (contains (1 / 10 ^ 10)) (inSub none) F x) := by
  refine ⟨[.split [0] none, .mark [0] 7], _, ⟨1 / 4, 1 / 4⟩, unit_split, ?_⟩
  have hl : locate (contains (1 / 10 ^ 10)) (inSub none)
      [.node { unitSq with flags := {7} }
      [.node (unitSq.child ∅ 0) [], .node (unitSq.child ∅ 1) [], .node (unitSq.child ∅ 2) [],
       .node (unitSq.child ∅ 3) []]] (⟨1 / 4, 1 / 4⟩ : Pt ℚ) = some [0] := by
    norm_num [locate, locateFrom, inSub, contains, unitSq, QD.edges, left]
  rw [hl]
  intro h
  refine h.2 [0] (by simp) ⟨.node (unitSq.child ∅ 0) [], by simp [getL], rfl, ?_⟩
  norm_num [contains, child_0, unitSq, QD.edges, left, mid, QD.center]

/-- A flagged cell is overlooked if the coarse cell above it does not have the flag: None
is returned although a flagged cell contains the point. -/
theorem C93_locate_flag_violated : ∃ (F : List (Cell ℚ)) (ops : List Op) (x : Pt ℚ),
    run (rootCells [unitSq]) ops = .ok F ∧
      locate (contains (1 / 10 ^ 10)) (inSub (some 5)) F x = none ∧
      Holds (contains (1 / 10 ^ 10)) (inSub (some 5)) F x [0, 0] := by
  refine ⟨modifyL (mark 5) [.node { unitSq with flags := {7} }
      [.node (unitSq.child ∅ 0) [], .node (unitSq.child ∅ 1) [], .node (unitSq.child ∅ 2) [],
       .node (unitSq.child ∅ 3) []]] [0, 0],
    [.split [0] none, .mark [0] 7, .mark [0, 0] 5], ⟨1 / 4, 1 / 4⟩, ?_, ?_, ?_⟩
  · exact run_append [.split [0] none, .mark [0] 7] [.mark [0, 0] 5] _ _ unit_split
  · norm_num [locate, locateFrom, inSub, modifyL, GTree.data]
  · refine ⟨.node { unitSq.child ∅ 0 with flags := {5} } [], ?_, ?_, ?_⟩
    · simp [modifyL, getL, mark, child_0]
    · simp [inSub]
    · norm_num [contains, child_0, unitSq, QD.edges, left, mid, QD.center]

/-- The hypotheses of `C93_locate_history` are met, and both of its cases occur. -/
example : ∃ (ops : List Op) (F : List (Cell ℚ)),
    (∀ q ∈ [unitSq], ConvexCCW q) ∧ run (rootCells [unitSq]) ops = .ok F ∧ ops ≠ [] ∧
    locate (contains (1 / 10 ^ 10)) (inSub none) F ⟨3 / 4, 1 / 4⟩ = some [0] ∧
    locate (contains 0) (inSub none) F ⟨2, 1 / 4⟩ = none := by
  refine ⟨_, _, by simp [unitSq_convex], unit_split, by simp, ?_, ?_⟩ <;>
    norm_num [locate, locateFrom, inSub, contains, unitSq, QD.edges, left]

end Mesh
end Verif.Quad
