import Verif.Bnd.Grid
import Verif.Dof.Props
import Verif.Dof.Continuity

/-! # C64: examples, and what does not hold -/

namespace Verif.Bnd
open Verif.Mesh Verif.Dof Verif.Phys

/-! ### The hypotheses are met -/

theorem twoB_one : OneBoundary twoB := ⟨[6, 2, 3, 0, 4, 5], by decide +kernel, ⟨by simp only [Path]; decide +kernel, 6, 5, rfl, rfl, by decide +kernel⟩,
  by decide +kernel, by decide⟩

/-- A mesh with one refined cell: the segment goes around the domain, through the children of the sides of the refined cell. -/
example : twoB.WF ∧ OneBoundary twoB ∧ MReach twoB wit1 ∧ RootsIn twoB false wit1 ∧ 4 * wit1.cells.length ≤ 40 ∧
    (boundarySegments false twoB.n wit1 40 none).map (·.map (·.length)) = some [9] :=
  ⟨twoB_wf, twoB_one, wit1_reach, fun _ _ => .inl rfl, by decide +kernel, by decide +kernel⟩

/-- With a subforest flag. -/
example : RootedFlag twoB { wit1 with mkd := fun _ => true } ∧ FullFlag { wit1 with mkd := fun _ => true } ∧
    RootsIn twoB true { wit1 with mkd := fun _ => true } :=
  ⟨fun _ _ _ _ => rfl, fun _ _ _ => rfl, fun _ _ => .inr rfl⟩

/-- The theorems hold for all grids: a refined mesh of a grid has one segment. -/
example {K : Type} [Field K] (xmin xmax ymin ymax : K) (nx ny : Nat) (hx : 0 < nx) (hy : 0 < ny) (s : St K)
    (hs : MReach (gridBase xmin xmax ymin ymax nx ny) s) :
    ∃ g, boundarySegments false (nx * ny) s (4 * s.cells.length) none = some [g] ∧ g.Nodup ∧ Loop (ends s) g ∧
      ∀ h, h ∈ g ↔ ∃ c ∈ leaves false s, ∃ i, h = s.sides c i ∧ OnBoundary (gridBase xmin xmax ymin ymax nx ny) c i := by
  obtain ⟨h1, _, h3⟩ := C24_mesh xmin xmax ymin ymax nx ny
  have := C64_segments (sf := false) h1 (C64_grid xmin xmax ymin ymax nx ny hx hy) hs (fun _ _ => .inl rfl) (.inl rfl) le_rfl
  rwa [h3] at this

/-! ### A domain with a hole -/

/-- The faces of the 3 × 3 grid except the one in the middle. -/
def ringFaces : List (List Nat) := (Dcel.gridFaces 3 3).eraseIdx 4

theorem ring_oriented : Dcel.Oriented ringFaces := by
  have hr : ∀ m a b, Dcel.Runs ringFaces m a b → m < 32 ∧ Dcel.conn (Dcel.halfEdges ringFaces) m = (a, b) := by
    intro m a b h
    refine ⟨?_, runs_conn _ _ _ _ h⟩
    obtain ⟨g, hg, _⟩ := h
    have := (List.getElem?_eq_some_iff.1 hg).1
    have hl : (Dcel.halfEdges ringFaces).length = 32 := by decide +kernel
    omega
  refine ⟨?_, by decide +kernel, by decide +kernel⟩
  intro m m' a b h h'
  obtain ⟨h1, h2⟩ := hr m a b h
  obtain ⟨h3, h4⟩ := hr m' a b h'
  have key : ∀ m < 32, ∀ m' < 32, Dcel.conn (Dcel.halfEdges ringFaces) m = Dcel.conn (Dcel.halfEdges ringFaces) m' → m = m' := by
    decide +kernel
  exact key m h1 m' h3 (h2.trans h4.symm)

/-- If the domain has a hole, boundary sides are missing: on the unrefined mesh of a square with a square hole, only the four sides of
the hole are returned, none of the outer boundary.  (The first curve that closes finds itself in the list and is removed from it.) -/
theorem C64_hole_violated : ∃ (B : Base ℚ) (L : List (List HN)), B.WF ∧ Plain B ∧
    boundarySegments false B.n (init B) (4 * (init B).cells.length) none = some L ∧ L.flatten.length = 4 ∧
    (∃ l : List (CN × Fin 4), l.Nodup ∧ l.length = 16 ∧ ∀ x ∈ l, x.1 ∈ leaves false (init B) ∧ OnBoundary B x.1 x.2) ∧
    ∃ c ∈ leaves false (init B), ∃ i, OnBoundary B c i ∧ (init B).sides c i ∉ L.flatten := by
  obtain ⟨hw, hp⟩ := C25_mesh ([] : List (Quad.Pt ℚ)) ringFaces ring_oriented (by decide +kernel)
  refine ⟨meshBase [] ringFaces, [[.root 19, .root 6, .root 13, .root 24]], hw, hp, by decide +kernel, by decide +kernel, ?_, ?_⟩
  · refine ⟨[((0, []), 0), ((0, []), 3), ((1, []), 0), ((1, []), 2), ((2, []), 0), ((2, []), 1), ((3, []), 1), ((3, []), 3),
      ((4, []), 1), ((4, []), 3), ((5, []), 2), ((5, []), 3), ((6, []), 0), ((6, []), 2), ((7, []), 1), ((7, []), 2)],
      by decide +kernel, rfl, ?_⟩
    intro x hx
    refine ⟨?_, ?_⟩
    · revert x; decide +kernel
    · rw [← vt_none_iff]
      revert x; decide +kernel
  · refine ⟨(0, []), by decide +kernel, 0, ?_, by decide +kernel⟩
    rw [← vt_none_iff]
    decide +kernel

/-! ### The flag -/

/-- `get_boundary_segments(flag=f)` returns half-edges that are not marked with `f`: with no half-edge marked, every second one is
returned. -/
theorem C64_flag_violated : ∃ (B : Base ℚ) (m : HN → Bool) (L : List (List HN)), B.WF ∧ OneBoundary B ∧ (∀ h, m h = false) ∧
    boundarySegments false B.n (init B) (4 * (init B).cells.length) (some m) = some L ∧ L.flatten.length = 3 :=
  ⟨twoB, fun _ => false, [[.root 2, .root 0, .root 5]], twoB_wf, twoB_one, fun _ => rfl, by decide +kernel, by decide +kernel⟩

/-- What does hold: marked half-edges are never dropped. -/
theorem dropFlag_keep (m : HN → Bool) (l : List HN) {h : HN} (hh : h ∈ l) (hm : m h = true) : h ∈ dropFlag m l := by
  induction l using dropFlag.induct m with
  | case1 => simp at hh
  | case2 x => 
    simp only [List.mem_singleton] at hh
    subst hh
    simp [dropFlag, hm]
  | case3 x hx => 
    simp only [List.mem_singleton] at hh
    subst hh
    exact absurd hm hx
  | case4 x y l hx ih =>
    simp only [dropFlag, hx, if_true]
    rcases List.mem_cons.1 hh with rfl | hh
    · simp
    · exact List.mem_cons_of_mem _ (ih hh)
  | case5 x y l hx ih =>
    simp only [dropFlag, hx]
    rcases List.mem_cons.1 hh with rfl | hh
    · exact absurd hm hx
    · rcases List.mem_cons.1 hh with rfl | hh
      · simp
      · exact List.mem_cons_of_mem _ (ih hh)

/-- **C64** (flag, the part that holds): with a flag, every marked boundary side of a leaf is returned. -/
theorem C64_flag_partial {K : Type} [Field K] {B : Base K} {s : St K} {sf : Bool} (hB : B.WF) (h1 : OneBoundary B) (hs : MReach B s)
    (hr : RootsIn B sf s) (hf : sf = false ∨ (RootedFlag B s ∧ FullFlag s)) {n : Nat} (hn : 4 * s.cells.length ≤ n) (m : HN → Bool) :
    ∃ g, boundarySegments sf B.n s n (some m) = some [g] ∧
      ∀ c ∈ leaves sf s, ∀ i, OnBoundary B c i → m (s.sides c i) = true → s.sides c i ∈ g := by
  obtain ⟨g, e1, _, _, e4⟩ := C64_segments hB h1 hs hr hf hn
  refine ⟨dropFlag m g, ?_, fun c hc i ho hm => dropFlag_keep m g ((e4 _).2 ⟨c, hc, i, rfl, ho⟩) hm⟩
  unfold boundarySegments at e1 ⊢
  cases hG : groups (fun k => ends s (.root k)) (bndRoots B.n s) with
  | none => rw [hG] at e1; cases e1
  | some L =>
    rw [hG] at e1
    simp only [Option.bind_some] at e1 ⊢
    rw [allSome_some] at e1 ⊢
    cases L with
    | nil => simp at e1
    | cons x L =>
      cases L with
      | cons y L => simp at e1
      | nil =>
        simp only [List.map_cons, List.map_nil, List.cons.injEq, and_true] at e1 ⊢
        unfold segment at e1 ⊢
        obtain ⟨a, ha, e⟩ := Option.map_eq_some_iff.1 e1
        rw [ha]
        simp only [Option.map_some, Option.some.injEq] at e ⊢
        rw [e]

example : (boundarySegments false twoB.n wit1 40 (some (fun h => decide (h = .root 0)))).map (·.map (·.contains (.root 0))) = some [true] := by
  decide +kernel

end Verif.Bnd
