import Verif.Reg.Model
import Verif.Bnd.Props

/-! # C65: regions -/

namespace Verif.Reg
open Verif.Mesh Verif.Dof Verif.Fem Verif.Bnd Verif.Quad

section
set_option linter.unusedSectionVars false
variable {K : Type} [Field K] {B : Base K} {s : St K} {sf : Bool}

theorem ends_side (hi : CInv B s) {c : CN} (hc : CEx B.n s.kids c) (i : Fin 4) :
    ends s (s.sides c i) = (vert s c i, vert s c (i + 1)) := by
  obtain ⟨r, h1, h2, h3⟩ := vert_eq hi hc i
  unfold ends
  rw [hi.sides c hc, h1, h2, h3]

theorem atCell_iff (hi : CInv B s) {c : CN} (hc : CEx B.n s.kids c) (ty : EType) (x : Ent) : x ∈ atCell s ty c ↔ IsEnt s c ty x := by
  cases ty with
  | cell => simp [atCell, IsEnt]
  | half => simp only [atCell, IsEnt, List.mem_map]; exact ⟨fun ⟨i, _, h⟩ => ⟨i, h.symm⟩, fun ⟨i, h⟩ => ⟨i, mem_four i, h.symm⟩⟩
  | vertex =>
    simp only [atCell, IsEnt, List.mem_flatMap, heVerts, List.map_cons, List.map_nil, List.mem_cons, List.not_mem_nil, or_false,
      ends_side hi hc]
    constructor
    · rintro ⟨i, _, rfl | rfl⟩
      · exact ⟨i, rfl⟩
      · exact ⟨i + 1, rfl⟩
    · rintro ⟨i, rfl⟩
      exact ⟨i, mem_four i, .inl rfl⟩

/-- The places that are considered: what is needed of the boundary segments. -/
theorem places_iff (hB : B.WF) (hs : MReach B s) (hr : RootsIn B sf s) (hf : sf = false ∨ (RootedFlag B s ∧ FullFlag s)) {n : Nat}
    (hn : 4 * s.cells.length ≤ n) (ty : EType) (bnd : Bool) (h1 : bnd = true → OneBoundary B) :
    ∃ R, places ty bnd sf B.n s n = some R ∧
      ∀ x c, (x, c) ∈ R ↔ c ∈ leaves sf s ∧ if bnd then IsBndEnt B s c ty x else IsEnt s c ty x := by
  have hi := hs.inv hB
  cases bnd with
  | false =>
    refine ⟨_, rfl, fun x c => ?_⟩
    rw [List.mem_flatMap]
    simp only [List.mem_map, Prod.mk.injEq, Bool.false_eq_true, if_false]
    constructor
    · rintro ⟨d, hd, y, hy, rfl, rfl⟩
      exact ⟨hd, (atCell_iff hi ((Dof.mem_leaves hi d).1 hd).1 ty y).1 hy⟩
    · rintro ⟨hc, hx⟩
      exact ⟨c, hc, x, (atCell_iff hi ((Dof.mem_leaves hi c).1 hc).1 ty x).2 hx, rfl, rfl⟩
  | true =>
    obtain ⟨g, e1, e2, e3, e4⟩ := C64_segments hB (h1 rfl) hs hr hf hn
    have hcell : ∀ h ∈ g, (s.he h).bind (·.cell) = some (owner h).1 := by
      intro h hh
      obtain ⟨c, hc, i, rfl, ho⟩ := (e4 h).1 hh
      have hcx := ((Dof.mem_leaves hi c).1 hc).1
      rw [hi.sides c hcx]
      obtain ⟨r, hr, _⟩ := vert_eq hi hcx i
      rw [hr]
      exact hi.cell _ r hr
    have hl : allSome (g.map (fun h => ((s.he h).bind (·.cell)).map (fun c => (atEdge s ty h c).map (fun x => (x, c))))) =
        some (g.map (fun h => (atEdge s ty h (owner h).1).map (fun x => (x, (owner h).1)))) := by
      rw [allSome_some, List.map_map]
      apply List.map_congr_left
      intro h hh
      rw [hcell h hh]
      rfl
    refine ⟨(g.map (fun h => (atEdge s ty h (owner h).1).map (fun x => (x, (owner h).1)))).flatten, ?_, fun x c => ?_⟩
    · unfold places
      rw [if_pos rfl, e1]
      simp only [Option.bind_some, List.flatten_cons, List.flatten_nil, List.append_nil]
      rw [hl]
      rfl
    · simp only [List.mem_flatten, List.mem_map, if_true]
      constructor
      · rintro ⟨l, ⟨h, hh, rfl⟩, hx⟩
        obtain ⟨y, hy, e⟩ := List.mem_map.1 hx
        injection e with e5 e6
        subst e5 e6
        obtain ⟨c, hc, i, rfl, ho⟩ := (e4 h).1 hh
        have hcx := ((Dof.mem_leaves hi c).1 hc).1
        have how : (owner (s.sides c i)).1 = c := by rw [hi.sides c hcx, owner_side]
        rw [how] at hy ⊢
        refine ⟨hc, ?_⟩
        cases ty with
        | cell =>
          simp only [atEdge, List.mem_singleton] at hy
          exact ⟨⟨i, ho⟩, hy⟩
        | half =>
          simp only [atEdge, List.mem_singleton] at hy
          exact ⟨i, ho, hy⟩
        | vertex =>
          simp only [atEdge, heVerts, List.map_cons, List.map_nil, List.mem_cons, List.not_mem_nil, or_false] at hy
          exact ⟨i, ho, hy⟩
      · rintro ⟨hc, hx⟩
        have hcx := ((Dof.mem_leaves hi c).1 hc).1
        have how : ∀ i, (owner (s.sides c i)).1 = c := fun i => by rw [hi.sides c hcx, owner_side]
        cases ty with
        | cell =>
          obtain ⟨⟨i, ho⟩, rfl⟩ := hx
          refine ⟨_, ⟨s.sides c i, (e4 _).2 ⟨c, hc, i, rfl, ho⟩, rfl⟩, ?_⟩
          rw [how]
          simp [atEdge]
        | half =>
          obtain ⟨i, ho, rfl⟩ := hx
          refine ⟨_, ⟨s.sides c i, (e4 _).2 ⟨c, hc, i, rfl, ho⟩, rfl⟩, ?_⟩
          rw [how]
          simp [atEdge]
        | vertex =>
          obtain ⟨i, ho, hx⟩ := hx
          refine ⟨_, ⟨s.sides c i, (e4 _).2 ⟨c, hc, i, rfl, ho⟩, rfl⟩, ?_⟩
          rw [how]
          rcases hx with rfl | rfl <;> simp [atEdge, heVerts]

/-- **C65** (get_region): `get_region` returns exactly the entities of the leaves of the (sub)mesh that carry the flag, and with
`on_boundary` exactly those at boundary sides, each with its cell. -/
theorem C65_region (hB : B.WF) (hs : MReach B s) (hr : RootsIn B sf s) (hf : sf = false ∨ (RootedFlag B s ∧ FullFlag s)) {n : Nat}
    (hn : 4 * s.cells.length ≤ n) (mk : Option (Ent → Bool)) (ty : EType) (bnd : Bool) (h1 : bnd = true → OneBoundary B) :
    ∃ R, region mk ty bnd sf B.n s n = some R ∧ R.Nodup ∧ ∀ x c, (x, c) ∈ R ↔
      c ∈ leaves sf s ∧ (if bnd then IsBndEnt B s c ty x else IsEnt s c ty x) ∧ wanted mk x = true := by
  obtain ⟨R, e1, e2⟩ := places_iff hB hs hr hf hn ty bnd h1
  refine ⟨_, by unfold region; rw [e1]; rfl, List.nodup_dedup _, fun x c => ?_⟩
  rw [List.mem_dedup, List.mem_filter, e2]
  tauto

theorem vertexOf_iff (x : Ent) (v : VN) : v ∈ entVerts s x ↔ VertexOf s x v := by
  cases x with
  | vertex w => simp [entVerts, VertexOf]
  | half h => simp [entVerts, VertexOf, heVerts]
  | cell c =>
    simp only [entVerts, VertexOf, List.mem_map]
    exact ⟨fun ⟨i, _, h⟩ => ⟨i, h.symm⟩, fun ⟨i, h⟩ => ⟨i, mem_four i, h.symm⟩⟩

/-- **C65** (mark_region): `mark_region` marks exactly the entities of the leaves (with `on_boundary`, at boundary sides) for which `f`
holds at all vertices, or at some vertex without `strict_containment`; other marks stay. -/
theorem C65_mark (hB : B.WF) (hs : MReach B s) (hr : RootsIn B sf s) (hf : sf = false ∨ (RootedFlag B s ∧ FullFlag s)) {n : Nat}
    (hn : 4 * s.cells.length ≤ n) (f : Pt K → Bool) (ty : EType) (strict bnd : Bool) (h1 : bnd = true → OneBoundary B) (m : Ent → Bool) :
    ∃ m', markRegion f ty strict bnd sf B.n s n m = some m' ∧ ∀ x, m' x = true ↔ m x = true ∨
      ((∃ c ∈ leaves sf s, if bnd then IsBndEnt B s c ty x else IsEnt s c ty x) ∧
        if strict then ∀ v, VertexOf s x v → f (s.vx v) = true else ∃ v, VertexOf s x v ∧ f (s.vx v) = true) := by
  obtain ⟨R, e1, e2⟩ := places_iff hB hs hr hf hn ty bnd h1
  refine ⟨_, by unfold markRegion; rw [e1]; rfl, fun x => ?_⟩
  simp only [Bool.or_eq_true, Bool.and_eq_true, decide_eq_true_eq]
  refine or_congr Iff.rfl (and_congr ?_ ?_)
  · rw [List.mem_map]
    constructor
    · rintro ⟨⟨y, c⟩, hy, rfl⟩
      exact ⟨c, (e2 y c).1 hy⟩
    · rintro ⟨c, hc⟩
      exact ⟨(x, c), (e2 x c).2 hc, rfl⟩
  · unfold hit
    simp only [← vertexOf_iff]
    cases strict
    · simp
    · simp

/-- **C65**: what `mark_region` marked is what `get_region` with the same arguments returns. -/
theorem C65_mark_get (hB : B.WF) (hs : MReach B s) (hr : RootsIn B sf s) (hf : sf = false ∨ (RootedFlag B s ∧ FullFlag s)) {n : Nat}
    (hn : 4 * s.cells.length ≤ n) (f : Pt K → Bool) (ty : EType) (strict bnd : Bool) (h1 : bnd = true → OneBoundary B) (m : Ent → Bool)
    (hm : ∀ x, m x = false) : ∃ m' R, markRegion f ty strict bnd sf B.n s n m = some m' ∧
      region (some m') ty bnd sf B.n s n = some R ∧ ∀ x c, (x, c) ∈ R ↔
        c ∈ leaves sf s ∧ (if bnd then IsBndEnt B s c ty x else IsEnt s c ty x) ∧
          if strict then ∀ v, VertexOf s x v → f (s.vx v) = true else ∃ v, VertexOf s x v ∧ f (s.vx v) = true := by
  obtain ⟨m', e1, e2⟩ := C65_mark hB hs hr hf hn f ty strict bnd h1 m
  obtain ⟨R, e3, _, e4⟩ := C65_region hB hs hr hf hn (some m') ty bnd h1
  refine ⟨m', R, e1, e3, fun x c => ?_⟩
  rw [e4]
  show _ ∧ _ ∧ m' x = true ↔ _
  rw [e2, hm]
  constructor
  · rintro ⟨h2, h3, h4 | h4⟩
    · cases h4
    · exact ⟨h2, h3, h4.2⟩
  · rintro ⟨h2, h3, h4⟩
    exact ⟨h2, h3, .inr ⟨⟨c, h2, h3⟩, h4⟩⟩

end
end Verif.Reg
