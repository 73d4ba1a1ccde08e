import Verif.Reg.Ents
import Verif.Dof.HangEx

/-! # C65: the dofs of entities, regions and the boundary -/

namespace Verif.Reg
open Verif.Mesh Verif.Dof Verif.Fem Verif.Bnd Verif.Quad

/-- Specification: a point of the domain that lies on a side of an initial cell that has no twin. -/
def BndPt {K : Type} (B : Base K) (x : Nat × (ℚ × ℚ)) : Prop :=
  ∃ (f : Nat) (j : Fin 4) (r : ℚ), f < B.n ∧ B.T (4 * f + j) = none ∧ 0 ≤ r ∧ r ≤ 1 ∧ SamePt B x (f, E j r)

section
set_option linter.unusedSectionVars false
variable {K : Type} [Field K] {B : Base K} {s : St K} {sf : Bool} {e : ET} {D : DH}

theorem nd2_pos : ∀ e : ET, 0 < nd2 e := by decide

theorem row_of (hl : Len e D.dofs) {c : CN} (hf : ∀ p < nd2 e, Dof.val D c p ≠ none) :
    ∃ row, D.dofs c = some row ∧ row.length = nd2 e ∧ ∀ p, Dof.val D c p = row.getD p none := by
  have := hf 0 (nd2_pos e)
  unfold Dof.val at this
  rcases h : D.dofs c with _ | row
  · rw [h] at this; simp at this
  · exact ⟨row, rfl, hl c row h, fun p => by unfold Dof.val; rw [h]; rfl⟩

theorem IsBndEnt.ent (hi : CInv B s) {c : CN} (hc : CEx B.n s.kids c) {ty : EType} {x : Ent} (h : IsBndEnt B s c ty x) :
    IsEnt s c ty x := by
  cases ty with
  | cell => exact h.2
  | half => obtain ⟨i, _, h⟩ := h; exact ⟨i, h⟩
  | vertex =>
    obtain ⟨i, _, h | h⟩ := h
    · exact ⟨i, h⟩
    · refine ⟨i + 1, ?_⟩
      rw [h, ends_side hi hc, ends_side hi hc]

theorem allSome_all {α : Type} {l : List (Option α)} (h : ∀ o ∈ l, o ≠ none) : ∃ r, allSome l = some r ∧ ∀ a, a ∈ r ↔ some a ∈ l := by
  induction l with
  | nil => exact ⟨[], rfl, by simp⟩
  | cons o l ih =>
    obtain ⟨r, h1, h2⟩ := ih (fun o ho => h o (by simp [ho]))
    rcases o with _ | x
    · exact absurd rfl (h none (by simp))
    · refine ⟨x :: r, by simp [allSome, h1], fun a => ?_⟩
      rw [List.mem_cons, List.mem_cons, h2]
      simp

/-- **C65** (get_cell_dofs): the dofs of an entity of a cell are exactly the dofs of the cell whose nodes lie on the entity (with
`interior`, in its interior).  For DQ0 only for the cell itself. -/
theorem C65_entity (hB : B.WF) (hP : Plain B) (hR : Ready B e sf s D) {c : CN} (hc : CEx B.n s.kids c) (hm : Sub sf s c)
    {ty : EType} {x : Ent} (hx : IsEnt s c ty x) (interior : Bool) (he : e ≠ .DQ0 ∨ ty = .cell) :
    ∃ l, ((D.dofs c).bind (fun row => (entDofs s e c row x interior).bind allSome)) = some l ∧
      ∀ a, a ∈ l ↔ ∃ p < nd2 e, Dof.val D c p = some a ∧ OnEnt s c (node e p) x interior := by
  have hi := hR.uses.uses.reach.inv hB
  have hG := geo hB hP hR.uses.uses.reach
  have hf := hR.val hB hc hm
  obtain ⟨row, h1, h2, h3⟩ := row_of (hR.uses.uses.snd hB hP).1 hf
  obtain ⟨l, h4, h5⟩ := entDofs_iff hi hG hc h2 hx interior he
  obtain ⟨r, h6, h7⟩ := allSome_all (l := l) (fun o ho => by
    obtain ⟨p, hp, rfl, _⟩ := (h5 o).1 ho
    rw [← h3]
    exact hf p hp)
  refine ⟨r, by rw [h1]; simp only [Option.bind_some]; rw [h4]; exact h6, fun a => ?_⟩
  rw [h7, h5]
  simp only [h3]

/-- **C65** (get_region_dofs): the dofs of a region are exactly the dofs with nodes on the entities of the region, each listed once. -/
theorem C65_region_dofs (hB : B.WF) (hP : Plain B) (hR : Ready B e sf s D) (hr : RootsIn B sf s)
    (hf : sf = false ∨ (RootedFlag B s ∧ FullFlag s)) {n : Nat} (hn : 4 * s.cells.length ≤ n) (mk : Option (Ent → Bool)) (ty : EType)
    (interior bnd : Bool) (h1 : bnd = true → OneBoundary B) (he : e ≠ .DQ0 ∨ ty = .cell) :
    ∃ L, regionDofs mk ty interior bnd sf B.n s n e D = some L ∧ L.Nodup ∧ ∀ a, a ∈ L ↔
      ∃ c ∈ leaves sf s, ∃ x, (if bnd then IsBndEnt B s c ty x else IsEnt s c ty x) ∧ wanted mk x = true ∧
        ∃ p < nd2 e, Dof.val D c p = some a ∧ OnEnt s c (node e p) x interior := by
  have hs := hR.uses.uses.reach
  have hi := hs.inv hB
  obtain ⟨R, e1, _, e2⟩ := C65_region hB hs hr hf hn mk ty bnd h1
  have hent : ∀ c ∈ leaves sf s, ∀ x, (if bnd then IsBndEnt B s c ty x else IsEnt s c ty x) → IsEnt s c ty x := by
    intro c hc x hx
    cases bnd
    · exact hx
    · exact IsBndEnt.ent hi ((Dof.mem_leaves hi c).1 hc).1 hx
  have key : ∀ y ∈ R, ∃ l, ((D.dofs y.2).bind (fun row => (entDofs s e y.2 row y.1 interior).bind allSome)) = some l ∧
      ∀ a, a ∈ l ↔ ∃ p < nd2 e, Dof.val D y.2 p = some a ∧ OnEnt s y.2 (node e p) y.1 interior := by
    rintro ⟨x, c⟩ hy
    obtain ⟨hc, hx, _⟩ := (e2 x c).1 hy
    obtain ⟨h2, h3, _⟩ := (Dof.mem_leaves hi c).1 hc
    exact C65_entity hB hP hR h2 h3 (hent c hc x hx) interior he
  obtain ⟨r, g1, g2⟩ := allSome_all (l := R.map (fun x => (D.dofs x.2).bind (fun row =>
    (entDofs s e x.2 row x.1 interior).bind allSome))) (fun o ho => by
      obtain ⟨y, hy, rfl⟩ := List.mem_map.1 ho
      obtain ⟨l, hl, _⟩ := key y hy
      simp only [hl]; simp)
  refine ⟨r.flatten.dedup, by unfold regionDofs; rw [e1]; simp only [Option.bind_some]; rw [g1]; rfl, List.nodup_dedup _, fun a => ?_⟩
  rw [List.mem_dedup, List.mem_flatten]
  constructor
  · rintro ⟨l, hl, ha⟩
    obtain ⟨⟨x, c⟩, hy, he'⟩ := List.mem_map.1 ((g2 l).1 hl)
    obtain ⟨l', h2, h3⟩ := key _ hy
    simp only at he' h2
    rw [h2] at he'
    cases he'
    obtain ⟨hc, hx, hw⟩ := (e2 x c).1 hy
    exact ⟨c, hc, x, hx, hw, (h3 a).1 ha⟩
  · rintro ⟨c, hc, x, hx, hw, hp⟩
    have hy := (e2 x c).2 ⟨hc, hx, hw⟩
    obtain ⟨l, h2, h3⟩ := key _ hy
    exact ⟨l, (g2 l).2 (List.mem_map.2 ⟨_, hy, h2⟩), (h3 a).2 hp⟩

/-! ### The boundary -/

/-- Every point of the domain lies in a leaf. -/
theorem leaf_at (hi : CInv B s) (hf : sf = false ∨ FullFlag s) {c : CN} (hc : CEx B.n s.kids c) (hm : Sub sf s c) {z : ℚ × ℚ} (hz : InSq z) :
    ∃ d ∈ leaves sf s, ∃ w, InSq w ∧ rootPt d w = rootPt c z := by
  obtain ⟨N, hN⟩ := exists_bound hi
  have key : ∀ n (c : CN), N + 1 - level c ≤ n → CEx B.n s.kids c → Sub sf s c → ∀ z : ℚ × ℚ, InSq z →
      ∃ d ∈ leaves sf s, ∃ w, InSq w ∧ rootPt d w = rootPt c z := by
    intro n
    induction n with
    | zero => intro c h1 h2; have := hN c h2; omega
    | succ n ih =>
      intro c h1 h2 h3 z hz
      rcases hh : hasCh sf s c with _ | _
      · exact ⟨c, (Dof.mem_leaves hi c).2 ⟨h2, h3, hh⟩, z, hz, rfl⟩
      · have hk := hasCh_kids hh
        obtain ⟨k, w, hw, hkw⟩ := emb_onto z hz
        have hcx : CEx B.n s.kids (child c k) := hk
        have hl := hN _ hcx
        have : Sub sf s (child c k) := by
          rcases hf with rfl | hf
          · exact .inl rfl
          · cases sf
            · exact .inl rfl
            · exact .inr (hf c hh k)
        rw [level_child] at hl
        obtain ⟨d, g1, v, g2, g3⟩ := ih (child c k) (by rw [level_child]; omega) hcx this w hw
        exact ⟨d, g1, v, g2, g3.trans (by rw [← hkw]; rfl)⟩
  exact key _ c (le_refl _) hc hm z hz

theorem climb_side_all (p : List (Fin 4)) {z : ℚ × ℚ} (hz : InSq z) {j : Fin 4} {r : ℚ} (h : climb p z = E j r) :
    (∃ t : ℚ, z = E j t) ∧ ∀ t : ℚ, 0 ≤ t → t ≤ 1 → ∃ r' : ℚ, 0 ≤ r' ∧ r' ≤ 1 ∧ climb p (E j t) = E j r' := by
  induction p generalizing z with
  | nil => exact ⟨⟨r, h⟩, fun t h0 h1 => ⟨t, h0, h1, rfl⟩⟩
  | cons k p ih =>
    obtain ⟨⟨r', h'⟩, hall⟩ := ih (emb_insq k hz) h
    rcases emb_on_side k j hz h' with ⟨rfl, h2, _⟩ | ⟨rfl, h2, _⟩
    · refine ⟨⟨_, h2⟩, fun t h0 h1 => ?_⟩
      rw [climb, emb_k]
      exact hall _ (by linarith) (by linarith)
    · refine ⟨⟨_, h2⟩, fun t h0 h1 => ?_⟩
      rw [climb, emb_k3]
      exact hall _ (by linarith) (by linarith)

/-- A point of a cell that lies on a boundary side of the initial cell lies on a boundary side of the cell. -/
theorem bnd_side {c : CN} {z : ℚ × ℚ} (hz : InSq z) {j : Fin 4} {r : ℚ} (h : climb c.2 z = E j r) (hT : B.T (4 * c.1 + j) = none) :
    OnBoundary B c j ∧ ∃ t, 0 ≤ t ∧ t ≤ 1 ∧ z = E j t := by
  obtain ⟨⟨t, ht⟩, h2⟩ := climb_side_all c.2 hz h
  refine ⟨⟨j, hT, h2⟩, t, ?_⟩
  subst ht
  clear * - hz
  obtain ⟨h1, h2, h3, h4⟩ := hz
  have e3 : j = 0 ∨ j = 1 ∨ j = 2 ∨ j = 3 := by clear h1 h2 h3 h4; revert j; decide
  rcases e3 with rfl | rfl | rfl | rfl <;> simp only [E] at h1 h2 h3 h4 <;> refine ⟨?_, ?_, rfl⟩ <;> linarith

theorem bnd_glue (hB : B.WF) {x : Nat × (ℚ × ℚ)} (hx : InSq x.2) {f : Nat} {j : Fin 4} {r : ℚ} (h0 : 0 ≤ r) (h1 : r ≤ 1)
    (hT : B.T (4 * f + j) = none) (h : SamePt B x (f, E j r)) : x = (f, E j r) ∨ r = 0 ∨ r = 1 := by
  by_cases hr : r = 0 ∨ r = 1
  · exact .inr hr
  · left
    have hnc : ¬ Corner (E j r) := by rw [E_corner]; exact hr
    have := same_noncorner hB.inv [] [] f x.1 (E j r) x.2 rfl (E_insq j h0 h1) hx (.symm _ _ h) hnc
    rcases this with ⟨h2, h3⟩ | ⟨i, i', r', _, _, hv, e1, e2⟩
    · exact Prod.ext (Prod.mk.inj h2).1 h3
    · exfalso
      simp only at e1 hv
      have := E_two j i h0 h1 e1 hr
      subst this
      simp [side, sideL, vt, hT] at hv

/-- **C65** (the Dirichlet dofs): `get_region_dofs(entity_type='half_edge', on_boundary=True)` returns, for a continuous element, exactly
the dofs of leaves whose nodes lie on the boundary of the domain. -/
theorem C65_boundary (hB : B.WF) (hP : Plain B) (he : torn e = false) (hR : Ready B e sf s D) (hr : RootsIn B sf s)
    (hf : sf = false ∨ (RootedFlag B s ∧ FullFlag s)) {n : Nat} (hn : 4 * s.cells.length ≤ n) (h1 : OneBoundary B) :
    ∃ L, regionDofs none .half false true sf B.n s n e D = some L ∧ L.Nodup ∧ ∀ a, a ∈ L ↔
      ∃ c ∈ leaves sf s, ∃ p < nd2 e, Dof.val D c p = some a ∧ BndPt B (rootPt c (node e p)) := by
  have hs := hR.uses.uses.reach
  have hi := hs.inv hB
  have he' : e ≠ .DQ0 := by rintro rfl; simp [torn] at he
  obtain ⟨L, e1, e2, e3⟩ := C65_region_dofs hB hP hR hr hf hn none .half false true (fun _ => h1) (.inl he')
  refine ⟨L, e1, e2, fun a => ?_⟩
  rw [e3]
  constructor
  · rintro ⟨c, hc, x, hx, _, p, hp, hv, hon⟩
    refine ⟨c, hc, p, hp, hv, ?_⟩
    obtain ⟨i, hb, rfl⟩ := hx
    obtain ⟨i', t, h2, t0, t1, h3⟩ := hon
    have hcx := ((Dof.mem_leaves hi c).1 hc).1
    rw [hi.sides c hcx] at h2
    have := (side_inj h2).2
    subst this
    obtain ⟨j, hj, hall⟩ := hb
    obtain ⟨r, r0, r1, hcl⟩ := hall t t0 t1
    refine ⟨c.1, j, r, ?_, hj, r0, r1, ?_⟩
    · exact CEx_root hi c.2 c.1 hcx
    · unfold rootPt
      rw [h3, hcl]
      exact .refl _
  · rintro ⟨c, hc, p, hp, hv, f, j, r, hfn, hT, r0, r1, hS⟩
    have hsq := node_insq e ⟨p, hp⟩
    -- a leaf with a boundary side through the point
    have main : ∃ d ∈ leaves sf s, ∃ q < nd2 e, Dof.val D d q = some a ∧ ∃ r', rootPt d (node e q) = (f, E j r') := by
      rcases bnd_glue hB (x := rootPt c (node e p)) (climb_insq _ hsq) r0 r1 hT hS with h2 | h2
      · exact ⟨c, hc, p, hp, hv, r, h2⟩
      · have hcor : Corner (E j r) := by rw [E_corner]; exact h2
        have hroot : CEx B.n s.kids (f, []) := hfn
        obtain ⟨d, hd, w, hw, hdw⟩ := leaf_at hi (hf.imp_right (·.2)) hroot (hr f hfn) (E_insq j r0 r1)
        have hdw' : climb d.2 w = E j r := congrArg Prod.snd hdw
        obtain ⟨i, hwi⟩ := (corner_iff w).1 (climb_corner d.2 hw (by rw [hdw']; exact hcor))
        obtain ⟨q, hq⟩ := cor_node e he i
        have hdl := (Dof.mem_leaves hi d).1 hd
        obtain ⟨a', ha'⟩ := Option.ne_none_iff_exists'.1 (hR.val hB hdl.1 hdl.2.1 q q.2)
        have hpt : rootPt d (node e q) = (f, E j r) := by rw [hq, ← hwi]; exact hdw
        have : a = a' := (C34_shared hB hP he hR.uses c d p q a a' hp q.2 hv ha').2 (by rw [hpt]; exact hS)
        exact ⟨d, hd, q, q.2, by rw [ha', this], r, hpt⟩
    obtain ⟨d, hd, q, hq, hdv, r', hpt⟩ := main
    have h4 : d.1 = f := congrArg Prod.fst hpt
    have h5 : climb d.2 (node e q) = E j r' := congrArg Prod.snd hpt
    obtain ⟨hb, t, t0, t1, ht⟩ := bnd_side (B := B) (node_insq e ⟨q, hq⟩) h5 (by rw [h4]; exact hT)
    exact ⟨d, hd, .half (s.sides d j), ⟨j, hb, rfl⟩, rfl, q, hq, hdv, j, t, rfl, t0, t1, ht⟩

end
end Verif.Reg
