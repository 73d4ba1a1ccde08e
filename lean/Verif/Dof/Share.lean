import Verif.Dof.Concrete

/-!
# Sharing dofs with neighbours and children
-/

namespace Verif.Dof
open Verif.Fem Verif.Mesh

/-! ### Positions -/

theorem dpv_one {e : ET} (he : torn e = false) : dpv e = 1 := by
  cases e <;> simp_all [torn, dpv]

/-- The position of corner `i`. -/
def cpos (e : ET) (he : torn e = false) (i : Fin 4) : Fin (nd2 e) :=
  ⟨i, by have := i.2; have := dpv_one he; unfold nd2; omega⟩

theorem node_cpos (e : ET) (he : torn e = false) (i : Fin 4) : node e (cpos e he i) = E i 0 := by
  unfold node cpos
  rw [nodes_tab]
  have : ∀ e : ET, torn e = true ∨ ∀ i : Fin 4, (nodeTab e).getD i (0, 0) = E i 0 := by decide +kernel
  exact (this e).resolve_left (by simp [he]) i

/-- The position of interior dof `m` of side `i`. -/
def epos (e : ET) (i : Fin 4) (m : Fin (dpe2 e)) : Fin (nd2 e) :=
  ⟨4 * dpv e + i * dpe2 e + m, by
    have h1 := i.2
    have h2 := m.2
    unfold nd2
    have : i.1 * dpe2 e ≤ 3 * dpe2 e := Nat.mul_le_mul_right _ (by omega)
    omega⟩

theorem node_epos (e : ET) (i : Fin 4) (m : Fin (dpe2 e)) :
    node e (epos e i m) = E i (((m.1 : ℚ) + 1) / ((dpe2 e : ℚ) + 1)) := by
  unfold node epos
  rw [nodes_tab]
  revert e i m
  decide +kernel

theorem edge_node (e : ET) (i : Fin 4) (p : Fin (nd2 e)) (r : ℚ) (h : node e p = E i r) (hc : ¬ Corner (node e p)) :
    ∃ m, p = epos e i m := by
  have key : ∀ e : ET, ∀ i : Fin 4, ∀ p : Fin (nd2 e), (nodeTab e).getD p (0, 0) ≠ E i (par i ((nodeTab e).getD p (0, 0))) ∨
      Corner ((nodeTab e).getD p (0, 0)) ∨ ∃ m, p = epos e i m := by
    unfold Corner
    decide +kernel
  have hn : ∀ p, node e p = (nodeTab e).getD p (0, 0) := by intro p; unfold node; rw [nodes_tab]
  have := key e i p
  rw [← hn, h, par_E] at this
  rcases this with h1 | h1 | h1
  · exact absurd rfl h1
  · exact absurd h1 (h ▸ hc)
  · exact h1

theorem epos_range (d : Nat) (m : Fin d) : 0 < ((m.1 : ℚ) + 1) / ((d : ℚ) + 1) ∧ ((m.1 : ℚ) + 1) / ((d : ℚ) + 1) < 1 := by
  have hd : (0 : ℚ) < (d : ℚ) + 1 := by positivity
  constructor
  · positivity
  · rw [div_lt_one hd]
    have : (m.1 : ℚ) < d := by exact_mod_cast m.2
    linarith

theorem epos_flip (d : Nat) (m : Fin d) : 1 - ((m.1 : ℚ) + 1) / ((d : ℚ) + 1) = ((m.rev.1 : ℚ) + 1) / ((d : ℚ) + 1) := by
  have hd : (0 : ℚ) < (d : ℚ) + 1 := by positivity
  have : (m.rev.1 : ℚ) = d - (m.1 + 1) := by
    rw [Fin.val_rev, Nat.cast_sub (by have := m.2; omega)]
    push_cast
    ring
  rw [this]
  field_simp
  ring

theorem epos_not_corner (e : ET) (i : Fin 4) (m : Fin (dpe2 e)) : ¬ Corner (node e (epos e i m)) := by
  rw [node_epos, E_corner]
  have := epos_range (dpe2 e) m
  rintro (h | h) <;> linarith [this.1, this.2]

theorem E_zero {i j : Fin 4} (h : E i (0 : ℚ) = E j 0) : i = j := by
  revert h
  fin_cases i <;> fin_cases j <;> simp [E]

/-! ### Loops over the four vertices or half-edges -/

/-- The dofs of the cell `c` are `w`. -/
def Row (e : ET) (c : CN) (w : Fin (nd2 e) → Nat) (D : Dict) : Prop :=
  Len e D ∧ ∀ p : Fin (nd2 e), vOf D (c, p) = some (w p)

variable {e : ET}

theorem Row.ext {c : CN} {w : Fin (nd2 e) → Nat} {D D' : Dict} {W : Loc e → Nat → Prop} (h : Row e c w D) (hx : Ext e W D D') :
    Row e c w D' := ⟨hx.len h.1, fun p => hx.mono _ _ (h.2 p)⟩

theorem foldlM_ext {α : Type} {c : CN} {w : Fin (nd2 e) → Nat} (f : Dict → α → Option Dict) (W : α → Loc e → Nat → Prop) :
    ∀ (xs : List α), (∀ i ∈ xs, ∀ D, Row e c w D → ∃ D', f D i = some D' ∧ Ext e (W i) D D') →
    ∀ D, Row e c w D → ∃ D', xs.foldlM f D = some D' ∧ Ext e (fun l a => ∃ i ∈ xs, W i l a) D D' := by
  intro xs
  induction xs with
  | nil =>
    intro _ D _
    exact ⟨D, rfl, (Ext.refl D).congr (by simp)⟩
  | cons x xs ih =>
    intro hf D hD
    obtain ⟨D1, h1, h2⟩ := hf x (by simp) D hD
    obtain ⟨D2, h3, h4⟩ := ih (fun i hi => hf i (by simp [hi])) D1 (hD.ext h2)
    refine ⟨D2, by simp only [List.foldlM_cons, h1]; exact h3, (h2.trans h4).congr ?_⟩
    simp

theorem foldl_ext {α : Type} {c : CN} {w : Fin (nd2 e) → Nat} (f : Dict → α → Dict) (W : α → Loc e → Nat → Prop)
    (xs : List α) (hf : ∀ i ∈ xs, ∀ D, Row e c w D → Ext e (W i) D (f D i)) (D : Dict) (hD : Row e c w D) :
    Ext e (fun l a => ∃ i ∈ xs, W i l a) D (xs.foldl f D) := by
  induction xs generalizing D with
  | nil => exact (Ext.refl D).congr (by simp)
  | cons x xs ih =>
    have h2 := hf x (by simp) D hD
    have h4 := ih (fun i hi => hf i (by simp [hi])) (f D x) (hD.ext h2)
    exact (h2.trans h4).congr (by simp)

theorem Row.row {c : CN} {w : Fin (nd2 e) → Nat} {D : Dict} (h : Row e c w D) :
    ∃ row, D c = some row ∧ row.length = nd2 e ∧ ∀ p : Fin (nd2 e), row[p.1]? = some (some (w p)) := by
  rcases hd : D c with _ | row
  · exfalso
    have hpos : 0 < nd2 e := by cases e <;> decide
    have := h.2 ⟨0, hpos⟩
    simp [vOf, hd] at this
  · refine ⟨row, rfl, h.1 c row hd, fun p => ?_⟩
    have := h.2 p
    simp only [vOf, hd, Option.bind_some, List.getD_eq_getElem?_getD] at this
    have hp : p.1 < row.length := by rw [h.1 c row hd]; exact p.2
    rw [List.getElem?_eq_getElem hp] at this ⊢
    simpa using this

/-! ### Children -/

theorem four_mem (k : Fin 4) : k ∈ four := by revert k; decide

theorem shareC_spec {c : CN} {w : Fin (nd2 e) → Nat} {D : Dict} (h : Row e c w D) :
    ∃ D', shareC e c D = some D' ∧ Ext e (fun l a => ∃ q, upL e l = some (c, q) ∧ a = w q) D D' := by
  obtain ⟨row, hr, hlen, hp⟩ := h.row
  refine ⟨_, by rw [shareC, hr]; rfl, ?_⟩
  have hget : ∀ q (hq : q < nd2 e), row.getD q none = some (w ⟨q, hq⟩) := by
    intro q hq
    rw [List.getD_eq_getElem?_getD, hp ⟨q, hq⟩]; rfl
  have := foldl_ext (c := c) (w := w) (fun D k =>
    assignAt (nd2 e) D (child c k) ((inherit e k).map (fun a => (a.1, row.getD a.2 none))))
    (fun k l b => l.1 = child c k ∧ (l.2.1, some b) ∈ (inherit e k).map (fun a => (a.1, row.getD a.2 none))) four
    (fun k _ D _ => assignAt_ext D (child c k) _ (by
      intro x hx
      obtain ⟨a, ha, rfl⟩ := List.mem_map.1 hx
      obtain ⟨h1, h2, _⟩ := inherit_sound e k a ha
      exact ⟨h1, _, hget _ h2⟩)) D h
  refine this.congr ?_
  rintro ⟨x, p⟩ b
  constructor
  · rintro ⟨k, _, rfl, hm⟩
    obtain ⟨a, ha, hab⟩ := List.mem_map.1 hm
    obtain ⟨h1, h2, _⟩ := inherit_sound e k a ha
    rw [hget _ h2] at hab
    simp only [Prod.mk.injEq, Option.some.injEq] at hab
    refine ⟨⟨a.2, h2⟩, (upL_iff e c k p _).2 ⟨rfl, ?_⟩, hab.2.symm⟩
    rw [← hab.1]
    exact ha
  · rintro ⟨q, hu, rfl⟩
    obtain ⟨k, h1, h2⟩ := upL_some e _ _ hu
    refine ⟨k, four_mem k, h1, ?_⟩
    simp only at h2
    exact List.mem_map.2 ⟨_, h2, by rw [hget _ q.2]⟩

/-! ### Neighbours -/

section
set_option linter.unusedSectionVars false
variable {K : Type} [Field K] {B : Base K} {s : St K}

theorem vIdx_eq (hi : CInv B s) (hG : Geo B (CEx B.n s.kids) (vert s)) {c : CN} (hc : CEx B.n s.kids c) (i : Fin 4) :
    vIdx s c (vert s c i) = some i := by
  unfold vIdx
  refine find_four _ i ?_
  intro j
  obtain ⟨r, h1, h2, _⟩ := vert_eq hi hc j
  rw [hi.sides c hc]
  simp only [baseOf, h1, Option.map_some, decide_eq_true_eq, Option.some.injEq]
  rw [← h2]
  constructor
  · intro h; exact hG.inj c _ _ hc h
  · rintro rfl; rfl

theorem hIdx_eq (hi : CInv B s) {c : CN} (hc : CEx B.n s.kids c) (i : Fin 4) : hIdx s c (side c i) = some i := by
  unfold hIdx
  refine find_four _ i ?_
  intro j
  rw [hi.sides c hc]
  simp only [decide_eq_true_eq]
  constructor
  · intro h
    have := congrArg owner h
    rw [owner_side, owner_side] at this
    exact (Prod.mk.inj this).2
  · rintro rfl; rfl

/-- The corner places around a vertex. -/
theorem orbit_locs {X : Type} {V : CN → Fin 4 → X} (hG : Geo B (CEx B.n s.kids) V) (he : torn e = false) (c : CN) (i : Fin 4)
    (l : List (CN × Fin 4)) (h1 : (c, i) ∉ l)
    (h2 : ∀ u ∈ (c, i) :: l, ∀ z, fwd B s u = some z ∨ bwd B s u = some z → z ∈ (c, i) :: l)
    (h3 : ∀ z ∈ l, Relation.EqvGen (fun a b => fwd B s a = some b) (c, i) z) (x : Loc e) :
    (∃ z ∈ l, x = (z.1, cpos e he z.2)) ↔
      Relation.EqvGen (Adj B (CEx B.n s.kids) e) (c, cpos e he i) x ∧ x ≠ (c, cpos e he i) := by
  have cinj : ∀ i j, cpos e he i = cpos e he j → i = j := by
    intro i j h
    have := congrArg (node e ·.1) h
    simp only [node_cpos] at this
    exact E_zero this
  have fadj : ∀ a b, fwd B s a = some b → Adj B (CEx B.n s.kids) e (a.1, cpos e he a.2) (b.1, cpos e he b.2) := by
    intro a b h
    obtain ⟨g1, g2, g3⟩ := (fwd_iff a b).1 h
    refine ⟨g1, g2, a.2 + 3, b.2, 1, by norm_num, le_refl _, g3, ?_, ?_⟩
    · simp only [pt]
      rw [node_cpos, E_next, fin4_l]
    · simp only [pt]
      rw [node_cpos]
      exact congrArg (E _) (by norm_num)
  constructor
  · rintro ⟨z, hz, rfl⟩
    refine ⟨?_, ?_⟩
    · have key : ∀ a b, Relation.EqvGen (fun a b => fwd B s a = some b) a b →
          Relation.EqvGen (Adj B (CEx B.n s.kids) e) (a.1, cpos e he a.2) (b.1, cpos e he b.2) := by
        intro a b h
        induction h with
        | rel a b h => exact .rel _ _ (fadj a b h)
        | refl a => exact .refl _
        | symm a b _ ih => exact .symm _ _ ih
        | trans a b c _ _ ih1 ih2 => exact .trans _ _ _ ih1 ih2
      exact key _ _ (h3 z hz)
    · intro h
      simp only [Prod.mk.injEq] at h
      refine h1 ?_
      have : z = (c, i) := Prod.ext h.1 (cinj _ _ h.2)
      rw [← this]; exact hz
  · rintro ⟨h, hne⟩
    -- the set of places is closed
    have step : ∀ a b : Loc e, Adj B (CEx B.n s.kids) e a b → (∃ z ∈ (c, i) :: l, a = (z.1, cpos e he z.2)) →
        ∃ z ∈ (c, i) :: l, b = (z.1, cpos e he z.2) := by
      rintro ⟨a, p⟩ ⟨b, q⟩ ⟨x1, x2, i', j', r, r0, r1, hv, e1, e2⟩ ⟨z, hz, hzz⟩
      simp only [Prod.mk.injEq, pt] at hzz x1 x2 hv e1 e2
      obtain ⟨rfl, rfl⟩ := hzz
      have hcor : Corner (E i' r) := by rw [← e1, node_cpos, E_corner]; exact .inl rfl
      rw [E_corner] at hcor
      rw [node_cpos] at e1
      rcases hcor with rfl | rfl
      · have := E_zero e1
        subst this
        refine ⟨(b, j' + 1), h2 z hz _ (.inr ((bwd_iff _ _).2 ⟨x1, x2, ?_⟩)), ?_⟩
        · simp only [fin4_h]
          exact hv
        · refine Prod.ext rfl (node_eq ?_)
          simp only
          rw [e2, node_cpos, ← E_next]
          exact congrArg (E _) (by norm_num)
      · rw [E_next] at e1
        have := E_zero e1
        refine ⟨(b, j'), h2 z hz _ (.inl ((fwd_iff _ _).2 ⟨x1, x2, ?_⟩)), ?_⟩
        · rw [this, fin4_h]
          exact hv
        · refine Prod.ext rfl (node_eq ?_)
          simp only
          rw [e2, node_cpos]
          exact congrArg (E _) (by norm_num)
    have key : ∀ a b : Loc e, Relation.EqvGen (Adj B (CEx B.n s.kids) e) a b →
        ((∃ z ∈ (c, i) :: l, a = (z.1, cpos e he z.2)) ↔ ∃ z ∈ (c, i) :: l, b = (z.1, cpos e he z.2)) := by
      intro a b h
      induction h with
      | rel a b h =>
        refine ⟨step a b h, step b a ⟨h.2.1, h.1, h.2.2.symm hG.inv⟩⟩
      | refl a => exact Iff.rfl
      | symm a b _ ih => exact ih.symm
      | trans a b c _ _ ih1 ih2 => exact ih1.trans ih2
    obtain ⟨z, hz, hzz⟩ := (key _ _ h).1 ⟨(c, i), by simp, rfl⟩
    rcases List.mem_cons.1 hz with rfl | hz
    · exact absurd hzz hne
    · exact ⟨z, hz, hzz⟩

/-- `share_dofs_with_neighbors(cell, vertex)`. -/
theorem shareV_spec (hB : B.WF) (hi : CInv B s) (hG : Geo B (CEx B.n s.kids) (vert s)) (he : torn e = false) {c : CN}
    (hc : CEx B.n s.kids c) {n : Nat} (hn : 4 * s.cells.length ≤ n) {w : Fin (nd2 e) → Nat} (i : Fin 4) (D : Dict)
    (h : Row e c w D) : ∃ D', shareV s e n c D i = some D' ∧
      Ext e (fun l a => (Relation.EqvGen (Adj B (CEx B.n s.kids) e) (c, cpos e he i) l ∧ l ≠ (c, cpos e he i)) ∧
        a = w (cpos e he i)) D D' := by
  obtain ⟨row, hr, hlen, hp⟩ := h.row
  obtain ⟨l, hl, l1, l2, l3, l4⟩ := nbsV_spec hB hi hG c i hc n hn
  have hv : baseOf s (s.sides c i) = some (vert s c i) := by
    obtain ⟨r, g1, g2, _⟩ := vert_eq hi hc i
    rw [hi.sides c hc]
    simp [baseOf, g1, g2]
  have hds : vertexDofs e row i = [some (w (cpos e he i))] := by
    unfold vertexDofs
    rw [dpv_one he, Nat.mul_one]
    have : row[i.1]? = some (some (w (cpos e he i))) := hp (cpos e he i)
    obtain ⟨hlt, hx⟩ := List.getElem?_eq_some_iff.1 this
    rw [List.drop_eq_getElem_cons hlt]
    simp only [List.take_succ_cons, List.take_zero]
    exact congrArg (fun x => [x]) hx
  refine ⟨(l.map Prod.fst).foldl (fun D d => assignVertex s e D d (vert s c i) [some (w (cpos e he i))]) D, ?_, ?_⟩
  · unfold shareV
    rw [hv, hr]
    simp only [vIdx_eq hi hG hc i, hds, hl]
    rw [if_neg (by simp)]
  · rw [List.foldl_map]
    have := foldl_ext (c := c) (w := w) (fun D (z : CN × Fin 4) => assignVertex s e D z.1 (vert s c i) [some (w (cpos e he i))])
      (fun z x a => x = (z.1, cpos e he z.2) ∧ a = w (cpos e he i)) l (by
        intro z hz D' hD'
        obtain ⟨g1, g2⟩ := l4 z hz
        unfold assignVertex
        rw [← g2, vIdx_eq hi hG g1]
        simp only [dpv_one he]
        have := assignAt_ext (e := e) D' z.1 [(z.2.1, some (w (cpos e he i)))] (by
          intro x hx
          rw [List.mem_singleton.1 hx]
          exact ⟨(cpos e he z.2).2, _, rfl⟩)
        refine Ext.congr ?_ (W := fun x b => x.1 = z.1 ∧ (x.2.1, some b) ∈ [(z.2.1, some (w (cpos e he i)))]) ?_
        · simpa using this
        · rintro ⟨x, p⟩ b
          simp only [List.mem_singleton, Prod.mk.injEq, Option.some.injEq, Fin.ext_iff, cpos]
          tauto) D h
    refine this.congr ?_
    intro x a
    rw [← orbit_locs hG he c i l l1 l2 l3 x]
    constructor
    · rintro ⟨z, hz, h1, h2⟩; exact ⟨⟨z, hz, h1⟩, h2⟩
    · rintro ⟨⟨z, hz, h1⟩, h2⟩; exact ⟨z, hz, h1, h2⟩

/-- `share_dofs_with_neighbors(cell, half_edge)`. -/
theorem shareE_spec (hi : CInv B s) {c : CN}
    (hc : CEx B.n s.kids c) {w : Fin (nd2 e) → Nat} (i : Fin 4) (D : Dict) (h : Row e c w D) :
    ∃ D', shareE s e c D i = some D' ∧
      Ext e (fun l a => ∃ m, Adj B (CEx B.n s.kids) e (c, epos e i m) l ∧ a = w (epos e i m)) D D' := by
  obtain ⟨row, hr, hlen, hp⟩ := h.row
  have hidx := hIdx_eq hi hc i
  have hsd : s.sides c i = side c i := by rw [hi.sides c hc]
  have hget : ∀ m : Fin (dpe2 e), (edgeDofsIn e row i)[m.1]? = some (some (w (epos e i m))) := by
    intro m
    unfold edgeDofsIn
    rw [List.getElem?_take_of_lt m.2, List.getElem?_drop]
    exact hp (epos e i m)
  have hdl : (edgeDofsIn e row i).length = dpe2 e := by
    unfold edgeDofsIn
    have h1 := i.2
    have : i.1 * dpe2 e ≤ 3 * dpe2 e := Nat.mul_le_mul_right _ (by omega)
    rw [List.length_take, List.length_drop, hlen]
    unfold nd2
    omega
  -- adjacent places
  have hadj : ∀ (m : Fin (dpe2 e)) (l : Loc e), Adj B (CEx B.n s.kids) e (c, epos e i m) l ↔
      ∃ j, vt B.T (side c i) = some (side l.1 j) ∧ CEx B.n s.kids l.1 ∧ l.2 = epos e j m.rev := by
    intro m l
    constructor
    · rintro ⟨x1, x2, i', j, r, r0, r1, hv, e1, e2⟩
      simp only [pt] at hv e1 e2 x1 x2
      have hr := epos_range _ m
      rw [node_epos] at e1
      have := E_two i i' hr.1.le hr.2.le e1 (by rintro (h | h) <;> linarith [hr.1, hr.2])
      subst this
      refine ⟨j, hv, x2, node_eq ?_⟩
      rw [e2, node_epos, ← epos_flip, E_inj i e1]
    · rintro ⟨j, hv, x2, hl⟩
      have hr := epos_range _ m
      refine ⟨hc, x2, i, j, _, hr.1.le, hr.2.le, hv, node_epos e i m, ?_⟩
      simp only [pt]
      rw [hl, node_epos, epos_flip]
  unfold shareE
  rw [hr, hsd, hidx]
  simp only
  by_cases hnil : edgeDofsIn e row i = []
  · rw [if_pos hnil]
    refine ⟨D, rfl, (Ext.refl D).congr ?_⟩
    intro l a
    simp only [false_iff, not_exists]
    intro m
    rw [hnil] at hdl
    have := m.2
    simp at hdl
    omega
  · rw [if_neg hnil]
    obtain ⟨r, hrec⟩ := side_ex hi hc i
    have hex : (s.he (side c i)).isSome := by rw [hrec]; rfl
    rcases hnb : getNb false s (side c i) with _ | d
    · refine ⟨D, rfl, (Ext.refl D).congr ?_⟩
      intro l a
      simp only [false_iff, not_exists, not_and]
      intro m hm
      obtain ⟨j, h1, h2, _⟩ := (hadj m l).1 hm
      have := (getNb_iff hi false hex l.1).2 ⟨_, h1, by rw [owner_side], h2, .inl rfl⟩
      rw [hnb] at this; cases this
    · obtain ⟨t, h1, h2, h3, _⟩ := (getNb_iff hi false hex d).1 hnb
      have hte : (s.he t).isSome := by rw [hi.ex, h2]; exact h3
      have htw : r.twin = some t := (hi.hinv.tw _ r hrec t).2 ⟨h1, hte⟩
      rw [hrec]
      simp only [Option.bind_some, htw]
      refine ⟨_, rfl, ?_⟩
      obtain ⟨j, hj⟩ : ∃ j, t = side d j := ⟨(owner t).2, by rw [← h2, side_owner]⟩
      subst hj
      unfold assignEdge
      rw [hIdx_eq hi h3 j]
      simp only
      have hrev : ∀ m : Fin (dpe2 e), (edgeDofsIn e row i).reverse.getD m none = some (w (epos e i m.rev)) := by
        intro m
        rw [List.getD_eq_getElem?_getD, List.getElem?_reverse (by rw [hdl]; exact m.2), hdl]
        have := hget m.rev
        rw [Fin.val_rev] at this
        have e1 : dpe2 e - 1 - m.1 = dpe2 e - (m.1 + 1) := by omega
        rw [e1, this]; rfl
      refine (assignAt_ext (e := e) D d _ ?_).congr ?_
      · intro x hx
        obtain ⟨m, hm, rfl⟩ := List.mem_map.1 hx
        have hm := List.mem_range.1 hm
        exact ⟨(epos e j ⟨m, hm⟩).2, _, hrev ⟨m, hm⟩⟩
      · rintro ⟨x, p⟩ b
        constructor
        · rintro ⟨rfl, hx⟩
          obtain ⟨m, hm, hmm⟩ := List.mem_map.1 hx
          have hm := List.mem_range.1 hm
          rw [hrev ⟨m, hm⟩] at hmm
          simp only [Prod.mk.injEq, Option.some.injEq] at hmm
          refine ⟨Fin.rev ⟨m, hm⟩, (hadj _ _).2 ⟨j, h1, h3, ?_⟩, hmm.2.symm⟩
          rw [Fin.rev_rev]
          exact Fin.ext hmm.1.symm
        · rintro ⟨m, hm, rfl⟩
          obtain ⟨j', g1, g2, g3⟩ := (hadj _ _).1 hm
          simp only at g1 g2 g3
          rw [h1] at g1
          have := congrArg owner (Option.some.inj g1)
          rw [owner_side, owner_side] at this
          simp only [Prod.mk.injEq] at this
          obtain ⟨rfl, rfl⟩ := this
          refine ⟨rfl, List.mem_map.2 ⟨m.rev, List.mem_range.2 m.rev.2, ?_⟩⟩
          rw [hrev m.rev, Fin.rev_rev, g3]
          rfl

/-- `share_dofs_with_neighbors(cell)`. -/
theorem shareN_spec (hB : B.WF) (hi : CInv B s) (hG : Geo B (CEx B.n s.kids) (vert s)) (he : torn e = false) {c : CN}
    (hc : CEx B.n s.kids c) {n : Nat} (hn : 4 * s.cells.length ≤ n) {w : Fin (nd2 e) → Nat} (D : Dict)
    (h : Row e c w D) : ∃ D', shareN s e n c D = some D' ∧
      Ext e (fun l a => ∃ p, l ≠ (c, p) ∧ Relation.EqvGen (Adj B (CEx B.n s.kids) e) (c, p) l ∧ a = w p) D D' := by
  obtain ⟨D1, h1, x1⟩ := foldlM_ext (c := c) (w := w) (shareV s e n c) _ four
    (fun i _ D hD => shareV_spec hB hi hG he hc hn i D hD) D h
  obtain ⟨D2, h2, x2⟩ := foldlM_ext (c := c) (w := w) (shareE s e c) _ four
    (fun i _ D hD => shareE_spec hi hc i D hD) D1 (h.ext x1)
  refine ⟨D2, by rw [shareN, h1]; exact h2, (x1.trans x2).congr ?_⟩
  rintro l a
  constructor
  · rintro (⟨i, _, ⟨g1, g2⟩, rfl⟩ | ⟨i, _, m, g1, rfl⟩)
    · exact ⟨_, g2, g1, rfl⟩
    · refine ⟨_, ?_, .rel _ _ g1, rfl⟩
      rintro rfl
      obtain ⟨_, _, i', j', r, _, _, hv, _⟩ := g1
      exact no_self hG hc i' j' hv
  · rintro ⟨p, hne, g1, rfl⟩
    rcases adj_class hG e g1 with rfl | ⟨n1, _, g2⟩ | ⟨i, j, e1, _⟩
    · exact absurd rfl hne
    · right
      have g3 := g2
      obtain ⟨_, _, i', j', r, _, _, hv, e1, _⟩ := g2
      simp only [pt] at e1
      obtain ⟨m, rfl⟩ := edge_node e i' p r e1 n1
      exact ⟨i', four_mem i', m, g3, rfl⟩
    · left
      have : p = cpos e he i := node_eq (by rw [node_cpos]; exact e1)
      subst this
      exact ⟨i, four_mem i, ⟨g1, hne⟩, rfl⟩

/-- The system of places that describes the sharing of dofs of the element. -/
noncomputable def sysOf {X : Type} {ex : CN → Prop} {V : CN → Fin 4 → X} (hG : Geo B ex V) (e : ET) : Sys (Loc e) CN :=
  if he : torn e = false then contSys hG e he else tornSys e

theorem sysOf_cell {X : Type} {ex : CN → Prop} {V : CN → Fin 4 → X} (hG : Geo B ex V) (l : Loc e) :
    (sysOf hG e).cell l = l.1 := by
  unfold sysOf
  split_ifs <;> rfl

theorem sysOf_up {X : Type} {ex : CN → Prop} {V : CN → Fin 4 → X} (hG : Geo B ex V) (l : Loc e) :
    (sysOf hG e).up l = upL e l := by
  unfold sysOf
  split_ifs <;> rfl

/-- The dofs of a cell after `fill_dofs`. -/
theorem fill_row {c : CN} (D : DH) (hl : Len e D.dofs) : ∃ w, Row e c w (fill e D c).dofs := by
  obtain ⟨f1, f2, f3, f4, f5, f6, f7, f8⟩ := fill_spec D c hl
  have hfull : ∀ p : Fin (nd2 e), ∃ a, vOf (fill e D c).dofs (c, p) = some a := by
    intro p
    rcases hv : vOf D.dofs (c, p) with _ | a
    · obtain ⟨a, ha, _⟩ := f6 p hv
      exact ⟨a, ha⟩
    · exact ⟨a, f5 p a hv⟩
  choose w hw using hfull
  exact ⟨w, f1, hw⟩

/-- One round of the loop of `distribute_dofs`, given what the neighbours receive. -/
theorem proc_gen {X : Type} {ex : CN → Prop} {V : CN → Fin 4 → X} (hG : Geo B ex V) (b : Bool) {c : CN} (D : DH) (hl : Len e D.dofs)
    {w : Fin (nd2 e) → Nat} (hrow : Row e c w (fill e D c).dofs) {D2 : Dict} {W : Loc e → Nat → Prop}
    (x2 : Ext e W (fill e D c).dofs D2)
    (hW : ∀ l a, W l a → ∃ p, l ≠ (c, p) ∧ (sysOf hG e).nb (c, p) l ∧ a = w p)
    (hW' : ∀ p l, upL e (c, p) = none → l ≠ (c, p) → (sysOf hG e).nb (c, p) l → W l (w p)) :
    ∃ D3, (if b then shareC e c D2 else some D2) = some D3 ∧ Len e D3 ∧
      Eff (sysOf hG e) c b (vOf D.dofs) (vOf D3) D.count (fill e D c).count := by
  obtain ⟨f1, f2, f3, f4, f5, f6, f7, f8⟩ := fill_spec D c hl
  have hw := hrow.2
  have hrow2 := hrow.ext x2
  -- the children
  obtain ⟨D3, h3, x3⟩ : ∃ D3, (if b then shareC e c D2 else some D2) = some D3 ∧
      Ext e (fun l a => b = true ∧ ∃ q, upL e l = some (c, q) ∧ a = w q) D2 D3 := by
    by_cases hb : b = true
    · rw [if_pos hb]
      obtain ⟨D3, h3, x3⟩ := shareC_spec hrow2
      exact ⟨D3, h3, x3.congr (by simp [hb])⟩
    · rw [if_neg hb]
      exact ⟨D2, rfl, (Ext.refl D2).congr (by simp [hb])⟩
  have x := x2.trans x3
  have hrow3 := hrow2.ext x3
  refine ⟨D3, h3, hrow3.1, ?_⟩
  have hv3 : ∀ p, vOf D3 (c, p) = vOf (fill e D c).dofs (c, p) := fun p => by rw [hrow3.2, hw]
  refine ⟨?_, ?_, ?_, f2, ?_, ?_, ?_, ?_⟩
  · rintro ⟨y, p⟩ a ha
    refine x.mono _ _ ?_
    by_cases hy : y = c
    · subst hy; exact f5 p a ha
    · rw [f4 _ hy]; exact ha
  · rintro ⟨y, p⟩ hy
    rw [sysOf_cell] at hy
    simp only at hy
    subst hy
    refine ⟨w p, hrow3.2 p, ?_⟩
    rcases hv : vOf D.dofs (y, p) with _ | a
    · right
      obtain ⟨a, g1, g2, g3⟩ := f6 p hv
      rw [hw] at g1; cases g1
      exact ⟨rfl, g2, g3⟩
    · left
      have := f5 p a hv
      rw [hw] at this
      exact this.symm
  · rintro ⟨y, p⟩ ⟨y', p'⟩ hy hy' g1 g2 g3
    rw [sysOf_cell] at hy hy'
    simp only at hy hy' g3
    subst hy hy'
    rw [hv3, hv3] at g3
    rw [f7 p p' g1 g2 g3]
  · intro a ha ha'
    obtain ⟨p, g1, g2⟩ := f8 a ha ha'
    exact ⟨(c, p), by rw [sysOf_cell], g1, by rw [hv3]; exact g2⟩
  · rintro ⟨y, p⟩ l' hy hu hn'
    rw [sysOf_cell] at hy
    rw [sysOf_up] at hu
    simp only at hy
    subst hy
    by_cases hne : l' = (y, p)
    · rw [hne, show vOf D3 (y, p) = _ from hrow3.2 p]; simp
    · exact x.set f1 l' (w p) (.inl (hW' p l' hu hne hn'))
  · rintro hb ⟨y, p⟩ l' hy hu
    rw [sysOf_cell] at hy
    simp only at hy
    subst hy
    rw [sysOf_up] at hu
    exact x.set f1 l' (w p) (.inr ⟨hb, p, hu, rfl⟩)
  · intro l' a g1 g2 g3
    rw [sysOf_cell] at g3
    have g1' : vOf (fill e D c).dofs l' = none := by rw [f4 _ g3]; exact g1
    rcases x.new l' a g1' g2 with h5 | ⟨hb, p, h5, rfl⟩
    · obtain ⟨p, _, h6, rfl⟩ := hW l' a h5
      exact ⟨(c, p), by rw [sysOf_cell], hrow3.2 p, .inl h6⟩
    · exact ⟨(c, p), by rw [sysOf_cell], hrow3.2 p, .inr ⟨hb, by rw [sysOf_up]; exact h5⟩⟩

/-- One round of the loop of `distribute_dofs`. -/
theorem process_spec (hB : B.WF) (hi : CInv B s) (hG : Geo B (CEx B.n s.kids) (vert s)) (sf : Bool) {c : CN}
    (hc : CEx B.n s.kids c) {n : Nat} (hn : 4 * s.cells.length ≤ n) (D : DH) (hl : Len e D.dofs) :
    ∃ D', process sf s e n D c = some D' ∧ Len e D'.dofs ∧
      Eff (sysOf hG e) c (hasCh sf s c) (vOf D.dofs) (vOf D'.dofs) D.count D'.count := by
  obtain ⟨w, hrow⟩ := fill_row (c := c) D hl
  -- the neighbours
  obtain ⟨D2, h2, x2⟩ : ∃ D2, (if torn e then some (fill e D c).dofs else shareN s e n c (fill e D c).dofs) = some D2 ∧
      Ext e (fun l a => ∃ p, l ≠ (c, p) ∧ (sysOf hG e).nb (c, p) l ∧ a = w p) (fill e D c).dofs D2 := by
    by_cases he : torn e = false
    · rw [if_neg (by simp [he])]
      have hs : sysOf hG e = contSys hG e he := by unfold sysOf; rw [dif_pos he]
      rw [hs]
      exact shareN_spec hB hi hG he hc hn _ hrow
    · have hs : sysOf hG e = tornSys e := by unfold sysOf; rw [dif_neg he]
      rw [if_pos (by simpa using he), hs]
      refine ⟨_, rfl, (Ext.refl _).congr ?_⟩
      rintro l a
      simp only [false_iff, not_exists, not_and]
      intro p hne hp
      exact absurd hp.symm hne
  obtain ⟨D3, h3, h4, h5⟩ := proc_gen hG (hasCh sf s c) D hl hrow x2 (fun l a h => h)
    (fun p l _ h1 h2 => ⟨p, h1, h2, rfl⟩)
  refine ⟨⟨D3, (fill e D c).count⟩, ?_, h4, h5⟩
  unfold process
  simp only [h2, Option.bind_some, h3, Option.map_some]

end

end Verif.Dof
