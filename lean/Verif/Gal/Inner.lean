import Verif.Gal.Total

/-!
# Inner dofs

Every cell has nodes inside for biquadratic and bicubic elements, and the centre of a refined cell is a node for all continuous elements.
-/

namespace Verif.Gal
open Verif.Mesh Verif.Dof Verif.Quad Verif.Fem Verif.Form Verif.Asm Verif.Phys Verif.Bnd Verif.Reg Verif.Dir Verif.Gauss

/-- Inside the unit square, not on its boundary. -/
def Strict (z : ℚ × ℚ) : Prop := 0 < z.1 ∧ z.1 < 1 ∧ 0 < z.2 ∧ z.2 < 1

theorem Strict.insq {z : ℚ × ℚ} (h : Strict z) : Dof.InSq z := ⟨h.1.le, h.2.1.le, h.2.2.1.le, h.2.2.2.le⟩

theorem strict_emb (k : Fin 4) {z : ℚ × ℚ} (h : Strict z) : Strict (emb k z) := by
  obtain ⟨h1, h2, h3, h4⟩ := h
  fin_cases k <;> simp only [emb, Strict] <;> refine ⟨?_, ?_, ?_, ?_⟩ <;> linarith

theorem strict_climb (p : List (Fin 4)) {z : ℚ × ℚ} (h : Strict z) : Strict (climb p z) := by
  induction p generalizing z with
  | nil => exact h
  | cons k p ih => exact ih (strict_emb k h)

theorem strict_E {z : ℚ × ℚ} (h : Strict z) (i : Fin 4) (r : ℚ) : z ≠ E i r := by
  rintro rfl
  obtain ⟨h1, h2, h3, h4⟩ := h
  fin_cases i <;> simp [E] at h1 h2 h3 h4

theorem strict_corner {z : ℚ × ℚ} (h : Strict z) : ¬ Corner z := by
  intro hc
  obtain ⟨i, hi⟩ := (corner_iff z).1 hc
  exact strict_E h i 0 hi

theorem emb_eq {k k' : Fin 4} {z w : ℚ × ℚ} (hz : Strict z) (hw : Dof.InSq w) (h : emb k z = emb k' w) : k = k' ∧ z = w := by
  obtain ⟨h1, h2, h3, h4⟩ := hz
  obtain ⟨g1, g2, g3, g4⟩ := hw
  have e1 := congrArg Prod.fst h
  have e2 := congrArg Prod.snd h
  fin_cases k <;> fin_cases k' <;> simp only [emb] at e1 e2 <;>
    first
    | exact ⟨rfl, Prod.ext (by linarith) (by linarith)⟩
    | exact absurd e1 (by intro; linarith)
    | exact absurd e2 (by intro; linarith)

theorem climb_eq : ∀ {p q : List (Fin 4)} {z w : ℚ × ℚ}, p.length = q.length → Strict z → Dof.InSq w → climb p z = climb q w → p = q ∧ z = w := by
  intro p
  induction p with
  | nil =>
    intro q z w hl _ _ h
    cases q with
    | nil => exact ⟨rfl, h⟩
    | cons k q => simp at hl
  | cons k p ih =>
    intro q z w hl hz hw h
    cases q with
    | nil => simp at hl
    | cons k' q =>
      obtain ⟨rfl, h2⟩ := ih (by simpa using hl) (strict_emb k hz) (emb_insq k' hw) h
      obtain ⟨rfl, rfl⟩ := emb_eq hz hw h2
      exact ⟨rfl, rfl⟩

section
variable {K : Type} [Field K] {B : Base K} {e : ET} {sf : Bool} {s : St K} {D : DH}

/-- A point inside an initial cell is not on any other one. -/
theorem strict_same (hB : B.WF) {f : Nat} {z : ℚ × ℚ} (hz : Strict z) {y : Nat × (ℚ × ℚ)} (hy : Dof.InSq y.2) (h : SamePt B (f, z) y) : y = (f, z) := by
  rcases same_noncorner hB.inv [] [] f y.1 z y.2 rfl hz.insq hy h (strict_corner hz) with ⟨h1, h2⟩ | ⟨i, j, r, _, _, _, h3, _⟩
  · cases h1
    exact Prod.ext rfl h2
  · exact absurd h3 (strict_E hz i r)

theorem strict_bnd (hB : B.WF) {c : CN} {z : ℚ × ℚ} (hz : Strict z) : ¬ BndPt B (rootPt c z) := by
  rintro ⟨f, j, r, _, _, h0, h1, hs⟩
  have h := strict_same hB (strict_climb c.2 hz) (y := (f, E j r)) (E_insq j h0 h1) hs
  exact strict_E (strict_climb c.2 hz) j r (congrArg Prod.snd h).symm

/-- The leaves on which a point inside a cell of the (sub)mesh lies are below the cell. -/
theorem strict_leaf (hB : B.WF) (hs : MReach B s) (hr : sf = false ∨ RootedFlag B s) {c : CN} (hc : CEx B.n s.kids c) (hS : Dof.Sub sf s c)
    {z : ℚ × ℚ} (hz : Strict z) {c' : CN} (hc' : c' ∈ leaves sf s) {z' : ℚ × ℚ} (hz' : Dof.InSq z')
    (h : SamePt B (rootPt c' z') (rootPt c z)) : ∃ q, c' = (c.1, q ++ c.2) ∧ climb q z' = z := by
  have hi := hs.inv hB
  obtain ⟨k1, k2, k3⟩ := (Dof.mem_leaves hi c').1 hc'
  have h := strict_same hB (strict_climb c.2 hz) (climb_insq c'.2 hz') (.symm _ _ h)
  obtain ⟨f, p⟩ := c
  obtain ⟨g, p'⟩ := c'
  have hfg : g = f := congrArg Prod.fst h
  subst hfg
  have hcl : climb p' z' = climb p z := congrArg Prod.snd h
  rcases le_total (level (g, p)) (level (g, p')) with hl | hl
  · obtain ⟨q2, q, h1, h2⟩ := level_split hl
    simp only at h1 h2
    subst h1
    rw [climb_append] at hcl
    obtain ⟨rfl, h4⟩ := climb_eq h2.symm hz (climb_insq q2 hz') hcl.symm
    exact ⟨q2, rfl, h4.symm⟩
  · obtain ⟨q2, q, h1, h2⟩ := level_split hl
    simp only at h1 h2
    subst h1
    rw [climb_append] at hcl
    obtain ⟨rfl, h4⟩ := climb_eq h2 (strict_climb q2 hz) hz' hcl.symm
    have := leaf_desc hi hr k3 q2 hc hS
    subst this
    exact ⟨[], rfl, h4.symm⟩
end

section
variable {close : Pt ℝ → Pt ℝ → Bool} {B : Base ℝ} {e : ET} {sf : Bool} {s : St ℝ} {D : DH} {V : DV ℝ} {rect : Nat → Bool}

/-- A node inside a leaf is an inner node. -/
theorem inner_node (h : Setting close B e sf s D V rect) {H C : List (Linsys.Con ℝ)} (hh : setHanging sf s e D [] = some (H, C)) {c : CN}
    (hc : c ∈ leaves sf s) {i : Nat} (hi : i < nd2 e) (hz : Strict (node e i)) : Inner B sf s e D H := by
  have hR := h.ready.ready
  have hin := hR.uses.uses.reach.inv h.wf
  obtain ⟨k1, k2, k3⟩ := (Dof.mem_leaves hin c).1 hc
  refine ⟨c, hc, i, hi, strict_bnd h.wf hz, fun x hx he => ?_⟩
  obtain ⟨c', hc', z, hz', hs, hn⟩ := (C62_hanging h.wf h.plain h.cont hR hh c hc i _ hi ((row_leaf h.wf h.plain hR hc).2.2 i hi)).1 ⟨x, hx, he⟩
  obtain ⟨q, rfl, hq⟩ := strict_leaf h.wf hR.uses.uses.reach hR.flag k1 k2 hz hc' hz' hs
  obtain ⟨l1, l2, l3⟩ := (Dof.mem_leaves hin _).1 hc'
  have := leaf_desc hin hR.flag k3 q l1 l2
  subst this
  exact hn i hi hq.symm

/-- Biquadratic and bicubic elements: every leaf has an inner node. -/
theorem inner_high (h : Setting close B e sf s D V rect) (he : e = .Q2 ∨ e = .Q3) {H C : List (Linsys.Con ℝ)} (hh : setHanging sf s e D [] = some (H, C))
    {c : CN} (hc : c ∈ leaves sf s) : Inner B sf s e D H := by
  rcases he with rfl | rfl
  · exact inner_node h hh hc (i := 8) (by decide +kernel) (by unfold Strict; decide +kernel)
  · exact inner_node h hh hc (i := 12) (by decide +kernel) (by unfold Strict; decide +kernel)

/-- A corner of a cell of the (sub)mesh is a corner of some leaf. -/
theorem corner_leaf (hB : B.WF) (hs : MReach B s) (hf : sf = false ∨ (RootedFlag B s ∧ FullFlag s)) :
    ∀ c, CEx B.n s.kids c → Dof.Sub sf s c → ∀ i : Fin 4, ∃ c' ∈ leaves sf s, level c ≤ level c' ∧ rootPt c' (E (R := ℚ) i 0) = rootPt c (E i 0) := by
  refine tree_ind hB hs hf _ (fun c hc i => ⟨c, hc, le_rfl, rfl⟩) (fun c _ _ _ ih i => ?_)
  obtain ⟨c', h1, h2, h3⟩ := (ih i).2.2 i
  refine ⟨c', h1, ?_, h3.trans ?_⟩
  · rw [level_child] at h2
    omega
  · simp only [rootPt, child, climb]
    rw [emb_k]
    simp

/-- The centre of a refined cell is an inner node. -/
theorem inner_centre (h : Setting close B e sf s D V rect) {H C : List (Linsys.Con ℝ)} (hh : setHanging sf s e D [] = some (H, C)) {c : CN}
    (hc : CEx B.n s.kids c) (hS : Dof.Sub sf s c) (hk : hasCh sf s c = true) : Inner B sf s e D H := by
  have hR := h.ready.ready
  have hreach := hR.uses.uses.reach
  have hin := hreach.inv h.wf
  have hx : CEx B.n s.kids (child c 0) := hasCh_kids hk
  have hs' : Dof.Sub sf s (child c 0) := by
    rcases h.full with h9 | ⟨_, h9⟩
    · exact .inl h9
    · cases sf
      · exact .inl rfl
      · exact .inr (h9 c hk 0)
  have hz : Strict ((1 / 2, 1 / 2) : ℚ × ℚ) := by unfold Strict; norm_num
  obtain ⟨c1, h1, h2, h3⟩ := corner_leaf h.wf hreach h.full _ hx hs' 2
  have h3' : rootPt c1 (E (R := ℚ) 2 0) = rootPt c (1 / 2, 1 / 2) := by
    rw [h3]
    simp [rootPt, child, climb, emb, E]
  have cor : ∀ z : ℚ × ℚ, Corner z → ∃ i < nd2 e, node e i = z := by
    intro z hz
    have : ∀ j : Fin 4, ∃ i < nd2 e, node e i = E j 0 := by
      have := h.cont
      cases e <;> simp [torn] at this <;> decide +kernel
    obtain ⟨j, rfl⟩ := (corner_iff z).1 hz
    exact this j
  obtain ⟨i, hi, hE⟩ := cor (E 2 0) ((corner_iff _).2 ⟨2, rfl⟩)
  refine ⟨c1, h1, i, hi, ?_, fun x hx he => ?_⟩
  · rw [hE, h3']
    exact strict_bnd h.wf hz
  · obtain ⟨c', hc', z, hz', hs, hn⟩ := (C62_hanging h.wf h.plain h.cont hR hh c1 h1 i _ hi ((row_leaf h.wf h.plain hR h1).2.2 i hi)).1 ⟨x, hx, he⟩
    rw [hE, h3'] at hs
    obtain ⟨q, rfl, hq⟩ := strict_leaf h.wf hreach hR.flag hc hS hz hc' hz' hs
    rcases List.eq_nil_or_concat q with h0 | ⟨q', k, rfl⟩
    · subst h0
      have := ((Dof.mem_leaves hin _).1 hc').2.2
      simp only [List.nil_append] at this
      rw [show ((c.1, c.2) : CN) = c from rfl, hk] at this
      cases this
    · rw [List.concat_eq_append, climb_append] at hq
      have hc2 : Corner (climb q' z) := by
        have e1 := congrArg Prod.fst hq
        have e2 := congrArg Prod.snd hq
        fin_cases k <;> simp only [climb, emb] at e1 e2 <;> refine ⟨?_, ?_⟩
        all_goals first
          | (left; linarith)
          | (right; linarith)
      obtain ⟨m, hm, hme⟩ := cor z (climb_corner q' hz' hc2)
      exact hn m hm hme

end
end Verif.Gal
