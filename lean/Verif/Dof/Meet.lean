import Verif.Dof.Hang

/-!
# How leaves of a balanced mesh meet
-/

namespace Verif.Dof
open Verif.Fem Verif.Mesh

section
variable {K R : Type} [Field K] [Field R] [LinearOrder R] [IsStrictOrderedRing R] {B : Base K} {s : St K} {sf : Bool}

/-- Cells of the (sub)mesh. -/
def Sub (sf : Bool) (s : St K) (c : CN) : Prop := sf = false ∨ s.mkd c = true

theorem mem_leaves (hi : CInv B s) (c : CN) :
    c ∈ leaves sf s ↔ CEx B.n s.kids c ∧ Sub sf s c ∧ hasCh sf s c = false := by
  unfold leaves Sub
  rw [List.mem_filter, hi.mem]
  cases sf <;> simp

theorem hasCh_of {c : CN} {k : Fin 4} (hk : s.kids c = true) (h : Sub sf s (child c k)) : hasCh sf s c = true := by
  unfold hasCh
  rw [hk]
  rcases h with rfl | h
  · rfl
  · have : four.any (fun k => s.mkd (child c k)) = true := List.any_eq_true.2 ⟨k, mem_four k, h⟩
    simp [this]

theorem sub_anc (hi : CInv B s) (hr : sf = false ∨ RootedFlag B s) (f : Nat) (q p : List (Fin 4))
    (hx : CEx B.n s.kids (f, q ++ p)) (h : Sub sf s (f, q ++ p)) : Sub sf s (f, p) := by
  induction q with
  | nil => exact h
  | cons k q ih =>
    rcases hr with h0 | h0
    · exact .inl h0
    · refine ih (CEx_par hi f [k] (q ++ p) hx) ?_
      rcases h with h | h
      · exact .inl h
      · exact .inr (h0 (f, q ++ p) k hx h)

/-- A leaf has no proper descendants in the (sub)mesh. -/
theorem leaf_desc (hi : CInv B s) (hr : sf = false ∨ RootedFlag B s) {c : CN} (hc : hasCh sf s c = false) (q : List (Fin 4))
    (hx : CEx B.n s.kids (c.1, q ++ c.2)) (h : Sub sf s (c.1, q ++ c.2)) : q = [] := by
  rcases List.eq_nil_or_concat q with h0 | ⟨q', k, rfl⟩
  · exact h0
  · exfalso
    rw [List.concat_eq_append, List.append_assoc] at hx h
    have h1 := CEx_par hi c.1 q' ([k] ++ c.2) hx
    have h2 := sub_anc hi hr c.1 q' ([k] ++ c.2) hx h
    have := hasCh_of (c := c) (k := k) h1 h2
    rw [hc] at this
    cases this

theorem side_half (P : CN) (j : Fin 4) (b : Bool) : side (child P (halfCell j b)) j = .kid (side P j) b := by
  cases b
  · exact side_k P j
  · have := side_k3 P (j + 1)
    rw [fin4_h, fin4_succ_pred] at this
    exact this

theorem owner_half (P : CN) (j : Fin 4) (b : Bool) : owner (.kid (side P j) b) = (child P (halfCell j b), j) := by
  rw [← side_half, owner_side]

theorem emb_half (j : Fin 4) (b : Bool) (t : R) : emb (halfCell j b) (E j t) = E j (((if b then 1 else 0) + t) / 2) := by
  cases b
  · simp only [halfCell, Bool.false_eq_true, if_false]; rw [emb_k]; exact congrArg (E j) (by ring)
  · simp only [halfCell, if_true]; rw [emb_k3]

theorem half_vt {T : Nat → Option Nat} {c P : CN} {i j : Fin 4} (hT : ∀ k j, T k = some j → T j = some k)
    (h : vt T (side c i) = some (side P j)) (b : Bool) :
    vt T (side (child P (halfCell j b)) j) = some (.kid (side c i) (!b)) := by
  rw [side_half, vt, vt_inv hT _ _ h]
  rfl

/-- What a coarse side of a balanced mesh looks like. -/
structure Coarse (B : Base K) (sf : Bool) (s : St K) (c : CN) (i : Fin 4) (P : CN) (j : Fin 4) : Prop where
  leaf : c ∈ leaves sf s
  face : vt B.T (side c i) = some (side P j)
  ex : CEx B.n s.kids P
  sub : Sub sf s P
  kids : hasCh sf s P = true

theorem hasCh_kids {c : CN} (h : hasCh sf s c = true) : s.kids c = true := by
  unfold hasCh at h
  simp only [Bool.and_eq_true] at h
  exact h.1

theorem nb_of (hi : CInv B s) {c P : CN} {i j : Fin 4} (hc : CEx B.n s.kids c) (h : vt B.T (side c i) = some (side P j))
    (hx : CEx B.n s.kids P) (hs : Sub sf s P) : getNb sf s (s.sides c i) = some P := by
  rw [hi.sides c hc]
  refine (getNb_iff hi sf ?_ P).2 ⟨side P j, h, by rw [owner_side], hx, hs⟩
  rw [hi.ex, owner_side]; exact hc

/-- Balance: the halves of a coarse side belong to cells that are not refined. -/
theorem Coarse.bal (hi : CInv B s) (hb : isBalanced sf s = true) {c P : CN} {i j : Fin 4} (h : Coarse B sf s c i P j)
    (b : Bool) : hasCh sf s (child P (halfCell j b)) = false := by
  by_contra hne
  simp only [Bool.not_eq_false] at hne
  unfold isBalanced at hb
  rw [List.all_eq_true] at hb
  have h1 := hb c h.leaf
  rw [List.all_eq_true] at h1
  have h2 := h1 i (mem_four i)
  have hcx := ((mem_leaves hi c).1 h.leaf).1
  have h3 : sideBad sf s c i = true := by
    unfold sideBad
    rw [nb_of hi hcx h.face h.ex h.sub]
    simp only [h.kids, Bool.true_and]
    rw [hi.sides c hcx]
    refine (twinKidSplit_iff hi sf (by rw [hi.ex, owner_side]; exact hcx)).2 ⟨side P j, b, h.face, ?_, ?_⟩
    · rw [owner_side]; exact hasCh_kids h.kids
    · rw [owner_half]; exact hne
  rw [h3] at h2
  cases h2

/-- A refined neighbour behind a half side would make the coarse cell refined. -/
theorem Coarse.no_back (hB : B.WF) {c P : CN} {i j : Fin 4} (hi : CInv B s) (h : Coarse B sf s c i P j) (b : Bool) {Q : CN} {l : Fin 4}
    (hv : vt B.T (side (child P (halfCell j b)) j) = some (side Q l)) (hx : CEx B.n s.kids Q) (hs : Sub sf s Q) : False := by
  rw [half_vt hB.inv h.face b] at hv
  have h1 := congrArg (fun o => (Option.map owner o)) hv
  simp only [Option.map_some, owner_half, owner_side, Option.some.injEq, Prod.mk.injEq] at h1
  obtain ⟨h2, rfl⟩ := h1
  subst h2
  have := hasCh_of (c := c) hx hs
  rw [((mem_leaves hi c).1 h.leaf).2.2] at this
  cases this

theorem level_split {c c' : CN} (h : level c ≤ level c') : ∃ q2 q, c'.2 = q2 ++ q ∧ q.length = c.2.length := by
  refine ⟨c'.2.take (c'.2.length - c.2.length), c'.2.drop (c'.2.length - c.2.length), (List.take_append_drop _ _).symm, ?_⟩
  rw [List.length_drop]
  unfold level at h
  omega

/-- How two leaves meet at a point that is not a corner of the larger one. -/
theorem meet (hB : B.WF) (hi : CInv B s) (hr : sf = false ∨ RootedFlag B s) (hb : isBalanced sf s = true) {c c' : CN}
    (hc : c ∈ leaves sf s) (hc' : c' ∈ leaves sf s) (hlev : level c ≤ level c') {z z' : R × R} (hz : InSq z) (hz' : InSq z')
    (hS : SamePt B (rootPt c z) (rootPt c' z')) (hn : ¬ Corner z) :
    (c' = c ∧ z' = z) ∨ PGlue B.T (c, z) (c', z') ∨
    ∃ (i j : Fin 4) (P : CN) (b : Bool) (t : R), Coarse B sf s c i P j ∧ c' = child P (halfCell j b) ∧ 0 ≤ t ∧ t ≤ 1 ∧
      z' = E j t ∧ z = E i (1 - ((if b then 1 else 0) + t) / 2) := by
  obtain ⟨g, p'⟩ := c'
  obtain ⟨q2, q, h1, h2⟩ := level_split hlev
  simp only at h1
  subst h1
  obtain ⟨hx, hsub, hleaf⟩ := (mem_leaves hi c).1 hc
  obtain ⟨hx', hsub', hleaf'⟩ := (mem_leaves hi _).1 hc'
  have hS' : SamePt B (rootPt (c.1, c.2) z) (rootPt (g, q) (climb q2 z')) := by
    have : rootPt (g, q2 ++ q) z' = rootPt (g, q) (climb q2 z') := by simp [rootPt, climb_append]
    rw [← this]; exact hS
  rcases same_noncorner hB.inv c.2 q c.1 g z (climb q2 z') h2.symm hz (climb_insq q2 hz') hS' hn with ⟨h3, h4⟩ | h3
  · left
    cases h3
    have hq := leaf_desc hi hr hleaf q2 hx' hsub'
    subst hq
    exact ⟨rfl, h4⟩
  · right
    rcases List.eq_nil_or_concat q2 with h0 | ⟨q3, k, h0⟩
    · subst h0
      exact .inl h3
    · right
      rw [List.concat_eq_append] at h0
      subst h0
      obtain ⟨i, j, r, r0, r1, hv, e1, e2⟩ := h3
      simp only at e1 e2 hv
      have hk : climb (q3 ++ [k]) z' = emb k (climb q3 z') := by rw [climb_append]; rfl
      rw [hk] at e2
      have hPx : CEx B.n s.kids (g, q) := CEx_par hi g (q3 ++ [k]) q hx'
      have hPs := sub_anc hi hr g (q3 ++ [k]) q hx' hsub'
      have hx2 : CEx B.n s.kids (g, q3 ++ (k :: q)) := by simpa using hx'
      have hs2 : Sub sf s (g, q3 ++ (k :: q)) := by simpa using hsub'
      have hkx : CEx B.n s.kids (child (g, q) k) := CEx_par hi g q3 (k :: q) hx2
      have hks : Sub sf s (child (g, q) k) := sub_anc hi hr g q3 (k :: q) hx2 hs2
      have hco : Coarse B sf s c i (g, q) j := ⟨hc, hv, hPx, hPs, hasCh_of hkx hks⟩
      have hkb : ∃ b t, k = halfCell j b ∧ climb q3 z' = E j t ∧ 0 ≤ t ∧ t ≤ 1 ∧ r = 1 - ((if b then 1 else 0) + t) / 2 := by
        rcases emb_on_side k j (climb_insq q3 hz') e2 with ⟨h5, h6, h7⟩ | ⟨h5, h6, h7⟩
        · exact ⟨false, 2 * (1 - r), h5, h6, by linarith, by linarith, by simp⟩
        · exact ⟨true, 2 * (1 - r) - 1, h5, h6, by linarith, by linarith, by simp⟩
      obtain ⟨b, t, rfl, h6, t0, t1, h7⟩ := hkb
      have hq3 := leaf_desc hi hr (hco.bal hi hb b) q3 hx2 hs2
      subst hq3
      exact ⟨i, j, (g, q), b, t, hco, rfl, t0, t1, h6, by rw [e1, h7]⟩

theorem climb_corner (q : List (Fin 4)) {z : R × R} (hz : InSq z) (h : Corner (climb q z)) : Corner z := by
  induction q generalizing z with
  | nil => exact h
  | cons k q ih => exact emb_corner k hz (ih (emb_insq k hz) h)

/-- A corner of a cell is a corner of all smaller cells it belongs to. -/
theorem corner_down (hB : B.WF) {c c' : CN} (hlev : level c ≤ level c') {z z' : R × R} (hz : InSq z) (hz' : InSq z')
    (hS : SamePt B (rootPt c z) (rootPt c' z')) (hc : Corner z) : Corner z' := by
  obtain ⟨g, p'⟩ := c'
  obtain ⟨q2, q, h1, h2⟩ := level_split hlev
  simp only at h1
  subst h1
  refine climb_corner q2 hz' ?_
  by_contra hn
  have hS' : SamePt B (rootPt (g, q) (climb q2 z')) (rootPt (c.1, c.2) z) := by
    have : rootPt (g, q2 ++ q) z' = rootPt (g, q) (climb q2 z') := by simp [rootPt, climb_append]
    rw [← this]; exact .symm _ _ hS
  rcases same_noncorner hB.inv q c.2 g c.1 (climb q2 z') z h2 (climb_insq q2 hz') hz hS' hn with ⟨_, h4⟩ | h3
  · rw [← h4] at hn; exact hn hc
  · exact hn (h3.corner.2 hc)

end
end Verif.Dof
