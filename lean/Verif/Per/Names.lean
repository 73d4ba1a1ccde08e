import Verif.Per.Model

/-!
# The points of vertices on periodic meshes
-/

namespace Verif.Per
open Verif.Fem Verif.Mesh Verif.Dof

section
set_option linter.unusedSectionVars false
variable {K : Type} [Field K] {B : Base K} {s : St K}

/-- What the theorems assume of the initial mesh, apart from the periodic pairs: the four corners of a cell are four
different points of the domain, and a vertex is one point of the domain. -/
structure Nice (B : Base K) : Prop where
  simple : ∀ f < B.n, ∀ i j : Fin 4, SamePt B (f, E i (0 : ℚ)) (f, E j 0) → i = j
  names : ∀ f < B.n, ∀ g < B.n, ∀ i j : Fin 4, B.b (4 * f + i) = B.b (4 * g + j) → SamePt B (f, E i (0 : ℚ)) (g, E j 0)

theorem SamePt.refl' (x : Nat × (ℚ × ℚ)) : SamePt B x x := .refl _
theorem SamePt.symm' {x y : Nat × (ℚ × ℚ)} (h : SamePt B x y) : SamePt B y x := .symm _ _ h
theorem SamePt.trans' {x y z : Nat × (ℚ × ℚ)} (h : SamePt B x y) (h' : SamePt B y z) : SamePt B x z := .trans _ _ _ h h'

/-- The point of a half-edge at the fraction `r`. -/
def hePt (h : HN) (r : ℚ) : Nat × (ℚ × ℚ) := rootPt (owner h).1 (E (owner h).2 r)

theorem hePt_side (c : CN) (i : Fin 4) (r : ℚ) : hePt (side c i) r = rootPt c (E i r) := by
  unfold hePt; rw [owner_side]

theorem rootPt_child (c : CN) (k : Fin 4) (z : ℚ × ℚ) : rootPt (child c k) z = rootPt c (emb k z) := rfl

theorem hePt_kid0 (h : HN) (r : ℚ) : hePt (.kid h false) r = hePt h (r / 2) := by
  unfold hePt
  simp only [owner]
  rw [rootPt_child, emb_k]

theorem hePt_kid1 (h : HN) (r : ℚ) : hePt (.kid h true) r = hePt h ((1 + r) / 2) := by
  unfold hePt
  simp only [owner]
  rw [rootPt_child, emb_k3]

theorem hePt_inner (c : CN) (i : Fin 4) (r : ℚ) : hePt (.inner c i true) r = hePt (.inner c i false) (1 - r) := by
  unfold hePt
  simp only [owner]
  rw [rootPt_child, rootPt_child, emb_inner]
  congr 2; ring_nf

theorem hePt_inner0 (c : CN) (i : Fin 4) : hePt (.inner c i false) 0 = rootPt c (E i (1 / 2)) := by
  unfold hePt
  simp only [owner]
  rw [rootPt_child, ← E_next, emb_k]

theorem hePt_inner1 (c : CN) (i : Fin 4) : hePt (.inner c i false) 1 = rootPt c (1 / 2, 1 / 2) := by
  unfold hePt
  simp only [owner]
  rw [rootPt_child]
  congr 1
  fin_cases i <;> simp [emb, E]

theorem hePt_twin {h t : HN} (hv : vt B.T h = some t) (hh : (owner h).1.1 < B.n) (ht : (owner t).1.1 < B.n) {r : ℚ} (h0 : 0 ≤ r)
    (h1 : r ≤ 1) : SamePt B (hePt h r) (hePt t (1 - r)) := by
  refine PGlue.same _ _ _ _ _ _ hh ht ⟨(owner h).2, (owner t).2, r, h0, h1, ?_, rfl, rfl⟩
  simp only [Prod.mk.eta]
  rw [side_owner, side_owner]; exact hv

/-- The vertex is at the point. -/
def At (B : Base K) (v : VN) (x : Nat × (ℚ × ℚ)) : Prop :=
  match v with
  | .root k => ∃ f < B.n, ∃ i : Fin 4, B.b (4 * f + i) = k ∧ SamePt B (f, E i (0 : ℚ)) x
  | .mid h => SamePt B (hePt h (1 / 2)) x
  | .center c => SamePt B (rootPt c (1 / 2, 1 / 2)) x

theorem At.same {v : VN} {x y : Nat × (ℚ × ℚ)} (h : At B v x) (hxy : SamePt B x y) : At B v y := by
  cases v with
  | root k =>
    obtain ⟨f, hf, i, h1, h2⟩ := h
    exact ⟨f, hf, i, h1, SamePt.trans' h2 hxy⟩
  | mid h' => exact SamePt.trans' (B := B) h hxy
  | center c => exact SamePt.trans' (B := B) h hxy

theorem At.uniq (hN : Nice B) {v : VN} {x y : Nat × (ℚ × ℚ)} (h : At B v x) (h' : At B v y) : SamePt B x y := by
  cases v with
  | root k =>
    obtain ⟨f, hf, i, h1, h2⟩ := h
    obtain ⟨g, hg, j, g1, g2⟩ := h'
    exact SamePt.trans' (SamePt.symm' h2) (SamePt.trans' (hN.names f hf g hg i j (h1.trans g1.symm)) g2)
  | mid h' => exact SamePt.trans' (SamePt.symm' (B := B) h) (by assumption)
  | center c => exact SamePt.trans' (SamePt.symm' (B := B) h) h'

theorem CEx_root (hi : CInv B s) {c : CN} (hc : CEx B.n s.kids c) : c.1 < B.n := by
  obtain ⟨f, p⟩ := c
  exact CEx_par hi f p [] (by simpa using hc)

theorem root_eq (k : Nat) : HN.root k = side (k / 4, []) ⟨k % 4, by omega⟩ := by
  unfold side sideL
  congr 1
  simp only
  omega

/-- The ends of the half-edges are where they should be. -/
theorem ends_at (hB : B.WF) (hs : MReach B s) : ∀ h r, s.he h = some r → At B r.base (hePt h 0) ∧ At B r.head (hePt h 1) := by
  have hi := hs.inv hB
  have hn := reach_ninv hB hs
  have hlt : ∀ h, (s.he h).isSome → (owner h).1.1 < B.n := fun h hh => CEx_root hi ((hi.ex h).1 hh)
  intro h
  induction h with
  | root k =>
    intro r hr
    obtain ⟨h1, h2⟩ := root_verts hB hs k r hr
    have hk : k / 4 < B.n := by
      have := hlt (.root k) (by rw [hr]; rfl)
      exact this
    obtain ⟨i, hik⟩ : ∃ i : Fin 4, i = ⟨k % 4, by omega⟩ := ⟨_, rfl⟩
    have hkk : k = 4 * (k / 4) + i := by rw [hik]; simp only; omega
    have hpt : ∀ ρ, hePt (.root k) ρ = (k / 4, E i ρ) := by
      intro ρ
      rw [root_eq, hePt_side, hik]; rfl
    rw [h1, h2, hpt, hpt]
    refine ⟨⟨k / 4, hk, i, by rw [← hkk], .refl _⟩, ⟨k / 4, hk, i + 1, ?_, ?_⟩⟩
    · rw [← hB.chain _ hk i, ← hkk]
    · rw [E_next]; exact .refl _
  | kid h b ih =>
    intro r hr
    have hh : (s.he h).isSome := hi.hinv.par h b (by rw [hr]; rfl)
    obtain ⟨q, hq⟩ := Option.isSome_iff_exists.1 hh
    have hk : s.kids (owner h).1 = true := (kids_owner_kid hi h b).1 (by rw [hr]; rfl)
    obtain ⟨a0, ha0⟩ := Option.isSome_iff_exists.1 ((kids_owner_kid hi h false).2 hk)
    obtain ⟨a1, ha1⟩ := Option.isSome_iff_exists.1 ((kids_owner_kid hi h true).2 hk)
    obtain ⟨e1, e2, e3, _⟩ := hi.hinv.ends h q a0 a1 hq ha0 ha1
    obtain ⟨i1, i2⟩ := ih q hq
    have hm : At B a0.head (hePt h (1 / 2)) := by
      rcases hn.mid h a0 ha0 with e | ⟨hp, t, ht, e⟩
      · rw [e]; exact SamePt.refl' _
      · rw [e]
        have htn : (owner t).1.1 < B.n := by
          have := vt_root hB h (hlt h hh) t ht
          exact this
        have := hePt_twin ht (hlt h hh) htn (r := 1 / 2) (by norm_num) (by norm_num)
        have e2 : (1 : ℚ) - 1 / 2 = 1 / 2 := by norm_num
        rw [e2] at this
        exact SamePt.symm' this
    cases b with
    | false =>
      rw [ha0] at hr; cases hr
      rw [hePt_kid0, hePt_kid0, e1]
      exact ⟨by simpa using i1, hm⟩
    | true =>
      rw [ha1] at hr; cases hr
      rw [hePt_kid1, hePt_kid1, ← e2, e3]
      refine ⟨by simpa using hm, ?_⟩
      have : ((1 : ℚ) + 1) / 2 = 1 := by norm_num
      rw [this]; exact i2
  | inner c i d =>
    -- the half-edge from the midpoint to the center
    have up : ∀ r, s.he (.inner c i false) = some r → At B r.base (hePt (.inner c i false) 0) ∧
        At B r.head (hePt (.inner c i false) 1) := by
      intro r hr
      have hk : s.kids c = true := by
        have := (hi.ex (.inner c i false)).1 (by rw [hr]; rfl)
        exact this
      have hcx := hi.pref c hk
      obtain ⟨a0, ha0⟩ := Option.isSome_iff_exists.1 ((kids_owner_kid hi (side c i) false).2 (by rw [owner_side]; exact hk))
      have hch := hi.chain (child c i) i a0 r (by rw [side_k]; exact ha0) (by rw [side_k1]; exact hr)
      rw [hePt_inner0, hePt_inner1, hn.cen c i r hr, ← hch]
      refine ⟨?_, SamePt.refl' _⟩
      rcases hn.mid (side c i) a0 ha0 with e | ⟨hp, t, ht, e⟩
      · rw [e]
        show SamePt B (hePt (side c i) (1 / 2)) _
        rw [hePt_side]; exact SamePt.refl' _
      · rw [e]
        have hcn : (owner (side c i)).1.1 < B.n := by rw [owner_side]; exact CEx_root hi hcx
        have := hePt_twin ht hcn (vt_root hB _ hcn t ht) (r := 1 / 2) (by norm_num) (by norm_num)
        have e2 : (1 : ℚ) - 1 / 2 = 1 / 2 := by norm_num
        rw [e2, hePt_side] at this
        exact SamePt.symm' this
    cases d with
    | false => exact up
    | true =>
      intro r hr
      have hk : s.kids c = true := (hi.ex (.inner c i true)).1 (by rw [hr]; rfl)
      obtain ⟨u, hu⟩ := Option.isSome_iff_exists.1 ((hi.ex (.inner c i false)).2 hk)
      have htw : u.twin = some (.inner c i true) := (hi.hinv.tw _ u hu _).2 ⟨rfl, by rw [hr]; rfl⟩
      obtain ⟨_, h2⟩ := hi.hinv.swap _ u _ r hu htw hr
      obtain ⟨g1, g2⟩ := h2 (hn.per _ u hu)
      obtain ⟨u1, u2⟩ := up u hu
      rw [hePt_inner, hePt_inner, ← g1, ← g2]
      constructor
      · simpa using u2
      · simpa using u1
where
  vt_root {B : Base K} (hB : B.WF) (h : HN) (hh : (owner h).1.1 < B.n) (t : HN) (ht : vt B.T h = some t) : (owner t).1.1 < B.n := by
    induction h generalizing t with
    | root k =>
      simp only [vt, Option.map_eq_some_iff] at ht
      obtain ⟨j, hj, rfl⟩ := ht
      have := hB.lt k j hj
      show j / 4 < B.n
      omega
    | kid h b ih =>
      simp only [vt, Option.map_eq_some_iff] at ht
      obtain ⟨t', ht', rfl⟩ := ht
      have h1 : (owner h).1.1 < B.n := by cases b <;> exact hh
      have := ih h1 t' ht'
      cases b <;> exact this
    | inner c i d =>
      simp only [vt, Option.some.injEq] at ht
      subst ht
      cases d <;> exact hh

/-- The vertices of the cells are at the corners. -/
theorem vert_at (hB : B.WF) (hs : MReach B s) {c : CN} (hc : CEx B.n s.kids c) (i : Fin 4) :
    At B (vert s c i) (rootPt c (E i 0)) := by
  obtain ⟨r, h1, h2, _⟩ := vert_eq (hs.inv hB) hc i
  rw [h2, ← hePt_side]
  exact (ends_at hB hs _ r h1).1

/-! ### The classes of corners -/

/-- The point of the domain at a corner. -/
def cls (B : Base K) (c : CN) (i : Fin 4) : Quot (SamePt (R := ℚ) B) := Quot.mk _ (rootPt c (E i 0))

theorem cls_iff {c d : CN} {i j : Fin 4} : cls B c i = cls B d j ↔ SamePt B (rootPt c (E i (0 : ℚ))) (rootPt d (E j 0)) := by
  have heq : Equivalence (SamePt (R := ℚ) B) := Relation.EqvGen.is_equivalence _
  exact ⟨fun h => (heq.eqvGen_iff).1 (Quot.eqvGen_exact h), fun h => Quot.sound h⟩

theorem emb_inj (k : Fin 4) {z w : ℚ × ℚ} (h : emb k z = emb k w) : z = w := by
  obtain ⟨z1, z2⟩ := z
  obtain ⟨w1, w2⟩ := w
  fin_cases k <;> simp only [emb, Prod.mk.injEq] at h ⊢ <;> constructor <;> linarith [h.1, h.2]

/-- The four corners of every cell are different points. -/
theorem corners_distinct (hB : B.WF) (hN : Nice B) : ∀ (p : List (Fin 4)) (f : Nat), f < B.n → ∀ i j : Fin 4,
    SamePt B (rootPt (f, p) (E i (0 : ℚ))) (rootPt (f, p) (E j 0)) → i = j := by
  intro p
  induction p with
  | nil => intro f hf i j h; exact hN.simple f hf i j h
  | cons k p ih =>
    intro f hf i j h
    -- two sides of the parent do not face each other
    have noself : ∀ i' j', vt B.T (side (f, p) i') ≠ some (side (f, p) j') := by
      intro i' j' hv
      have key : ∀ r : ℚ, 0 ≤ r → r ≤ 1 → SamePt B (rootPt (f, p) (E i' r)) (rootPt (f, p) (E j' (1 - r))) :=
        fun r h0 h1 => PGlue.same _ _ _ _ _ _ hf hf ⟨i', j', r, h0, h1, hv, rfl, rfl⟩
      have k0 := key 0 (by norm_num) (by norm_num)
      have k1 := key 1 (by norm_num) (by norm_num)
      rw [sub_zero, E_next] at k0
      rw [sub_self, E_next] at k1
      have e1 := ih f hf _ _ k0
      have e2 := ih f hf _ _ k1
      rw [e1] at e2
      revert e2
      clear * -
      revert j'
      decide
    have main : ∀ i j : Fin 4, i ≠ k → SamePt B (rootPt (f, k :: p) (E i (0 : ℚ))) (rootPt (f, k :: p) (E j 0)) → i = j := by
      intro i j hik h
      have hz : ¬ Corner (emb k (E i (0 : ℚ))) := by
        revert hik
        fin_cases k <;> fin_cases i <;> simp [emb, E, Corner]
      rcases same_noncorner hB.inv p p f f _ _ rfl (emb_insq k (E_insq i (le_refl _) (by norm_num)))
        (emb_insq k (E_insq j (le_refl _) (by norm_num))) h hz with ⟨_, h2⟩ | ⟨i', j', r, _, _, hv, _⟩
      · exact (E_zero (emb_inj k h2)).symm
      · exact absurd hv (noself i' j')
    by_cases hik : i = k
    · by_cases hjk : j = k
      · rw [hik, hjk]
      · exact (main j i hjk (SamePt.symm' h)).symm
    · exact main i j hik h

theorem geoP (hB : B.WF) (hN : Nice B) (hi : CInv B s) : Geo B (CEx B.n s.kids) (cls B) := by
  refine ⟨hB.inv, fun c k h => hi.pref c h, fun c k k' h => h, fun c hc => CEx_root hi hc, fun f hf => hf, ?_, ?_⟩
  · intro c d i j hc hd hv
    have key : ∀ r : ℚ, 0 ≤ r → r ≤ 1 → SamePt B (rootPt c (E i r)) (rootPt d (E j (1 - r))) :=
      fun r h0 h1 => PGlue.same _ _ _ _ _ _ (CEx_root hi hc) (CEx_root hi hd) ⟨i, j, r, h0, h1, hv, rfl, rfl⟩
    have k0 := key 0 (by norm_num) (by norm_num)
    have k1 := key 1 (by norm_num) (by norm_num)
    rw [sub_zero, E_next] at k0
    rw [sub_self, E_next] at k1
    exact ⟨cls_iff.2 k0, cls_iff.2 k1⟩
  · intro c i j hc h
    exact corners_distinct hB hN c.2 c.1 (CEx_root hi hc) i j (cls_iff.1 h)

end

end Verif.Per
