import Verif.Bvp.Model

/-!
# The leaves of a one-dimensional mesh: dofs, ends, sums
-/

namespace Verif.Bvp
open Verif.Line Verif.OneD Verif.Fem Verif.Form Verif.Asm Verif.Geom

/-- A mesh on the points `xs` after any history of refinement, a (sub)mesh of it, and a continuous element whose dofs and dof vertices have been
distributed; `L` is what `get_leaves` returns. -/
structure Setting (close : ℝ → ℝ → Bool) (xs : List ℝ) (e : ET) (sf : Option Nat) (m : Nat) (F : List (Cell ℝ)) (D : DH) (V : DV ℝ) (L : List IN) :
    Prop where
  chain : xs.IsChain (· < ·)
  two : 2 ≤ xs.length
  cont : torn e = false
  ready : UsesV close xs false e F D V
  sub : Submesh (inSub sf) F
  loc : Located (inSub sf) F e D V
  fuel : nCells F ≤ m
  leaves : leaves1 (inSub sf) F m = some L

/-- The dof at a position of a cell. -/
def dof (D : DH) (c : IN) (p : Nat) : Nat := (val D c p).getD 0

theorem tiles_sum {a b : ℝ} (Φ : ℝ → ℝ) : ∀ {bs : List (ℝ × ℝ)}, Tiles a b bs → (bs.map (fun u => Φ u.2 - Φ u.1)).sum = Φ b - Φ a := by
  intro bs
  induction bs generalizing a with
  | nil => intro h; simp only [Tiles] at h; simp [h]
  | cons u bs ih =>
    obtain ⟨l, h⟩ := u
    rintro ⟨rfl, _, h2⟩
    rw [List.map_cons, List.sum_cons, ih h2]
    ring

theorem tiles_const {a b : ℝ} (W : ℝ → ℝ) : ∀ {bs : List (ℝ × ℝ)}, Tiles a b bs → (∀ u ∈ bs, W u.1 = W u.2) →
    W b = W a ∧ ∀ u ∈ bs, W u.1 = W a ∧ W u.2 = W a := by
  intro bs
  induction bs generalizing a with
  | nil => intro h _; simp only [Tiles] at h; simp [h]
  | cons u bs ih =>
    obtain ⟨l, h⟩ := u
    rintro ⟨rfl, _, h2⟩ hc
    have h0 : W l = W h := hc _ List.mem_cons_self
    obtain ⟨i1, i2⟩ := ih h2 (fun u hu => hc u (List.mem_cons_of_mem _ hu))
    refine ⟨i1.trans h0.symm, fun u hu => ?_⟩
    rcases List.mem_cons.1 hu with rfl | hu
    · exact ⟨rfl, h0.symm⟩
    · exact ⟨(i2 u hu).1.trans h0.symm, (i2 u hu).2.trans h0.symm⟩

theorem tiles_mem {a b : ℝ} : ∀ {bs : List (ℝ × ℝ)}, Tiles a b bs → a ≤ b ∧ ∀ u ∈ bs, a ≤ u.1 ∧ u.1 < u.2 ∧ u.2 ≤ b := by
  intro bs
  induction bs generalizing a with
  | nil => intro h; simp only [Tiles] at h; simp [h]
  | cons u bs ih =>
    obtain ⟨l, h⟩ := u
    rintro ⟨rfl, h1, h2⟩
    obtain ⟨i1, i2⟩ := ih h2
    refine ⟨by linarith, fun u hu => ?_⟩
    rcases List.mem_cons.1 hu with rfl | hu
    · exact ⟨le_rfl, h1, i1⟩
    · have := i2 u hu
      exact ⟨by linarith [this.1], this.2⟩

theorem tiles_ends {a b : ℝ} : ∀ {bs : List (ℝ × ℝ)}, Tiles a b bs → bs ≠ [] → (∃ u ∈ bs, u.1 = a) ∧ ∃ u ∈ bs, u.2 = b := by
  intro bs
  induction bs generalizing a with
  | nil => intro _ h; exact absurd rfl h
  | cons u bs ih =>
    obtain ⟨l, h⟩ := u
    rintro ⟨rfl, h1, h2⟩ _
    refine ⟨⟨_, List.mem_cons_self, rfl⟩, ?_⟩
    rcases bs with _ | ⟨w, bs⟩
    · simp only [Tiles] at h2
      exact ⟨_, List.mem_cons_self, h2⟩
    · obtain ⟨_, u, hu, e1⟩ := ih h2 (by simp)
      exact ⟨u, List.mem_cons_of_mem _ hu, e1⟩

section
variable {close : ℝ → ℝ → Bool} {xs : List ℝ} {e : ET} {sf : Option Nat} {m : Nat} {F : List (Cell ℝ)} {D : DH} {V : DV ℝ} {L : List IN}

theorem Setting.mem (h : Setting close xs e sf m F D V L) (c : IN) : c ∈ L ↔ IsLeaf (inSub sf) F c := by
  obtain ⟨L', h1, _, h3⟩ := leaves1_spec h.ready.uses.bis (inSub sf) m h.fuel
  rw [h.leaves] at h1
  cases h1
  exact h3 c

theorem Setting.nodup (h : Setting close xs e sf m F D V L) : L.Nodup := by
  obtain ⟨L', h1, h2, _⟩ := leaves1_spec h.ready.uses.bis (inSub sf) m h.fuel
  rw [h.leaves] at h1
  cases h1
  exact h2

theorem Setting.ex (h : Setting close xs e sf m F D V L) {c : IN} (hc : c ∈ L) : Ex F c := mkAt_ex ((h.mem c).1 hc).1

theorem Setting.data (h : Setting close xs e sf m F D V L) {c : IN} (hc : c ∈ L) : ∃ t, cellAt F c = some t ∧ dataAt F c = t.data := by
  obtain ⟨t, ht⟩ := Option.isSome_iff_exists.1 (h.ex hc)
  exact ⟨t, ht, by simp [dataAt, ht]⟩

/-- The break points of the leaves. -/
theorem Setting.tiles (h : Setting close xs e sf m F D V L) : ∃ a b bs, xs.head? = some a ∧ xs.getLast? = some b ∧ a < b ∧ Tiles a b bs ∧
    bs.Perm (L.map (fun c => ((dataAt F c).lo, (dataAt F c).hi))) := by
  obtain ⟨a, xs', rfl⟩ := List.exists_cons_of_ne_nil (show xs ≠ [] by intro h0; have := h.two; rw [h0] at this; simp at this)
  obtain ⟨ops, hF⟩ := h.ready.uses.ops
  have hF' : F = mesh a xs' ops := hF
  obtain ⟨bs, h1, h2, h3, h4⟩ := C15_leaves_tile a xs' h.chain ops sf (hF' ▸ h.sub)
  rw [← hF'] at h1 h3 h4
  have hp : (leavesL (inSub sf) F [] 0).Perm (L.map pathOf) := by
    refine (List.perm_ext_iff_of_nodup h4 ?_).2 (fun p => ?_)
    · refine h.nodup.map (fun c c' hcc => ?_)
      rw [← nameOf_pathOf c, ← nameOf_pathOf c', hcc]
    · rw [h3]
      constructor
      · intro hp
        obtain ⟨c, rfl, hc⟩ := sub_leaf_ex h.ready.uses.bis hp
        exact List.mem_map.2 ⟨c, (h.mem c).2 hc, rfl⟩
      · intro hp
        obtain ⟨c, hc, rfl⟩ := List.mem_map.1 hp
        exact (sub_leaf _ c).2 ((h.mem c).1 hc)
  have hq := hp.map (endsAt F)
  rw [h1, List.map_map] at hq
  have hq2 : (L.map (endsAt F ∘ pathOf)) = (L.map (fun c => ((dataAt F c).lo, (dataAt F c).hi))).map some := by
    rw [List.map_map]
    refine List.map_congr_left (fun c hc => ?_)
    obtain ⟨t, ht, hd⟩ := h.data hc
    have : getL F (pathOf c) = some t := ht
    simp [endsAt, this, hd, ends]
  rw [hq2] at hq
  have hq3 := hq.filterMap id
  have e1 : ∀ l : List (ℝ × ℝ), (l.map some).filterMap id = l := by intro l; simp
  rw [e1, e1] at hq3
  refine ⟨a, _, bs, rfl, List.getLast?_eq_some_getLast (by simp), ?_, h2, hq3⟩
  have hlast : (a :: xs').getLast (by simp) = xs'.getLast (by rintro rfl; have := h.two; simp at this) := by
    rw [List.getLast_cons]
  rw [hlast]
  have := List.IsChain.pairwise (R := (· < ·)) h.chain
  exact (List.pairwise_cons.1 this).1 _ (List.getLast_mem _)

theorem Setting.pos (h : Setting close xs e sf m F D V L) {c : IN} (hc : c ∈ L) : (dataAt F c).lo < (dataAt F c).hi := by
  obtain ⟨a, b, bs, _, _, _, h2, h3⟩ := h.tiles
  exact ((tiles_mem h2).2 _ (h3.mem_iff.2 (List.mem_map.2 ⟨c, hc, rfl⟩))).2.1

/-- Sums over the leaves telescope. -/
theorem Setting.telescope (h : Setting close xs e sf m F D V L) (Φ : ℝ → ℝ) {a b : ℝ} (ha : xs.head? = some a) (hb : xs.getLast? = some b) :
    (L.map (fun c => Φ (dataAt F c).hi - Φ (dataAt F c).lo)).sum = Φ b - Φ a := by
  obtain ⟨a', b', bs, ha', hb', _, h2, h3⟩ := h.tiles
  rw [ha] at ha'
  rw [hb] at hb'
  cases ha'
  cases hb'
  rw [← tiles_sum Φ h2, (h3.map (fun u => Φ u.2 - Φ u.1)).sum_eq, List.map_map]
  rfl

theorem Setting.inside (h : Setting close xs e sf m F D V L) {c : IN} (hc : c ∈ L) {x : ℝ} (h1 : (dataAt F c).lo ≤ x) (h2 : x ≤ (dataAt F c).hi) :
    InDom xs x := by
  obtain ⟨a, b, bs, ha, hb, _, ht, hp⟩ := h.tiles
  have := (tiles_mem ht).2 _ (hp.mem_iff.2 (List.mem_map.2 ⟨c, hc, rfl⟩))
  exact ⟨a, b, ha, hb, this.1.trans h1, h2.trans this.2.2⟩

theorem Setting.coord (h : Setting close xs e sf m F D V L) {c : IN} (hc : c ∈ L) (i : Fin 2) :
    coord F c i = some (if i = 0 then (dataAt F c).lo else (dataAt F c).hi) := by
  obtain ⟨t, ht, hd⟩ := h.data hc
  simp [Line.coord, ht, hd]

/-- Some leaf starts at the left end, and some ends at the right end. -/
theorem Setting.end_leaf (h : Setting close xs e sf m F D V L) {x : ℝ} (hx : IsEnd xs x) : ∃ c ∈ L, ∃ i, Line.coord F c i = some x := by
  obtain ⟨a, b, bs, ha, hb, hab, ht, hp⟩ := h.tiles
  have hne : bs ≠ [] := by
    rintro rfl
    simp only [Tiles] at ht
    exact hab.ne ht
  obtain ⟨⟨u, hu, hu1⟩, w, hw, hw1⟩ := tiles_ends ht hne
  rcases hx with hx | hx
  · rw [ha] at hx
    cases hx
    obtain ⟨c, hc, rfl⟩ := List.mem_map.1 (hp.mem_iff.1 hu)
    exact ⟨c, hc, 0, by rw [h.coord hc]; simpa using hu1⟩
  · rw [hb] at hx
    cases hx
    obtain ⟨c, hc, rfl⟩ := List.mem_map.1 (hp.mem_iff.1 hw)
    exact ⟨c, hc, 1, by rw [h.coord hc]; simpa using hw1⟩

/-! ### Dofs -/

theorem Setting.row (h : Setting close xs e sf m F D V L) {c : IN} (hc : c ∈ L) : ((rowOf D c).getD []).length = nd1 e ∧
    (∀ p < nd1 e, ((rowOf D c).getD []).getD p 0 = dof D c p) ∧ ∀ p < nd1 e, val D c p = some (dof D c p) := by
  have hl := (h.ready.uses.inv (fun h => by cases h)).1
  have hv : ∀ p < nd1 e, val D c p = some (dof D c p) := by
    intro p hp
    obtain ⟨a, x, h1, _⟩ := h.loc c ((h.mem c).1 hc) p hp
    simp [dof, h1]
  obtain ⟨row, hr⟩ := rowOf_ex hl (c := c) (fun p hp => by rw [hv p hp]; simp)
  have hlen := rowOf_len hl hr
  rw [hr]
  refine ⟨hlen, fun p hp => ?_, hv⟩
  have := (rowOf_val hr p _).2 (hv p hp)
  simp [List.getD_eq_getElem?_getD, this]

theorem Setting.nd (h : Setting close xs e sf m F D V L) : 1 < nd1 e ∧ Line.node e 0 = 0 ∧ Line.node e 1 = 1 :=
  node_verts e (by rintro rfl; have := h.cont; simp [torn] at this)

/-- Equal points have equal dofs. -/
theorem Setting.shared (h : Setting close xs e sf m F D V L) {c c' : IN} (hc : c ∈ L) (hc' : c' ∈ L) {p p' : Nat} (hp : p < nd1 e) (hp' : p' < nd1 e) :
    dof D c p = dof D c' p' ↔ nodeX F e c p = nodeX F e c' p' := by
  obtain ⟨x, x', h1, h2, h3⟩ := C70_shared_partial h.chain (fun h => by cases h) h.cont h.ready.uses c c' p p' _ _ hp hp' ((h.row hc).2.2 p hp)
    ((h.row hc').2.2 p' hp')
  rw [h3, h1, h2]
  constructor
  · rintro (h | ⟨h, _⟩)
    · rw [h]
    · cases h
  · intro h
    exact .inl (Option.some.inj h)

theorem Setting.nodeX_end (h : Setting close xs e sf m F D V L) {c : IN} (hc : c ∈ L) (i : Fin 2) : nodeX F e c i = Line.coord F c i := by
  have hi : i.1 < nd1 e := by have := h.nd.1; omega
  rw [nodeX_place h.ready.uses.bis (h.ex hc) ⟨i.1, hi⟩, place_vert _ (by rintro rfl; have := h.cont; simp [torn] at this) c i hi,
    coord_vpos h.ready.uses (h.ex hc)]

open Classical in
/-- The value of a finite element function at a mesh vertex. -/
noncomputable def atX (F : List (Cell ℝ)) (D : DH) (L : List IN) (v : Nat → ℝ) (x : ℝ) : ℝ :=
  if h : ∃ c ∈ L, ∃ i : Fin 2, Line.coord F c i = some x then v (dof D h.choose h.choose_spec.2.choose) else 0

theorem Setting.atX (h : Setting close xs e sf m F D V L) (v : Nat → ℝ) {c : IN} (hc : c ∈ L) {i : Fin 2} {x : ℝ} (hx : Line.coord F c i = some x) :
    atX F D L v x = v (dof D c i) := by
  have hex : ∃ c ∈ L, ∃ i : Fin 2, Line.coord F c i = some x := ⟨c, hc, i, hx⟩
  unfold Bvp.atX
  rw [dif_pos hex]
  have h1 := hex.choose_spec.1
  have h2 := hex.choose_spec.2.choose_spec
  have hn := h.nd.1
  congr 1
  rw [h.shared h1 hc (by omega) (by omega), h.nodeX_end h1, h.nodeX_end hc, h2, hx]

/-- A function that is constant on every leaf is constant at the break points. -/
theorem Setting.const (h : Setting close xs e sf m F D V L) (v : Nat → ℝ) (hv : ∀ c ∈ L, v (dof D c 0) = v (dof D c 1)) {y : ℝ} (hy : IsEnd xs y) :
    ∀ c ∈ L, v (dof D c 0) = Bvp.atX F D L v y ∧ v (dof D c 1) = Bvp.atX F D L v y := by
  obtain ⟨a, b, bs, ha, hb, hab, ht, hp⟩ := h.tiles
  have h0 : ∀ c ∈ L, Bvp.atX F D L v (dataAt F c).lo = v (dof D c 0) := fun c hc => h.atX v hc (i := 0) (by rw [h.coord hc]; rfl)
  have h1 : ∀ c ∈ L, Bvp.atX F D L v (dataAt F c).hi = v (dof D c 1) := fun c hc => h.atX v hc (i := 1) (by rw [h.coord hc]; rfl)
  obtain ⟨k1, k2⟩ := tiles_const (Bvp.atX F D L v) ht (fun u hu => by
    obtain ⟨c, hc, rfl⟩ := List.mem_map.1 (hp.mem_iff.1 hu)
    simp only
    rw [h0 c hc, h1 c hc, hv c hc])
  have hya : Bvp.atX F D L v y = Bvp.atX F D L v a := by
    rcases hy with hy | hy
    · rw [ha] at hy; cases hy; rfl
    · rw [hb] at hy; cases hy; exact k1
  intro c hc
  obtain ⟨q1, q2⟩ := k2 _ (hp.mem_iff.2 (List.mem_map.2 ⟨c, hc, rfl⟩))
  rw [hya, ← q1]
  exact ⟨(h0 c hc).symm, by rw [q1, ← q2]; exact (h1 c hc).symm⟩

end
end Verif.Bvp
