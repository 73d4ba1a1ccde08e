import Verif.PySet.Mesh

/-!
# C82 on rectangular grids

The number of dofs of a rectangular grid, and of those on its boundary; `solve` succeeds on all grids that are not too small.
-/

namespace Verif.PySet
open Verif.Mesh Verif.Dof Verif.Quad Verif.Fem Verif.Form Verif.Asm Verif.Phys Verif.Bnd Verif.Reg Verif.Dir Verif.Gauss Verif.Gal

/-- The nodes of the reference cell form a square lattice. -/
def nxy (e : ET) (k : ℕ) : ℕ × ℕ := (((node e k).1 * deg e).floor.toNat, ((node e k).2 * deg e).floor.toNat)

theorem nxy_spec : ∀ e, torn e = false → ∀ k < nd2 e, (node e k).1 * deg e = (nxy e k).1 ∧ (node e k).2 * deg e = (nxy e k).2 ∧
    (nxy e k).1 ≤ deg e ∧ (nxy e k).2 ≤ deg e := by
  intro e
  cases e <;> decide +kernel

theorem nxy_onto : ∀ e, torn e = false → ∀ a ≤ deg e, ∀ b ≤ deg e, ∃ k < nd2 e, nxy e k = (a, b) := by
  intro e
  cases e <;> decide +kernel

theorem deg_pos {e : ET} (he : torn e = false) : 0 < deg e := by
  cases e <;> first | decide | (simp [torn] at he)

/-- The point of the lattice where node `k` of cell `f` is. -/
def lat (e : ET) (nx f k : ℕ) : ℕ × ℕ := (deg e * (f % nx) + (nxy e k).1, deg e * (f / nx) + (nxy e k).2)

section
variable {xmin xmax ymin ymax : ℝ} {nx ny : ℕ} {e : ET}

theorem lat_phys (he : torn e = false) (hnx : 0 < nx) {f k : ℕ} (hf : f < nx * ny) (hk : k < nd2 e) :
    phys (rootQ (gridBase xmin xmax ymin ymax nx ny) f) (castPt ℝ (node e k)) =
      ⟨xmin + ((lat e nx f k).1 / deg e : ℝ) * ((xmax - xmin) / nx), ymin + ((lat e nx f k).2 / deg e : ℝ) * ((ymax - ymin) / ny)⟩ := by
  have h1 : f % nx < nx := Nat.mod_lt _ hnx
  have h2 : f / nx < ny := Nat.div_lt_of_lt_mul hf
  have h3 : f / nx * nx + f % nx = f := by rw [Nat.mul_comm]; exact Nat.div_add_mod f nx
  have := grid_phys xmin xmax ymin ymax nx ny (f % nx) (f / nx) h1 h2 (castPt ℝ (node e k))
  rw [h3] at this
  rw [this]
  obtain ⟨q1, q2, _, _⟩ := nxy_spec e he k hk
  have hd : (deg e : ℝ) ≠ 0 := by exact_mod_cast (deg_pos he).ne'
  have q1' : ((node e k).1 : ℝ) * deg e = (nxy e k).1 := by exact_mod_cast congrArg (fun x : ℚ => (x : ℝ)) q1
  have q2' : ((node e k).2 : ℝ) * deg e = (nxy e k).2 := by exact_mod_cast congrArg (fun x : ℚ => (x : ℝ)) q2
  have r1 : ((lat e nx f k).1 / deg e : ℝ) = (f % nx : ℕ) + ((node e k).1 : ℝ) := by
    unfold lat
    push_cast
    rw [← q1']
    field_simp
  have r2 : ((lat e nx f k).2 / deg e : ℝ) = (f / nx : ℕ) + ((node e k).2 : ℝ) := by
    unfold lat
    push_cast
    rw [← q2']
    field_simp
  rw [r1, r2]
  rfl

/-- Two nodes are the same point exactly if they are the same point of the lattice. -/
theorem lat_same (he : torn e = false) (hx : xmin < xmax) (hy : ymin < ymax) (hnx : 0 < nx) (hny : 0 < ny) {f k f' k' : ℕ} (hf : f < nx * ny)
    (hk : k < nd2 e) (hf' : f' < nx * ny) (hk' : k' < nd2 e) :
    SamePt (gridBase xmin xmax ymin ymax nx ny) ((f, node e k) : ℕ × (ℚ × ℚ)) (f', node e k') ↔ lat e nx f k = lat e nx f' k' := by
  obtain ⟨hB, hP, hn⟩ := C24_mesh xmin xmax ymin ymax nx ny
  have hd : (0 : ℝ) < deg e := by exact_mod_cast deg_pos he
  have hnx' : (0 : ℝ) < nx := by exact_mod_cast hnx
  have hny' : (0 : ℝ) < ny := by exact_mod_cast hny
  have hwx : 0 < (xmax - xmin) / nx := div_pos (by linarith) hnx'
  have hwy : 0 < (ymax - ymin) / ny := div_pos (by linarith) hny'
  constructor
  · intro h
    have := same_phys hB hP (samePt_up (F := ℝ) _ h)
    simp only [castRoot] at this
    rw [lat_phys he hnx hf hk, lat_phys he hnx hf' hk', Pt.mk.injEq] at this
    obtain ⟨e1, e2⟩ := this
    have e1' := mul_right_cancel₀ hwx.ne' (add_left_cancel e1)
    have e2' := mul_right_cancel₀ hwy.ne' (add_left_cancel e2)
    rw [div_left_inj' hd.ne'] at e1' e2'
    exact Prod.ext (by exact_mod_cast e1') (by exact_mod_cast e2')
  · intro h
    refine samePt_down (F := ℝ) _ ?_
    refine C24_embedded xmin xmax ymin ymax hx hy nx ny f f' (by rw [hn]; exact hf) (by rw [hn]; exact hf') _ _
      (insq_cast (node_insq e ⟨k, hk⟩)) (insq_cast (node_insq e ⟨k', hk'⟩)) ?_
    rw [lat_phys he hnx hf hk, lat_phys he hnx hf' hk', h]

/-- A node on the boundary of the domain is on the boundary of the lattice. -/
theorem lat_bnd (he : torn e = false) (hx : xmin < xmax) (hy : ymin < ymax) (hnx : 0 < nx) (hny : 0 < ny) {f k : ℕ} (hf : f < nx * ny)
    (hk : k < nd2 e) (hb : BndPt (gridBase xmin xmax ymin ymax nx ny) (f, node e k)) :
    (lat e nx f k).1 = 0 ∨ (lat e nx f k).1 = deg e * nx ∨ (lat e nx f k).2 = 0 ∨ (lat e nx f k).2 = deg e * ny := by
  obtain ⟨hB, hP, hn⟩ := C24_mesh xmin xmax ymin ymax nx ny
  have hd : (0 : ℝ) < deg e := by exact_mod_cast deg_pos he
  have hnx' : (0 : ℝ) < nx := by exact_mod_cast hnx
  have hny' : (0 : ℝ) < ny := by exact_mod_cast hny
  have hwx : 0 < (xmax - xmin) / nx := div_pos (by linarith) hnx'
  have hwy : 0 < (ymax - ymin) / ny := div_pos (by linarith) hny'
  obtain ⟨f', j, r, h1, h2, h3, h4, h5⟩ := hb
  rw [hn] at h1
  have i1 : f' % nx < nx := Nat.mod_lt _ hnx
  have i2 : f' / nx < ny := Nat.div_lt_of_lt_mul h1
  have i3 : f' / nx * nx + f' % nx = f' := by rw [Nat.mul_comm]; exact Nat.div_add_mod f' nx
  have := same_phys hB hP (samePt_up (F := ℝ) _ h5)
  simp only [castRoot] at this
  have hg := grid_phys xmin xmax ymin ymax nx ny (f' % nx) (f' / nx) i1 i2 (castPt ℝ (E j r))
  rw [i3] at hg
  rw [lat_phys he hnx hf hk, hg, Pt.mk.injEq] at this
  obtain ⟨e1, e2⟩ := this
  have e1' := mul_right_cancel₀ hwx.ne' (add_left_cancel e1)
  have e2' := mul_right_cancel₀ hwy.ne' (add_left_cancel e2)
  rw [div_eq_iff hd.ne'] at e1' e2'
  rw [← i3, grid_T_none _ _ _ _ _ _ _ _ _ i1 i2 j.2] at h2
  clear hg e1 e2 i3 h5
  generalize f' % nx = ix at *
  generalize f' / nx = iy at *
  fin_cases j <;> simp at h2
  · right; right; left
    rw [h2] at e2'
    simp [castPt, E] at e2'
    exact e2'
  · right; left
    have : (ix : ℝ) + 1 = nx := by exact_mod_cast h2
    simp only [castPt, E, Rat.cast_one] at e1'
    rw [this] at e1'
    rw [Nat.mul_comm]
    exact_mod_cast e1'
  · right; right; right
    have : (iy : ℝ) + 1 = ny := by exact_mod_cast h2
    simp only [castPt, E, Rat.cast_one] at e2'
    rw [this] at e2'
    rw [Nat.mul_comm]
    exact_mod_cast e2'
  · left
    rw [h2] at e1'
    simp [castPt, E] at e1'
    exact e1'

theorem lat_le (he : torn e = false) (hnx : 0 < nx) {f k : ℕ} (hf : f < nx * ny) (hk : k < nd2 e) :
    (lat e nx f k).1 ≤ deg e * nx ∧ (lat e nx f k).2 ≤ deg e * ny := by
  obtain ⟨_, _, q1, q2⟩ := nxy_spec e he k hk
  have h1 : f % nx + 1 ≤ nx := Nat.mod_lt _ hnx
  have h2 : f / nx + 1 ≤ ny := Nat.div_lt_of_lt_mul hf
  have h3 := Nat.mul_le_mul_left (deg e) h1
  have h4 := Nat.mul_le_mul_left (deg e) h2
  unfold lat
  rw [Nat.mul_add] at h3 h4
  constructor <;> simp only <;> omega

theorem split_le {d n i : ℕ} (hd : 0 < d) (hn : 0 < n) (hi : i ≤ d * n) : ∃ q < n, ∃ a ≤ d, i = d * q + a := by
  rcases Nat.lt_or_ge i (d * n) with h | h
  · exact ⟨i / d, Nat.div_lt_of_lt_mul h, i % d, (Nat.mod_lt _ hd).le, (Nat.div_add_mod i d).symm⟩
  · refine ⟨n - 1, by omega, d, le_rfl, ?_⟩
    obtain ⟨m, rfl⟩ : ∃ m, n = m + 1 := ⟨n - 1, by omega⟩
    rw [Nat.add_sub_cancel, ← Nat.mul_succ]
    exact le_antisymm hi h

/-- Every point of the lattice is a node. -/
theorem lat_onto (he : torn e = false) (hnx : 0 < nx) (hny : 0 < ny) {i j : ℕ} (hi : i ≤ deg e * nx) (hj : j ≤ deg e * ny) :
    ∃ f < nx * ny, ∃ k < nd2 e, lat e nx f k = (i, j) := by
  obtain ⟨ix, h1, a, h2, rfl⟩ := split_le (deg_pos he) hnx hi
  obtain ⟨iy, h3, b, h4, rfl⟩ := split_le (deg_pos he) hny hj
  obtain ⟨k, hk, hkk⟩ := nxy_onto e he a h2 b h4
  refine ⟨iy * nx + ix, ?_, k, hk, ?_⟩
  · calc iy * nx + ix < iy * nx + nx := by omega
      _ = (iy + 1) * nx := by ring
      _ ≤ ny * nx := Nat.mul_le_mul_right _ h3
      _ = nx * ny := Nat.mul_comm _ _
  · unfold lat
    rw [hkk]
    have e1 : (iy * nx + ix) % nx = ix := by rw [Nat.mul_add_mod_self_right]; exact Nat.mod_eq_of_lt h1
    have e2 : (iy * nx + ix) / nx = iy := by
      rw [Nat.mul_comm, Nat.mul_add_div hnx, Nat.div_eq_of_lt h1, Nat.add_zero]
    rw [e1, e2]

theorem ring_onto {N M i j : ℕ} (hN : 0 < N) (hM : 0 < M) (hi : i ≤ N) (hj : j ≤ M) (h : i = 0 ∨ i = N ∨ j = 0 ∨ j = M) :
    ∃ t < 2 * (N + M), ringP N M t = (i, j) := by
  by_cases h0 : j = 0 ∧ i < N
  · exact ⟨i, by omega, by unfold ringP; rw [if_pos h0.2, h0.1]⟩
  by_cases h1 : i = N ∧ j < M
  · refine ⟨N + j, by omega, ?_⟩
    unfold ringP
    rw [if_neg (by omega), if_pos (by omega)]
    exact Prod.ext h1.1.symm (by simp)
  by_cases h2 : j = M ∧ 0 < i
  · refine ⟨2 * N + M - i, by omega, ?_⟩
    unfold ringP
    rw [if_neg (by omega), if_neg (by omega), if_pos (by omega)]
    exact Prod.ext (by simp; omega) h2.1.symm
  · refine ⟨2 * N + 2 * M - j, by omega, ?_⟩
    unfold ringP
    rw [if_neg (by omega), if_neg (by omega), if_neg (by omega)]
    exact Prod.ext (by simp; omega) (by simp; omega)

variable {close : Pt ℝ → Pt ℝ → Bool} {D : DH} {V : DV ℝ} {rect : Nat → Bool}

theorem init_leaf (hB : (gridBase xmin xmax ymin ymax nx ny).WF) (hn : (gridBase xmin xmax ymin ymax nx ny).n = nx * ny) (c : CN) :
    c ∈ leaves false (init (gridBase xmin xmax ymin ymax nx ny)) ↔ ∃ f < nx * ny, c = (f, []) := by
  have hi := (MReach.init (B := gridBase xmin xmax ymin ymax nx ny)).inv hB
  rw [Dof.mem_leaves hi]
  obtain ⟨f, p⟩ := c
  constructor
  · rintro ⟨h1, _, _⟩
    cases p with
    | nil => exact ⟨f, by rw [← hn]; exact h1, rfl⟩
    | cons a p => simp [CEx, init] at h1
  · rintro ⟨g, h1, h2⟩
    cases h2
    exact ⟨by rw [← hn] at h1; exact h1, .inl rfl, rfl⟩

/-- **C82** (the dofs of a grid).  Elements of degree `d`: there are `(d nx + 1)(d ny + 1)` dofs. -/
theorem C82_grid_dofs (he : torn e = false) (hx : xmin < xmax) (hy : ymin < ymax) (hnx : 0 < nx) (hny : 0 < ny)
    (hR : Ready (gridBase xmin xmax ymin ymax nx ny) e false (init (gridBase xmin xmax ymin ymax nx ny)) D) :
    D.count = (deg e * nx + 1) * (deg e * ny + 1) := by
  obtain ⟨hB, hP, hn⟩ := C24_mesh xmin xmax ymin ymax nx ny
  have hval : ∀ f < nx * ny, ∀ k < nd2 e, Dof.val D (f, []) k = some (dofAt D (f, []) k) := fun f hf k hk =>
    (row_leaf hB hP hR ((init_leaf hB hn _).2 ⟨f, hf, rfl⟩)).2.2 k hk
  have hsh : ∀ f < nx * ny, ∀ k < nd2 e, ∀ f' < nx * ny, ∀ k' < nd2 e, dofAt D (f, []) k = dofAt D (f', []) k' ↔ lat e nx f k = lat e nx f' k' :=
    fun f hf k hk f' hf' k' hk' => (C34_shared hB hP he hR.uses (f, []) (f', []) k k' _ _ hk hk' (hval f hf k hk) (hval f' hf' k' hk')).trans
      (lat_same he hx hy hnx hny hf hk hf' hk')
  have hall : ∀ a ∈ Finset.range D.count, ∃ f k, f < nx * ny ∧ k < nd2 e ∧ dofAt D (f, []) k = a := by
    intro a ha
    obtain ⟨c, hc, k, hk, hv⟩ := (C62_leaf_dofs hB hP he hR a).1 (Finset.mem_range.1 ha)
    obtain ⟨f, hf, rfl⟩ := (init_leaf hB hn c).1 hc
    refine ⟨f, k, hf, hk, ?_⟩
    rw [hval f hf k hk] at hv
    exact Option.some.inj hv
  choose! F K hF hK hFK using hall
  have hcard : (Finset.range D.count).card = (Finset.range (deg e * nx + 1) ×ˢ Finset.range (deg e * ny + 1)).card := by
    refine Finset.card_bij (fun a _ => lat e nx (F a) (K a)) (fun a ha => ?_) (fun a ha b hb hab => ?_) (fun p hp => ?_)
    · obtain ⟨q1, q2⟩ := lat_le he hnx (hF a ha) (hK a ha)
      rw [Finset.mem_product, Finset.mem_range, Finset.mem_range]
      omega
    · rw [← hFK a ha, ← hFK b hb]
      exact (hsh _ (hF a ha) _ (hK a ha) _ (hF b hb) _ (hK b hb)).2 hab
    · rw [Finset.mem_product, Finset.mem_range, Finset.mem_range] at hp
      obtain ⟨f, hf, k, hk, hl⟩ := lat_onto he hnx hny (i := p.1) (j := p.2) (by omega) (by omega)
      have ha : dofAt D (f, []) k ∈ Finset.range D.count := by
        rw [Finset.mem_range]
        exact (C62_leaf_dofs hB hP he hR _).2 ⟨(f, []), (init_leaf hB hn _).2 ⟨f, hf, rfl⟩, k, hk, hval f hf k hk⟩
      refine ⟨_, ha, ?_⟩
      have := (hsh _ (hF _ ha) _ (hK _ ha) f hf k hk).1 (hFK _ ha)
      exact this.trans hl
  rwa [Finset.card_range, Finset.card_product, Finset.card_range, Finset.card_range] at hcard

/-- **C82** (the Dirichlet dofs of a grid): at most `2 d (nx + ny)`. -/
theorem C82_grid_dirichlet (he : torn e = false) (hx : xmin < xmax) (hy : ymin < ymax) (hnx : 0 < nx) (hny : 0 < ny)
    (hR : Ready (gridBase xmin xmax ymin ymax nx ny) e false (init (gridBase xmin xmax ymin ymax nx ny)) D) {g : Pt ℝ → ℝ} {d : List (Nat × ℝ)}
    (hd : BndDict (gridBase xmin xmax ymin ymax nx ny) false (init (gridBase xmin xmax ymin ymax nx ny)) e D g d) :
    d.length ≤ 2 * (deg e * nx + deg e * ny) := by
  obtain ⟨hB, hP, hn⟩ := C24_mesh xmin xmax ymin ymax nx ny
  have hval : ∀ f < nx * ny, ∀ k < nd2 e, Dof.val D (f, []) k = some (dofAt D (f, []) k) := fun f hf k hk =>
    (row_leaf hB hP hR ((init_leaf hB hn _).2 ⟨f, hf, rfl⟩)).2.2 k hk
  have hsh : ∀ f < nx * ny, ∀ k < nd2 e, ∀ f' < nx * ny, ∀ k' < nd2 e, dofAt D (f, []) k = dofAt D (f', []) k' ↔ lat e nx f k = lat e nx f' k' :=
    fun f hf k hk f' hf' k' hk' => (C34_shared hB hP he hR.uses (f, []) (f', []) k k' _ _ hk hk' (hval f hf k hk) (hval f' hf' k' hk')).trans
      (lat_same he hx hy hnx hny hf hk hf' hk')
  have hall : ∀ a ∈ (d.map (·.1)).toFinset, ∃ f k, f < nx * ny ∧ k < nd2 e ∧ dofAt D (f, []) k = a ∧
      BndPt (gridBase xmin xmax ymin ymax nx ny) (f, node e k) := by
    intro a ha
    obtain ⟨y, hy', rfl⟩ := List.mem_map.1 (List.mem_toFinset.1 ha)
    have hlk : ∃ v, Dir.look d y.1 = some v := by
      cases hl : Dir.look d y.1 with
      | some v => exact ⟨v, rfl⟩
      | none =>
        have := Option.map_eq_none_iff.1 hl
        rw [List.find?_eq_none] at this
        exact absurd (decide_eq_true rfl) (this y hy')
    obtain ⟨v, hv⟩ := hlk
    obtain ⟨c, hc, k, hk, h1, h2, _⟩ := (hd.2 y.1 v).1 hv
    obtain ⟨f, hf, rfl⟩ := (init_leaf hB hn c).1 hc
    refine ⟨f, k, hf, hk, ?_, h2⟩
    rw [hval f hf k hk] at h1
    exact Option.some.inj h1
  choose! F K hF hK hFK hb using hall
  have hdn : 0 < deg e * nx := Nat.mul_pos (deg_pos he) hnx
  have hdm : 0 < deg e * ny := Nat.mul_pos (deg_pos he) hny
  have hcard : (d.map (·.1)).toFinset.card ≤ ((Finset.range (2 * (deg e * nx + deg e * ny))).image (ringP (deg e * nx) (deg e * ny))).card := by
    refine Finset.card_le_card_of_injOn (fun a => lat e nx (F a) (K a)) (fun a ha => ?_) (fun a ha b hb' hab => ?_)
    · obtain ⟨q1, q2⟩ := lat_le he hnx (hF a ha) (hK a ha)
      obtain ⟨t, ht, ht'⟩ := ring_onto hdn hdm q1 q2 (lat_bnd he hx hy hnx hny (hF a ha) (hK a ha) (hb a ha))
      simp only [Finset.coe_image, Set.mem_image, Finset.mem_coe, Finset.mem_range]
      exact ⟨t, ht, ht'⟩
    · rw [← hFK a ha, ← hFK b hb']
      exact (hsh _ (hF a ha) _ (hK a ha) _ (hF b hb') _ (hK b hb')).2 hab
  rw [List.toFinset_card_of_nodup hd.1, List.length_map] at hcard
  exact hcard.trans (Finset.card_image_le.trans (by rw [Finset.card_range]))

/-- No nodes hang before the mesh is refined. -/
theorem init_hanging {B : Base ℝ} {H C : List (Linsys.Con ℝ)} (hh : setHanging false (init B) e D [] = some (H, C)) : H = [] := by
  unfold setHanging at hh
  split_ifs at hh with ht
  · cases hh
    rfl
  · obtain ⟨l, h1, h2⟩ := Option.map_eq_some_iff.1 hh
    have h3 : (leaves false (init B)).flatMap (fun c => four.flatMap (sideCons (F := ℝ) false (init B) e D c)) = [] := by
      rw [List.flatMap_eq_nil_iff]
      intro c _
      rw [List.flatMap_eq_nil_iff]
      intro i _
      unfold sideCons
      split
      · rfl
      · rfl
    unfold allCons at h1
    rw [h3] at h1
    cases h1
    cases h2
    rfl

/-- **C82** (grids).  Elements of degree `d` on a rectangular grid with Dirichlet values on the whole boundary, where `d nx` and `d ny` are not too small (8 is
enough): with CPython's `list(set(..))`, `assemble` and `solve` do what they do when it is sorted. -/
theorem C82_grid (hx : xmin < xmax) (hy : ymin < ymax) (hnx : 0 < nx) (hny : 0 < ny) (hs : 4 * (deg e * nx + deg e * ny) ≤ deg e * nx * (deg e * ny) + 4)
    (h : Setting close (gridBase xmin xmax ymin ymax nx ny) e false (init (gridBase xmin xmax ymin ymax nx ny)) D V rect) {H C : List (Linsys.Con ℝ)}
    (hh : setHanging false (init (gridBase xmin xmax ymin ymax nx ny)) e D [] = some (H, C)) {g : Pt ℝ → ℝ} {d : List (Nat × ℝ)}
    (hd : BndDict (gridBase xmin xmax ymin ymax nx ny) false (init (gridBase xmin xmax ymin ymax nx ny)) e D g d) {j : ℕ}
    {rc : List ((ℝ × ℝ) × ℝ)} {re : List (ℝ × ℝ)} {k kf : Kernel (Pt ℝ)} {keep fuel} (y u : List ℝ) :
    Solved e k kf rc re j rect false (init (gridBase xmin xmax ymin ymax nx ny)) D H d keep fuel pySet y u ↔
      Solved e k kf rc re j rect false (init (gridBase xmin xmax ymin ymax nx ny)) D H d keep fuel sortedSet y u := by
  refine C82_ratio h hh ?_ y u
  have h1 := C82_grid_dofs h.cont hx hy hnx hny h.ready.ready
  have h2 := C82_grid_dirichlet h.cont hx hy hnx hny h.ready.ready hd
  rw [init_hanging hh, List.length_nil, h1]
  generalize deg e * nx = N at *
  generalize deg e * ny = M at *
  nlinarith

/-- **C82** (grids, from the mesh to the solution, bilinear elements).  On every rectangular grid with `4 (nx + ny) ≤ nx ny + 4` — 7 × 8, 8 × 8 and anything
larger — the whole computation succeeds with CPython's `list(set(..))`, and its answer is the linear function `p`. -/
theorem C82_grid_solves (hx : xmin < xmax) (hy : ymin < ymax) (hnx : 0 < nx) (hny : 0 < ny) (hs : 4 * (nx + ny) ≤ nx * ny + 4)
    {n n1 j : ℕ} {rc : List ((ℝ × ℝ) × ℝ)} {re : List (ℝ × ℝ)} {k kf : Kernel (Pt ℝ)} {κ p : Poly}
    (hd : Data (gridBase xmin xmax ymin ymax nx ny) .Q1 n n1 j rc re k kf κ p) {m : ℕ} (hm : 4 * (nx * ny) ≤ m) (close : Pt ℝ → Pt ℝ → Bool) :
    ∃ D V H C d, distributeV close false (nx * ny) (init (gridBase xmin xmax ymin ymax nx ny)) .Q1 m DH.new DV.new = some (D, V) ∧
      setHanging false (init (gridBase xmin xmax ymin ymax nx ny)) .Q1 D [] = some (H, C) ∧
      addDirichletA none true false (nx * ny) (init (gridBase xmin xmax ymin ymax nx ny)) m .Q1 D V (fun x => ev p (x.x, x.y)) [] = some d ∧
      ∀ keep, ∃ N, ∀ fuel ≥ N,
        (∃ y u, Solved .Q1 k kf rc re j (fun _ => true) false (init (gridBase xmin xmax ymin ymax nx ny)) D H d keep fuel pySet y u) ∧
        ∀ y u, Solved .Q1 k kf rc re j (fun _ => true) false (init (gridBase xmin xmax ymin ymax nx ny)) D H d keep fuel pySet y u →
          Equals (init (gridBase xmin xmax ymin ymax nx ny)) false .Q1 D u p := by
  obtain ⟨hB, hP, hn⟩ := C24_mesh xmin xmax ymin ymax nx ny
  obtain ⟨hc, hA⟩ := Fn.C67_grid xmin xmax ymin ymax hx hy nx ny
  have h1 := C64_grid xmin xmax ymin ymax nx ny hnx hny
  have hrect : RectOk (fun _ => true) (gridBase xmin xmax ymin ymax nx ny) := by
    intro f hf _
    rcases hA f hf with ⟨_, q⟩ | ⟨q, _⟩
    · exact q
    · cases q
  have hlen : 4 * (init (gridBase xmin xmax ymin ymax nx ny)).cells.length ≤ m := by
    have : (init (gridBase xmin xmax ymin ymax nx ny)).cells.length = nx * ny := by
      rw [← hn]
      simp [init]
    rw [this]
    exact hm
  obtain ⟨D, V, H, C, d, g1, g2, g3, g4⟩ := C69_bilinear hB hP hc h1 hrect .init (Fn.init_balanced (B := gridBase xmin xmax ymin ymax nx ny)) hd hlen close
  have hV := readyV_first hB hP .init (.inl rfl) (Fn.init_balanced (B := gridBase xmin xmax ymin ymax nx ny)) hlen g1
  have h : Setting close (gridBase xmin xmax ymin ymax nx ny) .Q1 false (init (gridBase xmin xmax ymin ymax nx ny)) D V (fun _ => true) :=
    ⟨hB, hP, hc, hrect, rfl, hV, fun _ _ => .inl rfl, .inl rfl⟩
  have hdd := dict_Q1 hB hP hV h.roots (.inl rfl) hlen h1 _ g3
  rw [hn] at g1 g3
  have h2x : 2 ≤ nx := by
    by_contra hlt
    have : nx = 1 := by omega
    subst this
    omega
  have h2y : 2 ≤ ny := by
    by_contra hlt
    have : ny = 1 := by omega
    subst this
    omega
  have hI : Inner (gridBase xmin xmax ymin ymax nx ny) false (init (gridBase xmin xmax ymin ymax nx ny)) .Q1 D H := by
    obtain ⟨f, hf, q, hq, hl⟩ := lat_onto (e := .Q1) rfl hnx hny (i := 1) (j := 1) (by simp [deg]; omega) (by simp [deg]; omega)
    refine ⟨(f, []), (init_leaf hB hn _).2 ⟨f, hf, rfl⟩, q, hq, fun hb => ?_, fun x hx => by rw [init_hanging g2] at hx; cases hx⟩
    have := lat_bnd (e := .Q1) rfl hx hy hnx hny hf hq hb
    rw [hl] at this
    simp only [deg] at this
    omega
  refine ⟨D, V, H, C, d, g1, g2, g3, fun keep => ?_⟩
  obtain ⟨q1, q2⟩ := g4 keep sortedSet sortedSet_spec.1 sortedSet_spec.2
  obtain ⟨N, hN⟩ := q2 hI
  have hiff := fun fuel y u => C82_grid (j := j) (rc := rc) (re := re) (k := k) (kf := kf) (keep := keep) (fuel := fuel) hx hy hnx hny
    (by simpa [deg] using hs) h g2 hdd y u
  exact ⟨N, fun fuel hf => ⟨let ⟨y, u, hs⟩ := hN fuel hf; ⟨y, u, (hiff fuel y u).2 hs⟩, fun y u hs => q1 fuel y u ((hiff fuel y u).1 hs)⟩⟩

end
end Verif.PySet
