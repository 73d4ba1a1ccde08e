import Verif.Dcel.Connect
import Verif.Quad.Contains

/-! # The rectangular grid: C24 -/

namespace Verif.Dcel
open Verif.Geom Verif.Quad

theorem grid_get {α : Type} (f : Nat → Nat → α) (n m i j : Nat) (hi : i < n) (hj : j < m) :
    ((List.range m).flatMap (fun b => (List.range n).map (fun a => f a b)))[j * n + i]? =
      some (f i j) := by
  induction m with
  | zero => omega
  | succ m ih =>
    have hlen : ((List.range m).flatMap (fun b => (List.range n).map (fun a => f a b))).length = m * n := by
      simp [List.length_flatMap]
    rw [List.range_succ, List.flatMap_append, List.getElem?_append, hlen]
    by_cases h : j < m
    · have : j * n + i < m * n := by
        calc j * n + i < j * n + n := by omega
          _ = (j + 1) * n := by ring
          _ ≤ m * n := Nat.mul_le_mul_right _ h
      rw [if_pos this]
      exact ih h
    · have e : j = m := by omega
      subst e
      rw [if_neg (by omega)]
      simp [hi]

theorem grid_mem {α : Type} (f : Nat → Nat → α) (n m k : Nat) (x : α)
    (h : ((List.range m).flatMap (fun b => (List.range n).map (fun a => f a b)))[k]? = some x) :
    ∃ i j, i < n ∧ j < m ∧ k = j * n + i ∧ x = f i j := by
  have hlen : ((List.range m).flatMap (fun b => (List.range n).map (fun a => f a b))).length = m * n := by
    simp [List.length_flatMap]
  have hk : k < m * n := by
    rw [← hlen]; exact (List.getElem?_eq_some_iff.1 h).1
  have hn : 0 < n := by
    rcases Nat.eq_zero_or_pos n with h0 | h0
    · subst h0; simp at hk
    · exact h0
  have hi : k % n < n := Nat.mod_lt _ hn
  have hj : k / n < m := Nat.div_lt_of_lt_mul (by rw [Nat.mul_comm]; exact hk)
  have e : k = k / n * n + k % n := by rw [Nat.mul_comm]; exact (Nat.div_add_mod k n).symm
  refine ⟨k % n, k / n, hi, hj, e, ?_⟩
  have := grid_get f n m (k % n) (k / n) hi hj
  rw [← e, h] at this
  simpa using this

section Coord
variable {K : Type} [Field K]

/-- Specification: coordinate number `i` of `n` equal steps from `a` to `b`. -/
def tick (a b : K) (n i : Nat) : K := a + i * (b - a) / n

theorem lin_eq [CharZero K] (a b : K) (n i : Nat) (hn : 0 < n) : lin a b n i = tick a b n i := by
  unfold lin tick
  have : (n : K) ≠ 0 := by exact_mod_cast hn.ne'
  split_ifs with h
  · subst h; field_simp; ring
  · field_simp

/-- Numbers of points and faces. -/
theorem C24_counts (xmin xmax ymin ymax : K) (nx ny : Nat) :
    (gridPoints xmin xmax ymin ymax nx ny).length = (nx + 1) * (ny + 1) ∧
    (gridFaces nx ny).length = nx * ny := by
  constructor
  · simp [gridPoints, List.length_flatMap, Nat.mul_comm]
  · simp [gridFaces, List.length_flatMap, Nat.mul_comm]

/-- The cell `(ix, iy)` of the box, corners counter-clockwise from bottom left
(specification). -/
def boxCell (xmin xmax ymin ymax : K) (nx ny ix iy : Nat) : QD K :=
  ⟨⟨tick xmin xmax nx ix, tick ymin ymax ny iy⟩, ⟨tick xmin xmax nx (ix + 1), tick ymin ymax ny iy⟩,
   ⟨tick xmin xmax nx (ix + 1), tick ymin ymax ny (iy + 1)⟩,
   ⟨tick xmin xmax nx ix, tick ymin ymax ny (iy + 1)⟩, ∅⟩

theorem point_get [CharZero K] (xmin xmax ymin ymax : K) (nx ny ix iy : Nat) (hnx : 0 < nx)
    (hny : 0 < ny) (hx : ix ≤ nx) (hy : iy ≤ ny) :
    (gridPoints xmin xmax ymin ymax nx ny)[gidx nx ix iy]? =
      some ⟨tick xmin xmax nx ix, tick ymin ymax ny iy⟩ := by
  unfold gridPoints gidx
  rw [grid_get (fun ix iy => (⟨lin xmin xmax nx ix, lin ymin ymax ny iy⟩ : Pt K)) (nx + 1) (ny + 1)
    ix iy (by omega) (by omega), lin_eq _ _ _ _ hnx, lin_eq _ _ _ _ hny]

/-- Face number `iy*nx + ix` is the cell `(ix, iy)` of the box; there are no other faces. -/
theorem C24_faces [CharZero K] (xmin xmax ymin ymax : K) (nx ny : Nat) :
    (∀ ix iy, ix < nx → iy < ny → ∃ fc, (gridFaces nx ny)[iy * nx + ix]? = some fc ∧
      faceQuad (gridPoints xmin xmax ymin ymax nx ny) fc =
        some (boxCell xmin xmax ymin ymax nx ny ix iy)) ∧
    (∀ k fc, (gridFaces nx ny)[k]? = some fc → ∃ ix iy, ix < nx ∧ iy < ny ∧ k = iy * nx + ix) := by
  constructor
  · intro ix iy hx hy
    refine ⟨_, grid_get (fun ix iy =>
      [gidx nx ix iy, gidx nx (ix + 1) iy, gidx nx (ix + 1) (iy + 1), gidx nx ix (iy + 1)])
      nx ny ix iy hx hy, ?_⟩
    unfold faceQuad
    simp only
    rw [point_get _ _ _ _ _ _ _ _ (by omega) (by omega) (by omega) (by omega),
      point_get _ _ _ _ _ _ _ _ (by omega) (by omega) (by omega) (by omega),
      point_get _ _ _ _ _ _ _ _ (by omega) (by omega) (by omega) (by omega),
      point_get _ _ _ _ _ _ _ _ (by omega) (by omega) (by omega) (by omega)]
    rfl
  · intro k fc h
    obtain ⟨i, j, h1, h2, h3, _⟩ := grid_mem _ _ _ _ _ h
    exact ⟨i, j, h1, h2, h3⟩

/-- The quadrilaterals of a grid, in the order of the faces. -/
def gridQuads (xmin xmax ymin ymax : K) (nx ny : Nat) : List (QD K) :=
  (gridFaces nx ny).filterMap (faceQuad (gridPoints xmin xmax ymin ymax nx ny))

theorem gridQuads_eq [CharZero K] (xmin xmax ymin ymax : K) (nx ny : Nat) :
    gridQuads xmin xmax ymin ymax nx ny = (List.range ny).flatMap (fun iy =>
      (List.range nx).map (fun ix => boxCell xmin xmax ymin ymax nx ny ix iy)) := by
  unfold gridQuads gridFaces
  rw [List.filterMap_flatMap]
  refine List.flatMap_congr (fun iy hy => ?_)
  rw [List.filterMap_map, List.filterMap_eq_map_iff_forall_eq_some.2]
  intro ix hx
  rw [List.mem_range] at hx hy
  simp only [Function.comp, faceQuad]
  rw [point_get _ _ _ _ _ _ _ _ (by omega) (by omega) (by omega) (by omega),
      point_get _ _ _ _ _ _ _ _ (by omega) (by omega) (by omega) (by omega),
      point_get _ _ _ _ _ _ _ _ (by omega) (by omega) (by omega) (by omega),
      point_get _ _ _ _ _ _ _ _ (by omega) (by omega) (by omega) (by omega)]
  rfl

end Coord

section Ord
variable {K : Type} [Field K] [LinearOrder K] [IsStrictOrderedRing K]

/-- All faces have the same area `(width/nx)(height/ny)`, are strictly convex and
counter-clockwise, and the areas add up to the area of the box. -/
theorem C24_areas (xmin xmax ymin ymax : K) (hx : xmin < xmax) (hy : ymin < ymax) (nx ny : Nat)
    (hnx : 0 < nx) (hny : 0 < ny) :
    (∀ q ∈ gridQuads xmin xmax ymin ymax nx ny,
      ConvexCCW q ∧ q.area = (xmax - xmin) / nx * ((ymax - ymin) / ny) ∧ 0 < q.area) ∧
    ((gridQuads xmin xmax ymin ymax nx ny).map QD.area).sum = (xmax - xmin) * (ymax - ymin) := by
  have nx0 : (0 : K) < nx := by exact_mod_cast hnx
  have ny0 : (0 : K) < ny := by exact_mod_cast hny
  have hw : 0 < (xmax - xmin) / nx := div_pos (by linarith) nx0
  have hh : 0 < (ymax - ymin) / ny := div_pos (by linarith) ny0
  have tx : ∀ i : Nat, tick xmin xmax nx (i + 1) = tick xmin xmax nx i + (xmax - xmin) / nx := by
    intro i; unfold tick; push_cast; ring
  have ty : ∀ i : Nat, tick ymin ymax ny (i + 1) = tick ymin ymax ny i + (ymax - ymin) / ny := by
    intro i; unfold tick; push_cast; ring
  have harea : ∀ ix iy, (boxCell xmin xmax ymin ymax nx ny ix iy).area =
      (xmax - xmin) / nx * ((ymax - ymin) / ny) := by
    intro ix iy
    simp only [QD.area, QD.edges, boxCell, List.foldl, tx, ty]; ring
  have hpos := mul_pos hw hh
  constructor
  · intro q hq
    rw [gridQuads_eq] at hq
    obtain ⟨iy, _, hq⟩ := List.mem_flatMap.1 hq
    obtain ⟨ix, _, rfl⟩ := List.mem_map.1 hq
    refine ⟨?_, harea _ _, by rw [harea]; exact hpos⟩
    refine ⟨?_, ?_, ?_, ?_⟩ <;> simp only [tri, boxCell, tx, ty] <;> nlinarith
  · rw [gridQuads_eq, List.map_flatMap]
    have : ∀ iy, (((List.range nx).map (fun ix => boxCell xmin xmax ymin ymax nx ny ix iy)).map
        QD.area) = List.replicate nx ((xmax - xmin) / nx * ((ymax - ymin) / ny)) := by
      intro iy
      rw [List.map_map]
      rw [List.eq_replicate_iff]
      refine ⟨by simp, ?_⟩
      intro b hb
      obtain ⟨ix, _, rfl⟩ := List.mem_map.1 hb
      exact harea _ _
    simp only [this]
    have hsum : ∀ (m : Nat) (c : K), ((List.range m).flatMap (fun _ => List.replicate nx c)).sum =
        m * (nx * c) := by
      intro m c
      induction m with
      | zero => simp
      | succ m ih =>
        rw [List.range_succ, List.flatMap_append, List.sum_append, ih]
        simp only [List.flatMap_cons, List.flatMap_nil, List.append_nil, List.sum_replicate,
          nsmul_eq_mul]
        push_cast; ring
    rw [hsum]
    field_simp

theorem pos_of_mul_pos_left' {a b : K} (h : 0 < a * b) (hb : 0 ≤ b) : 0 < a := by
  by_contra hc
  exact absurd h (not_lt.2 (mul_nonpos_of_nonpos_of_nonneg (not_lt.1 hc) hb))

/-- The index of the step that contains `x`. -/
theorem tick_cover (a b : K) (n : Nat) (hn : 0 < n) (x : K) (h0 : a ≤ x) (h1 : x ≤ b) :
    ∃ i < n, tick a b n i ≤ x ∧ x ≤ tick a b n (i + 1) := by
  have n0 : (n : K) ≠ 0 := by exact_mod_cast hn.ne'
  have key : ∀ m : Nat, m ≤ n → 0 < m → x ≤ tick a b n m → ∃ i < m, tick a b n i ≤ x ∧ x ≤ tick a b n (i + 1) := by
    intro m
    induction m with
    | zero => intro _ h; omega
    | succ m ih =>
      intro hm _ hx
      by_cases hc : tick a b n m ≤ x
      · exact ⟨m, by omega, hc, hx⟩
      · rcases Nat.eq_zero_or_pos m with rfl | hm0
        · exfalso; apply hc; simpa [tick] using h0
        · obtain ⟨i, hi, h2⟩ := ih (by omega) hm0 (not_le.1 hc).le
          exact ⟨i, by omega, h2⟩
  refine key n (le_refl _) hn ?_
  have : tick a b n n = b := by unfold tick; field_simp; ring
  rw [this]; exact h1

theorem tick_mono (a b : K) (h : a < b) (n : Nat) (i j : Nat) (hij : i ≤ j) :
    tick a b n i ≤ tick a b n j := by
  unfold tick
  have h1 : (i : K) ≤ j := by exact_mod_cast hij
  have h2 : (0 : K) ≤ (b - a) / n := div_nonneg (by linarith) (Nat.cast_nonneg _)
  have := mul_le_mul_of_nonneg_right h1 h2
  rw [mul_div_assoc, mul_div_assoc]; linarith

/-- The faces tile the box: every point of the box lies in a face, every face lies in the
box, and no point lies in the interior of two different faces. -/
theorem C24_tiling (xmin xmax ymin ymax : K) (hx : xmin < xmax) (hy : ymin < ymax) (nx ny : Nat)
    (hnx : 0 < nx) (hny : 0 < ny) (p : Pt K) :
    ((xmin ≤ p.x ∧ p.x ≤ xmax ∧ ymin ≤ p.y ∧ p.y ≤ ymax) ↔
      ∃ q ∈ gridQuads xmin xmax ymin ymax nx ny, contains 0 q p = true) ∧
    (∀ (k k' : Nat) q q', (gridQuads xmin xmax ymin ymax nx ny)[k]? = some q →
      (gridQuads xmin xmax ymin ymax nx ny)[k']? = some q' →
      (∀ e ∈ q.edges, 0 < left e p) → (∀ e ∈ q'.edges, 0 < left e p) → k = k') := by
  have nx0 : (nx : K) ≠ 0 := by exact_mod_cast hnx.ne'
  have ny0 : (ny : K) ≠ 0 := by exact_mod_cast hny.ne'
  have nxp : (0 : K) < nx := by exact_mod_cast hnx
  have nyp : (0 : K) < ny := by exact_mod_cast hny
  have hw : 0 < (xmax - xmin) / nx := div_pos (by linarith) nxp
  have hh : 0 < (ymax - ymin) / ny := div_pos (by linarith) nyp
  have tx : ∀ i : Nat, tick xmin xmax nx (i + 1) = tick xmin xmax nx i + (xmax - xmin) / nx := by
    intro i; unfold tick; push_cast; ring
  have ty : ∀ i : Nat, tick ymin ymax ny (i + 1) = tick ymin ymax ny i + (ymax - ymin) / ny := by
    intro i; unfold tick; push_cast; ring
  have l0 : ∀ ix iy, let q := boxCell xmin xmax ymin ymax nx ny ix iy
      left (q.v0, q.v1) p = (p.y - tick ymin ymax ny iy) * ((xmax - xmin) / nx) ∧
      left (q.v1, q.v2) p = (tick xmin xmax nx (ix + 1) - p.x) * ((ymax - ymin) / ny) ∧
      left (q.v2, q.v3) p = (tick ymin ymax ny (iy + 1) - p.y) * ((xmax - xmin) / nx) ∧
      left (q.v3, q.v0) p = (p.x - tick xmin xmax nx ix) * ((ymax - ymin) / ny) := by
    intro ix iy
    simp only [boxCell, left, tx, ty]
    refine ⟨?_, ?_, ?_, ?_⟩ <;> ring
  have mnx := tick_mono xmin xmax hx nx
  have mny := tick_mono ymin ymax hy ny
  constructor
  · constructor
    · rintro ⟨a, b, c, d⟩
      obtain ⟨ix, hix, h1, h2⟩ := tick_cover xmin xmax nx hnx p.x a b
      obtain ⟨iy, hiy, h3, h4⟩ := tick_cover ymin ymax ny hny p.y c d
      refine ⟨boxCell xmin xmax ymin ymax nx ny ix iy, ?_, ?_⟩
      · rw [gridQuads_eq]
        exact List.mem_flatMap.2 ⟨iy, List.mem_range.2 hiy, List.mem_map.2 ⟨ix, List.mem_range.2 hix, rfl⟩⟩
      · rw [contains_iff, neg_zero]
        obtain ⟨e1, e2, e3, e4⟩ := l0 ix iy
        rw [e1, e2, e3, e4]
        exact ⟨mul_nonneg (by linarith) hw.le, mul_nonneg (by linarith) hh.le,
          mul_nonneg (by linarith) hw.le, mul_nonneg (by linarith) hh.le⟩
    · rintro ⟨q, hq, hc⟩
      rw [gridQuads_eq] at hq
      obtain ⟨iy, hiy, hq⟩ := List.mem_flatMap.1 hq
      obtain ⟨ix, hix, rfl⟩ := List.mem_map.1 hq
      rw [List.mem_range] at hix hiy
      rw [contains_iff, neg_zero] at hc
      obtain ⟨e1, e2, e3, e4⟩ := l0 ix iy
      rw [e1, e2, e3, e4] at hc
      obtain ⟨c1, c2, c3, c4⟩ := hc
      have d1 := nonneg_of_mul_nonneg_left c1 hw
      have d2 := nonneg_of_mul_nonneg_left c2 hh
      have d3 := nonneg_of_mul_nonneg_left c3 hw
      have d4 := nonneg_of_mul_nonneg_left c4 hh
      have b1 := mnx 0 ix (by omega)
      have b2 := mnx (ix + 1) nx (by omega)
      have b3 := mny 0 iy (by omega)
      have b4 := mny (iy + 1) ny (by omega)
      have f1 : tick xmin xmax nx 0 = xmin := by simp [tick]
      have f2 : tick xmin xmax nx nx = xmax := by unfold tick; field_simp; ring
      have f3 : tick ymin ymax ny 0 = ymin := by simp [tick]
      have f4 : tick ymin ymax ny ny = ymax := by unfold tick; field_simp; ring
      rw [f1] at b1; rw [f2] at b2; rw [f3] at b3; rw [f4] at b4
      refine ⟨?_, ?_, ?_, ?_⟩ <;> linarith
  · intro k k' q q' hk hk' hq hq'
    rw [gridQuads_eq] at hk hk'
    obtain ⟨ix, iy, _, _, rfl, rfl⟩ := grid_mem _ _ _ _ _ hk
    obtain ⟨jx, jy, _, _, rfl, rfl⟩ := grid_mem _ _ _ _ _ hk'
    obtain ⟨e1, e2, e3, e4⟩ := l0 ix iy
    obtain ⟨f1, f2, f3, f4⟩ := l0 jx jy
    have g : ∀ e ∈ (boxCell xmin xmax ymin ymax nx ny ix iy).edges, 0 < left e p := hq
    simp only [QD.edges, List.mem_cons, List.not_mem_nil, or_false, forall_eq_or_imp, forall_eq] at hq hq'
    rw [e1, e2, e3, e4] at hq
    rw [f1, f2, f3, f4] at hq'
    obtain ⟨c1, c2, c3, c4⟩ := hq
    obtain ⟨d1, d2, d3, d4⟩ := hq'
    replace c1 := pos_of_mul_pos_left' c1 hw.le
    replace c2 := pos_of_mul_pos_left' c2 hh.le
    replace c3 := pos_of_mul_pos_left' c3 hw.le
    replace c4 := pos_of_mul_pos_left' c4 hh.le
    replace d1 := pos_of_mul_pos_left' d1 hw.le
    replace d2 := pos_of_mul_pos_left' d2 hh.le
    replace d3 := pos_of_mul_pos_left' d3 hw.le
    replace d4 := pos_of_mul_pos_left' d4 hh.le
    have hxx : ix = jx := by
      rcases Nat.lt_trichotomy ix jx with h | h | h
      · have := mnx (ix + 1) jx (by omega); exfalso; linarith
      · exact h
      · have := mnx (jx + 1) ix (by omega); exfalso; linarith
    have hyy : iy = jy := by
      rcases Nat.lt_trichotomy iy jy with h | h | h
      · have := mny (iy + 1) jy (by omega); exfalso; linarith
      · exact h
      · have := mny (jy + 1) iy (by omega); exfalso; linarith
    rw [hxx, hyy]

/-- A 3 by 2 grid on the box `[0,3] x [0,4]`: six faces of area 2. -/
example : (gridQuads (0 : ℚ) 3 0 4 3 2).length = 6 ∧
    ∀ q ∈ gridQuads (0 : ℚ) 3 0 4 3 2, q.area = 2 := by
  refine ⟨by rw [gridQuads_eq]; rfl, fun q hq => ?_⟩
  rw [((C24_areas (0 : ℚ) 3 0 4 (by norm_num) (by norm_num) 3 2 (by norm_num) (by norm_num)).1 q hq).2.1]
  norm_num

end Ord

/-! ## Connectivity of the grid -/

theorem gidx_inj {nx i j i' j' : Nat} (hi : i ≤ nx) (hi' : i' ≤ nx)
    (h : gidx nx i j = gidx nx i' j') : i = i' ∧ j = j' := by
  unfold gidx at h
  have hp : 0 < nx + 1 := by omega
  have a : (j * (nx + 1) + i) / (nx + 1) = j := by
    rw [Nat.mul_comm, Nat.mul_add_div hp, Nat.div_eq_of_lt (by omega)]; rfl
  have b : (j' * (nx + 1) + i') / (nx + 1) = j' := by
    rw [Nat.mul_comm, Nat.mul_add_div hp, Nat.div_eq_of_lt (by omega)]; rfl
  have : j = j' := by rw [← a, ← b, h]
  subst this
  exact ⟨by omega, rfl⟩

theorem off_grid (nx ny k : Nat) (hk : k ≤ nx * ny) : off (gridFaces nx ny) k = 4 * k := by
  have h4 : ∀ fc ∈ gridFaces nx ny, fc.length = 4 := by
    intro fc hfc
    unfold gridFaces at hfc
    obtain ⟨iy, _, h⟩ := List.mem_flatMap.1 hfc
    obtain ⟨ix, _, rfl⟩ := List.mem_map.1 h
    rfl
  have hlen : (gridFaces nx ny).length = nx * ny := by
    simp [gridFaces, List.length_flatMap, Nat.mul_comm]
  unfold off
  have : ((gridFaces nx ny).take k).map List.length = List.replicate k 4 := by
    rw [List.eq_replicate_iff]
    refine ⟨by simp [hlen]; exact hk, ?_⟩
    intro b hb
    obtain ⟨fc, hfc, rfl⟩ := List.mem_map.1 hb
    exact h4 fc (List.mem_of_mem_take hfc)
  rw [this]; simp [Nat.mul_comm]

/-- Corner `s` of the cell `(ix, iy)`. -/
def corner (nx ix iy s : Nat) : Nat :=
  match s with
  | 0 => gidx nx ix iy
  | 1 => gidx nx (ix + 1) iy
  | 2 => gidx nx (ix + 1) (iy + 1)
  | _ => gidx nx ix (iy + 1)

theorem grid_runs (nx ny m a b : Nat) : Runs (gridFaces nx ny) m a b ↔
    ∃ ix iy s, ix < nx ∧ iy < ny ∧ s < 4 ∧ m = 4 * (iy * nx + ix) + s ∧
      a = corner nx ix iy s ∧ b = corner nx ix iy ((s + 1) % 4) := by
  have hk : ∀ ix iy, ix < nx → iy < ny → iy * nx + ix ≤ nx * ny := by
    intro ix iy hx hy
    calc iy * nx + ix ≤ iy * nx + nx := by omega
      _ = (iy + 1) * nx := by ring
      _ ≤ ny * nx := Nat.mul_le_mul_right _ hy
      _ = nx * ny := Nat.mul_comm _ _
  constructor
  · rintro ⟨h, h1, rfl, rfl⟩
    obtain ⟨k, i, fc, ⟨s1, s2, s3⟩, rfl⟩ := (get_iff _ _ _).1 h1
    obtain ⟨ix, iy, hx, hy, rfl, rfl⟩ := grid_mem _ _ _ _ _ s1
    rw [off_grid _ _ _ (hk _ _ hx hy)] at s3
    simp only [List.length_cons, List.length_nil] at s2
    refine ⟨ix, iy, i, hx, hy, s2, s3, ?_, ?_⟩ <;>
      (have : i = 0 ∨ i = 1 ∨ i = 2 ∨ i = 3 := by omega) <;>
      rcases this with rfl | rfl | rfl | rfl <;> simp [corner]
  · rintro ⟨ix, iy, s, hx, hy, hs, rfl, rfl, rfl⟩
    have hg := grid_get (fun ix iy =>
      [gidx nx ix iy, gidx nx (ix + 1) iy, gidx nx (ix + 1) (iy + 1), gidx nx ix (iy + 1)])
      nx ny ix iy hx hy
    refine ⟨_, (get_iff _ _ _).2 ⟨_, s, _, ⟨hg, by simpa using hs, ?_⟩, rfl⟩, ?_, ?_⟩
    · rw [off_grid _ _ _ (hk _ _ hx hy)]
    · have : s = 0 ∨ s = 1 ∨ s = 2 ∨ s = 3 := by omega
      rcases this with rfl | rfl | rfl | rfl <;> rfl
    · have : s = 0 ∨ s = 1 ∨ s = 2 ∨ s = 3 := by omega
      rcases this with rfl | rfl | rfl | rfl <;> simp [corner]

theorem corner_eq (nx ix iy s : Nat) (hs : s < 4) : corner nx ix iy s =
    gidx nx (ix + if s = 1 ∨ s = 2 then 1 else 0) (iy + if s = 2 ∨ s = 3 then 1 else 0) := by
  have : s = 0 ∨ s = 1 ∨ s = 2 ∨ s = 3 := by omega
  rcases this with rfl | rfl | rfl | rfl <;> rfl

theorem corner_inj {nx ix iy s jx jy t : Nat} (hx : ix < nx) (hx' : jx < nx) (hs : s < 4) (ht : t < 4)
    (h : corner nx ix iy s = corner nx jx jy t) :
    ix + (if s = 1 ∨ s = 2 then 1 else 0) = jx + (if t = 1 ∨ t = 2 then 1 else 0) ∧
    iy + (if s = 2 ∨ s = 3 then 1 else 0) = jy + (if t = 2 ∨ t = 3 then 1 else 0) := by
  rw [corner_eq _ _ _ _ hs, corner_eq _ _ _ _ ht] at h
  refine gidx_inj ?_ ?_ h <;> split_ifs <;> omega

/-- The grid is an oriented surface, so that `C25_twin` applies to it. -/
theorem C24_oriented (nx ny : Nat) : Oriented (gridFaces nx ny) := by
  refine ⟨?_, ?_, ?_⟩
  · intro m m' a b h h'
    obtain ⟨ix, iy, s, hx, hy, hs, rfl, rfl, rfl⟩ := (grid_runs _ _ _ _ _).1 h
    obtain ⟨jx, jy, t, hx', hy', ht, rfl, e1, e2⟩ := (grid_runs _ _ _ _ _).1 h'
    have c1 := corner_inj hx hx' hs ht e1
    have c2 := corner_inj hx hx' (Nat.mod_lt _ (by omega)) (Nat.mod_lt _ (by omega)) e2
    have hs' : s = 0 ∨ s = 1 ∨ s = 2 ∨ s = 3 := by omega
    have ht' : t = 0 ∨ t = 1 ∨ t = 2 ∨ t = 3 := by omega
    have key : ix = jx ∧ iy = jy ∧ s = t := by
      rcases hs' with rfl | rfl | rfl | rfl <;> rcases ht' with rfl | rfl | rfl | rfl <;>
        simp at c1 c2 <;> omega
    obtain ⟨rfl, rfl, rfl⟩ := key
    rfl
  · intro fc hfc
    unfold gridFaces at hfc
    obtain ⟨iy, _, h⟩ := List.mem_flatMap.1 hfc
    obtain ⟨ix, _, rfl⟩ := List.mem_map.1 h
    simp
  · intro fc hfc
    unfold gridFaces at hfc
    obtain ⟨iy, _, h⟩ := List.mem_flatMap.1 hfc
    obtain ⟨ix, hix, rfl⟩ := List.mem_map.1 h
    rw [List.mem_range] at hix
    have d : ∀ i j i' j', i ≤ nx → i' ≤ nx → ¬ (i = i' ∧ j = j') → gidx nx i j ≠ gidx nx i' j' :=
      fun i j i' j' h1 h2 h3 h4 => h3 (gidx_inj h1 h2 h4)
    simp only [List.nodup_cons, List.mem_cons, List.not_mem_nil, or_false, not_or, not_false_eq_true,
      List.nodup_nil, and_true]
    refine ⟨⟨d _ _ _ _ ?_ ?_ ?_, d _ _ _ _ ?_ ?_ ?_, d _ _ _ _ ?_ ?_ ?_⟩,
      ⟨d _ _ _ _ ?_ ?_ ?_, d _ _ _ _ ?_ ?_ ?_⟩, d _ _ _ _ ?_ ?_ ?_⟩ <;> omega

/-- Twins in the grid: the bottom (0), right (1), top (2), left (3) side of cell `(ix, iy)` is
paired with the top, left, bottom, right side of the adjacent cell, and has no twin exactly
on the boundary of the box. -/
theorem C24_twins (nx ny ix iy : Nat) (hx : ix < nx) (hy : iy < ny) :
    let tw := twin (halfEdges (gridFaces nx ny))
    let he := fun ix iy s => 4 * (iy * nx + ix) + s
    tw (he ix iy 0) = (if 0 < iy then (he ix (iy - 1) 2 : Int) else -1) ∧
    tw (he ix iy 1) = (if ix + 1 < nx then (he (ix + 1) iy 3 : Int) else -1) ∧
    tw (he ix iy 2) = (if iy + 1 < ny then (he ix (iy + 1) 0 : Int) else -1) ∧
    tw (he ix iy 3) = (if 0 < ix then (he (ix - 1) iy 1 : Int) else -1) := by
  intro tw he
  have ho := C24_oriented nx ny
  have run : ∀ s, s < 4 → Runs (gridFaces nx ny) (he ix iy s) (corner nx ix iy s)
      (corner nx ix iy ((s + 1) % 4)) := fun s hs =>
    (grid_runs _ _ _ _ _).2 ⟨ix, iy, s, hx, hy, hs, rfl, rfl, rfl⟩
  have none' : ∀ s, s < 4 → (∀ jx jy t, jx < nx → jy < ny → t < 4 →
      corner nx ix iy s = corner nx jx jy ((t + 1) % 4) →
      corner nx ix iy ((s + 1) % 4) = corner nx jx jy t → False) → tw (he ix iy s) = -1 := by
    intro s hs h
    refine (C25_twin _ ho _ _ _ (run s hs)).2.2.2 (fun j hj => ?_)
    obtain ⟨jx, jy, t, h1, h2, h3, _, h5, h6⟩ := (grid_runs _ _ _ _ _).1 hj
    exact h jx jy t h1 h2 h3 h6 h5
  have some' : ∀ s jx jy t, s < 4 → jx < nx → jy < ny → t < 4 →
      corner nx ix iy ((s + 1) % 4) = corner nx jx jy t →
      corner nx ix iy s = corner nx jx jy ((t + 1) % 4) → tw (he ix iy s) = (he jx jy t : Int) := by
    intro s jx jy t hs h1 h2 h3 h5 h6
    exact ((C25_twin _ ho _ _ _ (run s hs)).1 _).2
      ((grid_runs _ _ _ _ _).2 ⟨jx, jy, t, h1, h2, h3, rfl, h5, h6⟩)
  refine ⟨?_, ?_, ?_, ?_⟩
  · split_ifs with h
    · refine some' 0 ix (iy - 1) 2 (by omega) hx (by omega) (by omega) ?_ ?_ <;>
        simp only [corner] <;> congr 1 <;> omega
    · refine none' 0 (by omega) ?_
      intro jx jy t h1 h2 h3 h4 h5
      have c1 := corner_inj hx h1 (by omega) (Nat.mod_lt _ (by omega)) h4
      have c2 := corner_inj hx h1 (by omega) h3 h5
      have ht' : t = 0 ∨ t = 1 ∨ t = 2 ∨ t = 3 := by omega
      rcases ht' with rfl | rfl | rfl | rfl <;> simp at c1 c2 <;> omega
  · split_ifs with h
    · refine some' 1 (ix + 1) iy 3 (by omega) h hy (by omega) ?_ ?_ <;>
        simp only [corner]
    · refine none' 1 (by omega) ?_
      intro jx jy t h1 h2 h3 h4 h5
      have c1 := corner_inj hx h1 (by omega) (Nat.mod_lt _ (by omega)) h4
      have c2 := corner_inj hx h1 (by omega) h3 h5
      have ht' : t = 0 ∨ t = 1 ∨ t = 2 ∨ t = 3 := by omega
      rcases ht' with rfl | rfl | rfl | rfl <;> simp at c1 c2 <;> omega
  · split_ifs with h
    · refine some' 2 ix (iy + 1) 0 (by omega) hx h (by omega) ?_ ?_ <;>
        simp only [corner]
    · refine none' 2 (by omega) ?_
      intro jx jy t h1 h2 h3 h4 h5
      have c1 := corner_inj hx h1 (by omega) (Nat.mod_lt _ (by omega)) h4
      have c2 := corner_inj hx h1 (by omega) h3 h5
      have ht' : t = 0 ∨ t = 1 ∨ t = 2 ∨ t = 3 := by omega
      rcases ht' with rfl | rfl | rfl | rfl <;> simp at c1 c2 <;> omega
  · split_ifs with h
    · refine some' 3 (ix - 1) iy 1 (by omega) (by omega) hy (by omega) ?_ ?_ <;>
        simp only [corner] <;> congr 1 <;> omega
    · refine none' 3 (by omega) ?_
      intro jx jy t h1 h2 h3 h4 h5
      have c1 := corner_inj hx h1 (by omega) (Nat.mod_lt _ (by omega)) h4
      have c2 := corner_inj hx h1 (by omega) h3 h5
      have ht' : t = 0 ∨ t = 1 ∨ t = 2 ∨ t = 3 := by omega
      rcases ht' with rfl | rfl | rfl | rfl <;> simp at c1 c2 <;> omega

end Verif.Dcel
