import Verif.Per.Grid

/-!
# Periodic rectangular grids satisfy what C80 assumes
-/

namespace Verif.Per
open Verif.Fem Verif.Mesh Verif.Dof Verif.Geom

section
set_option linter.unusedSectionVars false
set_option linter.unusedSimpArgs false
variable {K : Type} [Field K] {B : Base K} {nx ny : Nat} {px py : Bool}

theorem glue_corner (hG : IsGrid B nx ny px py) {ix iy : Nat} {s : Fin 4} {q : Nat × Nat} (hx : ix < nx) (hy : iy < ny)
    (h : nbr nx ny px py ix iy s = some q) : SamePt B (cI nx ix iy, E s (0 : ℚ)) (cI nx q.1 q.2, E (s + 3) 0) ∧
    SamePt B (cI nx ix iy, E (s + 1) (0 : ℚ)) (cI nx q.1 q.2, E (s + 2) 0) := by
  obtain ⟨g1, g2⟩ := nbr_lt hx hy h
  have hT : B.T (4 * cI nx ix iy + s) = some (4 * cI nx q.1 q.2 + ((s + 2 : Fin 4) : Nat)) := by
    rw [hG.T ix hx iy hy, h]; rfl
  have hn := hG.n
  have l1 : cI nx ix iy < B.n := by rw [hn]; exact cI_lt hx hy
  have l2 : cI nx q.1 q.2 < B.n := by rw [hn]; exact cI_lt g1 g2
  have e : ∀ s : Fin 4, E s (1 : ℚ) = E (s + 1) 0 := by decide +kernel
  constructor
  · refine .rel _ _ ⟨s, s + 2, 0, le_refl _, by norm_num, l1, l2, hT, rfl, ?_⟩
    have : ∀ s : Fin 4, E (s + 3) (0 : ℚ) = E (s + 2) (1 - 0) := by decide +kernel
    exact this s
  · refine .rel _ _ ⟨s, s + 2, 1, by norm_num, le_refl _, l1, l2, hT, (e s).symm, ?_⟩
    have : ∀ s : Fin 4, E (s + 2) (0 : ℚ) = E (s + 2) (1 - 1) := by decide +kernel
    exact this s

theorem same_h (hG : IsGrid B nx ny px py) {ix jx iy : Nat} (hx : ix < nx) (hx' : jx < nx) (hy : iy < ny) {i j : Fin 4}
    (h : ix + dx i = jx + dx j) (h' : dy i = dy j) : SamePt B (cI nx ix iy, E i (0 : ℚ)) (cI nx jx iy, E j 0) := by
  have key : ∀ ix jx, ix < nx → jx < nx → ∀ i j : Fin 4, ix + dx i = jx + dx j → dy i = dy j → ix ≤ jx →
      SamePt B (cI nx ix iy, E i (0 : ℚ)) (cI nx jx iy, E j 0) := by
    intro ix jx hx hx' i j h h' hle
    have d1 := dx_le i
    have d2 := dx_le j
    rcases Nat.eq_or_lt_of_le hle with rfl | hlt
    · have : i = j := by
        have hd : dx i = dx j := by omega
        clear h d1 d2
        revert i j; decide
      subst this
      exact .refl _
    · have e1 : jx = ix + 1 := by omega
      have e2 : dx i = 1 := by omega
      have e3 : dx j = 0 := by omega
      have hn : nbr nx ny px py ix iy 1 = some (ix + 1, iy) := by
        simp only [nbr]; rw [if_neg (by omega)]
      obtain ⟨g1, g2⟩ := glue_corner hG hx hy hn
      subst e1
      have : i = 1 ∧ j = 0 ∨ i = 2 ∧ j = 3 := by
        clear h d1 d2 hn
        revert i j; decide
      rcases this with ⟨rfl, rfl⟩ | ⟨rfl, rfl⟩
      · exact g1
      · exact g2
  rcases le_total ix jx with hle | hle
  · exact key ix jx hx hx' i j h h' hle
  · exact .symm _ _ (key jx ix hx' hx j i h.symm h'.symm hle)

theorem same_v (hG : IsGrid B nx ny px py) {ix iy jy : Nat} (hx : ix < nx) (hy : iy < ny) (hy' : jy < ny) {i j : Fin 4}
    (h : iy + dy i = jy + dy j) (h' : dx i = dx j) : SamePt B (cI nx ix iy, E i (0 : ℚ)) (cI nx ix jy, E j 0) := by
  have key : ∀ iy jy, iy < ny → jy < ny → ∀ i j : Fin 4, iy + dy i = jy + dy j → dx i = dx j → iy ≤ jy →
      SamePt B (cI nx ix iy, E i (0 : ℚ)) (cI nx ix jy, E j 0) := by
    intro iy jy hy hy' i j h h' hle
    have d1 := dy_le i
    have d2 := dy_le j
    rcases Nat.eq_or_lt_of_le hle with rfl | hlt
    · have : i = j := by
        have hd : dy i = dy j := by omega
        clear h d1 d2
        revert i j; decide
      subst this
      exact .refl _
    · have e1 : jy = iy + 1 := by omega
      have e2 : dy i = 1 := by omega
      have e3 : dy j = 0 := by omega
      have hn : nbr nx ny px py ix iy 2 = some (ix, iy + 1) := by
        simp only [nbr]; rw [if_neg (by omega)]
      obtain ⟨g1, g2⟩ := glue_corner hG hx hy hn
      subst e1
      have : i = 2 ∧ j = 1 ∨ i = 3 ∧ j = 0 := by
        clear h d1 d2 hn
        revert i j; decide
      rcases this with ⟨rfl, rfl⟩ | ⟨rfl, rfl⟩
      · exact g1
      · exact g2
  rcases le_total iy jy with hle | hle
  · exact key iy jy hy hy' i j h h' hle
  · exact .symm _ _ (key jy iy hy' hy j i h.symm h'.symm hle)

/-- Corners at the same place of the plane. -/
theorem same_place (hG : IsGrid B nx ny px py) {fx fy gx gy : Nat} (h1 : fx < nx) (h2 : fy < ny) (h3 : gx < nx) (h4 : gy < ny)
    {i j : Fin 4} (hx : fx + dx i = gx + dx j) (hy : fy + dy i = gy + dy j) :
    SamePt B (cI nx fx fy, E i (0 : ℚ)) (cI nx gx gy, E j 0) := by
  obtain ⟨k, k1, k2⟩ : ∃ k : Fin 4, dx k = dx j ∧ dy k = dy i := by clear hx hy; revert i j; decide
  exact .trans _ _ _ (same_h hG h1 h3 h2 (j := k) (by rw [k1]; exact hx) k2.symm) (same_v hG h3 h2 h4 (by rw [k2]; exact hy) k1)

theorem grid_nice (hG : IsGrid B nx ny px py) (hx2 : px = true → 2 ≤ nx) (hy2 : py = true → 2 ≤ ny) : Nice B := by
  refine ⟨?_, ?_⟩
  · intro f hf i j h
    rw [hG.n] at hf
    obtain ⟨ix, hx, iy, hy, rfl⟩ := cI_ex hf
    obtain ⟨a, b⟩ := same_corner hG hx hy hx hy h
    have d1 := dx_le i; have d2 := dx_le j; have d3 := dy_le i; have d4 := dy_le j
    have e1 : dx i = dx j := by
      rcases a with a | ⟨p, a⟩
      · omega
      · have := hx2 p; omega
    have e2 : dy i = dy j := by
      rcases b with b | ⟨p, b⟩
      · omega
      · have := hy2 p; omega
    clear h a b d1 d2 d3 d4
    revert i j; decide
  · intro f hf g hg i j h
    rw [hG.n] at hf hg
    obtain ⟨ix, hx, iy, hy, rfl⟩ := cI_ex hf
    obtain ⟨jx, hx', jy, hy', rfl⟩ := cI_ex hg
    rw [hG.b _ hx _ hy, hG.b _ hx' _ hy'] at h
    have d1 := dx_le i; have d2 := dx_le j
    obtain ⟨a, b⟩ := Dcel.gidx_inj (by omega) (by omega) h
    exact same_place hG hx hy hx' hy' a b

/-! ### Pairs -/

/-- The vertex at a lattice point. -/
def gv (nx X Y : Nat) : VN := .root (Dcel.gidx nx X Y)

/-- A half-edge is periodic if it is on a seam. -/
theorem grid_per (hG : IsGrid B nx ny px py) {ix iy : Nat} (hx : ix < nx) (hy : iy < ny) (s : Fin 4) :
    B.per (4 * cI nx ix iy + s) = true ↔ match s with
      | 0 => iy = 0 ∧ py = true
      | 1 => ix + 1 = nx ∧ px = true
      | 2 => iy + 1 = ny ∧ py = true
      | 3 => ix = 0 ∧ px = true := by
  unfold Base.per
  rw [hG.T ix hx iy hy s]
  rcases hq : nbr nx ny px py ix iy s with _ | q
  · simp only [Option.map_none]
    fin_cases s <;> simp only [nbr] at hq <;> split_ifs at hq <;> simp_all
  · obtain ⟨g1, g2⟩ := nbr_lt hx hy hq
    simp only [Option.map_some, hG.b ix hx iy hy, hG.hd ix hx iy hy, hG.b q.1 g1 q.2 g2, hG.hd q.1 g1 q.2 g2]
    have gi : ∀ X Y X' Y', X ≤ nx → X' ≤ nx → (Dcel.gidx nx X Y = Dcel.gidx nx X' Y' ↔ X = X' ∧ Y = Y') :=
      fun X Y X' Y' h h' => ⟨fun e => Dcel.gidx_inj h h' e, fun e => by rw [e.1, e.2]⟩
    have dl : ∀ (X : Nat) (s : Fin 4), X < nx → X + dx s ≤ nx := fun X s h => by have := dx_le s; omega
    rw [Bool.not_eq_true', Bool.and_eq_false_iff, decide_eq_false_iff_not, decide_eq_false_iff_not,
      gi _ _ _ _ (dl _ _ hx) (dl _ _ g1), gi _ _ _ _ (dl _ _ hx) (dl _ _ g1)]
    obtain ⟨q1, q2⟩ := q
    simp only at g1 g2 ⊢
    fin_cases s
    · change nbr nx ny px py ix iy 0 = _ at hq
      show (¬(ix + dx 0 = q1 + dx 3 ∧ iy + dy 0 = q2 + dy 3) ∨ ¬(ix + dx 1 = q1 + dx 2 ∧ iy + dy 1 = q2 + dy 2)) ↔ iy = 0 ∧ py = true
      simp only [nbr] at hq
      simp only [dx, dy]
      split_ifs at hq with h1 h2 <;> cases hq
      · simp only [h1, h2, and_true, iff_true]; omega
      · simp only [h1, false_and, iff_false, not_or, not_not, true_and, and_true] <;> omega
    · change nbr nx ny px py ix iy 1 = _ at hq
      show (¬(ix + dx 1 = q1 + dx 0 ∧ iy + dy 1 = q2 + dy 0) ∨ ¬(ix + dx 2 = q1 + dx 3 ∧ iy + dy 2 = q2 + dy 3)) ↔ ix + 1 = nx ∧ px = true
      simp only [nbr] at hq
      simp only [dx, dy]
      split_ifs at hq with h1 h2 <;> cases hq
      · simp only [h1, h2, and_true, iff_true]; omega
      · simp only [h1, false_and, iff_false, not_or, not_not, true_and, and_true] <;> omega
    · change nbr nx ny px py ix iy 2 = _ at hq
      show (¬(ix + dx 2 = q1 + dx 1 ∧ iy + dy 2 = q2 + dy 1) ∨ ¬(ix + dx 3 = q1 + dx 0 ∧ iy + dy 3 = q2 + dy 0)) ↔ iy + 1 = ny ∧ py = true
      simp only [nbr] at hq
      simp only [dx, dy]
      split_ifs at hq with h1 h2 <;> cases hq
      · simp only [h1, h2, and_true, iff_true]; omega
      · simp only [h1, false_and, iff_false, not_or, not_not, true_and, and_true] <;> omega
    · change nbr nx ny px py ix iy 3 = _ at hq
      show (¬(ix + dx 3 = q1 + dx 2 ∧ iy + dy 3 = q2 + dy 2) ∨ ¬(ix + dx 0 = q1 + dx 1 ∧ iy + dy 0 = q2 + dy 1)) ↔ ix = 0 ∧ px = true
      simp only [nbr] at hq
      simp only [dx, dy]
      split_ifs at hq with h1 h2 <;> cases hq
      · simp only [h1, h2, and_true, iff_true]; omega
      · simp only [h1, false_and, iff_false, not_or, not_not, true_and, and_true] <;> omega

/-- What a seam half-edge does to the pairs of the vertices. -/
theorem grid_merge (hG : IsGrid B nx ny px py) {ix iy k' : Nat} (hx : ix < nx) (hy : iy < ny) (s : Fin 4) {q : Nat × Nat}
    (hq : nbr nx ny px py ix iy s = some q) (hp : B.per (4 * cI nx ix iy + s) = true) (hk : 4 * cI nx ix iy + s < k') :
    (∀ y, (y ∈ stage B (4 * cI nx ix iy + s) (gv nx (ix + dx s) (iy + dy s)) ∨
        y ∈ stage B (4 * cI nx ix iy + s) (gv nx (q.1 + dx (s + 3)) (q.2 + dy (s + 3))) ∨
        y = ((cI nx ix iy, []), gv nx (ix + dx s) (iy + dy s)) ∨ y = ((cI nx q.1 q.2, []), gv nx (q.1 + dx (s + 3)) (q.2 + dy (s + 3)))) →
      y ∈ stage B k' (gv nx (ix + dx s) (iy + dy s)) ∧ y ∈ stage B k' (gv nx (q.1 + dx (s + 3)) (q.2 + dy (s + 3)))) ∧
    (∀ y, (y ∈ stage B (4 * cI nx ix iy + s) (gv nx (ix + dx (s + 1)) (iy + dy (s + 1))) ∨
        y ∈ stage B (4 * cI nx ix iy + s) (gv nx (q.1 + dx (s + 2)) (q.2 + dy (s + 2))) ∨
        y = ((cI nx ix iy, []), gv nx (ix + dx (s + 1)) (iy + dy (s + 1))) ∨
        y = ((cI nx q.1 q.2, []), gv nx (q.1 + dx (s + 2)) (q.2 + dy (s + 2)))) →
      y ∈ stage B k' (gv nx (ix + dx (s + 1)) (iy + dy (s + 1))) ∧ y ∈ stage B k' (gv nx (q.1 + dx (s + 2)) (q.2 + dy (s + 2)))) := by
  obtain ⟨g1, g2⟩ := nbr_lt hx hy hq
  have hT : B.T (4 * cI nx ix iy + s) = some (4 * cI nx q.1 q.2 + ((s + 2 : Fin 4) : Nat)) := by
    rw [hG.T ix hx iy hy, hq]; rfl
  have := stage_merge hk hT hp
  have e : ∀ s : Fin 4, s + 2 + 1 = s + 3 := by decide
  have d1 : (4 * cI nx ix iy + (s : Nat)) / 4 = cI nx ix iy := by have := s.2; omega
  have d2 : (4 * cI nx q.1 q.2 + ((s + 2 : Fin 4) : Nat)) / 4 = cI nx q.1 q.2 := by have := (s + 2).2; omega
  rw [hG.b ix hx iy hy, hG.hd ix hx iy hy, hG.b q.1 g1 q.2 g2, hG.hd q.1 g1 q.2 g2, e, d1, d2] at this
  exact this

/-- A vertex that is on no seam has no pairs. -/
theorem grid_empty (hG : IsGrid B nx ny px py) {X Y : Nat} (hX : X ≤ nx) (h1 : ¬(px = true ∧ (X = 0 ∨ X = nx)))
    (h2 : ¬(py = true ∧ (Y = 0 ∨ Y = ny))) : initPairs B (gv nx X Y) = [] := by
  refine stage_empty ?_
  intro k hk j hj hp
  obtain ⟨ix, hx, iy, hy, s, rfl, q, hq, g1, g2, rfl⟩ := hG.twin hj
  rw [grid_per hG hx hy] at hp
  rw [hG.b ix hx iy hy, hG.hd ix hx iy hy, hG.b q.1 g1 q.2 g2, hG.hd q.1 g1 q.2 g2]
  have gi : ∀ X' Y', X' ≤ nx → (X ≠ X' ∨ Y ≠ Y') → Dcel.gidx nx X Y ≠ Dcel.gidx nx X' Y' := by
    intro X' Y' hX' hor e
    obtain ⟨a, b⟩ := Dcel.gidx_inj hX hX' e
    omega
  obtain ⟨q1, q2⟩ := q
  simp only at g1 g2 ⊢
  fin_cases s
  · change iy = 0 ∧ py = true at hp
    change nbr nx ny px py ix iy 0 = _ at hq
    simp only [nbr, hp.1, hp.2, if_true] at hq
    cases hq
    have : ¬(Y = 0 ∨ Y = ny) := fun h => h2 ⟨hp.2, h⟩
    refine ⟨gi _ _ ?_ (.inr ?_), gi _ _ ?_ (.inr ?_), gi _ _ ?_ (.inr ?_), gi _ _ ?_ (.inr ?_)⟩ <;> simp [dx, dy] <;> omega
  · change ix + 1 = nx ∧ px = true at hp
    change nbr nx ny px py ix iy 1 = _ at hq
    simp only [nbr, hp.1, hp.2, if_true] at hq
    cases hq
    have : ¬(X = 0 ∨ X = nx) := fun h => h1 ⟨hp.2, h⟩
    refine ⟨gi _ _ ?_ (.inl ?_), gi _ _ ?_ (.inl ?_), gi _ _ ?_ (.inl ?_), gi _ _ ?_ (.inl ?_)⟩ <;> simp [dx, dy] <;> omega
  · change iy + 1 = ny ∧ py = true at hp
    change nbr nx ny px py ix iy 2 = _ at hq
    simp only [nbr, hp.1, hp.2, if_true] at hq
    cases hq
    have : ¬(Y = 0 ∨ Y = ny) := fun h => h2 ⟨hp.2, h⟩
    refine ⟨gi _ _ ?_ (.inr ?_), gi _ _ ?_ (.inr ?_), gi _ _ ?_ (.inr ?_), gi _ _ ?_ (.inr ?_)⟩ <;> simp [dx, dy] <;> omega
  · change ix = 0 ∧ px = true at hp
    change nbr nx ny px py ix iy 3 = _ at hq
    simp only [nbr, hp.1, hp.2, if_true] at hq
    cases hq
    have : ¬(X = 0 ∨ X = nx) := fun h => h1 ⟨hp.2, h⟩
    refine ⟨gi _ _ ?_ (.inl ?_), gi _ _ ?_ (.inl ?_), gi _ _ ?_ (.inl ?_), gi _ _ ?_ (.inl ?_)⟩ <;> simp [dx, dy] <;> omega

/-- The four corners of a grid that is periodic in both directions have all four pairs. -/
theorem grid_corner (hG : IsGrid B nx ny true true) (hx : 2 ≤ nx) (hy : 2 ≤ ny) {X Y X' Y' gx gy : Nat}
    (hX : X = 0 ∨ X = nx) (hY : Y = 0 ∨ Y = ny) (hX' : X' = 0 ∧ gx = 0 ∨ X' = nx ∧ gx = nx - 1)
    (hY' : Y' = 0 ∧ gy = 0 ∨ Y' = ny ∧ gy = ny - 1) : ((cI nx gx gy, []), gv nx X' Y') ∈ initPairs B (gv nx X Y) := by
  have per : ∀ (ix iy : Nat) (_ : ix < nx) (_ : iy < ny) (s : Fin 4), _ := fun ix iy h1 h2 s => (grid_per hG h1 h2 s).2
  -- bottom of the first cell
  obtain ⟨m1, _⟩ := grid_merge (k' := 4 * cI nx 0 0 + (3 : Fin 4)) hG (ix := 0) (iy := 0) (by omega) (by omega) 0 (q := (0, ny - 1))
    (by simp [nbr]) (per 0 0 (by omega) (by omega) 0 ⟨rfl, rfl⟩) (by simp)
  -- left of the first cell
  obtain ⟨_, m2⟩ := grid_merge (k' := 4 * cI nx (nx - 1) 0 + (0 : Fin 4)) hG (ix := 0) (iy := 0) (by omega) (by omega) 3 (q := (nx - 1, 0))
    (by simp [nbr]) (per 0 0 (by omega) (by omega) 3 ⟨rfl, rfl⟩) (by simp [cI]; omega)
  -- bottom of the last cell of the first row
  obtain ⟨_, m3⟩ := grid_merge (k' := 4 * cI nx (nx - 1) 0 + (1 : Fin 4)) hG (ix := nx - 1) (iy := 0) (by omega) (by omega) 0
    (q := (nx - 1, ny - 1)) (by simp [nbr]) (per (nx - 1) 0 (by omega) (by omega) 0 ⟨rfl, rfl⟩) (by simp)
  -- right of the last cell of the first row
  obtain ⟨m4, _⟩ := grid_merge (k' := 4 * cI nx 0 (ny - 1) + (3 : Fin 4)) hG (ix := nx - 1) (iy := 0) (by omega) (by omega) 1
    (q := (0, 0)) (by simp only [nbr]; rw [if_pos (by omega)]; simp) (per (nx - 1) 0 (by omega) (by omega) 1 ⟨by omega, rfl⟩) (by
      simp only [cI]
      have : nx ≤ (ny - 1) * nx := Nat.le_mul_of_pos_left _ (by omega)
      show 4 * (0 * nx + (nx - 1)) + 1 < 4 * ((ny - 1) * nx + 0) + 3
      omega)
  -- left of the first cell of the last row
  have hlast : 4 * cI nx 0 (ny - 1) + ((3 : Fin 4) : Nat) < 4 * B.n := by
    rw [hG.n]
    have := cI_lt (nx := nx) (ny := ny) (ix := 0) (iy := ny - 1) (by omega) (by omega)
    show 4 * cI nx 0 (ny - 1) + 3 < _
    omega
  obtain ⟨m5, _⟩ := grid_merge (k' := 4 * B.n) hG (ix := 0) (iy := ny - 1) (by omega) (by omega) 3
    (q := (nx - 1, ny - 1)) (by simp [nbr]) (per 0 (ny - 1) (by omega) (by omega) 3 ⟨rfl, rfl⟩) hlast
  have ex : nx - 1 + 1 = nx := by omega
  have ey : ny - 1 + 1 = ny := by omega
  have z3 : (3 : Fin 4) + 1 = 0 := by decide
  have z4 : (3 : Fin 4) + 2 = 1 := by decide
  have z5 : (1 : Fin 4) + 3 = 0 := by decide
  have z6 : (3 : Fin 4) + 3 = 2 := by decide
  have z7 : (0 : Fin 4) + 3 = 3 := by decide
  have z8 : (0 : Fin 4) + 1 = 1 := by decide
  have z9 : (0 : Fin 4) + 2 = 2 := by decide
  simp only [z3, z4, z5, z6, z7, z8, z9, dx, dy, Nat.add_zero, Nat.zero_add, ex, ey] at m1 m2 m3 m4 m5
  have k2 : 4 * cI nx 0 0 + ((3 : Fin 4) : Nat) ≤ 4 * cI nx (nx - 1) 0 + ((0 : Fin 4) : Nat) := by simp [cI]; omega
  have kl : ∀ {k : Nat} {v y}, k ≤ 4 * B.n → y ∈ stage B k v → y ∈ initPairs B v := fun h hy => stage_mono h hy
  have k4 : 4 * cI nx (nx - 1) 0 + ((1 : Fin 4) : Nat) ≤ 4 * cI nx 0 (ny - 1) + ((3 : Fin 4) : Nat) := by
    simp only [cI]
    have : nx ≤ (ny - 1) * nx := Nat.le_mul_of_pos_left _ (by omega)
    show 4 * (0 * nx + (nx - 1)) + 1 ≤ 4 * ((ny - 1) * nx + 0) + 3
    omega
  -- the four pairs
  have a00 := m1 ((cI nx 0 0, []), gv nx 0 0) (by simp)
  have a01 := m1 ((cI nx 0 (ny - 1), []), gv nx 0 ny) (by simp)
  have b00 := m2 _ (.inl a00.1)
  have b01 := m2 _ (.inl a01.1)
  have b10 := m2 ((cI nx (nx - 1) 0, []), gv nx nx 0) (by simp)
  have c00 := m3 _ (.inl b00.2)
  have c01 := m3 _ (.inl b01.2)
  have c10 := m3 _ (.inl b10.2)
  have c11 := m3 ((cI nx (nx - 1) (ny - 1), []), gv nx nx ny) (by simp)
  have up : ∀ {v y}, y ∈ stage B (4 * cI nx (nx - 1) 0 + ((1 : Fin 4) : Nat)) v →
    y ∈ stage B (4 * cI nx 0 (ny - 1) + ((3 : Fin 4) : Nat)) v := fun h => stage_mono k4 h
  have d00 := m4 _ (.inl c00.1)
  have d01 := m4 _ (.inl c01.1)
  have d10 := m4 _ (.inl c10.1)
  have d11 := m4 _ (.inl c11.1)
  have e00 := m5 _ (.inr (.inl (up c00.2)))
  have e01 := m5 _ (.inr (.inl (up c01.2)))
  have e10 := m5 _ (.inr (.inl (up c10.2)))
  have e11 := m5 _ (.inr (.inl (up c11.2)))
  have hl := hlast.le
  rcases hX with rfl | rfl <;> rcases hY with rfl | rfl <;> rcases hX' with ⟨rfl, rfl⟩ | ⟨rfl, rfl⟩ <;>
    rcases hY' with ⟨rfl, rfl⟩ | ⟨rfl, rfl⟩ <;>
    first
      | exact kl hl d00.2
      | exact kl hl d01.2
      | exact kl hl d10.2
      | exact kl hl d11.2
      | exact kl hl d00.1
      | exact kl hl d01.1
      | exact kl hl d10.1
      | exact kl hl d11.1
      | exact e00.1
      | exact e01.1
      | exact e10.1
      | exact e11.1
      | exact e00.2
      | exact e01.2
      | exact e10.2
      | exact e11.2

/-- On a horizontal seam. -/
theorem grid_seam_y (hG : IsGrid B nx ny px true) (hy : 0 < ny) {X Y Y' gx gy : Nat} (hg : gx < nx) {j : Fin 4}
    (hX : X = gx + dx j) (hY : Y = 0 ∨ Y = ny) (hY' : Y' = 0 ∧ gy = 0 ∨ Y' = ny ∧ gy = ny - 1) :
    ((cI nx gx gy, []), gv nx X Y') ∈ initPairs B (gv nx X Y) := by
  have hl : 4 * cI nx gx 0 + ((0 : Fin 4) : Nat) < 4 * B.n := by
    rw [hG.n]
    have := cI_lt (nx := nx) (ny := ny) (ix := gx) (iy := 0) hg hy
    show 4 * cI nx gx 0 + 0 < _
    omega
  obtain ⟨m1, m2⟩ := grid_merge (k' := 4 * B.n) hG (ix := gx) (iy := 0) hg hy 0 (q := (gx, ny - 1)) (by simp [nbr])
    ((grid_per hG hg hy 0).2 ⟨rfl, rfl⟩) hl
  have ey : ny - 1 + 1 = ny := by omega
  have z7 : (0 : Fin 4) + 3 = 3 := by decide
  have z8 : (0 : Fin 4) + 1 = 1 := by decide
  have z9 : (0 : Fin 4) + 2 = 2 := by decide
  simp only [z7, z8, z9, dx, dy, Nat.add_zero, Nat.zero_add, ey] at m1 m2
  have d : dx j = 0 ∨ dx j = 1 := by have := dx_le j; omega
  rw [initPairs_stage]
  rcases d with d | d
  · rw [d] at hX
    have hX' : X = gx := by omega
    subst hX'
    have h0 := m1 ((cI nx X 0, []), gv nx X 0) (by simp)
    have h1 := m1 ((cI nx X (ny - 1), []), gv nx X ny) (by simp)
    rcases hY with rfl | rfl <;> rcases hY' with ⟨rfl, rfl⟩ | ⟨rfl, rfl⟩
    · exact h0.1
    · exact h1.1
    · exact h0.2
    · exact h1.2
  · rw [d] at hX
    subst hX
    have h0 := m2 ((cI nx gx 0, []), gv nx (gx + 1) 0) (by simp)
    have h1 := m2 ((cI nx gx (ny - 1), []), gv nx (gx + 1) ny) (by simp)
    rcases hY with rfl | rfl <;> rcases hY' with ⟨rfl, rfl⟩ | ⟨rfl, rfl⟩
    · exact h0.1
    · exact h1.1
    · exact h0.2
    · exact h1.2

/-- On a vertical seam. -/
theorem grid_seam_x (hG : IsGrid B nx ny true py) (hx : 0 < nx) {Y X X' gx gy : Nat} (hg : gy < ny) {j : Fin 4}
    (hY : Y = gy + dy j) (hX : X = 0 ∨ X = nx) (hX' : X' = 0 ∧ gx = 0 ∨ X' = nx ∧ gx = nx - 1) :
    ((cI nx gx gy, []), gv nx X' Y) ∈ initPairs B (gv nx X Y) := by
  have hl : 4 * cI nx 0 gy + ((3 : Fin 4) : Nat) < 4 * B.n := by
    rw [hG.n]
    have := cI_lt (nx := nx) (ny := ny) (ix := 0) (iy := gy) hx hg
    show 4 * cI nx 0 gy + 3 < _
    omega
  obtain ⟨m1, m2⟩ := grid_merge (k' := 4 * B.n) hG (ix := 0) (iy := gy) hx hg 3 (q := (nx - 1, gy)) (by simp [nbr])
    ((grid_per hG hx hg 3).2 ⟨rfl, rfl⟩) hl
  have ex : nx - 1 + 1 = nx := by omega
  have z3 : (3 : Fin 4) + 1 = 0 := by decide
  have z4 : (3 : Fin 4) + 2 = 1 := by decide
  have z6 : (3 : Fin 4) + 3 = 2 := by decide
  simp only [z3, z4, z6, dx, dy, Nat.add_zero, Nat.zero_add, ex] at m1 m2
  have d : dy j = 0 ∨ dy j = 1 := by have := dy_le j; omega
  rw [initPairs_stage]
  rcases d with d | d
  · rw [d] at hY
    have hY' : Y = gy := by omega
    subst hY'
    have h0 := m2 ((cI nx 0 Y, []), gv nx 0 Y) (by simp)
    have h1 := m2 ((cI nx (nx - 1) Y, []), gv nx nx Y) (by simp)
    rcases hX with rfl | rfl <;> rcases hX' with ⟨rfl, rfl⟩ | ⟨rfl, rfl⟩
    · exact h0.1
    · exact h1.1
    · exact h0.2
    · exact h1.2
  · rw [d] at hY
    subst hY
    have h0 := m1 ((cI nx 0 gy, []), gv nx 0 (gy + 1)) (by simp)
    have h1 := m1 ((cI nx (nx - 1) gy, []), gv nx nx (gy + 1)) (by simp)
    rcases hX with rfl | rfl <;> rcases hX' with ⟨rfl, rfl⟩ | ⟨rfl, rfl⟩
    · exact h0.1
    · exact h1.1
    · exact h0.2
    · exact h1.2

/-- C80 applies to every rectangular grid with at least two cells in the periodic directions. -/
theorem grid_perOk (hG : IsGrid B nx ny px py) (hx2 : px = true → 2 ≤ nx) (hy2 : py = true → 2 ≤ ny) : PerOk B := by
  refine { toNice := grid_nice hG hx2 hy2, pairs := ?_, turn := ?_ }
  · intro f hf g hg i j h
    rw [hG.n] at hf hg
    obtain ⟨fx, h1, fy, h2, rfl⟩ := cI_ex hf
    obtain ⟨gx, h3, gy, h4, rfl⟩ := cI_ex hg
    obtain ⟨a, b⟩ := same_corner hG h1 h2 h3 h4 h
    rw [hG.b _ h1 _ h2, hG.b _ h3 _ h4]
    have d1 := dx_le i; have d2 := dx_le j; have d3 := dy_le i; have d4 := dy_le j
    show ((cI nx gx gy, []), gv nx (gx + dx j) (gy + dy j)) ∈ initPairs B (gv nx (fx + dx i) (fy + dy i)) ∨
      initPairs B (gv nx (fx + dx i) (fy + dy i)) = [] ∧ _
    by_cases sx : px = true ∧ (fx + dx i = 0 ∨ fx + dx i = nx) <;> by_cases sy : py = true ∧ (fy + dy i = 0 ∨ fy + dy i = ny)
    · obtain ⟨rfl, sx⟩ := sx
      obtain ⟨rfl, sy⟩ := sy
      have := hx2 rfl
      have := hy2 rfl
      exact .inl (grid_corner hG (by omega) (by omega) sx sy (by omega) (by omega))
    · obtain ⟨rfl, sx⟩ := sx
      have := hx2 rfl
      have e : fy + dy i = gy + dy j := by
        rcases b with b | ⟨p, b⟩
        · exact b
        · exact absurd ⟨p, by omega⟩ sy
      rw [e]
      exact .inl (grid_seam_x hG (by omega) h4 rfl sx (by omega))
    · obtain ⟨rfl, sy⟩ := sy
      have := hy2 rfl
      have e : fx + dx i = gx + dx j := by
        rcases a with a | ⟨p, a⟩
        · exact a
        · exact absurd ⟨p, by omega⟩ sx
      rw [e]
      exact .inl (grid_seam_y hG (by omega) h3 rfl sy (by omega))
    · right
      have e : fy + dy i = gy + dy j := by
        rcases b with b | ⟨p, b⟩
        · exact b
        · exact absurd ⟨p, by omega⟩ sy
      have e' : fx + dx i = gx + dx j := by
        rcases a with a | ⟨p, a⟩
        · exact a
        · exact absurd ⟨p, by omega⟩ sx
      exact ⟨grid_empty hG (by omega) sx sy, by rw [e, e']⟩
  · intro f hf i
    rw [hG.n] at hf
    obtain ⟨fx, h1, fy, h2, rfl⟩ := cI_ex hf
    have d1 := dx_le i; have d3 := dy_le i
    have tn : ∀ {ix iy : Nat} (_ : ix < nx) (_ : iy < ny) (s : Fin 4), B.T (4 * cI nx ix iy + s) = none ↔
        nbr nx ny px py ix iy s = none := by
      intro ix iy hx hy s
      rw [hG.T ix hx iy hy s, Option.map_eq_none_iff]
    by_cases cx : px = false ∧ (fx + dx i = 0 ∨ fx + dx i = nx)
    · obtain ⟨rfl, cx⟩ := cx
      right; right
      rw [tn h1 h2, tn h1 h2]
      have z : ∀ s : Fin 4, s = 0 ∨ s = 1 ∨ s = 2 ∨ s = 3 := by decide
      rcases z i with rfl | rfl | rfl | rfl <;> simp [dx, nbr] at cx ⊢ <;> omega
    · by_cases cy : py = false ∧ (fy + dy i = 0 ∨ fy + dy i = ny)
      · obtain ⟨rfl, cy⟩ := cy
        right; right
        rw [tn h1 h2, tn h1 h2]
        have z : ∀ s : Fin 4, s = 0 ∨ s = 1 ∨ s = 2 ∨ s = 3 := by decide
        rcases z i with rfl | rfl | rfl | rfl <;> simp [dy, nbr] at cy ⊢ <;> omega
      · right; left
        intro g hg j h
        rw [hG.n] at hg
        obtain ⟨gx, h3, gy, h4, rfl⟩ := cI_ex hg
        obtain ⟨a, b⟩ := same_corner hG h1 h2 h3 h4 h
        have d2 := dx_le j; have d4 := dy_le j
        rw [Ne, tn h3 h4]
        have cx' : px = true ∨ gx + dx j ≠ 0 ∧ gx + dx j ≠ nx := by
          cases px
          · right; simp at a cx; omega
          · exact .inl rfl
        have cy' : py = true ∨ gy + dy j ≠ 0 ∧ gy + dy j ≠ ny := by
          cases py
          · right; simp at b cy; omega
          · exact .inl rfl
        have z : ∀ s : Fin 4, s = 0 ∨ s = 1 ∨ s = 2 ∨ s = 3 := by decide
        rcases z j with rfl | rfl | rfl | rfl
        · show nbr nx ny px py gx gy 3 ≠ none
          simp only [nbr, dx, dy] at cx' ⊢
          split_ifs with q1 q2 <;> simp
          rcases cx' with c | c
          · exact q2 c
          · omega
        · show nbr nx ny px py gx gy 0 ≠ none
          simp only [nbr, dx, dy] at cy' ⊢
          split_ifs with q1 q2 <;> simp
          rcases cy' with c | c
          · exact q2 c
          · omega
        · show nbr nx ny px py gx gy 1 ≠ none
          simp only [nbr, dx, dy] at cx' ⊢
          split_ifs with q1 q2 <;> simp
          rcases cx' with c | c
          · exact q2 c
          · omega
        · show nbr nx ny px py gx gy 2 ≠ none
          simp only [nbr, dx, dy] at cy' ⊢
          split_ifs with q1 q2 <;> simp
          rcases cy' with c | c
          · exact q2 c
          · omega

end

end Verif.Per
