import Verif.Per.MakePer
import Verif.Per.Props
import Verif.Dcel.Segments

/-!
# `make_periodic` and dofs on rectangular grids: C51, C80
-/

namespace Verif.Per
open Verif.Fem Verif.Mesh Verif.Dof Verif.Geom Verif.Quad

/-! ### The boundary of a grid -/

section
variable {nx ny : Nat}

/-- Side `s` of the box, counted anticlockwise: cell `t`. -/
def sideCell (nx ny : Nat) (s : Fin 4) (t : Nat) : Nat × Nat :=
  match s with
  | 0 => (t, 0)
  | 1 => (nx - 1, t)
  | 2 => (nx - 1 - t, ny - 1)
  | 3 => (0, ny - 1 - t)

def sideLen (nx ny : Nat) (s : Fin 4) : Nat :=
  match s with
  | 0 => nx
  | 1 => ny
  | 2 => nx
  | 3 => ny

/-- Half-edge `t` of side `s` of the box. -/
def be (nx ny : Nat) (s : Fin 4) (t : Nat) : Nat := 4 * cI nx (sideCell nx ny s t).1 (sideCell nx ny s t).2 + s

/-- Its base. -/
def sidePt (nx ny : Nat) (s : Fin 4) (t : Nat) : Nat × Nat :=
  match s with
  | 0 => (t, 0)
  | 1 => (nx, t)
  | 2 => (nx - t, ny)
  | 3 => (0, ny - t)

theorem sideCell_lt {s : Fin 4} {t : Nat} (hnx : 0 < nx) (hny : 0 < ny) (ht : t < sideLen nx ny s) :
    (sideCell nx ny s t).1 < nx ∧ (sideCell nx ny s t).2 < ny := by
  fin_cases s <;> simp only [sideCell, sideLen] at ht ⊢ <;> omega

theorem be_conn {s : Fin 4} {t : Nat} (hnx : 0 < nx) (hny : 0 < ny) (ht : t < sideLen nx ny s) :
    gConn nx ny (be nx ny s t) = (Dcel.gidx nx (sidePt nx ny s t).1 (sidePt nx ny s t).2,
      Dcel.gidx nx (sidePt nx ny s (t + 1)).1 (sidePt nx ny s (t + 1)).2) := by
  obtain ⟨h1, h2⟩ := sideCell_lt hnx hny ht
  unfold be
  rw [gConn, grid_conn h1 h2 s]
  fin_cases s <;> simp only [sideCell, sideLen, sidePt] at ht h1 h2 ⊢
  · rfl
  · show (Dcel.gidx nx (nx - 1 + 1) (t + 0), Dcel.gidx nx (nx - 1 + 1) (t + 1)) = _
    rw [show nx - 1 + 1 = nx by omega]; rfl
  · show (Dcel.gidx nx (nx - 1 - t + 1) (ny - 1 + 1), Dcel.gidx nx (nx - 1 - t + 0) (ny - 1 + 1)) = _
    rw [show nx - 1 - t + 1 = nx - t by omega, show ny - 1 + 1 = ny by omega, show nx - 1 - t + 0 = nx - (t + 1) by omega]
  · show (Dcel.gidx nx (0 + 0) (ny - 1 - t + 1), Dcel.gidx nx (0 + 0) (ny - 1 - t + 0)) = _
    rw [show ny - 1 - t + 1 = ny - t by omega, show ny - 1 - t + 0 = ny - (t + 1) by omega]

theorem be_next {s s' : Fin 4} {t t' : Nat} (hnx : 0 < nx) (hny : 0 < ny) (ht : t < sideLen nx ny s) (ht' : t' < sideLen nx ny s')
    (h : (gConn nx ny (be nx ny s t)).2 = (gConn nx ny (be nx ny s' t')).1) :
    (t + 1 < sideLen nx ny s ∧ s' = s ∧ t' = t + 1) ∨ (t + 1 = sideLen nx ny s ∧ s' = s + 1 ∧ t' = 0) := by
  rw [be_conn hnx hny ht, be_conn hnx hny ht'] at h
  have hX : ∀ (s : Fin 4) t, t ≤ sideLen nx ny s → (sidePt nx ny s t).1 ≤ nx := by
    intro s t h
    fin_cases s <;> simp only [sidePt, sideLen] at h ⊢ <;> omega
  obtain ⟨h1, h2⟩ := Dcel.gidx_inj (hX s (t + 1) (by omega)) (hX s' t' (by omega)) h
  clear h hX
  have e00 : (0 : Fin 4) + 1 = 1 := by decide
  have e11 : (1 : Fin 4) + 1 = 2 := by decide
  have e22 : (2 : Fin 4) + 1 = 3 := by decide
  have e33 : (3 : Fin 4) + 1 = 0 := by decide
  fin_cases s <;> fin_cases s' <;> simp [sidePt, sideLen, e00, e11, e22, e33] at ht ht' h1 h2 ⊢ <;> omega

theorem bnd_be {px py : Bool} {tw : Nat → Int} (htw : TwOk nx ny px py tw) {i : Nat} (hi : i < 4 * (nx * ny)) (hb : tw i = -1) :
    ∃ s t, t < sideLen nx ny s ∧ i = be nx ny s t ∧ (s = 0 ∨ s = 2 ∨ px = false) ∧ (s = 1 ∨ s = 3 ∨ py = false) := by
  obtain ⟨ix, hx, iy, hy, s, rfl, hq⟩ := (bnd_mem htw (List.Perm.refl _) i).1
    (by simp only [Dcel.bndHes, List.mem_filter, List.mem_range, decide_eq_true_eq]; exact ⟨hi, hb⟩)
  fin_cases s <;> simp only [nbr] at hq
  · split_ifs at hq with h1 h2
    subst h1
    exact ⟨0, ix, hx, rfl, by simp, by simpa using h2⟩
  · split_ifs at hq with h1 h2
    refine ⟨1, iy, hy, ?_, by simpa using h2, by simp⟩
    simp only [be, sideCell]
    rw [show nx - 1 = ix by omega]
    rfl
  · split_ifs at hq with h1 h2
    refine ⟨2, nx - 1 - ix, by simp only [sideLen]; omega, ?_, by simp, by simpa using h2⟩
    simp only [be, sideCell]
    rw [show nx - 1 - (nx - 1 - ix) = ix by omega, show ny - 1 = iy by omega]
    rfl
  · split_ifs at hq with h1 h2
    subst h1
    refine ⟨3, ny - 1 - iy, by simp only [sideLen]; omega, ?_, by simpa using h2, by simp⟩
    simp only [be, sideCell]
    rw [show ny - 1 - (ny - 1 - iy) = iy by omega]
    rfl

/-- No proper part of the boundary of a grid closes up, also if the grid is periodic in one direction. -/
theorem grid_loop {px py : Bool} {tw : Nat → Int} (hnx : 0 < nx) (hny : 0 < ny) (htw : TwOk nx ny px py tw)
    (g : List Nat) (hg : g ≠ []) (hs : ∀ i ∈ g, i < 4 * (nx * ny) ∧ tw i = -1)
    (hc : ∀ i ∈ g, ∃ j ∈ g, (gConn nx ny i).2 = (gConn nx ny j).1) : ∀ i < 4 * (nx * ny), tw i = -1 → i ∈ g := by
  have st : ∀ s t, t < sideLen nx ny s → be nx ny s t ∈ g →
      (t + 1 < sideLen nx ny s ∧ be nx ny s (t + 1) ∈ g) ∨ (t + 1 = sideLen nx ny s ∧ be nx ny (s + 1) 0 ∈ g) := by
    intro s t ht hm
    obtain ⟨j, hj, he⟩ := hc _ hm
    obtain ⟨s', t', ht', rfl, _⟩ := bnd_be htw (hs j hj).1 (hs j hj).2
    rcases be_next hnx hny ht ht' he with ⟨h1, rfl, rfl⟩ | ⟨h1, rfl, rfl⟩
    · exact .inl ⟨h1, hj⟩
    · exact .inr ⟨h1, hj⟩
  have go : ∀ s t, t < sideLen nx ny s → be nx ny s t ∈ g → ∀ d, t + d < sideLen nx ny s → be nx ny s (t + d) ∈ g := by
    intro s t ht hm d
    induction d with
    | zero => intro _; exact hm
    | succ d ih =>
      intro hd
      have := ih (by omega)
      rcases st s (t + d) (by omega) this with ⟨_, h⟩ | ⟨h, _⟩
      · exact h
      · omega
  have nxt : ∀ s t, t < sideLen nx ny s → be nx ny s t ∈ g → be nx ny (s + 1) 0 ∈ g := by
    intro s t ht hm
    have := go s t ht hm (sideLen nx ny s - 1 - t) (by omega)
    rcases st s _ (by omega) this with ⟨h, _⟩ | ⟨_, h⟩
    · omega
    · exact h
  have pos : ∀ s, 0 < sideLen nx ny s := by
    intro s
    fin_cases s <;> simp only [sideLen] <;> omega
  obtain ⟨a, ha⟩ := List.exists_mem_of_ne_nil _ hg
  obtain ⟨s, t, ht, rfl, _⟩ := bnd_be htw (hs a ha).1 (hs a ha).2
  have n1 := nxt s t ht ha
  have n2 := nxt _ 0 (pos _) n1
  have n3 := nxt _ 0 (pos _) n2
  have n4 := nxt _ 0 (pos _) n3
  have all : ∀ s' : Fin 4, be nx ny s' 0 ∈ g := by
    intro s'
    have : ∀ s s' : Fin 4, s' = s + 1 ∨ s' = s + 1 + 1 ∨ s' = s + 1 + 1 + 1 ∨ s' = s + 1 + 1 + 1 + 1 := by decide
    rcases this s s' with h | h | h | h <;> rw [h] <;> assumption
  intro i hi hb
  obtain ⟨s', t', ht', rfl, _⟩ := bnd_be htw hi hb
  have := go s' 0 (pos s') (all s') t' (by omega)
  rwa [Nat.zero_add] at this

theorem grid_he_len : (Dcel.halfEdges (Dcel.gridFaces nx ny)).length = 4 * (nx * ny) := by
  rw [(Dcel.C25_sides (Dcel.gridFaces nx ny)).1]
  have : ∀ fs : List (List Nat), (∀ fc ∈ fs, fc.length = 4) → (fs.map List.length).sum = 4 * fs.length := by
    intro fs
    induction fs with
    | nil => intro _; rfl
    | cons a fs ih =>
      intro h
      rw [List.map_cons, List.sum_cons, ih (fun fc hfc => h fc (by simp [hfc])), h a (by simp), List.length_cons]
      ring
  rw [this _ (Phys.grid4 nx ny), Phys.grid_len]

/-- The boundary of a grid is found completely. -/
theorem grid_bnd {px py : Bool} {tw : Nat → Int} (hnx : 0 < nx) (hny : 0 < ny) (htw : TwOk nx ny px py tw) (hb : px = false ∨ py = false) :
    ∃ segs, Dcel.boundaryHalfEdges (Dcel.halfEdges (Dcel.gridFaces nx ny)) tw = .ok segs ∧
      segs.flatten.Perm (Dcel.bndHes (4 * (nx * ny)) tw) := by
  have hne : Dcel.bndHes (Dcel.halfEdges (Dcel.gridFaces nx ny)).length tw ≠ [] := by
    rw [grid_he_len]
    have : ∃ i, i ∈ Dcel.bndHes (4 * (nx * ny)) tw := by
      rcases hb with rfl | rfl
      · exact ⟨_, (bnd_mem htw (List.Perm.refl _) _).2 ⟨0, hnx, 0, hny, 3, rfl, by simp [nbr]⟩⟩
      · exact ⟨_, (bnd_mem htw (List.Perm.refl _) _).2 ⟨0, hnx, 0, hny, 0, rfl, by simp [nbr]⟩⟩
    obtain ⟨i, hi⟩ := this
    exact List.ne_nil_of_mem hi
  have hok : ∃ segs, Dcel.boundaryHalfEdges (Dcel.halfEdges (Dcel.gridFaces nx ny)) tw = .ok segs := by
    unfold Dcel.boundaryHalfEdges
    simp only
    rw [if_neg hne]
    exact ⟨_, rfl⟩
  obtain ⟨segs, h⟩ := hok
  refine ⟨segs, h, ?_⟩
  have := (Dcel.C50_complete _ _ _ h (by
    rw [grid_he_len]
    exact grid_loop hnx hny htw)).2.2
  rwa [grid_he_len] at this

/-- C50 on grids: for a rectangular grid `get_boundary_half_edges` returns every half-edge without twin exactly once. -/
theorem C50_grid (hnx : 0 < nx) (hny : 0 < ny) :
    ∃ segs, Dcel.boundaryHalfEdges (Dcel.halfEdges (Dcel.gridFaces nx ny)) (Dcel.twin (Dcel.halfEdges (Dcel.gridFaces nx ny))) = .ok segs ∧
      segs.flatten.Nodup ∧ ∀ i, i ∈ segs.flatten ↔ i < (Dcel.halfEdges (Dcel.gridFaces nx ny)).length ∧
        Dcel.twin (Dcel.halfEdges (Dcel.gridFaces nx ny)) i = -1 := by
  obtain ⟨segs, h, hp⟩ := grid_bnd hnx hny grid_tw (.inl rfl)
  refine ⟨segs, h, bnd_nodup hp, fun i => ?_⟩
  rw [hp.mem_iff, grid_he_len]
  simp [Dcel.bndHes]

end

section
variable {K : Type} [Field K] [CharZero K] {nx ny : Nat}

/-- C51 on grids: `make_periodic` succeeds on every rectangular grid, for every set of directions, and in the result the
half-edge on side `s` (bottom, right, top, left) of the cell in column `ix`, row `iy` has as twin the opposite side of the
neighbouring cell, counted modulo the number of cells in the directions that are periodic, and no twin if there is no such cell;
the comparison of coordinates only has to tell the grid lines apart. -/
theorem C51_grid (close : K → K → Bool) (px py : Bool) (xmin xmax ymin ymax : K) (hnx : 0 < nx) (hny : 0 < ny)
    (hcx : Sees close xmin xmax nx) (hcy : Sees close ymin ymax ny) :
    ∃ tw, makePeriodic close px py xmin xmax ymin ymax (Dcel.gridPoints xmin xmax ymin ymax nx ny)
        (Dcel.halfEdges (Dcel.gridFaces nx ny)) (Dcel.twin (Dcel.halfEdges (Dcel.gridFaces nx ny))) = .ok tw ∧
      TwOk nx ny px py tw := by
  have h0 : TwOk nx ny false false (Dcel.twin (Dcel.halfEdges (Dcel.gridFaces nx ny))) := grid_tw
  have hx : ∃ tw1, (if px then (Dcel.boundaryHalfEdges (Dcel.halfEdges (Dcel.gridFaces nx ny))
      (Dcel.twin (Dcel.halfEdges (Dcel.gridFaces nx ny)))).bind (fun segs =>
      makePer close xmin xmax (·.x) (·.y) (Dcel.conn (Dcel.halfEdges (Dcel.gridFaces nx ny)))
        (Dcel.gridPoints xmin xmax ymin ymax nx ny) segs.flatten (Dcel.twin (Dcel.halfEdges (Dcel.gridFaces nx ny))))
    else .ok (Dcel.twin (Dcel.halfEdges (Dcel.gridFaces nx ny)))) = .ok tw1 ∧ TwOk nx ny px false tw1 := by
    cases px with
    | false => exact ⟨_, rfl, h0⟩
    | true =>
      obtain ⟨segs, h1, h2⟩ := grid_bnd hnx hny h0 (.inl rfl)
      obtain ⟨tw1, h3, h4⟩ := grid_make_x xmin xmax ymin ymax close hnx hny hcx hcy h0 h2
      refine ⟨tw1, ?_, h4⟩
      rw [if_pos rfl, h1]
      exact h3
  obtain ⟨tw1, h1, h2⟩ := hx
  unfold makePeriodic
  rw [h1]
  cases py with
  | false => exact ⟨tw1, rfl, h2⟩
  | true =>
    obtain ⟨segs, h3, h4⟩ := grid_bnd hnx hny h2 (.inr rfl)
    obtain ⟨tw2, h5, h6⟩ := grid_make_y xmin xmax ymin ymax close hnx hny hcx hcy h2 h4
    refine ⟨tw2, ?_, h6⟩
    simp only [Except.bind, if_true]
    rw [h3]
    exact h5

/-- Equality tells the grid lines apart. -/
theorem sees_eq [DecidableEq K] {a b : K} (hab : a ≠ b) {n : Nat} (hn : 0 < n) : Sees (fun x y : K => decide (x = y)) a b n := by
  intro i j hi hj
  rw [decide_eq_true_eq]
  constructor
  · intro h
    have hn' : (n : K) ≠ 0 := by exact_mod_cast hn.ne'
    have hba : b - a ≠ 0 := sub_ne_zero.2 hab.symm
    unfold Dcel.tick at h
    have h1 := add_left_cancel h
    rw [div_left_inj' hn'] at h1
    exact_mod_cast mul_right_cancel₀ hba h1
  · rintro rfl; rfl

/-- C80 on grids: the mesh of a rectangular grid, made periodic in the directions `px`, `py`, satisfies what the theorems on periodic
meshes assume, if there are at least two cells in each periodic direction. -/
theorem C80_grid (close : K → K → Bool) (px py : Bool) (xmin xmax ymin ymax : K) (hnx : 0 < nx) (hny : 0 < ny)
    (hcx : Sees close xmin xmax nx) (hcy : Sees close ymin ymax ny) (hx2 : px = true → 2 ≤ nx) (hy2 : py = true → 2 ≤ ny) :
    ∃ tw, makePeriodic close px py xmin xmax ymin ymax (Dcel.gridPoints xmin xmax ymin ymax nx ny)
        (Dcel.halfEdges (Dcel.gridFaces nx ny)) (Dcel.twin (Dcel.halfEdges (Dcel.gridFaces nx ny))) = .ok tw ∧
      (perBase xmin xmax ymin ymax nx ny tw).WF ∧ PerOk (perBase xmin xmax ymin ymax nx ny tw) := by
  obtain ⟨tw, h1, h2⟩ := C51_grid close px py xmin xmax ymin ymax hnx hny hcx hcy
  have hG := perBase_grid xmin xmax ymin ymax h2
  exact ⟨tw, h1, hG.wf, grid_perOk hG hx2 hy2⟩

end

end Verif.Per
