import Verif.Bnd.Props
import Verif.Phys.Grid

/-! # C64: rectangular grids have one boundary curve -/

namespace Verif.Bnd
open Verif.Mesh Verif.Dof Verif.Phys

/-- The grid point number `t` on the way around the grid. -/
def ringP (nx ny t : Nat) : Nat × Nat :=
  if t < nx then (t, 0) else if t < nx + ny then (nx, t - nx) else if t < 2 * nx + ny then (2 * nx + ny - t, ny)
  else (0, 2 * nx + 2 * ny - t)

/-- The half-edge that leaves it: cell and side. -/
def ringC (nx ny t : Nat) : Nat × Nat × Nat :=
  if t < nx then (t, 0, 0) else if t < nx + ny then (nx - 1, t - nx, 1) else if t < 2 * nx + ny then (2 * nx + ny - 1 - t, ny - 1, 2)
  else (0, 2 * nx + 2 * ny - 1 - t, 3)

def ringK (nx ny t : Nat) : Nat := 4 * ((ringC nx ny t).2.1 * nx + (ringC nx ny t).1) + (ringC nx ny t).2.2

theorem path_range {V α : Type} (C : α → V × V) (f : Nat → α) : ∀ n i : Nat, (∀ t, i ≤ t → t + 1 < i + n → (C (f t)).2 = (C (f (t + 1))).1) →
    Path C ((List.range' i n).map f) := by
  intro n
  induction n with
  | zero => intro i _; trivial
  | succ n ih =>
    intro i h
    rw [List.range'_succ, List.map_cons]
    have := ih (i + 1) (fun t h1 h2 => h t (by omega) (by omega))
    cases n with
    | zero => trivial
    | succ n =>
      rw [List.range'_succ, List.map_cons] at this ⊢
      exact ⟨h i le_rfl (by omega), this⟩

section
variable {K : Type} [Field K]

theorem ringC_lt {nx ny t : Nat} (hx : 0 < nx) (hy : 0 < ny) (ht : t < 2 * (nx + ny)) :
    (ringC nx ny t).1 < nx ∧ (ringC nx ny t).2.1 < ny ∧ (ringC nx ny t).2.2 < 4 := by
  unfold ringC
  split_ifs <;> refine ⟨?_, ?_, ?_⟩ <;> simp only <;> omega

theorem ring_conn {nx ny t : Nat} (hx : 0 < nx) (hy : 0 < ny) (ht : t < 2 * (nx + ny)) :
    Dcel.conn (Dcel.halfEdges (Dcel.gridFaces nx ny)) (ringK nx ny t) =
      (Dcel.gidx nx (ringP nx ny t).1 (ringP nx ny t).2, Dcel.gidx nx (ringP nx ny (t + 1)).1 (ringP nx ny (t + 1)).2) := by
  obtain ⟨h1, h2, h3⟩ := ringC_lt hx hy ht
  have := runs_conn _ _ _ _ ((Dcel.grid_runs nx ny (ringK nx ny t) _ _).2 ⟨_, _, _, h1, h2, h3, rfl, rfl, rfl⟩)
  rw [this, Dcel.corner_eq _ _ _ _ h3, Dcel.corner_eq _ _ _ _ (Nat.mod_lt _ (by norm_num))]
  clear this h1 h2 h3
  have key : (ringC nx ny t).1 + (if (ringC nx ny t).2.2 = 1 ∨ (ringC nx ny t).2.2 = 2 then 1 else 0) = (ringP nx ny t).1 ∧
      (ringC nx ny t).2.1 + (if (ringC nx ny t).2.2 = 2 ∨ (ringC nx ny t).2.2 = 3 then 1 else 0) = (ringP nx ny t).2 ∧
      (ringC nx ny t).1 + (if ((ringC nx ny t).2.2 + 1) % 4 = 1 ∨ ((ringC nx ny t).2.2 + 1) % 4 = 2 then 1 else 0) = (ringP nx ny (t + 1)).1 ∧
      (ringC nx ny t).2.1 + (if ((ringC nx ny t).2.2 + 1) % 4 = 2 ∨ ((ringC nx ny t).2.2 + 1) % 4 = 3 then 1 else 0) =
        (ringP nx ny (t + 1)).2 := by
    unfold ringC ringP
    rcases Nat.lt_or_ge t nx with h | h
    · simp only [h, if_true]
      by_cases h' : t + 1 < nx
      · simp [h']
      · simp only [h', if_false, if_pos (show t + 1 < nx + ny by omega)]
        simp
        omega
    · rcases Nat.lt_or_ge t (nx + ny) with h2 | h2
      · simp only [if_neg (show ¬ t < nx by omega), if_neg (show ¬ t + 1 < nx by omega), h2, if_true]
        by_cases h' : t + 1 < nx + ny
        · simp [h']
          omega
        · simp only [h', if_false, if_pos (show t + 1 < 2 * nx + ny by omega)]
          simp
          omega
      · rcases Nat.lt_or_ge t (2 * nx + ny) with h3 | h3
        · simp only [if_neg (show ¬ t < nx by omega), if_neg (show ¬ t + 1 < nx by omega), if_neg (show ¬ t < nx + ny by omega),
            if_neg (show ¬ t + 1 < nx + ny by omega), h3, if_true]
          by_cases h' : t + 1 < 2 * nx + ny
          · simp [h']
            omega
          · simp only [h', if_false]
            simp
            omega
        · simp only [if_neg (show ¬ t < nx by omega), if_neg (show ¬ t + 1 < nx by omega), if_neg (show ¬ t < nx + ny by omega),
            if_neg (show ¬ t + 1 < nx + ny by omega), if_neg (show ¬ t < 2 * nx + ny by omega),
            if_neg (show ¬ t + 1 < 2 * nx + ny by omega)]
          simp
          omega
  obtain ⟨k1, k2, k3, k4⟩ := key
  rw [k1, k2, k3, k4]

theorem ring_inj {nx ny t u : Nat} (ht : t < 2 * (nx + ny)) (hu : u < 2 * (nx + ny)) (h : ringP nx ny t = ringP nx ny u) (hy : 0 < ny) (hx : 0 < nx) : t = u := by
  unfold ringP at h
  split_ifs at h <;> simp only [Prod.mk.injEq] at h <;> omega

theorem ringP_le (nx ny t : Nat) : (ringP nx ny t).1 ≤ nx := by
  unfold ringP
  split_ifs <;> simp only <;> omega

theorem grid_T_none (xmin xmax ymin ymax : K) (nx ny ix iy s : Nat) (hx : ix < nx) (hy : iy < ny) (hs : s < 4) :
    (gridBase xmin xmax ymin ymax nx ny).T (4 * (iy * nx + ix) + s) = none ↔
      (s = 0 ∧ iy = 0) ∨ (s = 1 ∧ ix + 1 = nx) ∨ (s = 2 ∧ iy + 1 = ny) ∨ (s = 3 ∧ ix = 0) := by
  have ht := Dcel.C24_twins nx ny ix iy hx hy
  simp only at ht
  obtain ⟨t0, t1, t2, t3⟩ := ht
  show (if _ then _ else _) = _ ↔ _
  have h4 : s = 0 ∨ s = 1 ∨ s = 2 ∨ s = 3 := by omega
  rcases h4 with rfl | rfl | rfl | rfl
  · rw [t0]
    by_cases h : 0 < iy
    · rw [if_pos h, if_neg (by omega)]; simp; omega
    · rw [if_neg h]; simp; omega
  · rw [t1]
    by_cases h : ix + 1 < nx
    · rw [if_pos h, if_neg (by omega)]; simp; omega
    · rw [if_neg h]; simp; omega
  · rw [t2]
    by_cases h : iy + 1 < ny
    · rw [if_pos h, if_neg (by omega)]; simp; omega
    · rw [if_neg h]; simp; omega
  · rw [t3]
    by_cases h : 0 < ix
    · rw [if_pos h, if_neg (by omega)]; simp; omega
    · rw [if_neg h]; simp; omega

/-- **C64** (grids): the boundary of a rectangular grid is one simple closed curve. -/
theorem C64_grid (xmin xmax ymin ymax : K) (nx ny : Nat) (hx : 0 < nx) (hy : 0 < ny) : OneBoundary (gridBase xmin xmax ymin ymax nx ny) := by
  have hn : (gridBase xmin xmax ymin ymax nx ny).n = nx * ny := grid_len nx ny
  have hstart : ∀ t, t < 2 * (nx + ny) → (gridBase xmin xmax ymin ymax nx ny).b (ringK nx ny t) = Dcel.gidx nx (ringP nx ny t).1 (ringP nx ny t).2 :=
    fun t ht => congrArg Prod.fst (ring_conn hx hy ht)
  have hend : ∀ t, t < 2 * (nx + ny) → (gridBase xmin xmax ymin ymax nx ny).hd (ringK nx ny t) =
      Dcel.gidx nx (ringP nx ny (t + 1)).1 (ringP nx ny (t + 1)).2 :=
    fun t ht => congrArg Prod.snd (ring_conn hx hy ht)
  have hnd : (((List.range' 0 (2 * (nx + ny))).map (ringK nx ny)).map (fun k => (gridBase xmin xmax ymin ymax nx ny).b k)).Nodup := by
    rw [List.map_map]
    refine List.Nodup.map_on ?_ List.nodup_range'
    intro t ht u hu h
    simp only [List.mem_range'_1] at ht hu
    simp only [Function.comp_apply] at h
    rw [hstart t (by omega), hstart u (by omega)] at h
    obtain ⟨e1, e2⟩ := Dcel.gidx_inj (ringP_le _ _ _) (ringP_le _ _ _) h
    exact ring_inj (by omega) (by omega) (Prod.ext e1 e2) hy hx
  refine ⟨(List.range' 0 (2 * (nx + ny))).map (ringK nx ny), ?_, ⟨?_, ?_⟩, hnd, by simp; omega⟩
  · rw [List.perm_ext_iff_of_nodup hnd.of_map (List.Nodup.filter _ List.nodup_range)]
    intro k
    rw [List.mem_filter, List.mem_range, List.mem_map, hn]
    simp only [List.mem_range'_1, decide_eq_true_eq]
    constructor
    · rintro ⟨t, ht, rfl⟩
      obtain ⟨h1, h2, h3⟩ := ringC_lt hx hy (t := t) (by omega)
      constructor
      · have : (ringC nx ny t).2.1 * nx + (ringC nx ny t).1 < nx * ny := by
          calc (ringC nx ny t).2.1 * nx + (ringC nx ny t).1 < (ringC nx ny t).2.1 * nx + nx := by omega
            _ = ((ringC nx ny t).2.1 + 1) * nx := by ring
            _ ≤ ny * nx := Nat.mul_le_mul_right _ h2
            _ = nx * ny := Nat.mul_comm _ _
        unfold ringK
        omega
      · unfold ringK
        rw [grid_T_none _ _ _ _ _ _ _ _ _ h1 h2 h3]
        clear h1 h2 h3
        unfold ringC
        split_ifs <;> simp <;> omega
    · rintro ⟨hk, hT⟩
      obtain ⟨s, hs, f, hf⟩ : ∃ s, s < 4 ∧ ∃ f, k = 4 * f + s := ⟨k % 4, by omega, k / 4, by omega⟩
      have hfl : f < nx * ny := by omega
      have hix : f % nx < nx := Nat.mod_lt _ hx
      have hiy : f / nx < ny := Nat.div_lt_of_lt_mul hfl
      have hfe : f = f / nx * nx + f % nx := by rw [Nat.mul_comm]; exact (Nat.div_add_mod f nx).symm
      generalize f % nx = ix at *
      generalize f / nx = iy at *
      subst hfe
      subst hf
      rw [grid_T_none _ _ _ _ _ _ _ _ _ hix hiy hs] at hT
      rcases hT with ⟨rfl, rfl⟩ | ⟨rfl, hT⟩ | ⟨rfl, hT⟩ | ⟨rfl, rfl⟩
      · refine ⟨ix, by omega, ?_⟩
        unfold ringK ringC
        rw [if_pos hix]
      · refine ⟨nx + iy, by omega, ?_⟩
        unfold ringK ringC
        rw [if_neg (by omega), if_pos (by omega)]
        simp only
        have : nx + iy - nx = iy := by omega
        rw [this]
        omega
      · refine ⟨2 * nx + ny - 1 - ix, by omega, ?_⟩
        unfold ringK ringC
        rw [if_neg (by omega), if_neg (by omega), if_pos (by omega)]
        simp only
        have e1 : ny - 1 = iy := by omega
        have e2 : 2 * nx + ny - 1 - (2 * nx + ny - 1 - ix) = ix := by omega
        rw [e1, e2]
      · refine ⟨2 * nx + 2 * ny - 1 - iy, by omega, ?_⟩
        unfold ringK ringC
        rw [if_neg (by omega), if_neg (by omega), if_neg (by omega)]
        simp only
        have e2 : 2 * nx + 2 * ny - 1 - (2 * nx + 2 * ny - 1 - iy) = iy := by omega
        rw [e2]
  · apply path_range
    intro t _ ht
    simp only
    rw [hend t (by omega), hstart (t + 1) (by omega)]
  · obtain ⟨m, hm⟩ : ∃ m, 2 * (nx + ny) = m + 1 := ⟨2 * (nx + ny) - 1, by omega⟩
    refine ⟨ringK nx ny 0, ringK nx ny m, ?_, ?_, ?_⟩
    · rw [hm, List.range'_succ]; rfl
    · rw [hm, List.range'_concat, List.map_append]
      simp
    · simp only
      rw [hend m (by omega), hstart 0 (by omega)]
      have : ringP nx ny (m + 1) = ringP nx ny 0 := by
        rw [← hm]
        unfold ringP
        split_ifs <;> simp <;> omega
      rw [this]

end
end Verif.Bnd
