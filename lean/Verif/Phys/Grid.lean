import Verif.Phys.Place
import Verif.Dcel.Grid

/-!
# The mesh made from a doubly connected edge list

`Verif.Mesh` starts from a `Base`; here it is the one that `Mesh2D.__init__` makes from the tables of `Verif.Dcel`.
-/

namespace Verif.Phys
open Verif.Geom Verif.Quad Verif.Mesh Verif.Dof Verif.Fem

section
variable {K : Type} [Field K]

/-- The half-edges, twins and vertices of `Mesh2D(dcel)` (mesh.py 7026-7071) for the tables made from the vertex lists of
the faces. -/
def meshBase (pts : List (Pt K)) (fs : List (List Nat)) : Base K where
  n := fs.length
  b := fun k => (Dcel.conn (Dcel.halfEdges fs) k).1
  hd := fun k => (Dcel.conn (Dcel.halfEdges fs) k).2
  T := fun k => if Dcel.twin (Dcel.halfEdges fs) k = -1 then none else some (Dcel.twin (Dcel.halfEdges fs) k).toNat
  xy := fun k => pts.getD k ⟨0, 0⟩

theorem off_quad (fs : List (List Nat)) (h4 : ∀ fc ∈ fs, fc.length = 4) (k : Nat) (hk : k ≤ fs.length) : Dcel.off fs k = 4 * k := by
  unfold Dcel.off
  have : (fs.take k).map List.length = List.replicate k 4 := by
    rw [List.eq_replicate_iff]
    refine ⟨by simpa using hk, ?_⟩
    intro b hb
    obtain ⟨fc, hfc, rfl⟩ := List.mem_map.1 hb
    exact h4 fc (List.mem_of_mem_take hfc)
  rw [this]; simp [Nat.mul_comm]

theorem conn_quad (fs : List (List Nat)) (h4 : ∀ fc ∈ fs, fc.length = 4) (k : Nat) (fc : List Nat) (hk : fs[k]? = some fc) (i : Fin 4) :
    Dcel.conn (Dcel.halfEdges fs) (4 * k + i) = (fc.getD i 0, fc.getD ((i + 1 : Fin 4) : Nat) 0) := by
  have hlt : k < fs.length := (List.getElem?_eq_some_iff.1 hk).1
  have hl := h4 fc (List.mem_of_getElem? hk)
  have h : (Dcel.halfEdges fs)[4 * k + (i : Nat)]? = some _ :=
    (Dcel.get_iff fs _ _).2 ⟨k, i, fc, ⟨hk, by rw [hl]; exact i.2, by rw [off_quad fs h4 k hlt.le]⟩, rfl⟩
  unfold Dcel.conn
  rw [h]
  simp only [hl, Prod.mk.injEq, true_and]
  congr 1

theorem twin_cases (fs : List (List Nat)) (k : Nat) : Dcel.twin (Dcel.halfEdges fs) k = -1 ∨ ∃ j : Nat, Dcel.twin (Dcel.halfEdges fs) k = j := by
  unfold Dcel.twin
  split
  · exact .inl rfl
  · split
    · exact .inr ⟨_, rfl⟩
    · exact .inl rfl

theorem meshBase_T (pts : List (Pt K)) (fs : List (List Nat)) (k j : Nat) :
    (meshBase pts fs).T k = some j ↔ Dcel.twin (Dcel.halfEdges fs) k = j := by
  show (if _ then _ else _) = _ ↔ _
  rcases twin_cases fs k with h | ⟨j', h⟩
  · rw [h]; simp
  · rw [h]
    have : ((j' : Int) ≠ -1) := by omega
    rw [if_neg this]
    simp

theorem twin_runs (fs : List (List Nat)) (k j : Nat) (h : Dcel.twin (Dcel.halfEdges fs) k = j) :
    Dcel.Runs fs k (Dcel.conn (Dcel.halfEdges fs) k).1 (Dcel.conn (Dcel.halfEdges fs) k).2 := by
  unfold Dcel.twin at h
  split at h
  · omega
  · rename_i g hg
    refine ⟨g, hg, ?_, ?_⟩ <;> simp [Dcel.conn, hg]

theorem runs_conn (fs : List (List Nat)) (k a b : Nat) (h : Dcel.Runs fs k a b) : Dcel.conn (Dcel.halfEdges fs) k = (a, b) := by
  obtain ⟨g, hg, rfl, rfl⟩ := h
  simp [Dcel.conn, hg]

/-- What the theorems on refined meshes assume of the initial mesh holds for every mesh that is made from quadrilateral
faces that form an oriented surface. -/
theorem C25_mesh (pts : List (Pt K)) (fs : List (List Nat)) (ho : Dcel.Oriented fs) (h4 : ∀ fc ∈ fs, fc.length = 4) :
    (meshBase pts fs).WF ∧ Plain (meshBase pts fs) := by
  refine ⟨⟨?_, ?_, ?_, ?_⟩, ⟨?_, ?_⟩⟩
  · intro k j h
    rw [meshBase_T] at h ⊢
    exact ((Dcel.C25_twin fs ho k _ _ (twin_runs fs k j h)).2.1 j h).1
  · intro k j h
    rw [meshBase_T] at h
    exact ((Dcel.C25_twin fs ho k _ _ (twin_runs fs k j h)).2.1 j h).2.1
  · intro k j h
    rw [meshBase_T] at h
    obtain ⟨g, hg, _⟩ := ((Dcel.C25_twin fs ho k _ _ (twin_runs fs k j h)).1 j).1 h
    obtain ⟨f, i, fc, ⟨h1, h2, h3⟩, _⟩ := (Dcel.get_iff fs j g).1 hg
    have hlt : f < fs.length := (List.getElem?_eq_some_iff.1 h1).1
    rw [off_quad fs h4 f hlt.le] at h3
    rw [h4 fc (List.mem_of_getElem? h1)] at h2
    show j < 4 * fs.length
    omega
  · intro f hf i
    have hk : fs[f]? = some fs[f] := List.getElem?_eq_getElem hf
    show (Dcel.conn _ _).2 = (Dcel.conn _ _).1
    rw [conn_quad fs h4 f _ hk i, conn_quad fs h4 f _ hk (i + 1)]
  · intro k _
    unfold Base.per
    rcases hT : (meshBase pts fs).T k with _ | j
    · rfl
    · simp only [Bool.not_eq_false', Bool.and_eq_true, decide_eq_true_eq]
      rw [meshBase_T] at hT
      have h1 := twin_runs fs k j hT
      have h2 := ((Dcel.C25_twin fs ho k _ _ h1).1 j).1 hT
      have := runs_conn fs j _ _ h2
      show (Dcel.conn _ k).1 = (Dcel.conn _ j).2 ∧ (Dcel.conn _ k).2 = (Dcel.conn _ j).1
      rw [this]
      exact ⟨rfl, rfl⟩
  · intro f hf i j h
    have hk : fs[f]? = some fs[f] := List.getElem?_eq_getElem hf
    have hl := h4 _ (List.mem_of_getElem? hk)
    change (Dcel.conn _ _).1 = (Dcel.conn _ _).1 at h
    rw [conn_quad fs h4 f _ hk i, conn_quad fs h4 f _ hk j] at h
    have hi : (i : Nat) < fs[f].length := by rw [hl]; exact i.2
    have hj : (j : Nat) < fs[f].length := by rw [hl]; exact j.2
    simp only [List.getD_eq_getElem?_getD, List.getElem?_eq_getElem hi, List.getElem?_eq_getElem hj, Option.getD_some] at h
    exact Fin.ext ((ho.nodup _ (List.mem_of_getElem? hk)).getElem_inj_iff.1 h)

/-- The cells of the initial mesh (mesh.py 7059-7071): following `next` from the first half-edge of face `f` gives the half-edges
`4 f, ..., 4 f + 3`, then again `4 f`. -/
theorem C25_mesh_cells (fs : List (List Nat)) (h4 : ∀ fc ∈ fs, fc.length = 4) (f : Nat) (hf : f < fs.length) (i : Nat) :
    (Dcel.nxt (Dcel.halfEdges fs))^[i] (4 * f) = 4 * f + i % 4 := by
  have hk : fs[f]? = some fs[f] := List.getElem?_eq_getElem hf
  have hl := h4 _ (List.mem_of_getElem? hk)
  have := Dcel.C25_cycle fs f _ hk 0 i (by rw [hl]; omega)
  rw [off_quad fs h4 f hf.le, hl] at this
  simpa using this

/-! ### Rectangular grids -/

/-- `Mesh2D(box=[xmin, xmax, ymin, ymax], resolution=(nx, ny))` (mesh.py 5620-5652, 7026-7071). -/
def gridBase (xmin xmax ymin ymax : K) (nx ny : Nat) : Base K :=
  meshBase (Dcel.gridPoints xmin xmax ymin ymax nx ny) (Dcel.gridFaces nx ny)

theorem grid4 (nx ny : Nat) : ∀ fc ∈ Dcel.gridFaces nx ny, fc.length = 4 := by
  intro fc hfc
  unfold Dcel.gridFaces at hfc
  obtain ⟨iy, _, h⟩ := List.mem_flatMap.1 hfc
  obtain ⟨ix, _, rfl⟩ := List.mem_map.1 h
  rfl

theorem grid_len (nx ny : Nat) : (Dcel.gridFaces nx ny).length = nx * ny := by
  simp [Dcel.gridFaces, List.length_flatMap, Nat.mul_comm]

/-- The theorems on refined meshes apply to every rectangular grid. -/
theorem C24_mesh (xmin xmax ymin ymax : K) (nx ny : Nat) :
    (gridBase xmin xmax ymin ymax nx ny).WF ∧ Plain (gridBase xmin xmax ymin ymax nx ny) ∧
      (gridBase xmin xmax ymin ymax nx ny).n = nx * ny :=
  ⟨(C25_mesh _ _ (Dcel.C24_oriented nx ny) (grid4 nx ny)).1, (C25_mesh _ _ (Dcel.C24_oriented nx ny) (grid4 nx ny)).2, grid_len nx ny⟩

end

/-- Different points of the domain are at different places of the plane: cells do not overlap, and cells that touch
do so along edges that are twins. -/
def Embedded {K : Type} [Field K] [LinearOrder K] (B : Base K) : Prop :=
  ∀ f g, f < B.n → g < B.n → ∀ z w : K × K, InSq z → InSq w → phys (rootQ B f) z = phys (rootQ B g) w → SamePt B (f, z) (g, w)

section
variable {K : Type} [Field K] [LinearOrder K] [IsStrictOrderedRing K]

theorem grid_phys (xmin xmax ymin ymax : K) (nx ny ix iy : Nat) (hx : ix < nx) (hy : iy < ny) (z : K × K) :
    phys (rootQ (gridBase xmin xmax ymin ymax nx ny) (iy * nx + ix)) z =
      ⟨xmin + (ix + z.1) * ((xmax - xmin) / nx), ymin + (iy + z.2) * ((ymax - ymin) / ny)⟩ := by
  have hg := Dcel.grid_get (fun ix iy =>
    [Dcel.gidx nx ix iy, Dcel.gidx nx (ix + 1) iy, Dcel.gidx nx (ix + 1) (iy + 1), Dcel.gidx nx ix (iy + 1)]) nx ny ix iy hx hy
  have hc : ∀ i : Fin 4, corner (rootQ (gridBase xmin xmax ymin ymax nx ny) (iy * nx + ix)) i =
      (Dcel.gridPoints xmin xmax ymin ymax nx ny).getD
        ([Dcel.gidx nx ix iy, Dcel.gidx nx (ix + 1) iy, Dcel.gidx nx (ix + 1) (iy + 1), Dcel.gidx nx ix (iy + 1)].getD i 0) ⟨0, 0⟩ := by
    intro i
    rw [corner_root]
    show (Dcel.gridPoints xmin xmax ymin ymax nx ny).getD (Dcel.conn _ _).1 _ = _
    rw [conn_quad _ (grid4 nx ny) _ _ hg i]
  have hp : ∀ i j, i ≤ nx → j ≤ ny → (Dcel.gridPoints xmin xmax ymin ymax nx ny).getD (Dcel.gidx nx i j) ⟨0, 0⟩ =
      ⟨xmin + i * ((xmax - xmin) / nx), ymin + j * ((ymax - ymin) / ny)⟩ := by
    intro i j hi hj
    rw [List.getD_eq_getElem?_getD, Dcel.point_get xmin xmax ymin ymax nx ny i j (by omega) (by omega) hi hj]
    simp only [Option.getD_some, Dcel.tick, Pt.mk.injEq]
    constructor <;> ring
  have h0 := hc 0
  have h1 := hc 1
  have h2 := hc 2
  have h3 := hc 3
  simp only [corner, Fin.isValue, Fin.val_zero, Fin.val_one, Fin.val_two, List.getD_cons_zero, List.getD_cons_succ] at h0 h1 h2
  have h3' : (rootQ (gridBase xmin xmax ymin ymax nx ny) (iy * nx + ix)).v3 = (Dcel.gridPoints xmin xmax ymin ymax nx ny).getD
        (Dcel.gidx nx ix (iy + 1)) ⟨0, 0⟩ := h3
  rw [hp ix iy (by omega) (by omega)] at h0
  rw [hp (ix + 1) iy (by omega) (by omega)] at h1
  rw [hp (ix + 1) (iy + 1) (by omega) (by omega)] at h2
  rw [hp ix (iy + 1) (by omega) (by omega)] at h3'
  unfold phys toPhys
  rw [h0, h1, h2, h3']
  simp only [Pt.mk.injEq]
  push_cast
  constructor <;> ring

omit [LinearOrder K] [IsStrictOrderedRing K] in
/-- A half-edge of the grid and its twin. -/
theorem grid_T (xmin xmax ymin ymax : K) (nx ny k j : Nat) :
    (gridBase xmin xmax ymin ymax nx ny).T k = some j ↔ Dcel.twin (Dcel.halfEdges (Dcel.gridFaces nx ny)) k = j := meshBase_T _ _ _ _

theorem tick_near {i j : Nat} {a b : K} (ha0 : 0 ≤ a) (ha1 : a ≤ 1) (hb0 : 0 ≤ b) (hb1 : b ≤ 1) (h : (i : K) + a = j + b) :
    (i = j ∧ a = b) ∨ (j = i + 1 ∧ a = 1 ∧ b = 0) ∨ (i = j + 1 ∧ a = 0 ∧ b = 1) := by
  rcases Nat.lt_trichotomy i j with hij | hij | hij
  · obtain ⟨d, rfl⟩ := Nat.exists_eq_add_of_lt hij
    push_cast at h
    have hd : (0 : K) ≤ (d : K) := Nat.cast_nonneg d
    have hd0 : (d : K) = 0 := by linarith
    have hd' : d = 0 := by exact_mod_cast hd0
    subst hd'
    right; left
    refine ⟨rfl, ?_, ?_⟩ <;> push_cast at h <;> linarith
  · left
    subst hij
    exact ⟨rfl, by linarith⟩
  · obtain ⟨d, rfl⟩ := Nat.exists_eq_add_of_lt hij
    push_cast at h
    have hd : (0 : K) ≤ (d : K) := Nat.cast_nonneg d
    have hd0 : (d : K) = 0 := by linarith
    have hd' : d = 0 := by exact_mod_cast hd0
    subst hd'
    right; right
    refine ⟨rfl, ?_, ?_⟩ <;> push_cast at h <;> linarith

/-- Rectangular grids are embedded in the plane. -/
theorem C24_embedded (xmin xmax ymin ymax : K) (hx : xmin < xmax) (hy : ymin < ymax) (nx ny : Nat) :
    Embedded (gridBase xmin xmax ymin ymax nx ny) := by
  have hn : (gridBase xmin xmax ymin ymax nx ny).n = nx * ny := grid_len nx ny
  have hlt : ∀ ix iy, ix < nx → iy < ny → iy * nx + ix < (gridBase xmin xmax ymin ymax nx ny).n := by
    intro ix iy h1 h2
    rw [hn]
    calc iy * nx + ix < iy * nx + nx := by omega
      _ = (iy + 1) * nx := by ring
      _ ≤ ny * nx := Nat.mul_le_mul_right _ h2
      _ = nx * ny := Nat.mul_comm _ _
  -- one step to the right, one step up
  have hR : ∀ ix iy (t : K), ix + 1 < nx → iy < ny → 0 ≤ t → t ≤ 1 → SamePt (gridBase xmin xmax ymin ymax nx ny)
      (iy * nx + ix, ((1 : K), t)) (iy * nx + (ix + 1), ((0 : K), t)) := by
    intro ix iy t h1 h2 t0 t1
    refine .rel _ _ ⟨1, 3, t, t0, t1, hlt ix iy (by omega) h2, hlt (ix + 1) iy h1 h2, ?_, rfl, ?_⟩
    · rw [grid_T]
      have := (Dcel.C24_twins nx ny ix iy (by omega) h2).2.1
      simp only [h1, if_true] at this
      exact this
    · show ((0 : K), t) = ((0 : K), 1 - (1 - t))
      rw [sub_sub_cancel]
  have hU : ∀ ix iy (t : K), ix < nx → iy + 1 < ny → 0 ≤ t → t ≤ 1 → SamePt (gridBase xmin xmax ymin ymax nx ny)
      (iy * nx + ix, (t, (1 : K))) ((iy + 1) * nx + ix, (t, (0 : K))) := by
    intro ix iy t h1 h2 t0 t1
    refine .rel _ _ ⟨2, 0, 1 - t, by linarith, by linarith, hlt ix iy h1 (by omega), hlt ix (iy + 1) h1 h2, ?_, ?_, ?_⟩
    · rw [grid_T]
      have := (Dcel.C24_twins nx ny ix iy h1 (by omega)).2.2.1
      simp only [h2, if_true] at this
      exact this
    · show (t, (1 : K)) = (1 - (1 - t), (1 : K))
      rw [sub_sub_cancel]
    · show (t, (0 : K)) = (1 - (1 - t), (0 : K))
      rw [sub_sub_cancel]
  -- vertical moves
  have hV : ∀ ix iy jy (a b t : K), ix < nx → iy < ny → jy < ny → 0 ≤ t → t ≤ 1 →
      ((iy = jy ∧ a = b) ∨ (jy = iy + 1 ∧ a = 1 ∧ b = 0) ∨ (iy = jy + 1 ∧ a = 0 ∧ b = 1)) →
      SamePt (gridBase xmin xmax ymin ymax nx ny) (iy * nx + ix, (t, a)) (jy * nx + ix, (t, b)) := by
    intro ix iy jy a b t h1 h2 h3 t0 t1 h
    rcases h with ⟨rfl, rfl⟩ | ⟨rfl, rfl, rfl⟩ | ⟨rfl, rfl, rfl⟩
    · exact .refl _
    · exact hU ix iy t h1 h3 t0 t1
    · exact .symm _ _ (hU ix jy t h1 h2 t0 t1)
  intro f g hf hg z w hz hw h
  rw [hn] at hf hg
  have hnx : 0 < nx := by
    rcases Nat.eq_zero_or_pos nx with h | h
    · subst h; omega
    · exact h
  have hny : 0 < ny := by
    rcases Nat.eq_zero_or_pos ny with h | h
    · subst h; omega
    · exact h
  have hsplit : ∀ f, f < nx * ny → ∃ ix iy, ix < nx ∧ iy < ny ∧ f = iy * nx + ix := fun f hf =>
    ⟨f % nx, f / nx, Nat.mod_lt _ hnx, by rw [Nat.div_lt_iff_lt_mul hnx, Nat.mul_comm]; exact hf, by
      rw [Nat.mul_comm]; exact (Nat.div_add_mod f nx).symm⟩
  obtain ⟨ix, iy, f1, f2, rfl⟩ := hsplit f hf
  obtain ⟨jx, jy, g1, g2, rfl⟩ := hsplit g hg
  rw [grid_phys _ _ _ _ _ _ _ _ f1 f2, grid_phys _ _ _ _ _ _ _ _ g1 g2] at h
  simp only [Pt.mk.injEq] at h
  have hwx : (xmax - xmin) / (nx : K) ≠ 0 := by
    have : (0 : K) < nx := by exact_mod_cast hnx
    exact (div_pos (by linarith) this).ne'
  have hwy : (ymax - ymin) / (ny : K) ≠ 0 := by
    have : (0 : K) < ny := by exact_mod_cast hny
    exact (div_pos (by linarith) this).ne'
  have ex : (ix : K) + z.1 = jx + w.1 := mul_right_cancel₀ hwx (add_left_cancel h.1)
  have ey : (iy : K) + z.2 = jy + w.2 := mul_right_cancel₀ hwy (add_left_cancel h.2)
  obtain ⟨z1, z2⟩ := z
  obtain ⟨w1, w2⟩ := w
  obtain ⟨a1, a2, a3, a4⟩ := hz
  obtain ⟨b1, b2, b3, b4⟩ := hw
  simp only at a1 a2 a3 a4 b1 b2 b3 b4 ex ey
  have cy := tick_near a3 a4 b3 b4 ey
  refine .trans _ (jy * nx + ix, (z1, w2)) _ (hV ix iy jy z2 w2 z1 f1 f2 g2 a1 a2 cy) ?_
  rcases tick_near a1 a2 b1 b2 ex with ⟨rfl, rfl⟩ | ⟨rfl, rfl, rfl⟩ | ⟨rfl, rfl, rfl⟩
  · exact .refl _
  · exact hR ix jy w2 g1 g2 b3 b4
  · exact .symm _ _ (hR jx jy w2 f1 g2 b3 b4)

end
end Verif.Phys
