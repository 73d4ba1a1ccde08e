import Verif.Per.Props
import Verif.Phys.Grid

/-!
# Periodic rectangular grids
-/

namespace Verif.Per
open Verif.Fem Verif.Mesh Verif.Dof Verif.Geom

/-! ### Initial pairs -/

section
set_option linter.unusedSectionVars false
variable {K : Type} [Field K] {B : Base K}

/-- The pairs after the first `k` half-edges. -/
def stage (B : Base K) (k : Nat) : Pairs := (List.range k).foldl (pairRoot B) (fun _ => [])

theorem stage_succ (k : Nat) : stage B (k + 1) = pairRoot B (stage B k) k := by
  unfold stage
  rw [List.range_succ, List.foldl_append]
  rfl

theorem setPair_lv0 {pr : Pairs} {v : VN} {x : CN × VN} (h0 : Lv0 pr) (hx : x.1.2 = []) : Lv0 (setPair pr v x) :=
  ((setPair_ok pr v x).lv0 h0 hx).1

theorem setPair_mem {pr : Pairs} {v : VN} {x : CN × VN} (h0 : Lv0 pr) (hx : x.1.2 = []) (u : VN) (y : CN × VN) :
    y ∈ setPair pr v x u ↔ y ∈ pr u ∨ u = v ∧ (y ∈ pr x.2 ∨ y = x) := ((setPair_ok pr v x).lv0 h0 hx).2 u y

theorem pairVtx_lv0 {pr : Pairs} {c d : CN} {v w : VN} (h0 : Lv0 pr) (hc : c.2 = []) (hd : d.2 = []) : Lv0 (pairVtx pr c v d w) :=
  setPair_lv0 (setPair_lv0 (setPair_lv0 (setPair_lv0 h0 hc) hd) hd) hc

theorem pairVtx_mono {pr : Pairs} {c d : CN} {v w : VN} (u : VN) (y : CN × VN) (h : y ∈ pr u) : y ∈ pairVtx pr c v d w u :=
  (pairVtx_ok pr c v d w).mono h

theorem pairVtx_merge {pr : Pairs} {c d : CN} {v w : VN} (h0 : Lv0 pr) (hc : c.2 = []) (hd : d.2 = []) (y : CN × VN)
    (h : y ∈ pr v ∨ y ∈ pr w ∨ y = (c, v) ∨ y = (d, w)) : y ∈ pairVtx pr c v d w v ∧ y ∈ pairVtx pr c v d w w := by
  have l1 := setPair_lv0 (v := v) (x := (c, v)) h0 hc
  have l2 := setPair_lv0 (v := w) (x := (d, w)) l1 hd
  have l3 := setPair_lv0 (v := v) (x := (d, w)) l2 hd
  unfold pairVtx
  have m0 := fun u => setPair_mem (v := v) (x := (c, v)) h0 hc u y
  have m1 := fun u => setPair_mem (v := w) (x := (d, w)) l1 hd u y
  have m2 := fun u => setPair_mem (v := v) (x := (d, w)) l2 hd u y
  have m3 := fun u => setPair_mem (v := w) (x := (c, v)) l3 hc u y
  simp only [m3, m2, m1, m0]
  by_cases hvw : v = w
  · subst hvw; simp; tauto
  · have hwv : w ≠ v := fun h => hvw h.symm
    simp only [hvw, hwv, true_and, false_and, or_false]
    tauto

theorem pairVtx_off {pr : Pairs} {c d : CN} {v w u : VN} (h1 : u ≠ v) (h2 : u ≠ w) : pairVtx pr c v d w u = pr u :=
  (pairVtx_ok pr c v d w).other h1 h2

theorem pairRoot_lv0 {pr : Pairs} (h0 : Lv0 pr) (k : Nat) : Lv0 (pairRoot B pr k) := by
  unfold pairRoot
  split
  · exact h0
  · split
    · exact pairVtx_lv0 (pairVtx_lv0 h0 rfl rfl) rfl rfl
    · exact h0

theorem stage_lv0 (k : Nat) : Lv0 (stage B k) := by
  induction k with
  | zero => intro v y h; cases h
  | succ k ih => rw [stage_succ]; exact pairRoot_lv0 ih k

theorem stage_mono {k k' : Nat} (h : k ≤ k') {v : VN} {y : CN × VN} (hy : y ∈ stage B k v) : y ∈ stage B k' v := by
  induction h with
  | refl => exact hy
  | step _ ih =>
    rw [stage_succ]
    unfold pairRoot
    rcases B.T _ with _ | j
    · exact ih
    · simp only
      split_ifs
      · exact pairVtx_mono _ _ (pairVtx_mono _ _ ih)
      · exact ih

/-- A periodic half-edge unites the pairs of its ends with those of the ends of its twin. -/
theorem stage_merge {k k' j : Nat} (h : k < k') (hj : B.T k = some j) (hp : B.per k = true) :
    (∀ y, (y ∈ stage B k (.root (B.b k)) ∨ y ∈ stage B k (.root (B.hd j)) ∨ y = ((k / 4, []), .root (B.b k)) ∨
        y = ((j / 4, []), .root (B.hd j))) → y ∈ stage B k' (.root (B.b k)) ∧ y ∈ stage B k' (.root (B.hd j))) ∧
    (∀ y, (y ∈ stage B k (.root (B.hd k)) ∨ y ∈ stage B k (.root (B.b j)) ∨ y = ((k / 4, []), .root (B.hd k)) ∨
        y = ((j / 4, []), .root (B.b j))) → y ∈ stage B k' (.root (B.hd k)) ∧ y ∈ stage B k' (.root (B.b j))) := by
  have key : stage B (k + 1) = pairVtx (pairVtx (stage B k) (k / 4, []) (.root (B.b k)) (j / 4, []) (.root (B.hd j)))
      (k / 4, []) (.root (B.hd k)) (j / 4, []) (.root (B.b j)) := by
    rw [stage_succ]
    unfold pairRoot
    rw [hj]
    simp only [hp, if_true]
  have l0 := stage_lv0 (B := B) k
  constructor
  · intro y hy
    obtain ⟨h1, h2⟩ := pairVtx_merge (c := (k / 4, [])) (d := (j / 4, [])) l0 rfl rfl y hy
    refine ⟨stage_mono h ?_, stage_mono h ?_⟩ <;> rw [Nat.succ_eq_add_one, key]
    · exact pairVtx_mono _ _ h1
    · exact pairVtx_mono _ _ h2
  · intro y hy
    obtain ⟨h1, h2⟩ := pairVtx_merge (c := (k / 4, [])) (d := (j / 4, []))
      (pairVtx_lv0 (c := (k / 4, [])) (d := (j / 4, [])) (v := .root (B.b k)) (w := .root (B.hd j)) l0 rfl rfl) rfl rfl y
      (hy.imp (pairVtx_mono _ _) (Or.imp_left (pairVtx_mono _ _)))
    refine ⟨stage_mono h ?_, stage_mono h ?_⟩ <;> rw [Nat.succ_eq_add_one, key]
    · exact h1
    · exact h2

theorem stage_empty {v : Nat} {k : Nat} (h : ∀ i < k, ∀ j, B.T i = some j → B.per i = true →
    v ≠ B.b i ∧ v ≠ B.hd i ∧ v ≠ B.b j ∧ v ≠ B.hd j) : stage B k (.root v) = [] := by
  induction k with
  | zero => rfl
  | succ k ih =>
    have ih' := ih (fun i hi => h i (by omega))
    rw [stage_succ]
    unfold pairRoot
    rcases hj : B.T k with _ | j
    · exact ih'
    · simp only
      split_ifs with hp
      · obtain ⟨h1, h2, h3, h4⟩ := h k (by omega) j hj hp
        rw [pairVtx_off, pairVtx_off]
        · exact ih'
        · simpa using h1
        · simpa using h4
        · simpa using h2
        · simpa using h3
      · exact ih'

theorem initPairs_stage : initPairs B = stage B (4 * B.n) := rfl

/-! ### Grids -/

/-- The cell in column `ix`, row `iy`. -/
def cI (nx ix iy : Nat) : Nat := iy * nx + ix

def dx : Fin 4 → Nat | 0 => 0 | 1 => 1 | 2 => 1 | 3 => 0
def dy : Fin 4 → Nat | 0 => 0 | 1 => 0 | 2 => 1 | 3 => 1

/-- The cell across side `s`; `px`, `py`: is the grid periodic in the direction? -/
def nbr (nx ny : Nat) (px py : Bool) (ix iy : Nat) : Fin 4 → Option (Nat × Nat)
  | 0 => if iy = 0 then (if py then some (ix, ny - 1) else none) else some (ix, iy - 1)
  | 1 => if ix + 1 = nx then (if px then some (0, iy) else none) else some (ix + 1, iy)
  | 2 => if iy + 1 = ny then (if py then some (ix, 0) else none) else some (ix, iy + 1)
  | 3 => if ix = 0 then (if px then some (nx - 1, iy) else none) else some (ix - 1, iy)

/-- A grid of `nx` times `ny` cells. -/
structure IsGrid (B : Base K) (nx ny : Nat) (px py : Bool) : Prop where
  n : B.n = nx * ny
  b : ∀ ix < nx, ∀ iy < ny, ∀ s : Fin 4, B.b (4 * cI nx ix iy + s) = Dcel.gidx nx (ix + dx s) (iy + dy s)
  hd : ∀ ix < nx, ∀ iy < ny, ∀ s : Fin 4, B.hd (4 * cI nx ix iy + s) = Dcel.gidx nx (ix + dx (s + 1)) (iy + dy (s + 1))
  T : ∀ ix < nx, ∀ iy < ny, ∀ s : Fin 4, B.T (4 * cI nx ix iy + s) =
    (nbr nx ny px py ix iy s).map (fun q => 4 * cI nx q.1 q.2 + ((s + 2 : Fin 4) : Nat))
  out : ∀ k, 4 * B.n ≤ k → B.T k = none

variable {nx ny : Nat} {px py : Bool}

theorem cI_lt {ix iy : Nat} (hx : ix < nx) (hy : iy < ny) : cI nx ix iy < nx * ny := by
  unfold cI
  calc iy * nx + ix < iy * nx + nx := by omega
    _ = (iy + 1) * nx := by ring
    _ ≤ ny * nx := Nat.mul_le_mul_right _ hy
    _ = nx * ny := Nat.mul_comm _ _

theorem cI_mod {ix iy : Nat} (hx : ix < nx) : cI nx ix iy % nx = ix := by
  unfold cI
  rw [Nat.add_comm, Nat.add_mul_mod_self_right, Nat.mod_eq_of_lt hx]

theorem cI_div {ix iy : Nat} (hx : ix < nx) : cI nx ix iy / nx = iy := by
  unfold cI
  rw [Nat.add_comm, Nat.add_mul_div_right _ _ (by omega), Nat.div_eq_of_lt hx, Nat.zero_add]

theorem cI_ex {f : Nat} (hf : f < nx * ny) : ∃ ix < nx, ∃ iy < ny, f = cI nx ix iy := by
  have hn : 0 < nx := Nat.pos_of_ne_zero (by rintro rfl; simp at hf)
  refine ⟨f % nx, Nat.mod_lt _ hn, f / nx, Nat.div_lt_of_lt_mul hf, ?_⟩
  unfold cI
  rw [Nat.mul_comm]
  exact (Nat.div_add_mod f nx).symm

theorem cI_inj {ix iy jx jy : Nat} (hx : ix < nx) (hx' : jx < nx) (h : cI nx ix iy = cI nx jx jy) : ix = jx ∧ iy = jy := by
  constructor
  · rw [← cI_mod (nx := nx) (iy := iy) hx, ← cI_mod (nx := nx) (iy := jy) hx', h]
  · rw [← cI_div (nx := nx) (iy := iy) hx, ← cI_div (nx := nx) (iy := jy) hx', h]

theorem nbr_lt {ix iy : Nat} {s : Fin 4} {q : Nat × Nat} (hx : ix < nx) (hy : iy < ny) (h : nbr nx ny px py ix iy s = some q) :
    q.1 < nx ∧ q.2 < ny := by
  fin_cases s <;> simp only [nbr] at h <;> split_ifs at h <;> (try cases h) <;> constructor <;> simp <;> omega

/-- The neighbour's neighbour is the cell. -/
theorem nbr_inv {ix iy : Nat} {s : Fin 4} {q : Nat × Nat} (hx : ix < nx) (hy : iy < ny) (h : nbr nx ny px py ix iy s = some q) :
    nbr nx ny px py q.1 q.2 (s + 2) = some (ix, iy) := by
  fin_cases s
  · change nbr nx ny px py ix iy 0 = _ at h
    show nbr nx ny px py q.1 q.2 2 = _
    simp only [nbr] at h ⊢
    split_ifs at h with h1 h2 <;> cases h
    · rw [if_pos (by simp only; omega), if_pos h2]; simp [h1]
    · rw [if_neg (by simp only; omega)]; simp; omega
  · change nbr nx ny px py ix iy 1 = _ at h
    show nbr nx ny px py q.1 q.2 3 = _
    simp only [nbr] at h ⊢
    split_ifs at h with h1 h2 <;> cases h
    · rw [if_pos rfl, if_pos h2]; simp; omega
    · rw [if_neg (by simp)]; simp
  · change nbr nx ny px py ix iy 2 = _ at h
    show nbr nx ny px py q.1 q.2 0 = _
    simp only [nbr] at h ⊢
    split_ifs at h with h1 h2 <;> cases h
    · rw [if_pos rfl, if_pos h2]; simp; omega
    · rw [if_neg (by simp)]; simp
  · change nbr nx ny px py ix iy 3 = _ at h
    show nbr nx ny px py q.1 q.2 1 = _
    simp only [nbr] at h ⊢
    split_ifs at h with h1 h2 <;> cases h
    · rw [if_pos (by simp only; omega), if_pos h2]; simp [h1]
    · rw [if_neg (by simp only; omega)]; simp; omega

theorem k_ex {k : Nat} (hk : k < 4 * (nx * ny)) : ∃ ix < nx, ∃ iy < ny, ∃ s : Fin 4, k = 4 * cI nx ix iy + s := by
  obtain ⟨ix, hx, iy, hy, h⟩ := cI_ex (nx := nx) (ny := ny) (f := k / 4) (by omega)
  exact ⟨ix, hx, iy, hy, ⟨k % 4, by omega⟩, by simp only; omega⟩

theorem IsGrid.twin (hG : IsGrid B nx ny px py) {k j : Nat} (h : B.T k = some j) : ∃ ix < nx, ∃ iy < ny, ∃ s : Fin 4,
    k = 4 * cI nx ix iy + s ∧ ∃ q : Nat × Nat, nbr nx ny px py ix iy s = some q ∧ q.1 < nx ∧ q.2 < ny ∧
      j = 4 * cI nx q.1 q.2 + ((s + 2 : Fin 4) : Nat) := by
  have hk : k < 4 * (nx * ny) := by
    rw [← hG.n]
    by_contra hc
    rw [hG.out k (by omega)] at h
    cases h
  obtain ⟨ix, hx, iy, hy, s, rfl⟩ := k_ex hk
  rw [hG.T ix hx iy hy s] at h
  obtain ⟨q, h1, h2⟩ := Option.map_eq_some_iff.1 h
  obtain ⟨g1, g2⟩ := nbr_lt hx hy h1
  exact ⟨ix, hx, iy, hy, s, rfl, q, h1, g1, g2, h2.symm⟩

theorem IsGrid.wf (hG : IsGrid B nx ny px py) : B.WF := by
  refine ⟨?_, ?_, ?_, ?_⟩
  · intro k j h
    obtain ⟨ix, hx, iy, hy, s, rfl, q, h1, g1, g2, rfl⟩ := hG.twin h
    rw [hG.T _ g1 _ g2, nbr_inv hx hy h1]
    simp only [Option.map_some, Option.some.injEq]
    have : ∀ s : Fin 4, s + 2 + 2 = s := by decide
    rw [this]
  · intro k j h
    obtain ⟨ix, hx, iy, hy, s, rfl, q, h1, g1, g2, rfl⟩ := hG.twin h
    have : ∀ s : Fin 4, s + 2 ≠ s := by decide
    have h1 : ((s + 2 : Fin 4) : Nat) ≠ s := fun h => this s (Fin.ext h)
    have h2 := s.2
    have h3 := (s + 2).2
    omega
  · intro k j h
    obtain ⟨ix, hx, iy, hy, s, rfl, q, h1, g1, g2, rfl⟩ := hG.twin h
    have := cI_lt g1 g2
    have h3 := (s + 2).2
    rw [hG.n]
    omega
  · intro f hf i
    rw [hG.n] at hf
    obtain ⟨ix, hx, iy, hy, rfl⟩ := cI_ex hf
    rw [hG.hd ix hx iy hy, hG.b ix hx iy hy]

/-! ### Points -/

/-- Equal, up to multiples of the period. -/
def Eqm (p : Bool) (n : Nat) (x y : ℚ) : Prop := if p then ∃ m : ℤ, x = y + m * n else x = y

theorem Eqm.equiv (p : Bool) (n : Nat) : Equivalence (Eqm p n) := by
  unfold Eqm
  cases p
  · simp only [Bool.false_eq_true, if_false]
    exact ⟨fun _ => rfl, fun h => h.symm, fun h h' => h.trans h'⟩
  · simp only [if_true]
    refine ⟨fun x => ⟨0, by simp⟩, ?_, ?_⟩
    · rintro x y ⟨m, rfl⟩; exact ⟨-m, by push_cast; ring⟩
    · rintro x y z ⟨m, rfl⟩ ⟨m', rfl⟩; exact ⟨m + m', by push_cast; ring⟩

theorem Eqm.refl (p : Bool) (n : Nat) (x : ℚ) : Eqm p n x x := (Eqm.equiv p n).refl x

/-- The place of a point in the plane, up to periods. -/
def Pl (nx ny : Nat) (px py : Bool) (x y : Nat × (ℚ × ℚ)) : Prop :=
  Eqm px nx ((x.1 % nx : Nat) + x.2.1) ((y.1 % nx : Nat) + y.2.1) ∧ Eqm py ny ((x.1 / nx : Nat) + x.2.2) ((y.1 / nx : Nat) + y.2.2)

theorem Pl.equiv (nx ny : Nat) (px py : Bool) : Equivalence (Pl nx ny px py) :=
  ⟨fun _ => ⟨Eqm.refl _ _ _, Eqm.refl _ _ _⟩, fun h => ⟨(Eqm.equiv _ _).symm h.1, (Eqm.equiv _ _).symm h.2⟩,
    fun h h' => ⟨(Eqm.equiv _ _).trans h.1 h'.1, (Eqm.equiv _ _).trans h.2 h'.2⟩⟩

theorem glued_pl (hG : IsGrid B nx ny px py) {x y : Nat × (ℚ × ℚ)} (h : Glued B x y) : Pl nx ny px py x y := by
  obtain ⟨i, i', r, _, _, _, _, hT, e1, e2⟩ := h
  obtain ⟨ix, hx, iy, hy, s, e3, q, h1, g1, g2, e4⟩ := hG.twin hT
  have a1 := i.2
  have a2 := i'.2
  have a3 := s.2
  have a4 := (s + 2).2
  have f1 : x.1 = cI nx ix iy := by omega
  have f2 : i = s := Fin.ext (by omega)
  have f3 : y.1 = cI nx q.1 q.2 := by omega
  have f4 : i' = s + 2 := Fin.ext (by omega)
  subst f2 f4
  obtain ⟨x1, x2⟩ := x
  obtain ⟨y1, y2⟩ := y
  simp only at f1 f3 e1 e2
  subst f1 f3 e1 e2
  unfold Pl
  simp only [cI_mod hx, cI_div hx, cI_mod g1, cI_div g1]
  obtain ⟨q1, q2⟩ := q
  simp only at g1 g2
  have c1 : ∀ n : Nat, 0 < n → ((n - 1 : Nat) : ℚ) = n - 1 := fun n hn => by push_cast [Nat.cast_sub hn]; ring
  fin_cases i
  · change nbr nx ny px py ix iy 0 = _ at h1
    simp only [nbr] at h1
    show Eqm px nx (ix + (E 0 r).1) (q1 + (E 2 (1 - r)).1) ∧ Eqm py ny (iy + (E 0 r).2) (q2 + (E 2 (1 - r)).2)
    simp only [E]
    split_ifs at h1 with h2 h3 <;> cases h1
    · refine ⟨by ring_nf; exact Eqm.refl _ _ _, ?_⟩
      unfold Eqm
      rw [if_pos h3, h2, c1 ny (by omega)]
      exact ⟨-1, by push_cast; ring⟩
    · refine ⟨by ring_nf; exact Eqm.refl _ _ _, ?_⟩
      rw [c1 iy (by omega)]
      ring_nf; exact Eqm.refl _ _ _
  · change nbr nx ny px py ix iy 1 = _ at h1
    simp only [nbr] at h1
    show Eqm px nx (ix + (E 1 r).1) (q1 + (E 3 (1 - r)).1) ∧ Eqm py ny (iy + (E 1 r).2) (q2 + (E 3 (1 - r)).2)
    simp only [E]
    split_ifs at h1 with h2 h3 <;> cases h1
    · refine ⟨?_, by ring_nf; exact Eqm.refl _ _ _⟩
      unfold Eqm
      rw [if_pos h3, ← h2]
      exact ⟨1, by push_cast; ring⟩
    · refine ⟨?_, by ring_nf; exact Eqm.refl _ _ _⟩
      push_cast
      ring_nf; exact Eqm.refl _ _ _
  · change nbr nx ny px py ix iy 2 = _ at h1
    simp only [nbr] at h1
    show Eqm px nx (ix + (E 2 r).1) (q1 + (E 0 (1 - r)).1) ∧ Eqm py ny (iy + (E 2 r).2) (q2 + (E 0 (1 - r)).2)
    simp only [E]
    split_ifs at h1 with h2 h3 <;> cases h1
    · refine ⟨by ring_nf; exact Eqm.refl _ _ _, ?_⟩
      unfold Eqm
      rw [if_pos h3, ← h2]
      exact ⟨1, by push_cast; ring⟩
    · refine ⟨by ring_nf; exact Eqm.refl _ _ _, ?_⟩
      push_cast
      ring_nf; exact Eqm.refl _ _ _
  · change nbr nx ny px py ix iy 3 = _ at h1
    simp only [nbr] at h1
    show Eqm px nx (ix + (E 3 r).1) (q1 + (E 1 (1 - r)).1) ∧ Eqm py ny (iy + (E 3 r).2) (q2 + (E 1 (1 - r)).2)
    simp only [E]
    split_ifs at h1 with h2 h3 <;> cases h1
    · refine ⟨?_, by ring_nf; exact Eqm.refl _ _ _⟩
      unfold Eqm
      rw [if_pos h3, h2, c1 nx (by omega)]
      exact ⟨-1, by push_cast; ring⟩
    · refine ⟨?_, by ring_nf; exact Eqm.refl _ _ _⟩
      rw [c1 ix (by omega)]
      ring_nf; exact Eqm.refl _ _ _

theorem same_pl (hG : IsGrid B nx ny px py) {x y : Nat × (ℚ × ℚ)} (h : SamePt B x y) : Pl nx ny px py x y := by
  induction h with
  | rel _ _ h => exact glued_pl hG h
  | refl x => exact (Pl.equiv _ _ _ _).refl x
  | symm _ _ _ ih => exact (Pl.equiv _ _ _ _).symm ih
  | trans _ _ _ _ _ ih ih' => exact (Pl.equiv _ _ _ _).trans ih ih'

theorem E_d (i : Fin 4) : E i (0 : ℚ) = ((dx i : ℚ), (dy i : ℚ)) := by
  fin_cases i <;> simp [E, dx, dy]

theorem eqm_nat {p : Bool} {n X Y : Nat} (hn : 0 < n) (hX : X ≤ n) (hY : Y ≤ n) (h : Eqm p n X Y) :
    X = Y ∨ p = true ∧ (X = 0 ∧ Y = n ∨ X = n ∧ Y = 0) := by
  unfold Eqm at h
  split_ifs at h with hp
  · obtain ⟨m, hm⟩ := h
    have hm' : (X : ℤ) = Y + m * n := by exact_mod_cast hm
    have hn' : (0 : ℤ) < n := by exact_mod_cast hn
    have h1 : m < 2 := by by_contra hc; push Not at hc; nlinarith [Int.natCast_nonneg Y]
    have h2 : -2 < m := by by_contra hc; push Not at hc; nlinarith [Int.natCast_nonneg X]
    have : m = -1 ∨ m = 0 ∨ m = 1 := by omega
    rcases this with rfl | rfl | rfl
    · right; refine ⟨hp, .inl ?_⟩; omega
    · left; omega
    · right; refine ⟨hp, .inr ?_⟩; omega
  · left; exact_mod_cast h

theorem dx_le (i : Fin 4) : dx i ≤ 1 := by revert i; decide
theorem dy_le (i : Fin 4) : dy i ≤ 1 := by revert i; decide

/-- Corners that are the same point. -/
theorem same_corner (hG : IsGrid B nx ny px py) {fx fy gx gy : Nat} (h1 : fx < nx) (h2 : fy < ny) (h3 : gx < nx) (h4 : gy < ny)
    {i j : Fin 4} (h : SamePt B (cI nx fx fy, E i (0 : ℚ)) (cI nx gx gy, E j 0)) :
    (fx + dx i = gx + dx j ∨ px = true ∧ (fx + dx i = 0 ∧ gx + dx j = nx ∨ fx + dx i = nx ∧ gx + dx j = 0)) ∧
    (fy + dy i = gy + dy j ∨ py = true ∧ (fy + dy i = 0 ∧ gy + dy j = ny ∨ fy + dy i = ny ∧ gy + dy j = 0)) := by
  obtain ⟨a, b⟩ := same_pl hG h
  simp only [cI_mod h1, cI_div h1, cI_mod h3, cI_div h3, E_d] at a b
  have d1 := dx_le i; have d2 := dx_le j; have d3 := dy_le i; have d4 := dy_le j
  exact ⟨eqm_nat (by omega) (by omega) (by omega) (by exact_mod_cast a), eqm_nat (by omega) (by omega) (by omega) (by exact_mod_cast b)⟩

end

end Verif.Per
