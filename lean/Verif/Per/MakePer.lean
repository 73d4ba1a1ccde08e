import Verif.Per.GridOk
import Verif.Dcel.Boundary

/-!
# `make_periodic` on rectangular grids
-/

namespace Verif.Per
open Verif.Fem Verif.Mesh Verif.Dof Verif.Geom Verif.Quad

/-! ### The model -/

section model
variable {K : Type} [Zero K]

/-- A point of the table (mesh.py 6457-6458). -/
def ptAt (pts : List (Pt K)) (i : Nat) : Pt K := pts.getD i ⟨0, 0⟩

/-- `left_hes` (mesh.py 6451-6470) and `bottom_hes` (mesh.py 6503-6522): the half-edges with both ends near `lo`; `cross` is the coordinate
across the side, `along` the one along it.  `hes` are the boundary half-edges in the order of `get_boundary_half_edges()`, `C`
the table of their vertices.  The code calls the coordinates of the head "base" and vice versa (mesh.py 6456-6458). -/
def lowSide (close : K → K → Bool) (lo hi : K) (cross along : Pt K → K) (C : Nat → Nat × Nat) (pts : List (Pt K)) (hes : List Nat) :
    List (Nat × K × K) :=
  hes.filterMap (fun he =>
    let p := ptAt pts (C he).2
    let q := ptAt pts (C he).1
    if close (cross p) hi && close (cross q) hi then none
    else if close (cross p) lo && close (cross q) lo then some (he, along p, along q) else none)

/-- `right_hes` (mesh.py 6460-6464) and `top_hes` (mesh.py 6512-6516). -/
def highSide (close : K → K → Bool) (hi : K) (cross along : Pt K → K) (C : Nat → Nat × Nat) (pts : List (Pt K)) (hes : List Nat) :
    List (Nat × K × K) :=
  hes.filterMap (fun he =>
    let p := ptAt pts (C he).2
    let q := ptAt pts (C he).1
    if close (cross p) hi && close (cross q) hi then some (he, along p, along q) else none)

/-- The first direction of `make_periodic` (mesh.py 6445-6495); `hes` are the boundary half-edges in the order of
`get_boundary_half_edges()`. -/
def makePer (close : K → K → Bool) (lo hi : K) (cross along : Pt K → K) (C : Nat → Nat × Nat) (pts : List (Pt K)) (hes : List Nat)
    (tw : Nat → Int) : Except Geom.Err (Nat → Int) :=
  Dcel.pairSides close (lowSide close lo hi cross along C pts hes) (highSide close hi cross along C pts hes) tw

/-- The second direction of `make_periodic` (mesh.py 6497-6541): here the numbers of half-edges on the two sides are not
compared, and the arguments of `np.isclose` are in the other order. -/
def makePerY (close : K → K → Bool) (lo hi : K) (cross along : Pt K → K) (C : Nat → Nat × Nat) (pts : List (Pt K)) (hes : List Nat)
    (tw : Nat → Int) : Except Geom.Err (Nat → Int) :=
  match Dcel.pairLoop (fun a b => close b a) (lowSide close lo hi cross along C pts hes).reverse
      (highSide close hi cross along C pts hes) tw with
  | (tw', []) => .ok tw'
  | _ => .error .assertion

/-- `make_periodic(coordinates, box)` of a two-dimensional DCEL (mesh.py 6422-6542): the new twins; `px`, `py`: is 0, is 1 in
`coordinates`? -/
def makePeriodic (close : K → K → Bool) (px py : Bool) (xmin xmax ymin ymax : K) (pts : List (Pt K)) (H : List Dcel.HE)
    (tw : Nat → Int) : Except Geom.Err (Nat → Int) :=
  (if px then (Dcel.boundaryHalfEdges H tw).bind (fun segs =>
      makePer close xmin xmax (·.x) (·.y) (Dcel.conn H) pts segs.flatten tw)
    else .ok tw).bind (fun tw1 =>
  if py then (Dcel.boundaryHalfEdges H tw1).bind (fun segs =>
      makePerY close ymin ymax (·.y) (·.x) (Dcel.conn H) pts segs.flatten tw1)
    else .ok tw1)

end model

/-! ### Pairing succeeds if every half-edge has one partner -/

section
variable {K : Type}

theorem findTwin_some (close : K → K → Bool) (l : Nat × K × K) : ∀ (R : List (Nat × K × K)) (r : Nat × K × K), r ∈ R →
    close l.2.1 r.2.2 = true → close l.2.2 r.2.1 = true → ∃ x, Dcel.findTwin close l R = some x := by
  intro R
  induction R with
  | nil => intro r h; cases h
  | cons a R ih =>
    intro r hr h1 h2
    unfold Dcel.findTwin
    by_cases hm : (close l.2.1 a.2.2 && close l.2.2 a.2.1) = true
    · rw [if_pos hm]; exact ⟨_, rfl⟩
    · rw [if_neg hm]
      rcases List.mem_cons.1 hr with rfl | hr
      · exact absurd (by rw [h1, h2]; rfl) hm
      · obtain ⟨x, hx⟩ := ih r hr h1 h2
        rw [hx]; exact ⟨_, rfl⟩

theorem pairLoop_total (close : K → K → Bool) : ∀ (ls R : List (Nat × K × K)) (tw : Nat → Int), ls.Nodup →
    (∀ l ∈ ls, ∃ r ∈ R, close l.2.1 r.2.2 = true ∧ close l.2.2 r.2.1 = true) →
    (∀ l ∈ ls, ∀ l' ∈ ls, ∀ r ∈ R, close l.2.1 r.2.2 = true → close l.2.2 r.2.1 = true → close l'.2.1 r.2.2 = true →
      close l'.2.2 r.2.1 = true → l = l') →
    ((Dcel.pairLoop close ls R tw).2).length + ls.length = R.length := by
  intro ls
  induction ls with
  | nil => intro R tw _ _ _; simp [Dcel.pairLoop]
  | cons l ls ih =>
    intro R tw hnd h1 h2
    obtain ⟨r, hr, c1, c2⟩ := h1 l (by simp)
    obtain ⟨⟨a, R1⟩, hx⟩ := findTwin_some close l R r hr c1 c2
    unfold Dcel.pairLoop
    rw [hx]
    simp only
    obtain ⟨e, rfl, hp, e1, e2⟩ := Dcel.findTwin_spec close l R a R1 hx
    have hnd' := List.nodup_cons.1 hnd
    have := ih R1 (fun i => if i = e.1 then (l.1 : Int) else if i = l.1 then (e.1 : Int) else tw i) hnd'.2 (by
      intro l' hl'
      obtain ⟨r', hr', d1, d2⟩ := h1 l' (by simp [hl'])
      refine ⟨r', ?_, d1, d2⟩
      rcases List.mem_cons.1 (hp.symm.subset hr') with rfl | h
      · exfalso
        have : l = l' := h2 l (by simp) l' (by simp [hl']) r' hr' e1 e2 d1 d2
        exact hnd'.1 (this ▸ hl')
      · exact h) (by
      intro x hx y hy r hr
      exact h2 x (by simp [hx]) y (by simp [hy]) r (hp.subset (by simp [hr])))
    have hl := hp.length_eq
    simp only [List.length_cons] at hl ⊢
    omega

/-- If the two sides are matched one to one, the pairing succeeds and is that matching. -/
theorem pairSides_ok (close : K → K → Bool) {m : Nat} {a c : Nat → Nat} {u w : Nat → K} {L R : List (Nat × K × K)} {tw : Nat → Int}
    (hL : L.Perm ((List.range m).map (fun t => (a t, u t, w t)))) (hR : R.Perm ((List.range m).map (fun t => (c t, w t, u t))))
    (ha : ∀ t t', t < m → t' < m → a t = a t' → t = t') (hc : ∀ t t', t < m → t' < m → c t = c t' → t = t')
    (hac : ∀ t t', t < m → t' < m → a t ≠ c t')
    (hcl : ∀ t t', t < m → t' < m → (close (u t) (u t') = true ↔ t = t') ∧ (close (w t) (w t') = true ↔ t = t'))
    (hta : ∀ t < m, tw (a t) = -1) (htc : ∀ t < m, tw (c t) = -1) (hinv : Dcel.Invol tw) :
    ∃ tw', Dcel.pairSides close L R tw = .ok tw' ∧ Dcel.Invol tw' ∧ (∀ t < m, tw' (a t) = c t ∧ tw' (c t) = a t) ∧
      ∀ i, (∀ t < m, i ≠ a t ∧ i ≠ c t) → tw' i = tw i := by
  have mL : ∀ l, l ∈ L ↔ ∃ t < m, l = (a t, u t, w t) := by
    intro l
    rw [hL.mem_iff, List.mem_map]
    constructor
    · rintro ⟨t, ht, rfl⟩; exact ⟨t, List.mem_range.1 ht, rfl⟩
    · rintro ⟨t, ht, rfl⟩; exact ⟨t, List.mem_range.2 ht, rfl⟩
  have mR : ∀ l, l ∈ R ↔ ∃ t < m, l = (c t, w t, u t) := by
    intro l
    rw [hR.mem_iff, List.mem_map]
    constructor
    · rintro ⟨t, ht, rfl⟩; exact ⟨t, List.mem_range.1 ht, rfl⟩
    · rintro ⟨t, ht, rfl⟩; exact ⟨t, List.mem_range.2 ht, rfl⟩
  have hnL : (L.map Prod.fst).Nodup := by
    refine (hL.map Prod.fst).nodup_iff.2 ?_
    rw [List.map_map]
    exact List.Nodup.map_on (fun x hx y hy h => ha x y (List.mem_range.1 hx) (List.mem_range.1 hy) h) List.nodup_range
  have hnR : (R.map Prod.fst).Nodup := by
    refine (hR.map Prod.fst).nodup_iff.2 ?_
    rw [List.map_map]
    exact List.Nodup.map_on (fun x hx y hy h => hc x y (List.mem_range.1 hx) (List.mem_range.1 hy) h) List.nodup_range
  have hnd : ((L ++ R).map Prod.fst).Nodup := by
    rw [List.map_append, List.nodup_append]
    refine ⟨hnL, hnR, ?_⟩
    intro x hx y hy
    obtain ⟨l, hl, rfl⟩ := List.mem_map.1 hx
    obtain ⟨r, hr, rfl⟩ := List.mem_map.1 hy
    obtain ⟨t, ht, rfl⟩ := (mL l).1 hl
    obtain ⟨t', ht', rfl⟩ := (mR r).1 hr
    exact hac t t' ht ht'
  have hlen : L.length = R.length := by rw [hL.length_eq, hR.length_eq]; simp
  have hf := pairLoop_total close L.reverse R tw (List.nodup_reverse.2 (List.Nodup.of_map _ hnL)) (by
    intro l hl
    obtain ⟨t, ht, rfl⟩ := (mL l).1 (List.mem_reverse.1 hl)
    exact ⟨_, (mR _).2 ⟨t, ht, rfl⟩, (hcl t t ht ht).1.2 rfl, (hcl t t ht ht).2.2 rfl⟩) (by
    intro l hl l' hl' r hr h1 _ h3 _
    obtain ⟨t, ht, rfl⟩ := (mL l).1 (List.mem_reverse.1 hl)
    obtain ⟨t', ht', rfl⟩ := (mL l').1 (List.mem_reverse.1 hl')
    obtain ⟨t'', ht'', rfl⟩ := (mR r).1 hr
    have e1 := (hcl t t'' ht ht'').1.1 h1
    have e2 := (hcl t' t'' ht' ht'').1.1 h3
    rw [e1, e2])
  rcases hp : Dcel.pairLoop close L.reverse R tw with ⟨tw', R'⟩
  rw [hp] at hf
  simp only [List.length_reverse] at hf
  have hR' : R' = [] := List.length_eq_zero_iff.1 (by omega)
  have hok : Dcel.pairSides close L R tw = .ok tw' := by
    unfold Dcel.pairSides
    rw [if_pos hlen, hp, hR']
  obtain ⟨s1, s2, s3, s4⟩ := Dcel.C51_pair_sides close L R tw tw' hnd (by
    intro e he
    rcases List.mem_append.1 he with he | he
    · obtain ⟨t, ht, rfl⟩ := (mL e).1 he; exact hta t ht
    · obtain ⟨t, ht, rfl⟩ := (mR e).1 he; exact htc t ht) hinv hok
  refine ⟨tw', hok, s1, ?_, ?_⟩
  · intro t ht
    obtain ⟨r, hr, r1, r2, r3, _⟩ := s2 _ ((mL _).2 ⟨t, ht, rfl⟩)
    obtain ⟨t', ht', rfl⟩ := (mR r).1 hr
    have := (hcl t t' ht ht').1.1 r3
    subst this
    exact ⟨r1, r2⟩
  · intro i hi
    refine s4 i ?_
    intro e he
    rcases List.mem_append.1 he with he | he
    · obtain ⟨t, ht, rfl⟩ := (mL e).1 he; exact (hi t ht).1
    · obtain ⟨t, ht, rfl⟩ := (mR e).1 he; exact (hi t ht).2

end

/-! ### Grids -/

section
variable {K : Type} [Field K] [CharZero K] {nx ny : Nat}

/-- The table of twins of the grid, made periodic in the directions `px`, `py`. -/
def TwOk (nx ny : Nat) (px py : Bool) (tw : Nat → Int) : Prop :=
  (∀ ix < nx, ∀ iy < ny, ∀ s : Fin 4, tw (4 * cI nx ix iy + s) =
    match nbr nx ny px py ix iy s with
    | none => -1
    | some q => ((4 * cI nx q.1 q.2 + ((s + 2 : Fin 4) : Nat) : Nat) : Int)) ∧
  (∀ k, 4 * (nx * ny) ≤ k → tw k = -1)

theorem corner_d (nx ix iy : Nat) (s : Fin 4) : Dcel.corner nx ix iy s = Dcel.gidx nx (ix + dx s) (iy + dy s) := by
  fin_cases s <;> rfl

theorem succ4 (s : Fin 4) : ((s : Nat) + 1) % 4 = ((s + 1 : Fin 4) : Nat) := by revert s; decide

theorem grid_run {ix iy : Nat} (hx : ix < nx) (hy : iy < ny) (s : Fin 4) : Dcel.Runs (Dcel.gridFaces nx ny) (4 * cI nx ix iy + s)
    (Dcel.gidx nx (ix + dx s) (iy + dy s)) (Dcel.gidx nx (ix + dx (s + 1)) (iy + dy (s + 1))) :=
  (Dcel.grid_runs _ _ _ _ _).2 ⟨ix, iy, s, hx, hy, s.2, rfl, (corner_d _ _ _ _).symm, by rw [succ4, corner_d]⟩

theorem grid_conn {ix iy : Nat} (hx : ix < nx) (hy : iy < ny) (s : Fin 4) :
    Dcel.conn (Dcel.halfEdges (Dcel.gridFaces nx ny)) (4 * cI nx ix iy + s) =
      (Dcel.gidx nx (ix + dx s) (iy + dy s), Dcel.gidx nx (ix + dx (s + 1)) (iy + dy (s + 1))) :=
  Phys.runs_conn _ _ _ _ (grid_run hx hy s)

/-- The half-edges as `determine_half_edges` leaves them. -/
theorem grid_tw : TwOk nx ny false false (Dcel.twin (Dcel.halfEdges (Dcel.gridFaces nx ny))) := by
  constructor
  · intro ix hx iy hy s
    obtain ⟨t1, _, t3⟩ := Dcel.C25_twin _ (Dcel.C24_oriented nx ny) _ _ _ (grid_run hx hy s)
    rcases hq : nbr nx ny false false ix iy s with _ | q
    · rw [t3]
      intro j hj
      obtain ⟨jx, jy, t, hx', hy', ht, rfl, e1, e2⟩ := (Dcel.grid_runs _ _ _ _ _).1 hj
      have e1' : Dcel.gidx nx (ix + dx (s + 1)) (iy + dy (s + 1)) = Dcel.gidx nx (jx + dx ⟨t, ht⟩) (jy + dy ⟨t, ht⟩) := by
        rw [e1, ← corner_d]
      have e2' : Dcel.gidx nx (ix + dx s) (iy + dy s) = Dcel.gidx nx (jx + dx (⟨t, ht⟩ + 1)) (jy + dy (⟨t, ht⟩ + 1)) := by
        rw [e2, ← corner_d, ← succ4]
      have b := dx_le
      obtain ⟨a1, a2⟩ := Dcel.gidx_inj (by have := b (s + 1); omega) (by have := b ⟨t, ht⟩; omega) e1'
      obtain ⟨a3, a4⟩ := Dcel.gidx_inj (by have := b s; omega) (by have := b (⟨t, ht⟩ + 1); omega) e2'
      generalize (⟨t, ht⟩ : Fin 4) = t' at a1 a2 a3 a4
      fin_cases s <;> simp [nbr] at hq <;> fin_cases t' <;> simp [dx, dy] at a1 a2 a3 a4 <;> omega
    · rw [show (match some q with | none => (-1 : Int) | some q => ((4 * cI nx q.1 q.2 + ((s + 2 : Fin 4) : Nat) : Nat) : Int)) =
        ((4 * cI nx q.1 q.2 + ((s + 2 : Fin 4) : Nat) : Nat) : Int) from rfl, t1]
      obtain ⟨g1, g2⟩ := nbr_lt hx hy hq
      have := grid_run g1 g2 (s + 2)
      have e : ∀ s : Fin 4, s + 2 + 1 = s + 3 := by decide
      rw [e s] at this
      obtain ⟨q1, q2⟩ := q
      convert this using 2
      all_goals
        clear this t1 t3 e
        fin_cases s <;> simp [nbr] at hq <;> obtain ⟨h0, rfl, rfl⟩ := hq <;> simp [dx, dy] <;> omega
  · intro k hk
    unfold Dcel.twin
    rw [List.getElem?_eq_none]
    by_contra hc
    push Not at hc
    have hr : Dcel.Runs (Dcel.gridFaces nx ny) k _ _ := ⟨_, List.getElem?_eq_getElem hc, rfl, rfl⟩
    obtain ⟨ix, iy, s, hx, hy, hs, rfl, _⟩ := (Dcel.grid_runs _ _ _ _ _).1 hr
    have := cI_lt hx hy
    unfold cI at this
    omega

theorem TwOk.cases {px py : Bool} {tw : Nat → Int} (h : TwOk nx ny px py tw) {k : Nat} (hk : tw k ≠ -1) : ∃ ix < nx, ∃ iy < ny,
    ∃ s : Fin 4, k = 4 * cI nx ix iy + s := by
  refine k_ex ?_
  by_contra hc
  exact hk (h.2 k (by omega))

theorem TwOk.invol {px py : Bool} {tw : Nat → Int} (h : TwOk nx ny px py tw) : Dcel.Invol tw := by
  intro i j hij
  obtain ⟨ix, hx, iy, hy, s, rfl⟩ := h.cases (k := i) (by rw [hij]; omega)
  rw [h.1 ix hx iy hy s] at hij
  rcases hq : nbr nx ny px py ix iy s with _ | q
  · rw [hq] at hij; simp only at hij; omega
  · rw [hq] at hij
    simp only at hij
    have : j = 4 * cI nx q.1 q.2 + ((s + 2 : Fin 4) : Nat) := by exact_mod_cast hij.symm
    subst this
    obtain ⟨g1, g2⟩ := nbr_lt hx hy hq
    rw [h.1 _ g1 _ g2, nbr_inv hx hy hq]
    have e : ∀ s : Fin 4, s + 2 + 2 = s := by decide
    rw [e]

theorem tick_zero (a b : K) (n : Nat) : Dcel.tick a b n 0 = a := by simp [Dcel.tick]

theorem tick_last (a b : K) (n : Nat) (h : 0 < n) : Dcel.tick a b n n = b := by
  have : (n : K) ≠ 0 := by exact_mod_cast h.ne'
  unfold Dcel.tick
  field_simp
  ring

theorem ptAt_grid (xmin xmax ymin ymax : K) (hnx : 0 < nx) (hny : 0 < ny) {X Y : Nat} (hX : X ≤ nx) (hY : Y ≤ ny) :
    ptAt (Dcel.gridPoints xmin xmax ymin ymax nx ny) (Dcel.gidx nx X Y) = ⟨Dcel.tick xmin xmax nx X, Dcel.tick ymin ymax ny Y⟩ := by
  unfold ptAt
  rw [List.getD_eq_getElem?_getD, Dcel.point_get _ _ _ _ _ _ _ _ hnx hny hX hY, Option.getD_some]

/-- Ticks are recognised. -/
def Sees (close : K → K → Bool) (a b : K) (n : Nat) : Prop :=
  ∀ i j, i ≤ n → j ≤ n → (close (Dcel.tick a b n i) (Dcel.tick a b n j) = true ↔ i = j)

variable (xmin xmax ymin ymax : K) (close : K → K → Bool)

/-- The table of vertices of the half-edges of the grid. -/
abbrev gConn (nx ny : Nat) : Nat → Nat × Nat := Dcel.conn (Dcel.halfEdges (Dcel.gridFaces nx ny))

theorem bnd_mem {px py : Bool} {tw : Nat → Int} (htw : TwOk nx ny px py tw) {hes : List Nat}
    (hp : hes.Perm (Dcel.bndHes (4 * (nx * ny)) tw)) (he : Nat) : he ∈ hes ↔ ∃ ix < nx, ∃ iy < ny, ∃ s : Fin 4,
      he = 4 * cI nx ix iy + s ∧ nbr nx ny px py ix iy s = none := by
  rw [hp.mem_iff, Dcel.bndHes, List.mem_filter, List.mem_range, decide_eq_true_eq]
  constructor
  · rintro ⟨h1, h2⟩
    obtain ⟨ix, hx, iy, hy, s, rfl⟩ := k_ex h1
    refine ⟨ix, hx, iy, hy, s, rfl, ?_⟩
    rw [htw.1 ix hx iy hy s] at h2
    rcases hq : nbr nx ny px py ix iy s with _ | q
    · rfl
    · rw [hq] at h2; simp only at h2; omega
  · rintro ⟨ix, hx, iy, hy, s, rfl, hq⟩
    have := cI_lt hx hy
    refine ⟨by have := s.2; omega, ?_⟩
    rw [htw.1 ix hx iy hy s, hq]

theorem bnd_nodup {tw : Nat → Int} {hes : List Nat} (hp : hes.Perm (Dcel.bndHes (4 * (nx * ny)) tw)) : hes.Nodup :=
  hp.nodup_iff.2 (List.nodup_range.filter _)

/-- Making the first direction periodic. -/
theorem grid_make_x (hnx : 0 < nx) (hny : 0 < ny) (hcx : Sees close xmin xmax nx) (hcy : Sees close ymin ymax ny) {py : Bool}
    {tw : Nat → Int} (htw : TwOk nx ny false py tw) {hes : List Nat} (hp : hes.Perm (Dcel.bndHes (4 * (nx * ny)) tw)) :
    ∃ tw', makePer close xmin xmax (·.x) (·.y) (gConn nx ny) (Dcel.gridPoints xmin xmax ymin ymax nx ny) hes tw = .ok tw' ∧
      TwOk nx ny true py tw' := by
  have cn : ∀ ix < nx, ∀ iy < ny, ∀ s : Fin 4, gConn nx ny (4 * cI nx ix iy + s) = _ := fun ix hx iy hy s => grid_conn hx hy s
  have pt : ∀ ix < nx, ∀ iy < ny, ∀ s : Fin 4, ptAt (Dcel.gridPoints xmin xmax ymin ymax nx ny)
      (Dcel.gidx nx (ix + dx s) (iy + dy s)) = ⟨Dcel.tick xmin xmax nx (ix + dx s), Dcel.tick ymin ymax ny (iy + dy s)⟩ :=
    fun ix hx iy hy s => ptAt_grid _ _ _ _ hnx hny (by have := dx_le s; omega) (by have := dy_le s; omega)
  have ch : ∀ i, i ≤ nx → (close (Dcel.tick xmin xmax nx i) xmax = true ↔ i = nx) := by
    intro i hi
    have := hcx i nx hi (le_refl _)
    rwa [tick_last _ _ _ hnx] at this
  have cl : ∀ i, i ≤ nx → (close (Dcel.tick xmin xmax nx i) xmin = true ↔ i = 0) := by
    intro i hi
    have := hcx i 0 hi (Nat.zero_le _)
    rwa [tick_zero] at this
  have dle : ∀ ix < nx, ∀ s : Fin 4, ix + dx s ≤ nx := fun ix hx s => by have := dx_le s; omega
  have s3 : (3 : Fin 4) + 1 = 0 := by decide
  have s1 : (1 : Fin 4) + 1 = 2 := by decide
  obtain ⟨tw', h1, h2, h3, h4⟩ := pairSides_ok close (m := ny) (a := fun t => 4 * cI nx 0 t + 3) (c := fun t => 4 * cI nx (nx - 1) t + 1)
    (u := fun t => Dcel.tick ymin ymax ny t) (w := fun t => Dcel.tick ymin ymax ny (t + 1))
    (L := lowSide close xmin xmax (·.x) (·.y) (gConn nx ny) (Dcel.gridPoints xmin xmax ymin ymax nx ny) hes)
    (R := highSide close xmax (·.x) (·.y) (gConn nx ny) (Dcel.gridPoints xmin xmax ymin ymax nx ny) hes) (tw := tw) (by
      refine (List.perm_ext_iff_of_nodup ?_ ?_).2 ?_
      · unfold lowSide
        refine List.Nodup.filterMap ?_ (bnd_nodup hp)
        intro a b x ha hb
        simp only at ha hb
        split_ifs at ha hb <;> simp at ha hb
        rw [← hb] at ha
        exact (Prod.mk.inj ha).1
      · refine List.Nodup.map_on ?_ List.nodup_range
        intro x _ y _ h
        have h' := (Prod.mk.inj h).1
        exact (cI_inj (nx := nx) hnx hnx (by omega)).2
      · intro x
        unfold lowSide
        rw [List.mem_filterMap, List.mem_map]
        constructor
        · rintro ⟨he, hm, hx⟩
          obtain ⟨ix, hxx, iy, hyy, s, rfl, hnb⟩ := (bnd_mem htw hp he).1 hm
          simp only [cn ix hxx iy hyy s, pt ix hxx iy hyy] at hx
          split_ifs at hx with q1 q2
          simp only [Bool.and_eq_true, cl _ (dle ix hxx _)] at q2
          have e : s = 3 := by
            have : dx (s + 1) = 0 ∧ dx s = 0 := by omega
            clear hx q1 q2 hm cn pt hnb
            revert s; decide
          subst e
          have e0 : ix = 0 := by omega
          subst e0
          refine ⟨iy, List.mem_range.2 hyy, ?_⟩
          rw [← Option.some.inj hx, s3]
          rfl
        · rintro ⟨iy, hyy, rfl⟩
          have hyy := List.mem_range.1 hyy
          refine ⟨4 * cI nx 0 iy + ((3 : Fin 4) : Nat), (bnd_mem htw hp _).2 ⟨0, hnx, iy, hyy, 3, rfl, by simp [nbr]⟩, ?_⟩
          simp only [cn 0 hnx iy hyy 3, pt 0 hnx iy hyy]
          rw [if_neg (by
            rw [Bool.and_eq_true, ch _ (dle 0 hnx _)]
            simp [s3, dx]
            omega), if_pos (by
            rw [Bool.and_eq_true, cl _ (dle 0 hnx _), cl _ (dle 0 hnx _)]
            simp [s3, dx]), s3]
          rfl) (by
      refine (List.perm_ext_iff_of_nodup ?_ ?_).2 ?_
      · unfold highSide
        refine List.Nodup.filterMap ?_ (bnd_nodup hp)
        intro a b x ha hb
        simp only at ha hb
        split_ifs at ha hb <;> simp at ha hb
        rw [← hb] at ha
        exact (Prod.mk.inj ha).1
      · refine List.Nodup.map_on ?_ List.nodup_range
        intro x _ y _ h
        have h' := (Prod.mk.inj h).1
        exact (cI_inj (nx := nx) (ix := nx - 1) (jx := nx - 1) (by omega) (by omega) (by omega)).2
      · intro x
        unfold highSide
        rw [List.mem_filterMap, List.mem_map]
        constructor
        · rintro ⟨he, hm, hx⟩
          obtain ⟨ix, hxx, iy, hyy, s, rfl, hnb⟩ := (bnd_mem htw hp he).1 hm
          simp only [cn ix hxx iy hyy s, pt ix hxx iy hyy] at hx
          split_ifs at hx with q1
          simp only [Bool.and_eq_true, ch _ (dle ix hxx _)] at q1
          have e : s = 1 := by
            have b1 := dx_le s
            have b2 := dx_le (s + 1)
            have : dx (s + 1) = 1 ∧ dx s = 1 := by omega
            clear hx q1 hm cn pt b1 b2 hnb
            revert s; decide
          subst e
          rw [s1] at q1
          have e0 : ix = nx - 1 := by simp only [dx] at q1; omega
          subst e0
          refine ⟨iy, List.mem_range.2 hyy, ?_⟩
          rw [← Option.some.inj hx, s1]
          rfl
        · rintro ⟨iy, hyy, rfl⟩
          have hyy := List.mem_range.1 hyy
          have hl : nx - 1 < nx := by omega
          have hl1 : nx - 1 + 1 = nx := by omega
          refine ⟨4 * cI nx (nx - 1) iy + ((1 : Fin 4) : Nat), (bnd_mem htw hp _).2 ⟨nx - 1, hl, iy, hyy, 1, rfl, by simp [nbr, hl1]⟩, ?_⟩
          simp only [cn (nx - 1) hl iy hyy 1, pt (nx - 1) hl iy hyy]
          rw [if_pos (by
            rw [Bool.and_eq_true, ch _ (dle (nx - 1) hl _), ch _ (dle (nx - 1) hl _)]
            simp [s1, dx, hl1]), s1]
          rfl)
    (fun t t' _ _ h => (cI_inj (nx := nx) hnx hnx (by omega)).2)
    (fun t t' _ _ h => (cI_inj (nx := nx) (ix := nx - 1) (jx := nx - 1) (by omega) (by omega) (by omega)).2)
    (fun t t' _ _ => by omega)
    (fun t t' ht ht' => ⟨hcy t t' ht.le ht'.le, by rw [hcy (t + 1) (t' + 1) (by omega) (by omega)]; omega⟩)
    (fun t ht => by
      have := htw.1 0 hnx t ht 3
      simp only [nbr] at this
      exact this)
    (fun t ht => by
      have := htw.1 (nx - 1) (by omega) t ht 1
      simp only [nbr, show nx - 1 + 1 = nx by omega] at this
      exact this) htw.invol
  refine ⟨tw', h1, ?_, ?_⟩
  · intro ix hx iy hy s
    by_cases e3 : s = 3 ∧ ix = 0
    · obtain ⟨rfl, rfl⟩ := e3
      have := (h3 iy hy).1
      simp only [nbr]
      exact this
    · by_cases e1 : s = 1 ∧ ix + 1 = nx
      · obtain ⟨rfl, e1⟩ := e1
        have := (h3 iy hy).2
        have e : ix = nx - 1 := by omega
        subst e
        simp only [nbr, e1]
        exact this
      · have hn : nbr nx ny true py ix iy s = nbr nx ny false py ix iy s := by
          fin_cases s
          · rfl
          · have : ¬ ix + 1 = nx := fun h => e1 ⟨rfl, h⟩
            show nbr nx ny true py ix iy 1 = nbr nx ny false py ix iy 1
            simp [nbr, this]
          · rfl
          · have : ¬ ix = 0 := fun h => e3 ⟨rfl, h⟩
            show nbr nx ny true py ix iy 3 = nbr nx ny false py ix iy 3
            simp [nbr, this]
        rw [hn, ← htw.1 ix hx iy hy s]
        refine h4 _ ?_
        intro t ht
        have a3 := s.2
        constructor
        · intro h
          have q1 : (s : Nat) = 3 := by omega
          exact e3 ⟨Fin.ext q1, (cI_inj (nx := nx) hx hnx (by omega : cI nx ix iy = cI nx 0 t)).1⟩
        · intro h
          have q1 : (s : Nat) = 1 := by omega
          have := (cI_inj (nx := nx) hx (by omega) (by omega : cI nx ix iy = cI nx (nx - 1) t)).1
          exact e1 ⟨Fin.ext q1, by omega⟩
  · intro k hk
    rw [← htw.2 k hk]
    refine h4 k ?_
    intro t ht
    have l1 := cI_lt (nx := nx) (ny := ny) (ix := 0) hnx ht
    have l2 := cI_lt (nx := nx) (ny := ny) (ix := nx - 1) (by omega) ht
    omega

theorem pairSides_loop {close : K → K → Bool} {L R : List (Nat × K × K)} {tw tw' : Nat → Int} (h : Dcel.pairSides close L R tw = .ok tw') :
    (match Dcel.pairLoop close L.reverse R tw with
      | (tw', []) => (.ok tw' : Except Geom.Err (Nat → Int))
      | _ => .error .assertion) = .ok tw' := by
  unfold Dcel.pairSides at h
  split_ifs at h
  exact h

/-- Making the second direction periodic. -/
theorem grid_make_y (hnx : 0 < nx) (hny : 0 < ny) (hcx : Sees close xmin xmax nx) (hcy : Sees close ymin ymax ny) {px : Bool}
    {tw : Nat → Int} (htw : TwOk nx ny px false tw) {hes : List Nat} (hp : hes.Perm (Dcel.bndHes (4 * (nx * ny)) tw)) :
    ∃ tw', makePerY close ymin ymax (·.y) (·.x) (gConn nx ny) (Dcel.gridPoints xmin xmax ymin ymax nx ny) hes tw = .ok tw' ∧
      TwOk nx ny px true tw' := by
  have cn : ∀ ix < nx, ∀ iy < ny, ∀ s : Fin 4, gConn nx ny (4 * cI nx ix iy + s) = _ := fun ix hx iy hy s => grid_conn hx hy s
  have pt : ∀ ix < nx, ∀ iy < ny, ∀ s : Fin 4, ptAt (Dcel.gridPoints xmin xmax ymin ymax nx ny)
      (Dcel.gidx nx (ix + dx s) (iy + dy s)) = ⟨Dcel.tick xmin xmax nx (ix + dx s), Dcel.tick ymin ymax ny (iy + dy s)⟩ :=
    fun ix hx iy hy s => ptAt_grid _ _ _ _ hnx hny (by have := dx_le s; omega) (by have := dy_le s; omega)
  have ch : ∀ i, i ≤ ny → (close (Dcel.tick ymin ymax ny i) ymax = true ↔ i = ny) := by
    intro i hi
    have := hcy i ny hi (le_refl _)
    rwa [tick_last _ _ _ hny] at this
  have cl : ∀ i, i ≤ ny → (close (Dcel.tick ymin ymax ny i) ymin = true ↔ i = 0) := by
    intro i hi
    have := hcy i 0 hi (Nat.zero_le _)
    rwa [tick_zero] at this
  have dle : ∀ iy < ny, ∀ s : Fin 4, iy + dy s ≤ ny := fun iy hy s => by have := dy_le s; omega
  have s0 : (0 : Fin 4) + 1 = 1 := by decide
  have s2 : (2 : Fin 4) + 1 = 3 := by decide
  obtain ⟨tw', h1, h2, h3, h4⟩ := pairSides_ok (fun a b => close b a) (m := nx) (a := fun t => 4 * cI nx t 0 + 0) (c := fun t => 4 * cI nx t (ny - 1) + 2)
    (u := fun t => Dcel.tick xmin xmax nx (t + 1)) (w := fun t => Dcel.tick xmin xmax nx t)
    (L := lowSide close ymin ymax (·.y) (·.x) (gConn nx ny) (Dcel.gridPoints xmin xmax ymin ymax nx ny) hes)
    (R := highSide close ymax (·.y) (·.x) (gConn nx ny) (Dcel.gridPoints xmin xmax ymin ymax nx ny) hes) (tw := tw) (by
      refine (List.perm_ext_iff_of_nodup ?_ ?_).2 ?_
      · unfold lowSide
        refine List.Nodup.filterMap ?_ (bnd_nodup hp)
        intro a b x ha hb
        simp only at ha hb
        split_ifs at ha hb <;> simp at ha hb
        rw [← hb] at ha
        exact (Prod.mk.inj ha).1
      · refine List.Nodup.map_on ?_ List.nodup_range
        intro x hx y hy h
        have h' := (Prod.mk.inj h).1
        exact (cI_inj (nx := nx) (List.mem_range.1 hx) (List.mem_range.1 hy) (by omega : cI nx x 0 = cI nx y 0)).1
      · intro x
        unfold lowSide
        rw [List.mem_filterMap, List.mem_map]
        constructor
        · rintro ⟨he, hm, hx⟩
          obtain ⟨ix, hxx, iy, hyy, s, rfl, hnb⟩ := (bnd_mem htw hp he).1 hm
          simp only [cn ix hxx iy hyy s, pt ix hxx iy hyy] at hx
          split_ifs at hx with q1 q2
          simp only [Bool.and_eq_true, cl _ (dle iy hyy _)] at q2
          have e : s = 0 := by
            have : dy (s + 1) = 0 ∧ dy s = 0 := by omega
            clear hx q1 q2 hm cn pt hnb
            revert s; decide
          subst e
          have e0 : iy = 0 := by omega
          subst e0
          refine ⟨ix, List.mem_range.2 hxx, ?_⟩
          rw [← Option.some.inj hx, s0]
          rfl
        · rintro ⟨ix, hxx, rfl⟩
          have hxx := List.mem_range.1 hxx
          refine ⟨4 * cI nx ix 0 + ((0 : Fin 4) : Nat), (bnd_mem htw hp _).2 ⟨ix, hxx, 0, hny, 0, rfl, by simp [nbr]⟩, ?_⟩
          simp only [cn ix hxx 0 hny 0, pt ix hxx 0 hny]
          rw [if_neg (by
            rw [Bool.and_eq_true, ch _ (dle 0 hny _)]
            simp [s0, dy]
            omega), if_pos (by
            rw [Bool.and_eq_true, cl _ (dle 0 hny _), cl _ (dle 0 hny _)]
            simp [s0, dy]), s0]
          rfl) (by
      refine (List.perm_ext_iff_of_nodup ?_ ?_).2 ?_
      · unfold highSide
        refine List.Nodup.filterMap ?_ (bnd_nodup hp)
        intro a b x ha hb
        simp only at ha hb
        split_ifs at ha hb <;> simp at ha hb
        rw [← hb] at ha
        exact (Prod.mk.inj ha).1
      · refine List.Nodup.map_on ?_ List.nodup_range
        intro x hx y hy h
        have h' := (Prod.mk.inj h).1
        exact (cI_inj (nx := nx) (List.mem_range.1 hx) (List.mem_range.1 hy) (by omega : cI nx x (ny - 1) = cI nx y (ny - 1))).1
      · intro x
        unfold highSide
        rw [List.mem_filterMap, List.mem_map]
        constructor
        · rintro ⟨he, hm, hx⟩
          obtain ⟨ix, hxx, iy, hyy, s, rfl, hnb⟩ := (bnd_mem htw hp he).1 hm
          simp only [cn ix hxx iy hyy s, pt ix hxx iy hyy] at hx
          split_ifs at hx with q1
          simp only [Bool.and_eq_true, ch _ (dle iy hyy _)] at q1
          have e : s = 2 := by
            have b1 := dy_le s
            have b2 := dy_le (s + 1)
            have : dy (s + 1) = 1 ∧ dy s = 1 := by omega
            clear hx q1 hm cn pt b1 b2 hnb
            revert s; decide
          subst e
          rw [s2] at q1
          have e0 : iy = ny - 1 := by simp only [dy] at q1; omega
          subst e0
          refine ⟨ix, List.mem_range.2 hxx, ?_⟩
          rw [← Option.some.inj hx, s2]
          rfl
        · rintro ⟨ix, hxx, rfl⟩
          have hxx := List.mem_range.1 hxx
          have hl : ny - 1 < ny := by omega
          have hl1 : ny - 1 + 1 = ny := by omega
          refine ⟨4 * cI nx ix (ny - 1) + ((2 : Fin 4) : Nat), (bnd_mem htw hp _).2 ⟨ix, hxx, ny - 1, hl, 2, rfl, by simp [nbr, hl1]⟩, ?_⟩
          simp only [cn ix hxx (ny - 1) hl 2, pt ix hxx (ny - 1) hl]
          rw [if_pos (by
            rw [Bool.and_eq_true, ch _ (dle (ny - 1) hl _), ch _ (dle (ny - 1) hl _)]
            simp [s2, dy, hl1]), s2]
          rfl)
    (fun t t' ht ht' h => (cI_inj (nx := nx) ht ht' (by omega : cI nx t 0 = cI nx t' 0)).1)
    (fun t t' ht ht' h => (cI_inj (nx := nx) ht ht' (by omega : cI nx t (ny - 1) = cI nx t' (ny - 1))).1)
    (fun t t' _ _ => by omega)
    (fun t t' ht ht' => ⟨by show close _ _ = true ↔ _; rw [hcx (t' + 1) (t + 1) (by omega) (by omega)]; omega, (hcx t' t ht'.le ht.le).trans eq_comm⟩)
    (fun t ht => by
      have := htw.1 t ht 0 hny 0
      simp only [nbr] at this
      exact this)
    (fun t ht => by
      have := htw.1 t ht (ny - 1) (by omega) 2
      simp only [nbr, show ny - 1 + 1 = ny by omega] at this
      exact this) htw.invol
  refine ⟨tw', pairSides_loop h1, ?_, ?_⟩
  · intro ix hx iy hy s
    by_cases e3 : s = 0 ∧ iy = 0
    · obtain ⟨rfl, rfl⟩ := e3
      have := (h3 ix hx).1
      simp only [nbr]
      exact this
    · by_cases e1 : s = 2 ∧ iy + 1 = ny
      · obtain ⟨rfl, e1⟩ := e1
        have := (h3 ix hx).2
        have e : iy = ny - 1 := by omega
        subst e
        simp only [nbr, e1]
        exact this
      · have hn : nbr nx ny px true ix iy s = nbr nx ny px false ix iy s := by
          fin_cases s
          · have : ¬ iy = 0 := fun h => e3 ⟨rfl, h⟩
            show nbr nx ny px true ix iy 0 = nbr nx ny px false ix iy 0
            simp [nbr, this]
          · rfl
          · have : ¬ iy + 1 = ny := fun h => e1 ⟨rfl, h⟩
            show nbr nx ny px true ix iy 2 = nbr nx ny px false ix iy 2
            simp [nbr, this]
          · rfl
        rw [hn, ← htw.1 ix hx iy hy s]
        refine h4 _ ?_
        intro t ht
        have a3 := s.2
        constructor
        · intro h
          have q1 : (s : Nat) = 0 := by omega
          exact e3 ⟨Fin.ext q1, (cI_inj (nx := nx) hx ht (by omega : cI nx ix iy = cI nx t 0)).2⟩
        · intro h
          have q1 : (s : Nat) = 2 := by omega
          have := (cI_inj (nx := nx) hx ht (by omega : cI nx ix iy = cI nx t (ny - 1))).2
          exact e1 ⟨Fin.ext q1, by omega⟩
  · intro k hk
    rw [← htw.2 k hk]
    refine h4 k ?_
    intro t ht
    have l1 := cI_lt (nx := nx) (ny := ny) (ix := t) ht hny
    have l2 := cI_lt (nx := nx) (ny := ny) (ix := t) (iy := ny - 1) ht (by omega)
    omega

/-- The base of `Mesh2D(dcel)` (mesh.py 7026-7071) for a rectangular grid with the table `tw` of twins. -/
def perBase (nx ny : Nat) (tw : Nat → Int) : Base K :=
  { Phys.gridBase xmin xmax ymin ymax nx ny with T := fun k => if tw k = -1 then none else some (tw k).toNat }

theorem perBase_grid {px py : Bool} {tw : Nat → Int} (h : TwOk nx ny px py tw) :
    IsGrid (perBase xmin xmax ymin ymax nx ny tw) nx ny px py := by
  refine ⟨Phys.grid_len nx ny, ?_, ?_, ?_, ?_⟩
  · intro ix hx iy hy s
    show (Dcel.conn _ _).1 = _
    rw [grid_conn hx hy s]
  · intro ix hx iy hy s
    show (Dcel.conn _ _).2 = _
    rw [grid_conn hx hy s]
  · intro ix hx iy hy s
    show (if tw _ = -1 then none else some (tw _).toNat) = _
    rw [h.1 ix hx iy hy s]
    rcases nbr nx ny px py ix iy s with _ | q
    · simp
    · simp only [Option.map_some]
      rw [if_neg (by omega), Int.toNat_natCast]
  · intro k hk
    show (if tw _ = -1 then none else some (tw _).toNat) = _
    rw [h.2 k (by rw [show (perBase xmin xmax ymin ymax nx ny tw).n = nx * ny from Phys.grid_len nx ny] at hk; exact hk)]
    simp

end

end Verif.Per
