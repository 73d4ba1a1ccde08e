import Verif.Per.GridProps

/-!
# Periodic meshes: a mesh that meets the hypotheses, and two that do not: C51, C80
-/

namespace Verif.Per
open Verif.Fem Verif.Mesh Verif.Dof Verif.Geom Verif.Quad

/-- A grid by formulas. -/
def gB (nx ny : Nat) (px py : Bool) : Base ℚ where
  n := nx * ny
  b := fun k => Dcel.gidx nx (k / 4 % nx + dx (Fin.ofNat 4 k)) (k / 4 / nx + dy (Fin.ofNat 4 k))
  hd := fun k => Dcel.gidx nx (k / 4 % nx + dx (Fin.ofNat 4 k + 1)) (k / 4 / nx + dy (Fin.ofNat 4 k + 1))
  T := fun k => if k < 4 * (nx * ny) then
      (nbr nx ny px py (k / 4 % nx) (k / 4 / nx) (Fin.ofNat 4 k)).map (fun q => 4 * cI nx q.1 q.2 + ((Fin.ofNat 4 k + 2 : Fin 4) : Nat))
    else none
  xy := fun v => ⟨(v % (nx + 1) : Nat), (v / (nx + 1) : Nat)⟩

theorem gB_grid (nx ny : Nat) (px py : Bool) : IsGrid (gB nx ny px py) nx ny px py := by
  have key : ∀ ix < nx, ∀ iy < ny, ∀ s : Fin 4, (4 * cI nx ix iy + (s : Nat)) / 4 % nx = ix ∧ (4 * cI nx ix iy + (s : Nat)) / 4 / nx = iy ∧
      Fin.ofNat 4 (4 * cI nx ix iy + (s : Nat)) = s ∧ 4 * cI nx ix iy + (s : Nat) < 4 * (nx * ny) := by
    intro ix hx iy hy s
    have hs := s.2
    have hl := cI_lt hx hy
    rw [show (4 * cI nx ix iy + (s : Nat)) / 4 = cI nx ix iy by omega]
    exact ⟨cI_mod hx, cI_div hx, Fin.ext (by simp), by omega⟩
  refine ⟨rfl, ?_, ?_, ?_, ?_⟩
  · intro ix hx iy hy s
    obtain ⟨h1, h2, h3, _⟩ := key ix hx iy hy s
    simp only [gB, h1, h2, h3]
  · intro ix hx iy hy s
    obtain ⟨h1, h2, h3, _⟩ := key ix hx iy hy s
    simp only [gB, h1, h2, h3]
  · intro ix hx iy hy s
    obtain ⟨h1, h2, h3, h4⟩ := key ix hx iy hy s
    simp only [gB, h1, h2, h3]
    rw [if_pos h4]
  · intro k hk
    exact if_neg (by exact not_lt.2 hk)

/-! ### Tables of pairs -/

/-- A table of pairs. -/
abbrev Tab := List (VN × List (CN × VN))

def toP (t : Tab) : Pairs := fun v => (t.lookup v).getD []

def setT (t : Tab) (v : VN) (l : List (CN × VN)) : Tab := (v, l) :: t.filter (fun e => decide (e.1 ≠ v))

theorem lookup_filter (t : Tab) {u v : VN} (h : u ≠ v) : (t.filter (fun e => decide (e.1 ≠ v))).lookup u = t.lookup u := by
  induction t with
  | nil => rfl
  | cons a t ih =>
    rw [List.filter_cons]
    split_ifs with h1
    · rw [List.lookup_cons, List.lookup_cons, ih]
    · have e : a.1 = v := by simpa using h1
      rw [ih, List.lookup_cons]
      have : (u == a.1) = false := by rw [beq_eq_false_iff_ne, e]; exact h
      rw [this]

theorem toP_setT (t : Tab) (v : VN) (l : List (CN × VN)) : toP (setT t v l) = Function.update (toP t) v l := by
  funext u
  by_cases h : u = v
  · subst h
    simp [toP, setT]
  · rw [Function.update_of_ne h]
    unfold toP setT
    have : (u == v) = false := by rw [beq_eq_false_iff_ne]; exact h
    rw [List.lookup_cons, this]
    simp only
    rw [lookup_filter t h]

def setPairT (t : Tab) (v : VN) (x : CN × VN) : Tab := setT t v (((toP t x.2) ++ [x]).foldl addPair (toP t v))

theorem setPairT_ok (t : Tab) (v : VN) (x : CN × VN) : SetPair (toP t) v x (toP (setPairT t v x)) :=
  ⟨toP t x.2 ++ [x], by intro y; simp, toP_setT _ _ _⟩

def pairVtxT (t : Tab) (c : CN) (v : VN) (d : CN) (w : VN) : Tab :=
  setPairT (setPairT (setPairT (setPairT t v (c, v)) w (d, w)) v (d, w)) w (c, v)

theorem pairVtxT_ok (t : Tab) (c : CN) (v : VN) (d : CN) (w : VN) : PairVtx (toP t) c v d w (toP (pairVtxT t c v d w)) :=
  ⟨_, _, _, setPairT_ok _ _ _, setPairT_ok _ _ _, setPairT_ok _ _ _, setPairT_ok _ _ _⟩

def pairEdgeT (s : St ℚ) (h : HN) (t : Tab) : Option Tab :=
  match s.he h with
  | none => none
  | some r =>
    if r.per then
      match r.twin with
      | none => some t
      | some k =>
        match s.he k with
        | none => none
        | some q =>
          match r.cell, q.cell with
          | some c, some d => some (pairVtxT (pairVtxT t c r.base d q.head) c r.head d q.base)
          | _, _ => none
    else some t

theorem pairEdgeT_ok {s : St ℚ} {h : HN} {t t' : Tab} (he : pairEdgeT s h t = some t') : PairEdge s h (toP t) (toP t') := by
  unfold pairEdgeT at he
  unfold PairEdge
  rcases h1 : s.he h with _ | r
  · rw [h1] at he; cases he
  · rw [h1] at he
    simp only at he ⊢
    split_ifs at he ⊢ with hp
    · rcases h2 : r.twin with _ | k
      · rw [h2] at he; cases he; rfl
      · rw [h2] at he
        simp only at he ⊢
        rcases h3 : s.he k with _ | q
        · rw [h3] at he; cases he
        · rw [h3] at he
          simp only at he ⊢
          rcases h4 : r.cell with _ | c
          · rw [h4] at he; cases he
          · rcases h5 : q.cell with _ | d
            · rw [h4, h5] at he; cases he
            · rw [h4, h5] at he
              cases he
              exact ⟨_, pairVtxT_ok _ _ _ _ _, pairVtxT_ok _ _ _ _ _⟩
    · cases he; rfl

theorem pairAllT_ok {s : St ℚ} : ∀ {l : List HN} {t t' : Tab}, l.foldlM (fun t h => pairEdgeT s h t) t = some t' →
    PairAll s l (toP t) (toP t') := by
  intro l
  induction l with
  | nil => intro t t' h; cases h; rfl
  | cons a l ih =>
    intro t t' h
    rw [List.foldlM_cons] at h
    obtain ⟨t1, h1, h2⟩ := Option.bind_eq_some_iff.1 h
    exact ⟨_, pairEdgeT_ok h1, ih h2⟩

def initT (B : Base ℚ) : Option Tab := ((List.range (4 * B.n)).map HN.root).foldlM (fun t h => pairEdgeT (init B) h t) []

theorem initT_reach {B : Base ℚ} {t : Tab} (h : initT B = some t) : PReach B (init B) (toP t) := .init _ (pairAllT_ok h)

/-! ### The 2 by 2 torus with a refined cell -/

def tor : Base ℚ := gB 2 2 true true

theorem tor_wf : tor.WF := (gB_grid 2 2 true true).wf

theorem tor_ok : PerOk tor := grid_perOk (gB_grid 2 2 true true) (fun _ => le_refl _) (fun _ => le_refl _)

/-- The state after splitting `c`. -/
def spl (s : St ℚ) (c : CN) : St ℚ := match cellSplit false s c with | .ok s' => s' | .error _ => s

def isOk {α β : Type} : Except α β → Bool | .ok _ => true | .error _ => false

theorem spl_ok {s : St ℚ} {c : CN} (h : isOk (cellSplit false s c) = true) : cellSplit false s c = .ok (spl s c) := by
  unfold spl
  rcases he : cellSplit false s c with _ | s'
  · rw [he] at h; cases h
  · rfl

def tor1 : St ℚ := spl (init tor) (0, [])

/-- The hypotheses of the theorems C80 are met: on the 2 by 2 torus with one cell refined quadratic elements are distributed, all
cells have dofs. -/
theorem tor_uses (e : ET) : ∃ pr D, PFixed tor e tor1 pr D ∧ (0, [2]) ∈ tor1.cells ∧ (∀ c ∈ tor1.cells, ∀ p < nd2 e, val D c p ≠ none) := by
  have h1 : (initT tor).isSome = true := by decide +kernel
  obtain ⟨t, ht⟩ := Option.isSome_iff_exists.1 h1
  have h2 : isOk (cellSplit false (init tor) (0, [])) = true := by decide +kernel
  have hu : PUses tor e (init tor) (toP t) DH.new := .new _ _ (initT_reach ht)
  obtain ⟨s', pr', h3, h4⟩ := C80_pairs tor_wf tor_ok hu (0, []) (by decide +kernel) (by decide +kernel) false
  have hs : s' = tor1 := by
    have := spl_ok h2
    rw [h3] at this
    exact Except.ok.inj this
  subst hs
  have hb : isBalanced false tor1 = true := by decide +kernel
  obtain ⟨D, hD⟩ := C80_terminates tor_wf tor_ok h4 hb false (4 * tor1.cells.length) (le_refl _)
  have hr : ∀ {s : St ℚ} {pr : Pairs} {D : DH}, PUses tor e s pr D → PReach tor s pr := by
    intro s pr D h
    induction h with
    | new s pr h => exact h
    | split s s' pr pr' D c sf _ a b c d ih => exact .split _ _ _ _ _ _ ih a b c d
    | mark s pr D m _ ih => exact .mark _ _ _ ih
    | perm s pr pr' D _ a ih => exact .perm _ _ _ ih a
    | dist s pr D D' sf n _ _ _ _ ih => exact ih
  refine ⟨pr', D, ?_, by decide +kernel, ?_⟩
  · have : PUses tor e tor1 pr' DH.new := h4
    exact .dist _ _ _ _ false _ (.new _ _ (hr h4)) (.inl rfl) (le_refl _) hD
  · intro c hc p hp
    obtain ⟨a, ha⟩ := C80_complete tor_wf tor_ok h4 false _ (le_refl _) hD c hc (.inl rfl) p hp
    rw [ha]; simp

/-- `make_periodic` on a 3 by 2 grid with exact comparison. -/
example : ∃ tw, makePeriodic (fun x y : ℚ => decide (x = y)) true true 0 3 0 2 (Dcel.gridPoints (0 : ℚ) 3 0 2 3 2)
    (Dcel.halfEdges (Dcel.gridFaces 3 2)) (Dcel.twin (Dcel.halfEdges (Dcel.gridFaces 3 2))) = .ok tw ∧ TwOk 3 2 true true tw :=
  C51_grid _ true true 0 3 0 2 (by decide) (by decide) (sees_eq (by norm_num) (by decide)) (sees_eq (by norm_num) (by decide))

example : ∃ pr D, PFixed tor .Q2 tor1 pr D ∧ (0, [2]) ∈ tor1.cells ∧ (∀ c ∈ tor1.cells, ∀ p < 9, val D c p ≠ none) := tor_uses .Q2

/-- For instance: the cells 0 and 1 share the dofs on the left side of the box and the right side of the box. -/
example : ∃ pr D, PFixed tor .Q2 tor1 pr D ∧ val D (0, []) 0 = val D (1, []) 1 ∧ val D (0, []) 7 = val D (1, []) 5 := by
  obtain ⟨pr, D, h, _, ha⟩ := tor_uses .Q2
  obtain ⟨r, h1, h2⟩ : ∃ r, tor1.he (tor1.sides (0, []) 3) = some r ∧ r.twin = some (tor1.sides (1, []) 1) := by
    have : (tor1.he (tor1.sides (0, []) 3)).bind (·.twin) = some (tor1.sides (1, []) 1) := by decide +kernel
    exact Option.bind_eq_some_iff.1 this
  have h0 : (0, []) ∈ tor1.cells := by decide +kernel
  have h1' : (1, []) ∈ tor1.cells := by decide +kernel
  obtain ⟨a, b, c⟩ := C80_neighbors tor_wf tor_ok rfl h (0, []) (1, []) h0 3 1 r h1 h1' h2 (ha _ h0) (ha _ h1')
  exact ⟨pr, D, h, b, c 0 (by decide)⟩

/-! ### One cell in a periodic direction -/

/-- The 2 by 1 torus and its pairs. -/
def nar : Base ℚ := gB 2 1 true true

def narP : Pairs := toP ((initT nar).getD [])

theorem nar_reach : PReach nar (init nar) narP := by
  have h1 : (initT nar).isSome = true := by decide +kernel
  obtain ⟨t, ht⟩ := Option.isSome_iff_exists.1 h1
  unfold narP
  rw [ht]
  exact initT_reach ht

theorem nar_walk : ∀ n, walkP (init nar) narP (0, []) false n (1, []) (.root 2) = none := by
  have e1 : piv narP (.root 2) (1, []) = .root 2 := by decide +kernel
  have e2 : (incident (init nar) (1, []) (.root 2) false).bind (getNb false (init nar)) = some (1, []) := by decide +kernel
  intro n
  induction n with
  | zero => rfl
  | succ n ih =>
    unfold walkP
    rw [e2]
    simp only
    rw [if_neg (by decide), e1, ih]
    rfl

theorem nar_nbs : ∀ n, nbsP (init nar) narP n (0, []) (.root 0) = none := by
  intro n
  have : walkP (init nar) narP (0, []) false n (0, []) (.root 0) = none := by
    cases n with
    | zero => rfl
    | succ n =>
      unfold walkP
      have e2 : (incident (init nar) (0, []) (.root 0) false).bind (getNb false (init nar)) = some (1, []) := by decide +kernel
      have e1 : piv narP (.root 0) (1, []) = .root 2 := by decide +kernel
      rw [e2]
      simp only
      rw [if_neg (by decide), e1, nar_walk n]
      rfl
  unfold nbsP
  rw [this]

theorem nar_cells (n : Nat) : cellsBF false nar.n (init nar) n = none ∨ cellsBF false nar.n (init nar) n = some [(0, []), (1, [])] := by
  match n with
  | 0 => left; rfl
  | 1 => left; rfl
  | 2 => right; rfl
  | n + 3 => right; rfl

/-- C80 fails with one cell in a periodic direction: on the 2 by 1 torus the walk about a vertex never ends, hence
`distribute_dofs` does not return. -/
theorem C80_narrow_violated : ∃ (B : Base ℚ) (s : St ℚ) (pr : Pairs), IsGrid B 2 1 true true ∧ PReach B s pr ∧ isBalanced false s = true ∧
    (∀ n, nbsP s pr n (0, []) (.root 0) = none) ∧ ∀ n, distP false B.n s pr .Q1 n DH.new = none := by
  refine ⟨nar, init nar, narP, gB_grid 2 1 true true, nar_reach, by decide +kernel, nar_nbs, ?_⟩
  intro n
  have hp : processP false (init nar) narP .Q1 n DH.new (0, []) = none := by
    have h1 : ((fillP (init nar) narP .Q1 DH.new (0, [])).bind (fun D => D.dofs (0, []))) = some [some 0, some 1, some 1, some 0] := by
      decide +kernel
    obtain ⟨D1, h2, h3⟩ := Option.bind_eq_some_iff.1 h1
    unfold processP
    rw [h2]
    have h4 : shareVP (init nar) narP .Q1 n (0, []) D1.dofs 0 = none := by
      unfold shareVP
      have e1 : baseOf (init nar) ((init nar).sides (0, []) 0) = some (.root 0) := by decide +kernel
      have e2 : vIdx (init nar) (0, []) (.root 0) = some 0 := by decide +kernel
      rw [e1, h3]
      simp only
      rw [e2]
      simp only
      rw [if_neg (by decide), nar_nbs n]
    have h5 : shareNP (init nar) narP .Q1 n (0, []) D1.dofs = none := by
      unfold shareNP four
      rw [List.foldlM_cons, h4]
      rfl
    simp only [Option.bind_some, h5]
    rfl
  unfold distP
  rcases nar_cells n with h | h
  · rw [h]; rfl
  · rw [h]
    simp only [Option.bind_some]
    split_ifs
    · rw [List.foldlM_cons, hp]; rfl
    · rfl

/-- The 1 by 1 torus and its pairs. -/
def sin : Base ℚ := gB 1 1 true true

def sinP : Pairs := toP ((initT sin).getD [])

/-- C80 fails on the 1 by 1 torus: for cubic elements dofs up to 8 are used, but `n_dofs` is 7. -/
theorem C80_single_violated : ∃ (B : Base ℚ) (s : St ℚ) (pr : Pairs) (D : DH), IsGrid B 1 1 true true ∧ PFixed B .Q3 s pr D ∧
    D.count = 7 ∧ val D (0, []) 15 = some 8 := by
  have h1 : ((distP false sin.n (init sin) sinP .Q3 40 DH.new).map (fun D => (D.count, val D (0, []) 15))) = some (7, some 8) := by
    decide +kernel
  obtain ⟨D, h2, h3⟩ := Option.map_eq_some_iff.1 h1
  obtain ⟨h4, h5⟩ := Prod.mk.inj h3
  refine ⟨sin, init sin, sinP, D, gB_grid 1 1 true true, ?_, h4, h5⟩
  refine .dist _ _ _ _ false 40 (.new _ _ ?_) (.inl rfl) (by decide +kernel) h2
  have h1 : (initT sin).isSome = true := by decide +kernel
  obtain ⟨t, ht⟩ := Option.isSome_iff_exists.1 h1
  unfold sinP
  rw [ht]
  exact initT_reach ht

/-! ### The number of half-edges is not compared in the second direction -/

/-- C51 fails in the second direction: a triangle on the bottom of the box is accepted, although its bottom half-edge has no
partner; the half-edge gets no twin. -/
theorem C51_bottom_violated : ∃ (pts : List (Pt ℚ)) (fs : List (List Nat)), Dcel.Oriented fs ∧
    Dcel.conn (Dcel.halfEdges fs) 0 = (0, 1) ∧ ptAt pts 0 = ⟨0, 0⟩ ∧ ptAt pts 1 = ⟨1, 0⟩ ∧
    match makePeriodic (fun x y : ℚ => decide (x = y)) false true 0 1 0 1 pts (Dcel.halfEdges fs) (Dcel.twin (Dcel.halfEdges fs)) with
    | .ok tw => tw 0 = -1
    | .error _ => False := by
  refine ⟨[⟨0, 0⟩, ⟨1, 0⟩, ⟨1 / 2, 1⟩], [[0, 1, 2]], Dcel.oriented_of _ (by decide) (by decide) (by decide), by decide +kernel,
    by decide +kernel, by decide +kernel, ?_⟩
  have : (match makePeriodic (fun x y : ℚ => decide (x = y)) false true 0 1 0 1 [⟨0, 0⟩, ⟨1, 0⟩, ⟨1 / 2, 1⟩] (Dcel.halfEdges [[0, 1, 2]])
      (Dcel.twin (Dcel.halfEdges [[0, 1, 2]])) with
    | .ok tw => some (tw 0)
    | .error _ => none) = some (-1) := by decide +kernel
  split at this
  · simpa using this
  · cases this

end Verif.Per
