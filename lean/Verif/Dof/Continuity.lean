import Verif.Dof.Meet

/-!
# C62: the hanging node constraints describe exactly the continuous functions
-/

namespace Verif.Dof
open Verif.Fem Verif.Mesh
open Verif.Linsys (Con Feasible)

/-! ### Specification -/

section spec
variable {K F : Type} [Field K] [Field F]

/-- A point with rational coordinates. -/
def castPt (F : Type) [Field F] (z : ℚ × ℚ) : F × F := ((z.1 : F), (z.2 : F))

/-- `get_cell_dofs(cell)[p]` as a number. -/
def dofAt (D : DH) (c : CN) (p : Nat) : Nat := (val D c p).getD 0

/-- The finite element function with dof values `U`, on the cell `c`, at the place `z` of its unit square. -/
def feFn (e : ET) (D : DH) (U : Nat → F) (c : CN) (z : F × F) : F := cellFn e (fun p => U (dofAt D c p)) z

/-- The finite element function is single-valued: where leaves of the (sub)mesh meet, they give the same value. -/
def Single [LinearOrder F] (B : Base K) (sf : Bool) (s : St K) (e : ET) (D : DH) (U : Nat → F) : Prop :=
  ∀ c ∈ leaves sf s, ∀ c' ∈ leaves sf s, ∀ z z' : F × F, InSq z → InSq z' → SamePt B (rootPt c z) (rootPt c' z') →
    feFn e D U c z = feFn e D U c' z'

/-- The situation after `distribute_dofs(flag)` on a balanced (sub)mesh: all cells of the (sub)mesh have their dofs. -/
structure Ready (B : Base K) (e : ET) (sf : Bool) (s : St K) (D : DH) : Prop where
  uses : UsesFixed B e s D
  flag : sf = false ∨ RootedFlag B s
  bal : isBalanced sf s = true
  full : ∀ c ∈ s.cells, sf = false ∨ s.mkd c = true → ∀ p < nd2 e, val D c p ≠ none

/-- What the theorems below need of the mesh: a balanced (sub)mesh all of whose cells have their dofs. -/
structure RdyF (B : Base K) (e : ET) (sf : Bool) (s : St K) (D : DH) : Prop where
  inv : CInv B s
  flag : sf = false ∨ RootedFlag B s
  bal : isBalanced sf s = true
  full : ∀ c ∈ s.cells, sf = false ∨ s.mkd c = true → ∀ p < nd2 e, val D c p ≠ none

/-- What they need of the numbering: two dofs are equal exactly if their nodes are the same point of the domain.
`Ready.rdy` (and `PReady.rdy` for periodic meshes) show it. -/
structure Rdy (B : Base K) (e : ET) (sf : Bool) (s : St K) (D : DH) : Prop extends RdyF B e sf s D where
  shared : ∀ (c c' : CN) (p p' a a' : Nat), p < nd2 e → p' < nd2 e → val D c p = some a → val D c' p' = some a' →
    (a = a' ↔ SamePt B (rootPt c (node e p)) (rootPt c' (node e p')))
  lt : ∀ (c : CN) (p a : Nat), p < nd2 e → val D c p = some a → a < D.count

end spec

/-! ### The function on a cell -/

section
variable {K F : Type} [Field K] [Field F] [LinearOrder F] [IsStrictOrderedRing F] {B : Base K} {e : ET} {sf : Bool} {s : St K} {D : DH}

theorem castPt_E (i : Fin 4) (r : ℚ) : castPt F (E i r) = sidePt (i : Nat) (r : F) := by
  fin_cases i <;> simp [castPt, E, sidePt]

theorem sidePt_E (i : Fin 4) (r : F) : E i r = sidePt (i : Nat) r := by
  fin_cases i <;> simp [E, sidePt]

theorem castE (i : Fin 4) (r : ℚ) : castPt F (E i r) = E i (r : F) := by
  rw [castPt_E, sidePt_E]

theorem castPt_inj {z z' : ℚ × ℚ} (h : castPt F z = castPt F z') : z = z' := by
  simp only [castPt, Prod.mk.injEq, Rat.cast_inj] at h
  exact Prod.ext h.1 h.2

theorem castPt_emb (k : Fin 4) (z : ℚ × ℚ) : castPt F (emb k z) = emb k (castPt F z) := by
  fin_cases k <;> simp [castPt, emb]

theorem castPt_climb (p : List (Fin 4)) (z : ℚ × ℚ) : castPt F (climb p z) = climb p (castPt F z) := by
  induction p generalizing z with
  | nil => rfl
  | cons k p ih => simp only [climb]; rw [ih, castPt_emb]

/-- A rational point of an initial cell. -/
def castRoot (F : Type) [Field F] (x : Nat × (ℚ × ℚ)) : Nat × (F × F) := (x.1, castPt F x.2)

theorem castRoot_pt (c : CN) (z : ℚ × ℚ) : castRoot F (rootPt c z) = rootPt c (castPt F z) := by
  simp only [castRoot, rootPt, castPt_climb]

/-- Rational points: the same point over the rationals and over `F`. -/
theorem samePt_up (B : Base K) {x y : Nat × (ℚ × ℚ)} (h : SamePt B x y) : SamePt B (castRoot F x) (castRoot F y) := by
  induction h with
  | rel x y h =>
    obtain ⟨i, i', r, h0, h1, h2, h3, h4, h5, h6⟩ := h
    refine .rel _ _ ⟨i, i', (r : F), by exact_mod_cast h0, by exact_mod_cast h1, h2, h3, h4, ?_, ?_⟩
    · simp only [castRoot]; rw [h5, castE]
    · simp only [castRoot]; rw [h6, castE]; push_cast; rfl
  | refl x => exact .refl _
  | symm x y _ ih => exact .symm _ _ ih
  | trans x y z _ _ ih1 ih2 => exact .trans _ _ _ ih1 ih2

theorem E_rat (i : Fin 4) {r : F} {z : ℚ × ℚ} (h : castPt F z = E i r) : ∃ r' : ℚ, r = r' := by
  fin_cases i <;> simp only [castPt, E, Prod.mk.injEq] at h <;> obtain ⟨h1, h2⟩ := h
  · exact ⟨z.1, h1.symm⟩
  · exact ⟨z.2, h2.symm⟩
  · exact ⟨1 - z.1, by push_cast; linarith⟩
  · exact ⟨1 - z.2, by push_cast; linarith⟩

theorem samePt_rat (B : Base K) {X Y : Nat × (F × F)} (h : SamePt B X Y) :
    (∀ x, castRoot F x = X → ∃ y, castRoot F y = Y ∧ SamePt B x y) ∧
    (∀ y, castRoot F y = Y → ∃ x, castRoot F x = X ∧ SamePt B x y) := by
  induction h with
  | rel X Y h =>
    obtain ⟨i, i', r, h0, h1, h2, h3, h4, h5, h6⟩ := h
    constructor
    · rintro ⟨f, z⟩ rfl
      obtain ⟨r', rfl⟩ := E_rat i h5
      refine ⟨(Y.1, E i' (1 - r')), ?_, .rel _ _ ⟨i, i', r', by exact_mod_cast h0, by exact_mod_cast h1, h2, h3, h4, ?_, rfl⟩⟩
      · refine Prod.ext rfl ?_
        rw [h6]; simp only [castRoot]; rw [castE]; push_cast; rfl
      · exact castPt_inj (F := F) (by rw [castE]; exact h5)
    · rintro ⟨f, z⟩ rfl
      obtain ⟨r', hr'⟩ := E_rat i' h6
      obtain rfl : r = ((1 - r' : ℚ) : F) := by push_cast; linarith
      refine ⟨(X.1, E i (1 - r')), ?_, .rel _ _ ⟨i, i', 1 - r', by exact_mod_cast h0, by exact_mod_cast h1, h2, h3, h4, rfl, ?_⟩⟩
      · refine Prod.ext rfl ?_
        rw [h5]; simp only [castRoot]; rw [castE]
      · refine castPt_inj (F := F) ?_
        rw [castE]
        refine Eq.trans h6 ?_
        push_cast; rfl
  | refl x => exact ⟨fun x h => ⟨x, h, .refl _⟩, fun x h => ⟨x, h, .refl _⟩⟩
  | symm x y _ ih =>
    constructor
    · intro y hy; obtain ⟨x, h1, h2⟩ := ih.2 y hy; exact ⟨x, h1, .symm _ _ h2⟩
    · intro y hy; obtain ⟨x, h1, h2⟩ := ih.1 y hy; exact ⟨x, h1, .symm _ _ h2⟩
  | trans x y z _ _ ih1 ih2 =>
    constructor
    · intro a ha
      obtain ⟨b, h1, h2⟩ := ih1.1 a ha
      obtain ⟨c, h3, h4⟩ := ih2.1 b h1
      exact ⟨c, h3, .trans _ _ _ h2 h4⟩
    · intro a ha
      obtain ⟨b, h1, h2⟩ := ih2.2 a ha
      obtain ⟨c, h3, h4⟩ := ih1.2 b h1
      exact ⟨c, h3, .trans _ _ _ h4 h2⟩

theorem samePt_down (B : Base K) {x y : Nat × (ℚ × ℚ)} (h : SamePt B (castRoot F x) (castRoot F y)) : SamePt B x y := by
  obtain ⟨y', h1, h2⟩ := (samePt_rat B h).1 x rfl
  have : y' = y := by
    simp only [castRoot, Prod.mk.injEq] at h1
    exact Prod.ext h1.1 (castPt_inj h1.2)
  rwa [this] at h2

theorem insq_cast {z : ℚ × ℚ} (h : InSq z) : InSq (castPt F z) := by
  obtain ⟨h1, h2, h3, h4⟩ := h
  simp only [InSq, castPt]
  exact ⟨by exact_mod_cast h1, by exact_mod_cast h2, by exact_mod_cast h3, by exact_mod_cast h4⟩

theorem sideT_cast (he : torn e = false) (m : Nat) : (sideT e : List F).getD m 0 = (((sideT e : List ℚ).getD m 0 : ℚ) : F) := by
  have : (sideT e : List F) = (sideT e : List ℚ).map (fun x : ℚ => (x : F)) := by
    cases e <;> simp [torn] at he <;> simp [sideT, dpe2, List.range_succ] <;> norm_num
  rw [this, List.getD_eq_getElem?_getD, List.getD_eq_getElem?_getD, List.getElem?_map]
  cases (sideT e : List ℚ)[m]? <;> simp

theorem nodes2_cast (e : ET) : (nodes2 e : List (F × F)) = (nodes2 e : List (ℚ × ℚ)).map (castPt F) := by
  rw [nodes2_eq, nodes2_eq]
  cases e <;> simp [bi2, xi, castPt]

theorem cellFn_node (U : Nat → F) (p : Nat) (hp : p < nd2 e) : cellFn e U (castPt F (node e p)) = U p := by
  have hl : (nodes2 e : List (ℚ × ℚ)).length = nd2 e := (C28_node_count e).2
  have h1 : (nodes2 e : List (F × F))[p]? = some (castPt F (node e p)) := by
    rw [nodes2_cast, List.getElem?_map, node, List.getD_eq_getElem?_getD, List.getElem?_eq_getElem (by omega)]
    rfl
  unfold cellFn interp2
  rw [sum_congr_range (g := fun n => U n * if p = n then 1 else 0)]
  · rw [sum_ite_eq _ _ hp, mul_one]
  · intro n hn
    rw [C28_nodal2 e n p hn hp _ h1]
    rfl

theorem CEx_lt {B : Base K} {s : St K} (hi : CInv B s) {c : CN} (hc : CEx B.n s.kids c) : c.1 < B.n := by
  obtain ⟨f, p⟩ := c
  exact CEx_par hi f p [] (by simpa using hc)

/-- Neighbours across a half-edge use the same dofs at its two ends, and the same dofs on the half-edge in opposite order. -/
theorem Rdy.neighbors (h : Rdy B e sf s D) (he : torn e = false) (c d : CN)
    (hc : c ∈ s.cells) (i j : Fin 4) (r : HERec) (hr : s.he (s.sides c i) = some r) (hd : d ∈ s.cells)
    (ht : r.twin = some (s.sides d j)) (hac : ∀ p < nd2 e, val D c p ≠ none) (had : ∀ p < nd2 e, val D d p ≠ none) :
    val D c i = val D d ((j + 1 : Fin 4) : Nat) ∧ val D c ((i + 1 : Fin 4) : Nat) = val D d j ∧
    ∀ m < dpe2 e, val D c (4 * dpv e + i * dpe2 e + m) = val D d (4 * dpv e + j * dpe2 e + (dpe2 e - 1 - m)) := by
  have hi := h.inv
  have hcx := (hi.mem c).1 hc
  have hdx := (hi.mem d).1 hd
  rw [hi.sides c hcx] at hr
  rw [hi.sides d hdx] at ht
  have hv := ((hi.hinv.tw _ r hr _).1 ht).1
  have key : ∀ (p q : Fin (nd2 e)) (ρ : ℚ), 0 ≤ ρ → ρ ≤ 1 → node e p = E i ρ → node e q = E j (1 - ρ) →
      val D c p = val D d q := by
    intro p q ρ h0 h1 e1 e2
    obtain ⟨a, ha⟩ := Option.ne_none_iff_exists'.1 (hac p p.2)
    obtain ⟨b, hb⟩ := Option.ne_none_iff_exists'.1 (had q q.2)
    rw [ha, hb]
    congr 1
    refine (h.shared c d p q a b p.2 q.2 ha hb).2 ?_
    exact PGlue.same _ _ _ _ _ _ (CEx_lt hi hcx) (CEx_lt hi hdx) ⟨i, j, ρ, h0, h1, hv, e1, e2⟩
  refine ⟨?_, ?_, ?_⟩
  · refine key (cpos e he i) (cpos e he (j + 1)) 0 (le_refl _) (by norm_num) (node_cpos e he i) ?_
    rw [node_cpos, ← E_next]
    exact congrArg (E j) (by norm_num)
  · refine key (cpos e he (i + 1)) (cpos e he j) 1 (by norm_num) (le_refl _) ?_ ?_
    · rw [node_cpos, E_next]
    · rw [node_cpos]
      exact congrArg (E j) (by norm_num)
  · intro m hm
    have hρ := epos_range (dpe2 e) ⟨m, hm⟩
    have := key (epos e i ⟨m, hm⟩) (epos e j (Fin.rev ⟨m, hm⟩)) _ hρ.1.le hρ.2.le (node_epos e i ⟨m, hm⟩) (by
      rw [node_epos, epos_flip])
    simp only [epos, Fin.val_rev] at this
    have e1 : dpe2 e - 1 - m = dpe2 e - (m + 1) := by omega
    rw [e1]
    exact this

/-- The same value across facing half-edges. -/
theorem glue_fn (hB : B.WF) (he : torn e = false) (hR : Rdy B e sf s D) (U : Nat → F) {c c' : CN}
    (hx : CEx B.n s.kids c) (hx' : CEx B.n s.kids c') (hf : ∀ p < nd2 e, val D c p ≠ none)
    (hf' : ∀ p < nd2 e, val D c' p ≠ none) {z z' : F × F} (h : PGlue B.T (c, z) (c', z')) :
    feFn e D U c z = feFn e D U c' z' := by
  have hi := hR.inv
  obtain ⟨i, j, r, r0, r1, hv, e1, e2⟩ := h
  simp only at hv e1 e2
  obtain ⟨q, hq⟩ := Option.isSome_iff_exists.1 ((hi.ex (side c i)).2 (by rw [owner_side]; exact hx))
  have ht := (hi.hinv.tw _ q hq _).2 ⟨hv, by rw [hi.ex, owner_side]; exact hx'⟩
  obtain ⟨n1, n2, n3⟩ := hR.neighbors he c c' ((hi.mem c).2 hx) i j q (by rw [hi.sides c hx]; exact hq)
    ((hi.mem c').2 hx') (by rw [hi.sides c' hx']; exact ht) hf hf'
  have hd := dpv_one he
  have hm : ∀ k : Fin 4, ((k + 1 : Fin 4) : Nat) = ((k : Nat) + 1) % 4 := by decide
  rw [hm] at n1 n2
  rw [hd] at n3
  simp only [mul_one] at n3
  unfold feFn
  rw [e1, e2, sidePt_E, sidePt_E]
  have := C31_conforming_continuous e (cont_of he) (i : Nat) (j : Nat) i.2 j.2 (fun p => U (dofAt D c p)) (fun p => U (dofAt D c' p))
    (by simp only [dofAt, n1]) (by simp only [dofAt, n2]) (by
      intro m hm'
      simp only [dofAt, n3 m hm']) r
  rw [← this]

/-! ### The constraints -/

/-- A constraint found by `set_hanging_nodes`: node `m` of half `b` of side `j` of the refined neighbour `P` is not
a node of `P`. -/
structure Hangs (B : Base K) (e : ET) (sf : Bool) (s : St K) (D : DH) (c : CN) (i : Fin 4) (P : CN) (j : Fin 4) (b : Bool) (m a : Nat) : Prop where
  side : Coarse B sf s c i P j
  lt : m < dpe2 e + 2
  new : ∀ p : Fin (nd2 e), node e p ≠ E j (halfT e b m)
  dof : val D (child P (halfCell j b)) ((sideDofs e j).getD m 0) = some a

/-- The constraint itself. -/
def conOf (F : Type) [Field F] (e : ET) (D : DH) (P : CN) (j : Fin 4) (t : ℚ) (a : Nat) : Con F :=
  ⟨a, (sideDofs e j).map (fun n => (dofAt D P n, Fem.val (phi2 e n (castPt F (E j t))))), 0⟩

theorem allSome_some {α : Type} (l : List (Option α)) (r : List α) : allSome l = some r ↔ l = r.map some := by
  induction l generalizing r with
  | nil => cases r <;> simp [allSome]
  | cons x l ih =>
    cases x with
    | none => cases r <;> simp [allSome]
    | some a =>
      cases r with
      | nil => simp [allSome]
      | cons b r =>
        simp only [allSome, Option.map_eq_some_iff, List.map_cons, List.cons.injEq, Option.some.injEq]
        constructor
        · rintro ⟨r', h1, rfl, rfl⟩
          exact ⟨rfl, (ih _).1 h1⟩
        · rintro ⟨rfl, h⟩
          exact ⟨r, (ih r).2 h, rfl, rfl⟩

theorem sideDofs_mem_lt (he : torn e = false) (j : Fin 4) (n : Nat) (hn : n ∈ sideDofs e j) : n < nd2 e := by
  obtain ⟨k, hk, h⟩ := List.mem_iff_getElem.1 hn
  rw [sideDofs_len] at hk
  have := (side_node e he j k hk).1
  rw [List.getD_eq_getElem?_getD, List.getElem?_eq_getElem (by rw [sideDofs_len]; exact hk)] at this
  simp only [Option.getD_some] at this
  rwa [h] at this

theorem val_row {c : CN} {row : List (Option Nat)} (h : D.dofs c = some row) (p : Nat) : val D c p = row.getD p none := by
  simp [val, h]

theorem supps_eq (he : torn e = false) {P : CN} {row : List (Option Nat)} (hrow : D.dofs P = some row)
    (hf : ∀ p < nd2 e, val D P p ≠ none) (j : Fin 4) (v : Nat) (t : ℚ) (hv : xy (rcell e).vs v = E j t) :
    allSome ((suppPos e j).map (suppAt e row v)) =
      some ((sideDofs e j).map (fun n => (dofAt D P n, Fem.val (phi2 e n (castPt F (E j t)))))) := by
  rw [supp_tab e he, allSome_some, List.map_map]
  refine List.map_congr_left (fun n hn => ?_)
  have hlt := sideDofs_mem_lt he j n hn
  obtain ⟨a, ha⟩ := Option.ne_none_iff_exists'.1 (hf n hlt)
  have h2 := ha
  rw [val_row hrow] at ha
  unfold suppAt
  rw [hv]
  obtain ⟨y, hy⟩ := (C28_defined2 e n hlt (castPt F (E j t))).1
  have hy' : phi2 e n (((E j t).1 : F), ((E j t).2 : F)) = .ok y := hy
  rw [ha, hy']
  simp [dofAt, h2, hy, Fem.val]

theorem RdyF.val (h : RdyF B e sf s D) {c : CN} (hx : CEx B.n s.kids c) (hs : Sub sf s c) :
    ∀ p < nd2 e, val D c p ≠ none :=
  h.full c ((h.inv.mem c).2 hx) hs

theorem Ready.val (h : Ready B e sf s D) (hB : B.WF) {c : CN} (hx : CEx B.n s.kids c) (hs : Sub sf s c) :
    ∀ p < nd2 e, val D c p ≠ none :=
  h.full c (((h.uses.uses.reach.inv hB).mem c).2 hx) hs

theorem dofs_some (he : torn e = false) {c : CN} (hf : ∀ p < nd2 e, Dof.val D c p ≠ none) : ∃ row, D.dofs c = some row := by
  have h0 : 0 < nd2 e := by have := dpv_one he; unfold nd2; omega
  have := hf 0 h0
  unfold Dof.val at this
  rcases h : D.dofs c with _ | row
  · rw [h] at this; simp at this
  · exact ⟨row, rfl⟩

/-- What `conAt` returns. -/
theorem conAt_iff (hB : B.WF) (he : torn e = false) (hR : RdyF B e sf s D) {c P : CN} {i j : Fin 4}
    (hco : Coarse B sf s c i P j) {row : List (Option Nat)} (hrow : D.dofs P = some row) (b : Bool) (m : Nat)
    (hm : m < dpe2 e + 2) (x : Con F) : conAt s e D row (side P j) j b ((fineV e j b).getD m 0) = some x ↔
      ∃ a, Dof.val D (child P (halfCell j b)) ((sideDofs e j).getD m 0) = some a ∧ x = conOf F e D P j (halfT e b m) a := by
  have hi := hR.inv
  obtain ⟨t1, t2, -, -, -⟩ := fine_tab e he j b m hm
  have hk : CEx B.n s.kids (child P (halfCell j b)) := hasCh_kids hco.kids
  obtain ⟨q, hq⟩ := Option.isSome_iff_exists.1 ((hi.ex (.kid (side P j) b)).2 (by rw [owner_half]; exact hk))
  have hc := hi.cell _ q hq
  rw [owner_half] at hc
  simp only at hc
  unfold conAt
  rw [hq]
  simp only [Option.bind_some, hc, t2, supps_eq (F := F) he hrow (hR.val hco.ex hco.sub) j _ _ t1]
  rcases hd : D.dofs (child P (halfCell j b)) with _ | r
  · simp only [reduceCtorEq, false_iff, not_exists, not_and]
    intro a ha
    simp [Dof.val, hd] at ha
  · rw [val_row hd]
    simp only
    generalize r.getD ((sideDofs e j).getD m 0) none = o
    cases o with
    | none => simp
    | some a =>
      simp only [Option.some.injEq]
      constructor
      · intro h; exact ⟨a, rfl, h.symm⟩
      · rintro ⟨a', rfl, rfl⟩; rfl

/-- What is found at one side. -/
theorem sideCons_iff (hB : B.WF) (he : torn e = false) (hR : RdyF B e sf s D) {c : CN} (hc : c ∈ leaves sf s) (i : Fin 4)
    (x : Option (Con F)) : x ∈ sideCons sf s e D c i ↔ ∃ P j b m, Coarse B sf s c i P j ∧ m < dpe2 e + 2 ∧
      (∀ p : Fin (nd2 e), node e p ≠ E j (halfT e b m)) ∧ ∃ row, D.dofs P = some row ∧
      x = conAt s e D row (side P j) j b ((fineV e j b).getD m 0) := by
  have hi := hR.inv
  obtain ⟨hx, hsub, hleaf⟩ := (mem_leaves hi c).1 hc
  have hex : (s.he (s.sides c i)).isSome := by rw [hi.sides c hx, hi.ex, owner_side]; exact hx
  have hne : ∀ {P j}, Coarse B sf s c i P j → getNb sf s (s.sides c i) = some P := fun h => nb_of hi hx h.face h.ex h.sub
  unfold sideCons
  rcases hg : getNb sf s (s.sides c i) with _ | P
  · simp only [List.not_mem_nil, false_iff, not_exists]
    rintro P j b m ⟨h, _⟩
    rw [hne h] at hg; cases hg
  · obtain ⟨t, g1, g2, g3, g4⟩ := (getNb_iff hi sf hex P).1 hg
    rw [hi.sides c hx] at g1
    obtain ⟨j, rfl⟩ : ∃ j, t = side P j := ⟨(owner t).2, by rw [← g2, side_owner]⟩
    simp only
    by_cases hch : hasCh sf s P = true
    · have hco : Coarse B sf s c i P j := ⟨hc, g1, g3, g4, hch⟩
      obtain ⟨row, hrow⟩ := dofs_some he (hR.val g3 g4)
      obtain ⟨r, hr⟩ := Option.isSome_iff_exists.1 hex
      have htw : r.twin = some (side P j) := by
        rw [hi.sides c hx] at hr
        exact (hi.hinv.tw _ r hr _).2 ⟨g1, by rw [hi.ex, owner_side]; exact g3⟩
      rw [if_pos hch, hr]
      simp only [Option.bind_some, htw, hIdx_eq hi g3 j, hrow, List.mem_flatMap, List.mem_map, List.mem_filter,
        decide_eq_true_eq]
      have hfold : ∀ {P' j'}, Coarse B sf s c i P' j' → P' = P ∧ j' = j := by
        intro P' j' h
        have := h.face
        rw [g1] at this
        obtain ⟨h1, h2⟩ := side_inj (Option.some.inj this)
        exact ⟨h1.symm, h2.symm⟩
      constructor
      · rintro ⟨b, -, v, ⟨hv, hp⟩, rfl⟩
        obtain ⟨m, hm, rfl⟩ := List.mem_iff_getElem.1 hv
        have hgd : (fineV e j b).getD m 0 = (fineV e j b)[m] := by
          rw [List.getD_eq_getElem?_getD, List.getElem?_eq_getElem hm]; rfl
        rw [fine_len e he] at hm
        refine ⟨P, j, b, m, hco, hm, ?_, row, hrow, by rw [hgd]⟩
        rw [← hgd] at hp
        exact (fine_tab e he j b m hm).2.2.1.1 hp
      · rintro ⟨P', j', b, m, hco', hm, hnew, row', hrow', rfl⟩
        obtain ⟨rfl, rfl⟩ := hfold hco'
        rw [hrow] at hrow'
        cases hrow'
        refine ⟨b, by cases b <;> simp, _, ⟨?_, (fine_tab e he j' b m hm).2.2.1.2 hnew⟩, rfl⟩
        rw [List.getD_eq_getElem?_getD, List.getElem?_eq_getElem (by rw [fine_len e he]; exact hm)]
        exact List.getElem_mem _
    · rw [if_neg hch]
      simp only [List.not_mem_nil, false_iff, not_exists]
      rintro P' j' b m ⟨h, _⟩
      have := hne h
      rw [hg] at this
      cases this
      exact hch h.kids

/-- All constraints found. -/
theorem allCons_iff (hB : B.WF) (he : torn e = false) (hR : RdyF B e sf s D) {l : List (Con F)}
    (hl : allCons sf s e D = some l) (x : Con F) :
    x ∈ l ↔ ∃ c i P j b m a, Hangs B e sf s D c i P j b m a ∧ x = conOf F e D P j (halfT e b m) a := by
  have hl' := (allSome_some _ _).1 hl
  have h1 : x ∈ l ↔ some x ∈ (leaves sf s).flatMap (fun c => four.flatMap (sideCons (F := F) sf s e D c)) := by
    rw [hl', List.mem_map]
    constructor
    · intro h; exact ⟨x, h, rfl⟩
    · rintro ⟨y, hy, h⟩; cases h; exact hy
  rw [h1]
  simp only [List.mem_flatMap]
  constructor
  · rintro ⟨c, hc, i, -, h⟩
    obtain ⟨P, j, b, m, hco, hm, hnew, row, hrow, h2⟩ := (sideCons_iff hB he hR hc i _).1 h
    obtain ⟨a, ha, rfl⟩ := (conAt_iff hB he hR hco hrow b m hm x).1 h2.symm
    exact ⟨c, i, P, j, b, m, a, ⟨hco, hm, hnew, ha⟩, rfl⟩
  · rintro ⟨c, i, P, j, b, m, a, h, rfl⟩
    obtain ⟨row, hrow⟩ := dofs_some he (hR.val h.side.ex h.side.sub)
    refine ⟨c, h.side.leaf, i, mem_four i, (sideCons_iff hB he hR h.side.leaf i _).2 ⟨P, j, b, m, h.side, h.lt, h.new, row, hrow, ?_⟩⟩
    exact ((conAt_iff hB he hR h.side hrow b m h.lt _).2 ⟨a, h.dof, rfl⟩).symm

/-! ### Where hanging nodes are -/

theorem Hangs.mem (h : Hangs B e sf s D c i P j b m a) (he : torn e = false) : 0 < halfT e b m ∧ halfT e b m < 1 := by
  obtain ⟨-, -, -, t0, t1⟩ := fine_tab e he j b m h.lt
  refine ⟨lt_of_le_of_ne t0 ?_, lt_of_le_of_ne t1 ?_⟩
  · intro h0
    obtain ⟨p, hp⟩ := cor_node e he j
    exact h.new p (by rw [hp, ← h0])
  · intro h0
    obtain ⟨p, hp⟩ := cor_node e he (j + 1)
    exact h.new p (by rw [hp, h0, E_next])

/-- The place of a hanging node on the coarse cell. -/
theorem Hangs.same (h : Hangs B e sf s D c i P j b m a) (hB : B.WF) (he : torn e = false) (hR : Rdy B e sf s D) :
    SamePt B (rootPt c (E i (1 - halfT e b m))) (rootPt (child P (halfCell j b)) (node e ((sideDofs e j).getD m 0))) := by
  have hi := hR.inv
  have hn := (side_node e he j m h.lt).2
  have h1 : rootPt (child P (halfCell j b)) (node e ((sideDofs e j).getD m 0)) = rootPt P (E j (halfT e b m)) := by
    rw [hn]
    show (P.1, climb P.2 (emb (halfCell j b) _)) = _
    rw [emb_half]
    rfl
  rw [h1]
  obtain ⟨t0, t1⟩ := h.mem he
  exact PGlue.same _ _ _ _ _ _ (CEx_lt hi ((mem_leaves hi c).1 h.side.leaf).1) (CEx_lt hi h.side.ex)
    ⟨i, j, 1 - halfT e b m, by linarith, by linarith, h.side.face, rfl, congrArg (E j) (by ring)⟩

theorem Hangs.notnode (h : Hangs B e sf s D c i P j b m a) (p : Fin (nd2 e)) : node e p ≠ E i (1 - halfT e b m) := by
  intro hp
  obtain ⟨q, hq⟩ := flip_node e i j p _ hp
  exact h.new q (by rw [hq]; exact congrArg (E j) (by ring))

theorem Hangs.notcorner (h : Hangs B e sf s D c i P j b m a) (he : torn e = false) : ¬ Corner (E i (1 - halfT e b m)) := by
  obtain ⟨t0, t1⟩ := h.mem he
  rw [E_corner]
  rintro (h | h) <;> linarith

/-- One constraint per hanging node, uniqueness up to the level of the coarse cells. -/
theorem Hangs.uniq_le (h : Hangs B e sf s D c i P j b m a) (h' : Hangs B e sf s D c' i' P' j' b' m' a) (hB : B.WF)
    (he : torn e = false) (hR : Rdy B e sf s D) (hlev : level c ≤ level c') :
    P = P' ∧ j = j' ∧ halfT e b m = halfT e b' m' := by
  have hi := hR.inv
  obtain ⟨t0, t1⟩ := h.mem he
  obtain ⟨t0', t1'⟩ := h'.mem he
  have hS : SamePt B (rootPt c (E i (1 - halfT e b m))) (rootPt c' (E i' (1 - halfT e b' m'))) := by
    refine .trans _ _ _ (h.same hB he hR) (.trans _ _ _ ?_ (.symm _ _ (h'.same hB he hR)))
    exact (hR.shared _ _ _ _ a a (side_node e he j m h.lt).1 (side_node e he j' m' h'.lt).1 h.dof h'.dof).1 rfl
  have hc1 : ¬ (1 - halfT e b m = 0 ∨ 1 - halfT e b m = 1) := by rintro (h | h) <;> linarith
  have hc2 : ¬ (1 - halfT e b' m' = 0 ∨ 1 - halfT e b' m' = 1) := by rintro (h | h) <;> linarith
  have q0 : 0 ≤ 1 - halfT e b m := by linarith
  have q1 : 1 - halfT e b m ≤ 1 := by linarith
  have q0' : 0 ≤ 1 - halfT e b' m' := by linarith
  have q1' : 1 - halfT e b' m' ≤ 1 := by linarith
  rcases meet hB hi hR.flag hR.bal h.side.leaf h'.side.leaf hlev (E_insq i q0 q1) (E_insq i' q0' q1') hS (h.notcorner he)
    with ⟨rfl, hz⟩ | hg | ⟨i2, j2, P2, b2, t2, hco, hcc, s0, s1, hz', hz⟩
  · have := E_two i' i q0' q1' hz hc2
    subst this
    have hE := E_inj i' hz
    have hf := h.side.face
    rw [h'.side.face] at hf
    obtain ⟨h1, h2⟩ := side_inj (Option.some.inj hf)
    exact ⟨h1.symm, h2.symm, by linarith⟩
  · exfalso
    obtain ⟨i2, j2, r, r0, r1, hv, e1, e2⟩ := hg
    simp only at hv e1 e2
    have := E_two i i2 q0 q1 e1 hc1
    subst this
    rw [h.side.face] at hv
    obtain ⟨h1, _⟩ := side_inj (Option.some.inj hv)
    subst h1
    have := h.side.kids
    rw [((mem_leaves hi P).1 h'.side.leaf).2.2] at this
    cases this
  · exfalso
    have := E_two i' j2 q0' q1' hz' hc2
    subst this
    subst hcc
    exact hco.no_back hB hi b2 h'.side.face h'.side.ex h'.side.sub

theorem Hangs.uniq (h : Hangs B e sf s D c i P j b m a) (h' : Hangs B e sf s D c' i' P' j' b' m' a) (hB : B.WF)
    (he : torn e = false) (hR : Rdy B e sf s D) : P = P' ∧ j = j' ∧ halfT e b m = halfT e b' m' := by
  rcases le_total (level c) (level c') with hl | hl
  · exact h.uniq_le h' hB he hR hl
  · obtain ⟨h1, h2, h3⟩ := h'.uniq_le h hB he hR hl
    exact ⟨h1.symm, h2.symm, h3.symm⟩

/-- The value a constraint prescribes is the value of the function on the coarse cell. -/
theorem Hangs.value (h : Hangs B e sf s D c i P j b m a) (hB : B.WF) (he : torn e = false)
    (hR : Rdy B e sf s D) (U : Nat → F) :
    (((conOf F e D P j (halfT e b m) a).supp).map (fun x => x.2 * U x.1)).sum = feFn e D U c (castPt F (E i (1 - halfT e b m))) := by
  have hi := hR.inv
  obtain ⟨t0, t1⟩ := h.mem he
  obtain ⟨hx, hsub, -⟩ := (mem_leaves hi c).1 h.side.leaf
  have t0' : (0 : F) < ((halfT e b m : ℚ) : F) := by exact_mod_cast t0
  have t1' : ((halfT e b m : ℚ) : F) < 1 := by exact_mod_cast t1
  have hg : PGlue B.T (c, castPt F (E i (1 - halfT e b m))) (P, castPt F (E j (halfT e b m))) :=
    ⟨i, j, 1 - ((halfT e b m : ℚ) : F), by linarith, by linarith, h.side.face, by simp only [castE]; push_cast; rfl, by
      simp only [castE]; exact congrArg (E j) (by ring)⟩
  rw [glue_fn hB he hR U hx h.side.ex (hR.val hx hsub) (hR.val h.side.ex h.side.sub) hg]
  unfold feFn
  rw [castPt_E]
  have hFV : FineValue e (j : Nat) (fun p => U (dofAt D P p)) ((halfT e b m : ℚ) : F)
      (((conOf F e D P j (halfT e b m) a).supp).map (fun x => x.2 * U x.1)).sum := by
    constructor
    · intro k hk ht
      exfalso
      rw [sideT_cast he] at ht
      have ht' : (sideT e : List ℚ).getD k 0 = halfT e b m := by exact_mod_cast ht
      have hn := side_node e he j k hk
      exact h.new ⟨_, hn.1⟩ (by rw [← ht']; exact hn.2)
    · intro _
      have hrange : sideDofs e (j : Nat) = (List.range (dpe2 e + 2)).map (fun k => (sideDofs e (j : Nat)).getD k 0) := by
        apply List.ext_getElem
        · rw [List.length_map, List.length_range, sideDofs_len]
        · intro n h1 h2
          rw [List.getElem_map, List.getElem_range, List.getD_eq_getElem?_getD, List.getElem?_eq_getElem h1]
          rfl
      simp only [conOf]
      rw [hrange, List.map_map, List.map_map, ← hrange]
      refine sum_congr_range (fun k hk => ?_)
      have hl : k < (sideDofs e (j : Nat)).length := by rw [sideDofs_len]; exact hk
      have e1 : (hangCoef e (j : Nat) ((halfT e b m : ℚ) : F)).getD k (.error .index) =
          phi2 e ((sideDofs e (j : Nat)).getD k 0) (sidePt (j : Nat) ((halfT e b m : ℚ) : F)) := by
        unfold hangCoef
        rw [List.getD_eq_getElem?_getD, List.getElem?_map, List.getD_eq_getElem?_getD, List.getElem?_eq_getElem hl]
        rfl
      simp only [Function.comp, e1, castPt_E]
  rw [fine_eq e (cont_of he) (j : Nat) j.2 _ _ _ hFV, trace_eq e (cont_of he) (j : Nat) j.2]

/-! ### Continuity -/

/-- Two leaves at a point that is not a corner of the larger one. -/
theorem meet_fn (hB : B.WF) (he : torn e = false) (hR : Rdy B e sf s D) (U : Nat → F)
    (hU : ∀ c i P j b m a, Hangs B e sf s D c i P j b m a → U a = feFn e D U c (castPt F (E i (1 - halfT e b m)))) {c c' : CN}
    (hc : c ∈ leaves sf s) (hc' : c' ∈ leaves sf s) (hlev : level c ≤ level c') {z z' : F × F} (hz : InSq z) (hz' : InSq z')
    (hS : SamePt B (rootPt c z) (rootPt c' z')) (hn : ¬ Corner z) : feFn e D U c z = feFn e D U c' z' := by
  have hi := hR.inv
  obtain ⟨hx, hsub, -⟩ := (mem_leaves hi c).1 hc
  obtain ⟨hx', hsub', -⟩ := (mem_leaves hi c').1 hc'
  rcases meet hB hi hR.flag hR.bal hc hc' hlev hz hz' hS hn with ⟨rfl, rfl⟩ | hg | ⟨i, j, P, b, t, hco, rfl, t0, t1, rfl, rfl⟩
  · rfl
  · exact glue_fn hB he hR U hx hx' (hR.val hx hsub) (hR.val hx' hsub') hg
  · have hfP := hR.val hco.ex hco.sub
    have hb1 : (0 : F) ≤ if b then 1 else 0 := by split <;> norm_num
    have hb2 : (if b then 1 else 0 : F) ≤ 1 := by split <;> norm_num
    have hg : PGlue B.T (c, E i (1 - ((if b then 1 else 0) + t) / 2)) (P, E j (((if b then 1 else 0) + t) / 2)) :=
      ⟨i, j, 1 - ((if b then 1 else 0) + t) / 2, by linarith, by linarith, hco.face, rfl, congrArg (E j) (by ring)⟩
    rw [glue_fn hB he hR U hx hco.ex (hR.val hx hsub) hfP hg]
    unfold feFn
    rw [sidePt_E, sidePt_E]
    have := C31_hanging_continuous e (cont_of he) (j : Nat) j.2 (if b then 1 else 0) (fun p => U (dofAt D P p))
      (fun p => U (dofAt D (child P (halfCell j b)) p)) (fun k hk => ?_) t
    · rw [this]
      congr 2
      cases b <;> simp
    · have hfc := hR.val hx' hsub'
      obtain ⟨n1, n2⟩ := side_node e he j k hk
      obtain ⟨a, ha⟩ := Option.ne_none_iff_exists'.1 (hfc _ n1)
      have ht : (((if b then 1 else 0 : ℕ) : F) + (sideT e : List F).getD k 0) / 2 = ((halfT e b k : ℚ) : F) := by
        rw [sideT_cast he, halfT]
        cases b <;> simp
      rw [ht]
      constructor
      · -- also a node of the coarse side
        intro l hl hT
        rw [sideT_cast he] at hT
        have hT' : (sideT e : List ℚ).getD l 0 = halfT e b k := by exact_mod_cast hT
        obtain ⟨o1, o2⟩ := side_node e he j l hl
        obtain ⟨a', ha'⟩ := Option.ne_none_iff_exists'.1 (hfP _ o1)
        have : a = a' := by
          refine (hR.shared _ _ _ _ a a' n1 o1 ha ha').2 ?_
          have h1 : rootPt (child P (halfCell j b)) (node e ((sideDofs e j).getD k 0)) = rootPt P (node e ((sideDofs e j).getD l 0)) := by
            rw [n2, o2, hT']
            show (P.1, climb P.2 (emb (halfCell j b) _)) = _
            rw [emb_half]
            rfl
          rw [h1]
          exact .refl _
        simp only [dofAt, ha, ha', this]
      · intro hnew
        have hh : Hangs B e sf s D c i P j b k a := by
          refine ⟨hco, hk, ?_, ha⟩
          intro p hp
          obtain ⟨l, hl, h1, h2⟩ := node_side e he j p _ hp
          refine hnew l hl ?_
          rw [sideT_cast he, h2]
        have hv := hU c i P j b k a hh
        simp only [dofAt, ha, Option.getD_some]
        rw [hv, ← hh.value hB he hR U]
        have hrange : sideDofs e (j : Nat) = (List.range (dpe2 e + 2)).map (fun k => (sideDofs e (j : Nat)).getD k 0) := by
          apply List.ext_getElem
          · rw [List.length_map, List.length_range, sideDofs_len]
          · intro n h1 h2
            rw [List.getElem_map, List.getElem_range, List.getD_eq_getElem?_getD, List.getElem?_eq_getElem h1]
            rfl
        simp only [conOf]
        rw [hrange, List.map_map, List.map_map, ← hrange]
        refine sum_congr_range (fun l hl => ?_)
        have hl' : l < (sideDofs e (j : Nat)).length := by rw [sideDofs_len]; exact hl
        have e1 : (hangCoef e (j : Nat) ((halfT e b k : ℚ) : F)).getD l (.error .index) =
            phi2 e ((sideDofs e (j : Nat)).getD l 0) (sidePt (j : Nat) ((halfT e b k : ℚ) : F)) := by
          unfold hangCoef
          rw [List.getD_eq_getElem?_getD, List.getElem?_map, List.getD_eq_getElem?_getD, List.getElem?_eq_getElem hl']
          rfl
        simp only [Function.comp, e1, castPt_E, dofAt]

theorem corner_fn (he : torn e = false) (U : Nat → F) (c : CN) (i : Fin 4) : feFn e D U c (E i (0 : F)) = U (dofAt D c (cpos e he i)) := by
  unfold feFn
  have : E i (0 : F) = castPt F (node e (cpos e he i)) := by rw [node_cpos, castE]; simp
  rw [this, cellFn_node _ _ (cpos e he i).2]

/-- If the constraints hold, the function is single-valued. -/
theorem single_of (hB : B.WF) (he : torn e = false) (hR : Rdy B e sf s D) (U : Nat → F)
    (hU : ∀ c i P j b m a, Hangs B e sf s D c i P j b m a → U a = feFn e D U c (castPt F (E i (1 - halfT e b m)))) :
    Single B sf s e D U := by
  intro c hc c' hc' z z' hz hz' hS
  have hi := hR.inv
  have hS' : SamePt B (rootPt c' z') (rootPt c z) := .symm _ _ hS
  rcases le_total (level c) (level c') with hl | hl
  · by_cases hn : Corner z
    · have hn' := corner_down hB hl hz hz' hS hn
      obtain ⟨i, rfl⟩ := (corner_iff z).1 hn
      obtain ⟨i', rfl⟩ := (corner_iff z').1 hn'
      rw [corner_fn he, corner_fn he]
      obtain ⟨hx, hsub, -⟩ := (mem_leaves hi c).1 hc
      obtain ⟨hx', hsub', -⟩ := (mem_leaves hi c').1 hc'
      obtain ⟨a, ha⟩ := Option.ne_none_iff_exists'.1 (hR.val hx hsub _ (cpos e he i).2)
      obtain ⟨a', ha'⟩ := Option.ne_none_iff_exists'.1 (hR.val hx' hsub' _ (cpos e he i').2)
      have : a = a' := (hR.shared c c' _ _ a a' (cpos e he i).2 (cpos e he i').2 ha ha').2 (by
        
        rw [node_cpos, node_cpos]
        refine samePt_down (F := F) B ?_
        rw [castRoot_pt, castRoot_pt, castE, castE, Rat.cast_zero]
        exact hS)
      simp only [dofAt, ha, ha', this]
    · exact meet_fn hB he hR U hU hc hc' hl hz hz' hS hn
  · by_cases hn : Corner z'
    · have hn' := corner_down hB hl hz' hz hS' hn
      obtain ⟨i, rfl⟩ := (corner_iff z').1 hn
      obtain ⟨i', rfl⟩ := (corner_iff z).1 hn'
      rw [corner_fn he, corner_fn he]
      obtain ⟨hx, hsub, -⟩ := (mem_leaves hi c).1 hc
      obtain ⟨hx', hsub', -⟩ := (mem_leaves hi c').1 hc'
      obtain ⟨a, ha⟩ := Option.ne_none_iff_exists'.1 (hR.val hx hsub _ (cpos e he i').2)
      obtain ⟨a', ha'⟩ := Option.ne_none_iff_exists'.1 (hR.val hx' hsub' _ (cpos e he i).2)
      have : a = a' := (hR.shared c c' _ _ a a' (cpos e he i').2 (cpos e he i).2 ha ha').2 (by
        
        rw [node_cpos, node_cpos]
        refine samePt_down (F := F) B ?_
        rw [castRoot_pt, castRoot_pt, castE, castE, Rat.cast_zero]
        exact hS)
      simp only [dofAt, ha, ha', this]
    · exact (meet_fn hB he hR U hU hc' hc hl hz' hz hS' hn).symm

end
end Verif.Dof
