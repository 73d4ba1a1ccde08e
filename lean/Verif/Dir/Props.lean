import Verif.Dir.Model

/-! # C66: Dirichlet conditions -/

namespace Verif.Dir
open Verif.Mesh Verif.Dof Verif.Fem Verif.Bnd Verif.Quad Verif.Reg Verif.Phys
open Verif.Linsys (Feasible)

section
set_option linter.unusedSectionVars false
variable {K : Type} [Field K] [LinearOrder K] [IsStrictOrderedRing K]
variable {F : Type} [Field F] [LinearOrder F] [IsStrictOrderedRing F]
variable {close : Pt K → Pt K → Bool} {B : Base K} {e : ET} {sf : Bool} {s : St K} {D : DH} {V : DV K}

/-- The situation arises: the first `distribute_dofs` of a dof handler on a balanced mesh. -/
theorem readyV_first (hB : B.WF) (hP : Plain B) (hs : MReach B s) (hf : sf = false ∨ RootedFlag B s) (hb : isBalanced sf s = true) {n : Nat}
    (hn : 4 * s.cells.length ≤ n) {D : DH} {V : DV K} (hd : distributeV close sf B.n s e n DH.new DV.new = some (D, V)) :
    ReadyV close B e sf s D V := by
  have hd' := hd
  unfold distributeV at hd'
  obtain ⟨D1, g1, g2⟩ := Option.bind_eq_some_iff.1 hd'
  obtain ⟨V1, g3, g4⟩ := Option.map_eq_some_iff.1 g2
  cases g4
  refine ⟨ready_of_distribute hB hP (.new s hs) hf hb n hn g1, .dist s _ _ _ _ sf n (.new s hs) hf hn hd, fun c hc hm p hp a ha => ?_⟩
  obtain ⟨a', h1, h2⟩ := C63_complete_first hB hP (.new s hs) sf hf n hn hd c hc hm p hp
  rw [ha] at h1
  cases h1
  rw [h2]
  simp

/-! ### What is appended -/

theorem zip_map_mem {α β γ : Type} {f : α → Option β} {h : α × β → γ} {L : List α} {xs : List β} (hx : allSome (L.map f) = some xs) (y : γ) :
    y ∈ (L.zip xs).map h ↔ ∃ a x, a ∈ L ∧ f a = some x ∧ y = h (a, x) := by
  rw [allSome_some] at hx
  induction L generalizing xs with
  | nil => simp
  | cons a L ih =>
    cases xs with
    | nil => simp at hx
    | cons x xs =>
      simp only [List.map_cons, List.cons.injEq] at hx
      rw [List.zip_cons_cons, List.map_cons, List.mem_cons, ih hx.2]
      constructor
      · rintro (rfl | ⟨a', x', h1, h2, h3⟩)
        · exact ⟨a, x, by simp, hx.1, rfl⟩
        · exact ⟨a', x', by simp [h1], h2, h3⟩
      · rintro ⟨a', x', h1, h2, h3⟩
        rcases List.mem_cons.1 h1 with rfl | h1
        · left
          rw [hx.1] at h2
          cases h2
          exact h3
        · right
          exact ⟨a', x', h1, h2, h3⟩

theorem notDQ0 (he : torn e = false) : e ≠ .DQ0 := by rintro rfl; simp [torn] at he

/-- The dofs of the marked boundary half-edges. -/
theorem marked_dofs (hB : B.WF) (hP : Plain B) (he : torn e = false) (hR : Ready B e sf s D) (hr : RootsIn B sf s)
    (hf : sf = false ∨ (RootedFlag B s ∧ FullFlag s)) {n : Nat} (hn : 4 * s.cells.length ≤ n) (h1 : OneBoundary B) (mk : Option (Ent → Bool)) :
    ∃ L, regionDofs mk .half false true sf B.n s n e D = some L ∧ L.Nodup ∧ ∀ a, a ∈ L ↔
      ∃ c p, OnMarked B sf s e mk c p ∧ Dof.val D c p = some a := by
  obtain ⟨L, e1, e2, e3⟩ := C65_region_dofs hB hP hR hr hf hn mk .half false true (fun _ => h1) (.inl (notDQ0 he))
  have hi := hR.uses.uses.reach.inv hB
  refine ⟨L, e1, e2, fun a => ?_⟩
  rw [e3]
  constructor
  · rintro ⟨c, hc, x, ⟨i, hb, rfl⟩, hw, p, hp, hv, i', t, h2, t0, t1, h3⟩
    have hcx := ((Dof.mem_leaves hi c).1 hc).1
    rw [hi.sides c hcx] at h2
    have := (side_inj h2).2
    subst this
    exact ⟨c, p, ⟨hc, hp, i, t, hb, hw, t0, t1, h3⟩, hv⟩
  · rintro ⟨c, p, ⟨hc, hp, i, t, hb, hw, t0, t1, h3⟩, hv⟩
    exact ⟨c, hc, _, ⟨i, hb, rfl⟩, hw, p, hp, hv, i, t, rfl, t0, t1, h3⟩

theorem vert_of (hB : B.WF) (hP : Plain B) (hV : ReadyV close B e sf s D V) {c : CN} (hc : c ∈ leaves sf s) {p : Nat} (hp : p < nd2 e)
    {a : Nat} (ha : Dof.val D c p = some a) : getVert V a = some (place s e c p) := by
  have hi := hV.ready.uses.uses.reach.inv hB
  obtain ⟨h1, h2, _⟩ := (Dof.mem_leaves hi c).1 hc
  have hcm := (hi.mem c).2 h1
  obtain ⟨x, hx⟩ := Option.ne_none_iff_exists'.1 (hV.placed c hcm h2 p hp a ha)
  rw [hx, C63_vertex hB hP hV.uses a x hx c hcm p hp ha]
  rfl

/-- **C66** (add_dirichlet_constraint): the call succeeds, keeps the constraints there are, and appends exactly the constraints
`dof = g(place of its node)` for the dofs with nodes on marked boundary sides, each dof once. -/
theorem C66_constraints (hB : B.WF) (hP : Plain B) (he : torn e = false) (hV : ReadyV close B e sf s D V) (hr : RootsIn B sf s)
    (hf : sf = false ∨ (RootedFlag B s ∧ FullFlag s)) {n : Nat} (hn : 4 * s.cells.length ≤ n) (h1 : OneBoundary B) (mk : Option (Ent → Bool))
    (g : Pt K → F) (C : List (Linsys.Con F)) : ∃ ds, addDirichlet mk true sf B.n s n e D V g C = some (C ++ ds) ∧ (ds.map (·.dof)).Nodup ∧
      ∀ x, x ∈ ds ↔ ∃ c p a, OnMarked B sf s e mk c p ∧ Dof.val D c p = some a ∧ x = ⟨a, [], g (place s e c p)⟩ := by
  obtain ⟨L, e1, e2, e3⟩ := marked_dofs hB hP he hV.ready hr hf hn h1 mk
  obtain ⟨xs, hx, _⟩ := allSome_all (l := L.map (getVert V)) (fun o ho => by
    obtain ⟨a, ha, rfl⟩ := List.mem_map.1 ho
    obtain ⟨c, p, hm, hv⟩ := (e3 a).1 ha
    rw [vert_of hB hP hV hm.1 hm.2.1 hv]
    simp)
  refine ⟨(L.zip xs).map (fun y => (⟨y.1, [], g y.2⟩ : Linsys.Con F)), ?_, ?_, fun x => ?_⟩
  · unfold addDirichlet getVerts
    rw [e1]
    simp only [Option.bind_some]
    rw [hx]
    rfl
  · rw [List.map_map]
    have hlen : L.length = xs.length := by
      have := (allSome_some _ _).1 hx
      simpa using congrArg List.length this
    have : ((L.zip xs).map ((fun x : Linsys.Con F => x.dof) ∘ fun y => (⟨y.1, [], g y.2⟩ : Linsys.Con F))) = L := by
      have : ((fun x : Linsys.Con F => x.dof) ∘ fun y : Nat × Pt K => (⟨y.1, [], g y.2⟩ : Linsys.Con F)) = Prod.fst := rfl
      rw [this, List.map_fst_zip hlen.le]
    rw [this]
    exact e2
  · rw [zip_map_mem hx]
    constructor
    · rintro ⟨a, v, ha, hv, rfl⟩
      obtain ⟨c, p, hm, hval⟩ := (e3 a).1 ha
      rw [vert_of hB hP hV hm.1 hm.2.1 hval] at hv
      cases hv
      exact ⟨c, p, a, hm, hval, rfl⟩
    · rintro ⟨c, p, a, hm, hval, rfl⟩
      exact ⟨a, _, (e3 a).2 ⟨c, p, hm, hval⟩, vert_of hB hP hV hm.1 hm.2.1 hval, rfl⟩

/-! ### Boundary dofs do not hang -/

theorem corner_same0 {x y : Nat × (ℚ × ℚ)} (h : SamePt B x y) : Corner x.2 ↔ Corner y.2 := by
  induction h with
  | rel x y h =>
    have h' := h
    obtain ⟨_, _, _, _, _, hx, hy, _⟩ := h
    exact ((glued_iff x.1 y.1 x.2 y.2 hx hy).1 h').corner
  | refl => rfl
  | symm _ _ _ ih => exact ih.symm
  | trans _ _ _ _ _ ih1 ih2 => exact ih1.trans ih2

/-- A boundary point of a cell that is not a corner of it is on a boundary side of the cell. -/
theorem bnd_point (hB : B.WF) {c : CN} {z : ℚ × ℚ} (hz : InSq z) (hn : ¬ Corner z) (h : BndPt B (rootPt c z)) :
    ∃ (j : Fin 4) (t : ℚ), OnBoundary B c j ∧ 0 ≤ t ∧ t ≤ 1 ∧ z = E j t := by
  obtain ⟨f, j, r, _, hT, r0, r1, hS⟩ := h
  rcases bnd_glue hB (x := rootPt c z) (climb_insq _ hz) r0 r1 hT hS with h2 | h2
  · have h4 : c.1 = f := congrArg Prod.fst h2
    have h5 : climb c.2 z = E j r := congrArg Prod.snd h2
    obtain ⟨hb, t, ht⟩ := bnd_side (B := B) hz h5 (by rw [h4]; exact hT)
    exact ⟨j, t, hb, ht⟩
  · exfalso
    have : Corner (E j r) := by rw [E_corner]; exact h2
    exact hn (climb_corner c.2 hz ((corner_same0 hS).2 this))

theorem OnMarked.bnd (hB : B.WF) (hs : MReach B s) {mk : Option (Ent → Bool)} {c : CN} {p : Nat} (h : OnMarked B sf s e mk c p) :
    BndPt B (rootPt c (node e p)) := by
  obtain ⟨hc, hp, i, t, ⟨j, hj, hall⟩, hw, t0, t1, h3⟩ := h
  have hi := hs.inv hB
  obtain ⟨r, r0, r1, hcl⟩ := hall t t0 t1
  refine ⟨c.1, j, r, CEx_root hi c.2 c.1 ((Dof.mem_leaves hi c).1 hc).1, hj, r0, r1, ?_⟩
  unfold rootPt
  rw [h3, hcl]
  exact .refl _

/-- **C66**: a dof whose node is on the boundary of the domain is not a hanging node. -/
theorem C66_not_hanging (hB : B.WF) (hP : Plain B) (he : torn e = false) (hR : Ready B e sf s D) {H C : List (Linsys.Con F)}
    (h : setHanging sf s e D [] = some (H, C)) (c : CN) (p a : Nat) (hp : p < nd2 e) (ha : Dof.val D c p = some a)
    (hb : BndPt B (rootPt c (node e p))) : ∀ x ∈ H, x.dof ≠ a := by
  obtain ⟨_, _, h3⟩ := setHanging_spec hB hP he hR h
  rintro x hx rfl
  obtain ⟨d, i, P, j, b, m, a, g, rfl⟩ := (h3 x).1 hx
  obtain ⟨t0, t1⟩ := g.mem he
  have hS := g.same hB he (hR.rdy hB hP he)
  have hS' := (C34_shared hB hP he hR.uses _ _ _ _ a a (side_node e he j m g.lt).1 hp g.dof ha).1 rfl
  obtain ⟨f, l, r, h4, h5, h6, h7, h8⟩ := hb
  have hb' : BndPt B (rootPt d (E i (1 - halfT e b m))) :=
    ⟨f, l, r, h4, h5, h6, h7, .trans _ _ _ hS (.trans _ _ _ hS' h8)⟩
  have hnc := g.notcorner he
  obtain ⟨k, t, hk, k0, k1, hkt⟩ := bnd_point hB (E_insq i (by linarith) (by linarith)) hnc hb'
  have : i = k := E_two i k (by linarith) (by linarith) hkt (by rw [E_corner] at hnc; exact hnc)
  subst this
  have := (vt_none_iff B d i).2 hk
  rw [g.side.face] at this
  cases this

/-! ### The solution -/

theorem addAll_spec (hB : B.WF) (hP : Plain B) (he : torn e = false) (hV : ReadyV close B e sf s D V) (hr : RootsIn B sf s)
    (hf : sf = false ∨ (RootedFlag B s ∧ FullFlag s)) {n : Nat} (hn : 4 * s.cells.length ≤ n) (h1 : OneBoundary B)
    (cs : List (Option (Ent → Bool) × (Pt K → F))) (C : List (Linsys.Con F)) : ∃ ds, addAll sf B.n s n e D V cs C = some (C ++ ds) ∧
      ∀ x, x ∈ ds ↔ ∃ y ∈ cs, ∃ c p a, OnMarked B sf s e y.1 c p ∧ Dof.val D c p = some a ∧ x = ⟨a, [], y.2 (place s e c p)⟩ := by
  induction cs generalizing C with
  | nil => exact ⟨[], by simp [addAll], by simp⟩
  | cons y cs ih =>
    obtain ⟨ds, g1, _, g2⟩ := C66_constraints hB hP he hV hr hf hn h1 y.1 y.2 C
    obtain ⟨ds', g3, g4⟩ := ih (C ++ ds)
    refine ⟨ds ++ ds', ?_, fun x => ?_⟩
    · unfold addAll
      rw [g1]
      simp only [Option.bind_some]
      rw [g3, List.append_assoc]
    · rw [List.mem_append, g2, g4]
      simp only [List.mem_cons, exists_eq_or_imp]

/-- **C66**, from the mesh to the solver: hanging nodes and any compatible Dirichlet conditions on marked parts of the boundary give a
linear system whose stored solution is single-valued and takes the prescribed value at every node of the marked boundary. -/
theorem C66_solution (hB : B.WF) (hP : Plain B) (he : torn e = false) (hV : ReadyV close B e sf s D V) (hr : RootsIn B sf s)
    (hf : sf = false ∨ (RootedFlag B s ∧ FullFlag s)) {n : Nat} (hn : 4 * s.cells.length ≤ n) (h1 : OneBoundary B)
    (cs : List (Option (Ent → Bool) × (Pt K → F))) (hcs : Compatible B sf s e D cs) {H C C' : List (Linsys.Con F)}
    (hh : setHanging sf s e D [] = some (H, C)) (hC : addAll sf B.n s n e D V cs C = some C') {k : Nat}
    (A : Matrix (Fin D.count) (Fin D.count) F) (b0 : Option (Matrix (Fin D.count) (Fin k) F))
    (b : Matrix (Fin D.count) (Fin k) F) (bopt : Option (Matrix (Fin D.count) (Fin k) F)) (factor : Bool)
    (hbo : bopt = some b ∨ (bopt = none ∧ b0 = some b)) (s' : Linsys.St F D.count k)
    (hs' : Linsys.Solve (Linsys.init (List.range D.count) C' A b0) bopt factor s') :
    ∃ u, s'.u = some u ∧ ∀ l, Single B sf s e D (Linsys.colOf u l) ∧ ∀ y ∈ cs, ∀ c p, OnMarked B sf s e y.1 c p →
      feFn e D (Linsys.colOf u l) c (castPt F (node e p)) = y.2 (place s e c p) := by
  obtain ⟨ds, g1, g2⟩ := addAll_spec hB hP he hV hr hf hn h1 cs C
  rw [g1] at hC
  cases hC
  have hR := hV.ready
  have hsnd := (hR.uses.uses.snd hB hP).2.1
  have W := C62_well_formed hB hP he hR hh ds (fun x hx => by
      obtain ⟨y, _, c, p, a, hm, ha, rfl⟩ := (g2 x).1 hx
      exact hsnd.lt (c, ⟨p, hm.2.1⟩) a ha)
    (fun x hx => by
      obtain ⟨y, _, c, p, a, hm, ha, rfl⟩ := (g2 x).1 hx
      rfl)
    (fun x hx x' hx' => by
      obtain ⟨y, _, c, p, a, hm, ha, rfl⟩ := (g2 x').1 hx'
      exact C66_not_hanging hB hP he hR hh c p a hm.2.1 ha (hm.bnd hB hR.uses.uses.reach) x hx)
    (fun x hx x' hx' hxx => by
      obtain ⟨y, hy, c, p, a, hm, ha, rfl⟩ := (g2 x).1 hx
      obtain ⟨y', hy', c', p', a', hm', ha', rfl⟩ := (g2 x').1 hx'
      simp only at hxx
      subst hxx
      exact hcs y hy y' hy' c p c' p' hm hm' (ha.trans ha'.symm))
  obtain ⟨u, k1, k2⟩ := Linsys.C37_constraints W A b0 b bopt factor hbo s' hs'
  have hHC := (setHanging_spec hB hP he hR hh).1
  refine ⟨u, k1, fun l => ⟨C62_implies_continuous hB hP he hR hh _ (fun c hc => k2 l c ?_), fun y hy c p hm => ?_⟩⟩
  · rw [hHC] at hc
    exact List.mem_append_left _ hc
  · have hcm := (Dof.mem_leaves (hR.uses.uses.reach.inv hB) c).1 hm.1
    obtain ⟨a, ha⟩ := Option.ne_none_iff_exists'.1 (hR.val hB hcm.1 hcm.2.1 p hm.2.1)
    have := k2 l ⟨a, [], y.2 (place s e c p)⟩ (List.mem_append_right _ ((g2 _).2 ⟨y, hy, c, p, a, hm, ha, rfl⟩))
    unfold feFn
    rw [cellFn_node _ _ hm.2.1]
    unfold dofAt
    rw [ha]
    simpa using this

end
end Verif.Dir
