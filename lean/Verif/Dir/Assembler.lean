import Verif.Dir.Exact

/-! # C66: `Assembler.add_dirichlet` -/

namespace Verif.Dir
open Verif.Mesh Verif.Dof Verif.Fem Verif.Bnd Verif.Quad Verif.Reg Verif.Phys
open Verif.Linsys (Feasible)

/-- Specification: node `p` of the leaf `c` is an end point of a boundary side of `c`, and that vertex carries the marker. -/
def AtMarked {K : Type} (B : Base K) (sf : Bool) (s : St K) (e : ET) (mk : Option (Ent → Bool)) (c : CN) (p : Nat) : Prop :=
  c ∈ leaves sf s ∧ p < nd2 e ∧ ∃ (i j : Fin 4), OnBoundary B c i ∧ (j = i ∨ j = i + 1) ∧
    wanted mk (.vertex (ends s (s.sides c j)).1) = true ∧ node e p = E j 0

section
set_option linter.unusedSectionVars false
variable {K : Type} [Field K] [LinearOrder K] [IsStrictOrderedRing K]
variable {F : Type} [Field F] [LinearOrder F] [IsStrictOrderedRing F]
variable {close : Pt K → Pt K → Bool} {B : Base K} {e : ET} {sf : Bool} {s : St K} {D : DH} {V : DV K}

theorem vertex_dofs (hB : B.WF) (hP : Plain B) (he : torn e = false) (hR : Ready B e sf s D) (hr : RootsIn B sf s)
    (hf : sf = false ∨ (RootedFlag B s ∧ FullFlag s)) {n : Nat} (hn : 4 * s.cells.length ≤ n) (h1 : OneBoundary B) (mk : Option (Ent → Bool)) :
    ∃ L, regionDofs mk .vertex false true sf B.n s n e D = some L ∧ L.Nodup ∧ ∀ a, a ∈ L ↔
      ∃ c p, AtMarked B sf s e mk c p ∧ Dof.val D c p = some a := by
  obtain ⟨L, e1, e2, e3⟩ := C65_region_dofs hB hP hR hr hf hn mk .vertex false true (fun _ => h1) (.inl (notDQ0 he))
  have hs := hR.uses.uses.reach
  have hi := hs.inv hB
  have hG := geo hB hP hs
  refine ⟨L, e1, e2, fun a => ?_⟩
  rw [e3]
  constructor
  · rintro ⟨c, hc, x, ⟨i, hb, hx⟩, hw, p, hp, hv, hon⟩
    have hcx := ((Dof.mem_leaves hi c).1 hc).1
    have hx' : ∃ j, (j = i ∨ j = i + 1) ∧ x = .vertex (ends s (s.sides c j)).1 := by
      rcases hx with hx | hx
      · exact ⟨i, .inl rfl, hx⟩
      · refine ⟨i + 1, .inr rfl, ?_⟩
        rw [hx, ends_side hi hcx, ends_side hi hcx]
    obtain ⟨j, hj, rfl⟩ := hx'
    obtain ⟨j', h2, h3⟩ := hon
    rw [ends_side hi hcx, ends_side hi hcx] at h2
    have := hG.inj c j j' hcx h2
    subst this
    exact ⟨c, p, ⟨hc, hp, i, j, hb, hj, hw, h3⟩, hv⟩
  · rintro ⟨c, p, ⟨hc, hp, i, j, hb, hj, hw, h3⟩, hv⟩
    have hcx := ((Dof.mem_leaves hi c).1 hc).1
    refine ⟨c, hc, .vertex (ends s (s.sides c j)).1, ⟨i, hb, ?_⟩, hw, p, hp, hv, j, rfl, h3⟩
    rcases hj with rfl | rfl
    · exact .inl rfl
    · right
      rw [ends_side hi hcx, ends_side hi hcx]

/-! ### The dictionary -/

/-- `d.get(a)`. -/
def look (d : List (Nat × F)) (a : Nat) : Option F := (d.find? (fun y => decide (y.1 = a))).map (·.2)

theorem look_mem {d : List (Nat × F)} (a : Nat) : a ∈ d.map (·.1) ↔ (look d a).isSome := by
  unfold look
  rw [Option.isSome_map, List.find?_isSome]
  simp

theorem look_set (d : List (Nat × F)) (k : Nat) (v : F) (a : Nat) : look (dictSet d k v) a = if a = k then some v else look d a := by
  unfold dictSet
  split_ifs with h1 h2 h2
  · subst h2
    induction d with
    | nil => simp at h1
    | cons y d ih =>
      unfold look at ih ⊢
      simp only [List.map_cons, List.find?_cons]
      by_cases hy : y.1 = a
      · simp [hy]
      · simp only [hy, if_false, decide_false, Bool.false_eq_true]
        refine ih ?_
        simpa [Ne.symm hy] using h1
  · clear h1
    induction d with
    | nil => rfl
    | cons y d ih =>
      unfold look at ih ⊢
      simp only [List.map_cons, List.find?_cons]
      by_cases hy : y.1 = k
      · simp only [hy, if_true]
        have : ¬ k = a := fun h => h2 h.symm
        simp only [this, decide_false]
        exact ih
      · simp only [hy, if_false]
        by_cases hya : y.1 = a
        · simp [hya]
        · simp only [hya, decide_false]
          exact ih
  · subst h2
    have h3 : d.find? (fun y => decide (y.1 = a)) = none := by
      rw [List.find?_eq_none]
      intro y hy
      simp only [decide_eq_true_eq]
      rintro rfl
      exact h1 (List.mem_map.2 ⟨y, hy, rfl⟩)
    unfold look
    rw [List.find?_append, h3]
    simp
  · unfold look
    rw [List.find?_append]
    have : ([(k, v)] : List (Nat × F)).find? (fun y => decide (y.1 = a)) = none := by
      rw [List.find?_eq_none]
      simp
      exact fun h => h2 h.symm
    rw [this]
    simp

theorem set_nodup {d : List (Nat × F)} (k : Nat) (v : F) (h : (d.map (·.1)).Nodup) : ((dictSet d k v).map (·.1)).Nodup := by
  unfold dictSet
  split_ifs with h1
  · have : (d.map (fun y => if y.1 = k then (k, v) else y)).map (·.1) = d.map (·.1) := by
      rw [List.map_map]
      apply List.map_congr_left
      intro y _
      simp only [Function.comp]
      split_ifs with h2
      · exact h2.symm
      · rfl
    rw [this]
    exact h
  · rw [List.map_append]
    simp only [List.map_cons, List.map_nil]
    rw [List.nodup_append]
    refine ⟨h, by simp, ?_⟩
    rintro a ha b hb
    simp only [List.mem_singleton] at hb
    subst hb
    rintro rfl
    exact h1 ha

theorem fold_set (l : List (Nat × F)) : ∀ d : List (Nat × F), (l.map (·.1)).Nodup → (d.map (·.1)).Nodup →
    ((l.foldl (fun d y => dictSet d y.1 y.2) d).map (·.1)).Nodup ∧ ∀ a v, look (l.foldl (fun d y => dictSet d y.1 y.2) d) a = some v ↔
      (a, v) ∈ l ∨ (a ∉ l.map (·.1) ∧ look d a = some v) := by
  induction l with
  | nil => intro d _ hd; exact ⟨hd, by simp⟩
  | cons y l ih =>
    intro d hl hd
    rw [List.map_cons, List.nodup_cons] at hl
    obtain ⟨h1, h2⟩ := ih (dictSet d y.1 y.2) hl.2 (set_nodup _ _ hd)
    refine ⟨h1, fun a v => ?_⟩
    rw [List.foldl_cons, h2, look_set]
    obtain ⟨k, w⟩ := y
    simp only [List.mem_cons, List.map_cons, Prod.mk.injEq, not_or]
    by_cases hk : a = k
    · subst hk
      simp only [if_true, Option.some.injEq, true_and, not_true, false_and, or_false]
      constructor
      · rintro (h | ⟨_, h⟩)
        · exact .inr h
        · exact .inl h.symm
      · rintro (h | h)
        · exact .inr ⟨hl.1, h.symm⟩
        · exact .inl h
    · simp only [hk, if_false, false_and, false_or, not_false_eq_true, true_and]

/-- **C66** (Assembler.add_dirichlet): the call succeeds and sets `dir_bc[dof] = g(place)` exactly for the dofs at the marked end points
of boundary sides; other entries stay.  (Partial: nodes inside sides, see `C66_assembler_violated`.) -/
theorem C66_assembler_partial (hB : B.WF) (hP : Plain B) (he : torn e = false) (hV : ReadyV close B e sf s D V) (hr : RootsIn B sf s)
    (hf : sf = false ∨ (RootedFlag B s ∧ FullFlag s)) {n : Nat} (hn : 4 * s.cells.length ≤ n) (h1 : OneBoundary B) (mk : Option (Ent → Bool))
    (g : Pt K → F) (d : List (Nat × F)) (hd : (d.map (·.1)).Nodup) : ∃ d', addDirichletA mk true sf B.n s n e D V g d = some d' ∧
      (d'.map (·.1)).Nodup ∧ ∀ a v, look d' a = some v ↔
        (∃ c p, AtMarked B sf s e mk c p ∧ Dof.val D c p = some a ∧ v = g (place s e c p)) ∨
        ((¬ ∃ c p, AtMarked B sf s e mk c p ∧ Dof.val D c p = some a) ∧ look d a = some v) := by
  obtain ⟨L, e1, e2, e3⟩ := vertex_dofs hB hP he hV.ready hr hf hn h1 mk
  obtain ⟨xs, hx, _⟩ := allSome_all (l := L.map (getVert V)) (fun o ho => by
    obtain ⟨a, ha, rfl⟩ := List.mem_map.1 ho
    obtain ⟨c, p, hm, hv⟩ := (e3 a).1 ha
    rw [vert_of hB hP hV hm.1 hm.2.1 hv]
    simp)
  have hlen : L.length = xs.length := by
    have := (allSome_some _ _).1 hx
    simpa using congrArg List.length this
  have hfold : ∀ d : List (Nat × F), (L.zip xs).foldl (fun d y => dictSet d y.1 (g y.2)) d =
      ((L.zip xs).map (fun y => (y.1, g y.2))).foldl (fun d y => dictSet d y.1 y.2) d := by
    intro d
    rw [List.foldl_map]
  have hkeys : ((L.zip xs).map (fun y => (y.1, g y.2))).map (·.1) = L := by
    rw [List.map_map]
    have : ((fun x : Nat × F => x.1) ∘ fun y : Nat × Pt K => (y.1, g y.2)) = Prod.fst := rfl
    rw [this, List.map_fst_zip hlen.le]
  obtain ⟨k1, k2⟩ := fold_set ((L.zip xs).map (fun y => (y.1, g y.2))) d (by rw [hkeys]; exact e2) hd
  refine ⟨_, ?_, k1, fun a v => ?_⟩
  · unfold addDirichletA getVerts
    rw [e1]
    simp only [Option.bind_some]
    rw [hx]
    simp only [Option.map_some]
    rw [hfold]
  · rw [k2, hkeys, e3, zip_map_mem hx]
    refine or_congr ?_ Iff.rfl
    constructor
    · rintro ⟨a', x, ha', hx', h2⟩
      injection h2 with h2 h3
      subst h2 h3
      obtain ⟨c, p, hm, hval⟩ := (e3 a).1 ha'
      rw [vert_of hB hP hV hm.1 hm.2.1 hval] at hx'
      cases hx'
      exact ⟨c, p, hm, hval, rfl⟩
    · rintro ⟨c, p, hm, hval, rfl⟩
      exact ⟨a, _, (e3 a).2 ⟨c, p, hm, hval⟩, vert_of hB hP hV hm.1 hm.2.1 hval, rfl⟩

theorem AtMarked.bnd (hB : B.WF) (hs : MReach B s) {mk : Option (Ent → Bool)} {c : CN} {p : Nat} (h : AtMarked B sf s e mk c p) :
    BndPt B (rootPt c (node e p)) := by
  obtain ⟨hc, hp, i, j, hb, hj, hw, h3⟩ := h
  refine OnMarked.bnd (sf := sf) (mk := none) hB hs ?_
  rcases hj with rfl | rfl
  · exact ⟨hc, hp, j, 0, hb, rfl, le_rfl, by norm_num, h3⟩
  · exact ⟨hc, hp, i, 1, hb, rfl, by norm_num, le_rfl, by rw [h3, E_next]⟩

/-- **C66**: the constraints of the assembler have the form `Assembler.solve` needs (the hypothesis of C54): the hanging nodes of
`get_hanging_nodes` and Dirichlet values at boundary dofs. -/
theorem C66_one_level (hB : B.WF) (hP : Plain B) (he : torn e = false) (hR : Ready B e sf s D) {H C : List (Linsys.Con F)}
    (hh : setHanging sf s e D [] = some (H, C)) (d : List (Nat × F)) (hd : (d.map (·.1)).Nodup)
    (hb : ∀ a ∈ d.map (·.1), ∃ c p, p < nd2 e ∧ Dof.val D c p = some a ∧ BndPt B (rootPt c (node e p))) :
    Asm.OneLevel (consOf H d).hng (consOf H d).dir D.count (H.map (·.dof)) (d.map (·.1)) := by
  obtain ⟨hHC, hnd, h3⟩ := setHanging_spec hB hP he hR hh
  have W := C62_well_formed hB hP he hR hh [] (by simp) (by simp) (by simp) (by simp)
  rw [← hHC] at W
  have hfind : ∀ a S, (consOf H d).hng a = some S → ∃ x ∈ H, x.dof = a ∧ S = (x.supp.map (·.1), x.supp.map (·.2)) := by
    intro a S hS
    obtain ⟨x, hx, rfl⟩ := Option.map_eq_some_iff.1 hS
    exact ⟨x, List.mem_of_find?_eq_some hx, by simpa using List.find?_some hx, rfl⟩
  have hsome : ∀ a, a ∈ H.map (·.dof) ↔ ((consOf H d).hng a).isSome := by
    intro a
    show _ ↔ (Option.map _ _).isSome
    rw [Option.isSome_map, List.find?_isSome]
    simp
  refine ⟨hsome, hnd, look_mem, hd, ?_, ?_, ?_⟩
  · intro a S hS
    obtain ⟨x, hx, rfl, rfl⟩ := hfind a S hS
    refine ⟨W.dofs x (List.mem_append_left _ hx), fun b hb => ?_⟩
    obtain ⟨y, hy, rfl⟩ := List.mem_map.1 hb
    exact W.supps x hx y hy
  · intro a S hS b hb
    obtain ⟨x, hx, rfl, rfl⟩ := hfind a S hS
    obtain ⟨y, hy, rfl⟩ := List.mem_map.1 hb
    by_contra hne
    obtain ⟨w, hw, hwd⟩ := List.mem_map.1 ((hsome y.1).2 (by cases h : (consOf H d).hng y.1 <;> simp_all))
    exact W.chain x hx y hy w hw hwd.symm
  · intro a ha
    by_contra hne
    have : a ∈ d.map (·.1) := (look_mem a).2 (by
      show ((consOf H d).dir a).isSome
      cases h : (consOf H d).dir a
      · exact absurd h hne
      · rfl)
    obtain ⟨c, p, hp, hv, hbp⟩ := hb a this
    obtain ⟨x, hx, hxa⟩ := List.mem_map.1 ((hsome a).2 ha)
    exact C66_not_hanging hB hP he hR hh c p a hp hv hbp x hx hxa

theorem conforms_iff (H : List (Linsys.Con F)) (d : List (Nat × F)) (hnd : (H.map (·.dof)).Nodup) (h0 : ∀ x ∈ H, x.aff = 0) (U : Nat → F)
    (h : Asm.Conforms (consOf H d).hng U) : Feasible H U := by
  intro x hx
  have hf : H.find? (fun y => decide (y.dof = x.dof)) = some x := by
    have hs : (H.find? (fun y => decide (y.dof = x.dof))).isSome := List.find?_isSome.2 ⟨x, hx, by simp⟩
    obtain ⟨y, hy⟩ := Option.isSome_iff_exists.1 hs
    have h1 := List.mem_of_find?_eq_some hy
    have h2 : y.dof = x.dof := by simpa using List.find?_some hy
    rw [hy]
    exact congrArg some (List.inj_on_of_nodup_map hnd h1 hx h2)
  have := h x.dof (x.supp.map (·.1), x.supp.map (·.2)) (by show Option.map _ _ = _; rw [hf]; rfl)
  rw [this, h0 x hx]
  unfold Asm.combo
  rw [List.zip_map', List.map_map]
  simp only [add_zero]
  rfl

/-- **C66**, from the mesh to the solution with the `Assembler`: what `solve` returns is single-valued on the (sub)mesh and takes the
prescribed values at the marked end points of boundary sides.  (Partial: nodes inside sides, see `C66_assembler_violated`; the
hypotheses of C54 on the solver and the order of sets.) -/
theorem C66_assembler_solution_partial {κ : Type} [DecidableEq κ] (hB : B.WF) (hP : Plain B) (he : torn e = false)
    (hV : ReadyV close B e sf s D V) (hr : RootsIn B sf s)
    (hf : sf = false ∨ (RootedFlag B s ∧ FullFlag s)) {n : Nat} (hn : 4 * s.cells.length ≤ n) (h1 : OneBoundary B) (mk : Option (Ent → Bool))
    (g : Pt K → F) {H C : List (Linsys.Con F)} (hh : setHanging sf s e D [] = some (H, C)) {d : List (Nat × F)}
    (hdir : addDirichletA mk true sf B.n s n e D V g [] = some d)
    {keep fuel fuel'} {cs2 : List (κ × List (Asm.Loc2 F))} {cs1 : List (κ × List (Asm.Loc1 F))}
    (hb : Asm.SameBasis cs2) (huse : ∀ r, Asm.Uses2 cs2 r ↔ Asm.Uses1 cs1 r)
    {af2 : Asm.AF2 κ F} {af1 : Asm.AF1 κ F} (h2 : Asm.assemble2 (consOf H d) keep fuel cs2 = .ok af2)
    (h3 : Asm.assemble1 (consOf H d) keep fuel' cs1 = .ok af1)
    {ord : List ℕ → List ℕ} (ho : Asm.SetOrder ord) (ha : Asm.Ascending ord)
    {sy : Asm.Sys2 F} {ub : List ℕ} {b : List F} (hs2 : af2.consolidate ord = .ok sy)
    (hs1 : af1.consolidate ord = .ok (ub, b)) {y u : List F}
    (hy : ∀ x0, sy.x0 = some x0 → Asm.Solves sy b x0 y)
    (hu : Asm.finish (consOf H d) D.count (H.map (·.dof)) (d.map (·.1)) sy b y = .ok u) :
    Single B sf s e D (fun a => u.getD a 0) ∧
      (∀ c p, AtMarked B sf s e mk c p → feFn e D (fun a => u.getD a 0) c (castPt F (node e p)) = g (place s e c p)) ∧
      Asm.SolvesVariational (consOf H d).hng (consOf H d).dir (Asm.total2 cs2) (Asm.total1 cs1) (fun a => u.getD a 0) := by
  have hR := hV.ready
  obtain ⟨d', k1, k2, k3⟩ := C66_assembler_partial hB hP he hV hr hf hn h1 mk g [] (by simp)
  rw [hdir] at k1
  cases k1
  have hO := C66_one_level hB hP he hR hh d k2 (fun a hal => by
    obtain ⟨v, hv⟩ := Option.isSome_iff_exists.1 ((look_mem a).1 hal)
    rcases (k3 a v).1 hv with ⟨c, p, hm, hval, _⟩ | ⟨_, h0⟩
    · exact ⟨c, p, hm.2.1, hval, hm.bnd hB hR.uses.uses.reach⟩
    · simp [look] at h0)
  obtain ⟨_, hS⟩ := Asm.C54_solve_partial hO hb huse h2 h3 ho ha hs2 hs1 hy hu
  obtain ⟨hHC, hnd, h5⟩ := setHanging_spec hB hP he hR hh
  refine ⟨C62_implies_continuous hB hP he hR hh _ (conforms_iff H d hnd (fun x hx => ?_) _ hS.1.1), fun c p hm => ?_, hS⟩
  · obtain ⟨c, i, P, j, b, m, a, g, rfl⟩ := (h5 x).1 hx
    rfl
  · have hcm := (Dof.mem_leaves (hR.uses.uses.reach.inv hB) c).1 hm.1
    obtain ⟨a, hval⟩ := Option.ne_none_iff_exists'.1 (hR.val hB hcm.1 hcm.2.1 p hm.2.1)
    have hl := (k3 a _).2 (.inl ⟨c, p, hm, hval, rfl⟩)
    have hdirs : (consOf H d).dir a = some (g (place s e c p)) := hl
    have hng : (consOf H d).hng a = none := by
      by_contra hne
      have := hO.disj a (by cases h : (consOf H d).hng a <;> simp_all)
      rw [hdirs] at this
      cases this
    have := hS.1.2 a _ hng hdirs
    unfold feFn
    rw [cellFn_node _ _ hm.2.1]
    unfold dofAt
    rw [hval]
    simpa using this

end
end Verif.Dir
