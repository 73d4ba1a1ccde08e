import Verif.Dir.Assembler

/-! # C66: conditions on the whole boundary -/

namespace Verif.Dir
open Verif.Mesh Verif.Dof Verif.Fem Verif.Bnd Verif.Quad Verif.Reg Verif.Phys

section
set_option linter.unusedSectionVars false
variable {K : Type} [Field K] [LinearOrder K] [IsStrictOrderedRing K]
variable {F : Type} [Field F] [LinearOrder F] [IsStrictOrderedRing F]
variable {close : Pt K → Pt K → Bool} {B : Base K} {e : ET} {sf : Bool} {s : St K} {D : DH} {V : DV K}

/-- A boundary node of any leaf is a node of a boundary side of some leaf, with the same dof and the same place. -/
theorem bnd_marked (hB : B.WF) (hP : Plain B) (he : torn e = false) (hV : ReadyV close B e sf s D V) (hr : RootsIn B sf s)
    (hf : sf = false ∨ (RootedFlag B s ∧ FullFlag s)) (h1 : OneBoundary B) {c : CN} (hc : c ∈ leaves sf s) {p : Nat} (hp : p < nd2 e)
    (hb : BndPt B (rootPt c (node e p))) : ∃ c' p', OnMarked B sf s e none c' p' ∧ Dof.val D c' p' = Dof.val D c p ∧
      place s e c' p' = place s e c p := by
  have hR := hV.ready
  have hcm := (Dof.mem_leaves (hR.uses.uses.reach.inv hB) c).1 hc
  obtain ⟨a, ha⟩ := Option.ne_none_iff_exists'.1 (hR.val hB hcm.1 hcm.2.1 p hp)
  obtain ⟨L, e1, _, e3⟩ := C65_boundary hB hP he hR hr hf (le_refl (4 * s.cells.length)) h1
  obtain ⟨L', e1', _, e3'⟩ := marked_dofs hB hP he hR hr hf (le_refl (4 * s.cells.length)) h1 none
  rw [e1] at e1'
  cases e1'
  obtain ⟨c', p', hm, ha'⟩ := (e3' a).1 ((e3 a).2 ⟨c, hc, p, hp, ha, hb⟩)
  refine ⟨c', p', hm, ha'.trans ha.symm, ?_⟩
  have h2 := vert_of hB hP hV hc hp ha
  have h3 := vert_of hB hP hV hm.1 hm.2.1 ha'
  rw [h2] at h3
  exact (Option.some.inj h3).symm

/-- **C66**: with a condition on the whole boundary (no marker) the solution takes the prescribed value at every node of every leaf that
lies on the boundary of the domain. -/
theorem C66_whole_boundary (hB : B.WF) (hP : Plain B) (he : torn e = false) (hV : ReadyV close B e sf s D V) (hr : RootsIn B sf s)
    (hf : sf = false ∨ (RootedFlag B s ∧ FullFlag s)) {n : Nat} (hn : 4 * s.cells.length ≤ n) (h1 : OneBoundary B)
    (g : Pt K → F) {H C C' : List (Linsys.Con F)} (hh : setHanging sf s e D [] = some (H, C))
    (hC : addDirichlet none true sf B.n s n e D V g C = some C') {k : Nat}
    (A : Matrix (Fin D.count) (Fin D.count) F) (b0 : Option (Matrix (Fin D.count) (Fin k) F))
    (b : Matrix (Fin D.count) (Fin k) F) (bopt : Option (Matrix (Fin D.count) (Fin k) F)) (factor : Bool)
    (hbo : bopt = some b ∨ (bopt = none ∧ b0 = some b)) (s' : Linsys.St F D.count k)
    (hs' : Linsys.Solve (Linsys.init (List.range D.count) C' A b0) bopt factor s') :
    ∃ u, s'.u = some u ∧ ∀ l, Single B sf s e D (Linsys.colOf u l) ∧ ∀ c ∈ leaves sf s, ∀ p < nd2 e, BndPt B (rootPt c (node e p)) →
      feFn e D (Linsys.colOf u l) c (castPt F (node e p)) = g (place s e c p) := by
  have hcs : Compatible B sf s e D [((none : Option (Ent → Bool)), g)] := by
    intro y hy y' hy' c p c' p' hm hm' hv
    simp only [List.mem_singleton] at hy hy'
    subst hy hy'
    have hcm := (Dof.mem_leaves (hV.ready.uses.uses.reach.inv hB) c).1 hm.1
    obtain ⟨a, ha⟩ := Option.ne_none_iff_exists'.1 (hV.ready.val hB hcm.1 hcm.2.1 p hm.2.1)
    have h2 := vert_of hB hP hV hm.1 hm.2.1 ha
    have h3 := vert_of hB hP hV hm'.1 hm'.2.1 (hv.symm.trans ha)
    rw [h2] at h3
    exact congrArg g (Option.some.inj h3)
  have hC' : addAll sf B.n s n e D V [((none : Option (Ent → Bool)), g)] C = some C' := by
    simp only [addAll, hC, Option.bind_some]
  obtain ⟨u, k1, k2⟩ := C66_solution hB hP he hV hr hf hn h1 _ hcs hh hC' A b0 b bopt factor hbo s' hs'
  refine ⟨u, k1, fun l => ⟨(k2 l).1, fun c hc p hp hb => ?_⟩⟩
  obtain ⟨c', p', hm, hv, hpl⟩ := bnd_marked hB hP he hV hr hf h1 hc hp hb
  have : feFn e D (Linsys.colOf u l) c' (castPt F (node e p')) = g (place s e c' p') :=
    (k2 l).2 (none, g) (List.mem_singleton.2 rfl) c' p' hm
  rw [hpl] at this
  rw [← this]
  unfold feFn
  rw [cellFn_node _ _ hp, cellFn_node _ _ hm.2.1]
  unfold dofAt
  rw [hv]

theorem Q1_corner : ∀ p < nd2 .Q1, Corner (node .Q1 p) := by decide +kernel

/-- **C66**: for bilinear elements `Assembler.add_dirichlet` without marker sets the value of every dof whose node is on the boundary. -/
theorem C66_assembler_Q1 (hB : B.WF) (hP : Plain B) (hV : ReadyV close B .Q1 sf s D V) (hr : RootsIn B sf s)
    (hf : sf = false ∨ (RootedFlag B s ∧ FullFlag s)) {n : Nat} (hn : 4 * s.cells.length ≤ n) (h1 : OneBoundary B) (g : Pt K → F)
    (d : List (Nat × F)) (hd : (d.map (·.1)).Nodup) {d' : List (Nat × F)} (h : addDirichletA none true sf B.n s n .Q1 D V g d = some d')
    (c : CN) (hc : c ∈ leaves sf s) (p : Nat) (hp : p < nd2 .Q1) (hb : BndPt B (rootPt c (node .Q1 p))) (a : Nat)
    (ha : Dof.val D c p = some a) : look d' a = some (g (place s .Q1 c p)) := by
  obtain ⟨d1, k1, _, k3⟩ := C66_assembler_partial hB hP rfl hV hr hf hn h1 none g d hd
  rw [h] at k1
  cases k1
  obtain ⟨c', p', hm, hv, hpl⟩ := bnd_marked hB hP rfl hV hr hf h1 hc hp hb
  refine (k3 a _).2 (.inl ⟨c', p', ?_, hv.trans ha, by rw [hpl]⟩)
  obtain ⟨hc', hp', i, t, hbi, _, t0, t1, hn'⟩ := hm
  have := Q1_corner p' hp'
  rw [hn', E_corner] at this
  rcases this with rfl | rfl
  · exact ⟨hc', hp', i, i, hbi, .inl rfl, rfl, hn'⟩
  · exact ⟨hc', hp', i, i + 1, hbi, .inr rfl, rfl, by rw [hn', E_next]⟩

/-- **C66** fails for `Assembler.add_dirichlet`: the documentation asks for a flag of half-edges, but a flag that marks no vertices
changes nothing, on every mesh. -/
theorem C66_marker_violated (hB : B.WF) (hP : Plain B) (he : torn e = false) (hV : ReadyV close B e sf s D V) (hr : RootsIn B sf s)
    (hf : sf = false ∨ (RootedFlag B s ∧ FullFlag s)) {n : Nat} (hn : 4 * s.cells.length ≤ n) (h1 : OneBoundary B) (m : Ent → Bool)
    (hm : ∀ v, m (.vertex v) = false) (g : Pt K → F) (d : List (Nat × F)) :
    addDirichletA (some m) true sf B.n s n e D V g d = some d := by
  obtain ⟨L, e1, e2, e3⟩ := vertex_dofs hB hP he hV.ready hr hf hn h1 (some m)
  have : L = [] := by
    rw [List.eq_nil_iff_forall_not_mem]
    intro a ha
    obtain ⟨c, p, ⟨_, _, i, j, _, _, hw, _⟩, _⟩ := (e3 a).1 ha
    have : m (.vertex (ends s (s.sides c j)).1) = true := hw
    rw [hm] at this
    cases this
  subst this
  unfold addDirichletA
  rw [e1]
  rfl

end
end Verif.Dir
