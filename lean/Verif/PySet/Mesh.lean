import Verif.PySet.Props
import Verif.Gal.Props
import Verif.Dof.HangEx

/-!
# C82 on meshes: from `distribute_dofs` to `solve` with CPython's `list(set(..))`
-/

namespace Verif.PySet
open Verif.Mesh Verif.Dof Verif.Quad Verif.Fem Verif.Form Verif.Asm Verif.Phys Verif.Bnd Verif.Reg Verif.Dir Verif.Gauss Verif.Gal

/-- `f` is a dof of a leaf that neither hangs nor has a Dirichlet value. -/
def FreeDof (sf : Bool) (s : St ℝ) (e : ET) (D : DH) (H : List (Linsys.Con ℝ)) (d : List (Nat × ℝ)) (f : ℕ) : Prop :=
  (∃ c ∈ leaves sf s, ∃ i < nd2 e, Dof.val D c i = some f) ∧ f ∉ H.map (·.dof) ∧ f ∉ d.map (·.1)

theorem cons_free (H : List (Linsys.Con ℝ)) (d : List (Nat × ℝ)) (f : ℕ) :
    Asm.Free (consOf H d).hng (consOf H d).dir f ↔ f ∉ H.map (·.dof) ∧ f ∉ d.map (·.1) := by
  unfold Asm.Free consOf
  simp only [Option.map_eq_none_iff, List.find?_eq_none, List.mem_map, not_exists, not_and, decide_eq_true_eq]

section
variable {close : Pt ℝ → Pt ℝ → Bool} {B : Base ℝ} {e : ET} {sf : Bool} {s : St ℝ} {D : DH} {V : DV ℝ} {rect : Nat → Bool}
variable {n n1 j : Nat} {rc : List ((ℝ × ℝ) × ℝ)} {re : List (ℝ × ℝ)} {k kf : Kernel (Pt ℝ)} {κ p : Poly}

theorem leaf_iff (h : Setting close B e sf s D V rect) (r : ℕ) :
    (∃ c ∈ leaves sf s, ∃ i < nd2 e, dofAt D c i = r) ↔ ∃ c ∈ leaves sf s, ∃ i < nd2 e, Dof.val D c i = some r := by
  constructor
  · rintro ⟨c, hc, i, hi, rfl⟩
    exact ⟨c, hc, i, hi, (row_leaf h.wf h.plain h.ready.ready hc).2.2 i hi⟩
  · rintro ⟨c, hc, i, hi, hv⟩
    have := (row_leaf h.wf h.plain h.ready.ready hc).2.2 i hi
    rw [this] at hv
    exact ⟨c, hc, i, hi, Option.some.inj hv⟩

theorem coupled_iff (h : Setting close B e sf s D V rect) {H C : List (Linsys.Con ℝ)} (hh : setHanging sf s e D [] = some (H, C)) (d : List (Nat × ℝ))
    (k : Kernel (Pt ℝ)) (f : ℕ) :
    Coupled (consOf H d) (contribs e (laplace k) rc re j (meshCells rect sf s D)) f ↔ FreeDof sf s e D H d f := by
  unfold Coupled FreeDof
  rw [cons_free, and_comm, and_congr_left_iff]
  intro _
  constructor
  · rintro ⟨r, hr, hre⟩
    exact (leaf_iff h f).1 (reach_leaf h hh hre ((uses2_iff h k r).1 hr))
  · intro hl
    exact ⟨f, (uses2_iff h k f).2 ((leaf_iff h f).2 hl), .refl⟩

/-- **C82** (meshes).  If enough of the dofs are free, `assemble` and `solve` with CPython's `list(set(..))` do what they do when it is sorted. -/
theorem C82_mesh (h : Setting close B e sf s D V rect) {H C : List (Linsys.Con ℝ)} (hh : setHanging sf s e D [] = some (H, C)) {d : List (Nat × ℝ)}
    {F : Finset ℕ} (hF : ∀ f, f ∈ F ↔ FreeDof sf s e D H d f) (hd : Dense F) {keep fuel} (y u : List ℝ) :
    Solved e k kf rc re j rect sf s D H d keep fuel pySet y u ↔ Solved e k kf rc re j rect sf s D H d keep fuel sortedSet y u :=
  C82_run (contribs_same _ _ _ _ _ _) (fun r => by rw [uses2_iff h, uses1_iff h]) (fun f => by rw [hF, coupled_iff h hh]) hd y u

/-- Enough of the dofs are free if the hanging and the Dirichlet dofs are at most two fifths of them. -/
theorem dense_of (h : Setting close B e false s D V rect) {H : List (Linsys.Con ℝ)} {d : List (Nat × ℝ)}
    (hr : 5 * (H.length + d.length) ≤ 2 * D.count + 6) : ∃ F : Finset ℕ, (∀ f, f ∈ F ↔ FreeDof false s e D H d f) ∧ Dense F := by
  classical
  refine ⟨Finset.range D.count \ ((H.map (·.dof)) ++ d.map (·.1)).toFinset, fun f => ?_, fun x hx => ?_⟩
  · unfold FreeDof
    rw [← C62_leaf_dofs h.wf h.plain h.cont h.ready.ready f]
    simp only [Finset.mem_sdiff, Finset.mem_range, List.mem_toFinset, List.mem_append, not_or]
  · have h1 : x < D.count := Finset.mem_range.1 (Finset.mem_sdiff.1 hx).1
    have h2 := Finset.le_card_sdiff ((H.map (·.dof)) ++ d.map (·.1)).toFinset (Finset.range D.count)
    have h3 := List.toFinset_card_le ((H.map (·.dof)) ++ d.map (·.1))
    rw [List.length_append, List.length_map, List.length_map] at h3
    rw [Finset.card_range] at h2
    omega

/-- **C82** (a condition that is easy to check).  On the whole mesh: the hanging and the Dirichlet dofs are at most two fifths of all. -/
theorem C82_ratio (h : Setting close B e false s D V rect) {H C : List (Linsys.Con ℝ)} (hh : setHanging false s e D [] = some (H, C)) {d : List (Nat × ℝ)}
    (hr : 5 * (H.length + d.length) ≤ 2 * D.count + 6) {keep fuel} (y u : List ℝ) :
    Solved e k kf rc re j rect false s D H d keep fuel pySet y u ↔ Solved e k kf rc re j rect false s D H d keep fuel sortedSet y u := by
  obtain ⟨F, h1, h2⟩ := dense_of h hr
  exact C82_mesh h hh h1 h2 y u

/-- **C82** (a `LinearSystem`).  Assembled without constraints, as for a `LinearSystem`, matrix and vector are always those of the sorted dofs. -/
theorem C82_system (h : Setting close B e false s D V rect) {keep fuel fuel'} {af2 : AF2 CN ℝ} {af1 : AF1 CN ℝ}
    (h2 : assemble2 (consOf [] []) keep fuel (contribs e (laplace k) rc re j (meshCells rect false s D)) = .ok af2)
    (h1 : assemble1 (consOf [] []) keep fuel' (loads e (source kf) rc re j (meshCells rect false s D)) = .ok af1) :
    af2.consolidate pySet = af2.consolidate sortedSet ∧ af1.consolidate pySet = af1.consolidate sortedSet := by
  obtain ⟨F, hF, hd⟩ := dense_of h (H := []) (d := []) (by simp)
  have hco : ∀ f, Coupled (consOf [] []) (contribs e (laplace k) rc re j (meshCells rect false s D)) f ↔ f ∈ F := by
    intro f
    rw [hF]
    unfold Coupled FreeDof
    rw [cons_free, and_comm, and_congr_left_iff]
    intro _
    constructor
    · rintro ⟨r, hr, hre⟩
      have : r = f := by
        rcases Relation.ReflTransGen.cases_head hre with rfl | ⟨x, ⟨S, hS, _⟩, _⟩
        · rfl
        · simp [consOf] at hS
      subst this
      exact (leaf_iff h r).1 ((uses2_iff h k r).1 hr)
    · intro hl
      exact ⟨f, (uses2_iff h k f).2 ((leaf_iff h f).2 hl), .refl⟩
  have key : ∀ l : List ℕ, (∀ f, f ∈ l ↔ Coupled (consOf [] []) (contribs e (laplace k) rc re j (meshCells rect false s D)) f) →
      pySet l = sortedSet l := by
    intro l hl
    have : l.toFinset = F := by
      ext f
      rw [List.mem_toFinset, hl, hco]
    exact pySet_sorted (by rw [this]; exact hd)
  have hagg := agg_dofs (C := consOf [] []) (contribs_same _ _ _ _ _ _) (fun r => by rw [uses2_iff h, uses1_iff h]) h2 h1
  exact ⟨consolidate2_congr (key _ fun f => (hagg f).1) (key _ fun f => (hagg f).2.1), consolidate1_congr (key _ fun f => (hagg f).2.2)⟩

/-- **C82** (a `LinearSystem`, the answer).  `C69_system_partial` for CPython's `list(set(..))`, without further conditions. -/
theorem C82_system_reproduces (h : Setting close B e false s D V rect) (hd : Data B e n n1 j rc re k kf κ p) (h1 : OneBoundary B) {m : Nat}
    (hm : 4 * s.cells.length ≤ m) {H C C' : List (Linsys.Con ℝ)} (hh : setHanging false s e D [] = some (H, C))
    (hC : addDirichlet none true false B.n s m e D V (fun x => ev p (x.x, x.y)) C = some C')
    {keep fuel fuel'} {af2 : AF2 CN ℝ} {af1 : AF1 CN ℝ}
    (h2 : assemble2 (consOf [] []) keep fuel (contribs e (laplace k) rc re j (meshCells rect false s D)) = .ok af2)
    (h3 : assemble1 (consOf [] []) keep fuel' (loads e (source kf) rc re j (meshCells rect false s D)) = .ok af1)
    {A : Sys2 ℝ} {ub : List ℕ} {b : List ℝ} (hA : af2.consolidate pySet = .ok A) (hb : af1.consolidate pySet = .ok (ub, b))
    (hload : H.length ≤ 1 ∨ diffuse κ p = 0) (factor : Bool) (s' : Linsys.St ℝ D.count 1)
    (hs' : Linsys.Solve (Linsys.init (List.range D.count) C' (Matrix.of fun i j => A.entry i j) none) (some (Matrix.of fun i _ => b.getD i 0))
      factor s') :
    ∃ u, s'.u = some u ∧ ∀ c ∈ leaves false s, ∀ z, feFn e D (Linsys.colOf u 0) c z = ev p (F (cellQ s c) z) := by
  obtain ⟨e1, e2⟩ := C82_system h h2 h3
  rw [e1] at hA
  rw [e2] at hb
  exact C69_system_partial h hd h1 hm hh hC h2 h3 sortedSet_spec.1 sortedSet_spec.2 hA hb hload factor s' hs'

/-- **C82** (from the mesh to the solution, bilinear elements).  `C69_bilinear` for CPython's `list(set(..))`. -/
theorem C82_bilinear (hB : B.WF) (hP : Plain B) (hc : Fn.Convex B) (h1 : OneBoundary B) (hrect : RectOk rect B) (hs : MReach B s)
    (hb : isBalanced false s = true) (hd : Data B .Q1 n n1 j rc re k kf κ p) {m : Nat} (hm : 4 * s.cells.length ≤ m) (close : Pt ℝ → Pt ℝ → Bool) :
    ∃ D V H C d, distributeV close false B.n s .Q1 m DH.new DV.new = some (D, V) ∧ setHanging false s .Q1 D [] = some (H, C) ∧
      addDirichletA none true false B.n s m .Q1 D V (fun x => ev p (x.x, x.y)) [] = some d ∧
      (5 * (H.length + d.length) ≤ 2 * D.count + 6 → ∀ keep,
        (∀ fuel y u, Solved .Q1 k kf rc re j rect false s D H d keep fuel pySet y u → Equals s false .Q1 D u p) ∧
        (Inner B false s .Q1 D H → ∃ N, ∀ fuel ≥ N, ∃ y u, Solved .Q1 k kf rc re j rect false s D H d keep fuel pySet y u)) := by
  obtain ⟨D, V, H, C, d, g1, g2, g3, g4⟩ := C69_bilinear hB hP hc h1 hrect hs hb hd hm close
  have hV := readyV_first hB hP hs (.inl rfl) hb hm g1
  have h : Setting close B .Q1 false s D V rect := ⟨hB, hP, hc, hrect, rfl, hV, fun _ _ => .inl rfl, .inl rfl⟩
  refine ⟨D, V, H, C, d, g1, g2, g3, fun hr keep => ?_⟩
  obtain ⟨q1, q2⟩ := g4 keep sortedSet sortedSet_spec.1 sortedSet_spec.2
  refine ⟨fun fuel y u hs => q1 fuel y u ((C82_ratio h g2 hr y u).1 hs), fun hI => ?_⟩
  obtain ⟨N, hN⟩ := q2 hI
  exact ⟨N, fun fuel hf => let ⟨y, u, hs⟩ := hN fuel hf; ⟨y, u, (C82_ratio h g2 hr y u).2 hs⟩⟩

end
end Verif.PySet
