import Verif.Gal.Inner
import Verif.Gal.SystemRun
import Verif.Fn.Setup
import Verif.Bnd.Grid

/-!
# C69: the finite element method reproduces polynomials (patch test)

The whole pipeline — mesh, refinement, dofs, hanging nodes, Dirichlet values, quadrature, local forms, assembly, consolidation, solving —
for the problem `−div(κ∇u) = f` whose solution is a polynomial `p` of the degree of the element.
-/

namespace Verif.Gal
open Verif.Mesh Verif.Dof Verif.Quad Verif.Fem Verif.Form Verif.Asm Verif.Phys Verif.Bnd Verif.Reg Verif.Dir Verif.Gauss

/-- The finite element function with dof values `u` is the polynomial `p`: at every node, and at every point of every leaf. -/
def Equals (s : St ℝ) (sf : Bool) (e : ET) (D : DH) (u : List ℝ) (p : Poly) : Prop :=
  ∀ c ∈ leaves sf s, (∀ a < nd2 e, u.getD (dofAt D c a) 0 = ev p ((place s e c a).x, (place s e c a).y)) ∧
    ∀ z, feFn e D (fun a => u.getD a 0) c z = ev p (F (cellQ s c) z)

/-- A run of `assemble` and `solve` for the problem on the mesh, with hanging nodes `H` and Dirichlet values `d`. -/
def Solved (e : ET) (k kf : Kernel (Pt ℝ)) (rc : List ((ℝ × ℝ) × ℝ)) (re : List (ℝ × ℝ)) (j : Nat) (rect : Nat → Bool) (sf : Bool) (s : St ℝ) (D : DH)
    (H : List (Linsys.Con ℝ)) (d : List (Nat × ℝ)) (keep : Bool) (fuel : Nat) (ord : List ℕ → List ℕ) (y u : List ℝ) : Prop :=
  Run (consOf H d) D.count (H.map (·.dof)) (d.map (·.1)) keep fuel (contribs e (laplace k) rc re j (meshCells rect sf s D))
    (loads e (source kf) rc re j (meshCells rect sf s D)) ord y u

section
variable {close : Pt ℝ → Pt ℝ → Bool} {B : Base ℝ} {e : ET} {sf : Bool} {s : St ℝ} {D : DH} {V : DV ℝ} {rect : Nat → Bool}
variable {n n1 j : Nat} {rc : List ((ℝ × ℝ) × ℝ)} {re : List (ℝ × ℝ)} {k kf : Kernel (Pt ℝ)} {κ p : Poly}

/-- **C69** (reproduction).  Elements of degree 1 to 3, any mesh with hanging nodes, the values of `p` at the boundary nodes as Dirichlet
data: whatever `solve` returns is `p`. -/
theorem C69_reproduces (h : Setting close B e sf s D V rect) (hd : Data B e n n1 j rc re k kf κ p) {H C : List (Linsys.Con ℝ)}
    (hh : setHanging sf s e D [] = some (H, C)) {d : List (Nat × ℝ)} (hD : BndDict B sf s e D (fun x => ev p (x.x, x.y)) d)
    {keep fuel} {ord : List ℕ → List ℕ} (ho : SetOrder ord) (ha : Ascending ord) {y u : List ℝ}
    (hr : Solved e k kf rc re j rect sf s D H d keep fuel ord y u) : Equals s sf e D u p := by
  obtain ⟨af2, af1, A, ub, b, x0, h2, h1, hA, hb, hx, _, hs, hu⟩ := hr.run
  exact assembled h hd hh hD h2 h1 ho ha hA hb (fun x0' hx' => by rw [hx] at hx'; cases hx'; exact hs) hu

/-- **C69** (the matrix).  For any kernel that is positive on the domain and any Dirichlet data on the whole boundary the assembled matrix is square, with the
same dofs as rows and columns, and invertible. -/
theorem C69_solvable (h : Setting close B e sf s D V rect) (hrc : Gauss.rule2 (n ^ 2) = .ok rc) (hre : Gauss.rule1 n1 = .ok re) (hn : deg e < n)
    {S : Nat} (hS : sampleSize k = .ok S) (hk : ∀ x : Pt ℝ, (x.x, x.y) ∈ Dom B → 0 < k.eval S x j) {g : Pt ℝ → ℝ} {H C : List (Linsys.Con ℝ)}
    (hh : setHanging sf s e D [] = some (H, C)) {d : List (Nat × ℝ)} (hd : BndDict B sf s e D g d) {keep fuel} {af : AF2 CN ℝ}
    (ha : assemble2 (consOf H d) keep fuel (contribs e (laplace k) rc re j (meshCells rect sf s D)) = .ok af)
    {ord : List ℕ → List ℕ} (ho : SetOrder ord) (hasc : Ascending ord) {A : Sys2 ℝ} (hA : af.consolidate ord = .ok A) :
    A.ucol = A.urow ∧ IsUnit A.mat := solvable h hrc hre hn hS hk hh hd ha ho hasc hA

/-- A mesh on which `assemble` and `solve` succeed has an inner dof. -/
theorem inner_of (h : Setting close B e sf s D V rect) {g : Pt ℝ → ℝ} {H C : List (Linsys.Con ℝ)}
    (hh : setHanging sf s e D [] = some (H, C)) {d : List (Nat × ℝ)} (hd : BndDict B sf s e D g d) {keep fuel}
    {ord : List ℕ → List ℕ} (ho : SetOrder ord) {y u : List ℝ} (hr : Solved e k kf rc re j rect sf s D H d keep fuel ord y u) :
    Inner B sf s e D H := by
  obtain ⟨af2, af1, A, ub, b, x0, h2, h1, hA, hb, hx, _, hs, hu⟩ := hr.run
  have hne : A.urow ≠ [] := by
    intro h0
    obtain ⟨ir, ic, hir, hic, hur, _⟩ := consolidate2_ok hA
    rw [← hur, h0] at hir
    cases hir
  obtain ⟨f, hf⟩ := List.exists_mem_of_ne_nil _ hne
  obtain ⟨⟨h3, h4⟩, r, h5, h6⟩ := (uses_rows h2 (contribs_same _ _ _ _ _ _) ho hA f).1.1 hf
  obtain ⟨c, hc, i, hi, rfl⟩ := reach_leaf h hh h6 ((uses2_iff h k r).1 h5)
  have hv := (row_leaf h.wf h.plain h.ready.ready hc).2.2 i hi
  refine ⟨c, hc, i, hi, fun hbp => ?_, fun x hx he => ?_⟩
  · have h7 := (hd.2 (dofAt D c i) _).2 ⟨c, hc, i, hi, hv, hbp, rfl⟩
    have h8 : Dir.look d (dofAt D c i) = none := h4
    rw [h7] at h8
    cases h8
  · have h9 : (H.find? (fun x => x.dof == dofAt D c i)) = none := Option.map_eq_none_iff.1 h3
    rw [List.find?_eq_none] at h9
    simpa [he] using h9 x hx

/-- **C69** (one answer).  `assemble` and `solve` succeed exactly on meshes with a node that is neither on the boundary nor hanging; the
answer is then unique. -/
theorem C69_one_answer (h : Setting close B e sf s D V rect) (hrc : Gauss.rule2 (n ^ 2) = .ok rc) (hre : Gauss.rule1 n1 = .ok re) (hn : deg e < n)
    {S : Nat} (hS : sampleSize k = .ok S) (hk : ∀ x : Pt ℝ, (x.x, x.y) ∈ Dom B → 0 < k.eval S x j) {g : Pt ℝ → ℝ} {H C : List (Linsys.Con ℝ)}
    (hh : setHanging sf s e D [] = some (H, C)) {d : List (Nat × ℝ)} (hd : BndDict B sf s e D g d) (keep : Bool)
    (kf : Kernel (Pt ℝ)) {ord : List ℕ → List ℕ} (ho : SetOrder ord) (hasc : Ascending ord) :
    (Inner B sf s e D H ↔ ∃ fuel y u, Solved e k kf rc re j rect sf s D H d keep fuel ord y u) ∧
    ∃ N, ∀ fuel ≥ N, (Inner B sf s e D H → ∃ y u, Solved e k kf rc re j rect sf s D H d keep fuel ord y u) ∧
      ∀ y u y' u', Solved e k kf rc re j rect sf s D H d keep fuel ord y u → Solved e k kf rc re j rect sf s D H d keep fuel ord y' u' →
        y = y' ∧ u = u' := by
  constructor
  · constructor
    · intro hI
      obtain ⟨N, hN⟩ := total h hrc hre hn hS hk hh hd hI keep kf ho hasc
      exact ⟨N, (hN N le_rfl).1⟩
    · rintro ⟨fuel, y, u, hr⟩
      exact inner_of h hh hd ho hr
  · by_cases hI : Inner B sf s e D H
    · obtain ⟨N, hN⟩ := total h hrc hre hn hS hk hh hd hI keep kf ho hasc
      exact ⟨N, fun fuel hf => ⟨fun _ => (hN fuel hf).1, (hN fuel hf).2⟩⟩
    · exact ⟨0, fun fuel _ => ⟨fun h => absurd h hI, fun y u y' u' hr _ => absurd (inner_of h hh hd ho hr) hI⟩⟩

/-- **C69** (meshes with an inner dof).  Biquadratic and bicubic elements: all meshes.  Bilinear elements: all meshes with a refined cell. -/
theorem C69_inner (h : Setting close B e sf s D V rect) {H C : List (Linsys.Con ℝ)} (hh : setHanging sf s e D [] = some (H, C)) :
    (∀ c ∈ leaves sf s, e = .Q2 ∨ e = .Q3 → Inner B sf s e D H) ∧ (∀ c ∈ s.cells, Dof.Sub sf s c → hasCh sf s c = true → Inner B sf s e D H) :=
  ⟨fun _ hc he => inner_high h he hh hc, fun c hc hS hk => inner_centre h hh (((h.ready.ready.uses.uses.reach.inv h.wf).mem c).1 hc) hS hk⟩

/-- **C69** (from the mesh to the solution, bilinear elements).  Take any mesh of strictly convex quadrilaterals with one boundary curve, refine
it as you like and balance it.  `distribute_dofs`, `set_hanging_nodes` and `Assembler.add_dirichlet` succeed; `assemble` and `solve` succeed if there
is an inner dof; and every answer is the linear function `p`. -/
theorem C69_bilinear (hB : B.WF) (hP : Plain B) (hc : Fn.Convex B) (h1 : OneBoundary B) (hrect : RectOk rect B) (hs : MReach B s)
    (hb : isBalanced false s = true) (hd : Data B .Q1 n n1 j rc re k kf κ p) {m : Nat} (hm : 4 * s.cells.length ≤ m) (close : Pt ℝ → Pt ℝ → Bool) :
    ∃ D V H C d, distributeV close false B.n s .Q1 m DH.new DV.new = some (D, V) ∧ setHanging false s .Q1 D [] = some (H, C) ∧
      addDirichletA none true false B.n s m .Q1 D V (fun x => ev p (x.x, x.y)) [] = some d ∧
      ∀ keep ord, SetOrder ord → Ascending ord →
        (∀ fuel y u, Solved .Q1 k kf rc re j rect false s D H d keep fuel ord y u → Equals s false .Q1 D u p) ∧
        (Inner B false s .Q1 D H → ∃ N, ∀ fuel ≥ N, ∃ y u, Solved .Q1 k kf rc re j rect false s D H d keep fuel ord y u) := by
  obtain ⟨D, V, _, hD, hV, _, _⟩ := Fn.C67_setup hB hP hs hb .Q1 close hm
  have h : Setting close B .Q1 false s D V rect := ⟨hB, hP, hc, hrect, rfl, hV, fun _ _ => .inl rfl, .inl rfl⟩
  obtain ⟨⟨H, C⟩, hh⟩ := C62_succeeds (F := ℝ) hB hV.ready (.inl rfl) []
  obtain ⟨d, hda, _⟩ := C66_assembler_partial hB hP rfl hV h.roots (.inl rfl) hm h1 none (fun x => ev p (x.x, x.y)) [] (by simp)
  have hdd := dict_Q1 hB hP hV h.roots (.inl rfl) hm h1 _ hda
  refine ⟨D, V, H, C, d, hD, hh, hda, fun keep ord ho ha => ⟨fun fuel y u hr => C69_reproduces h hd hh hdd ho ha hr, fun hI => ?_⟩⟩
  obtain ⟨S, hS, hk⟩ := hd.diff
  obtain ⟨_, N, hN⟩ := C69_one_answer h hd.rule2 hd.rule1 hd.order hS (fun x hx => by rw [hk]; exact hd.pos _ hx) hh hdd keep kf ho ha
  exact ⟨N, fun fuel hf => (hN fuel hf).1 hI⟩

/-- **C69** (with a `LinearSystem`), matrix and right-hand side assembled without constraints, hanging nodes by `set_hanging_nodes` and the values
of `p` by `add_dirichlet_constraint`, for biquadratic and bicubic elements as well.  Partial: `LinearSystem` drops the loads of all hanging nodes
but the first (see C38), so either there is at most one of them or the load is zero. -/
theorem C69_system_partial (h : Setting close B e false s D V rect) (hd : Data B e n n1 j rc re k kf κ p) (h1 : OneBoundary B) {m : Nat}
    (hm : 4 * s.cells.length ≤ m) {H C C' : List (Linsys.Con ℝ)} (hh : setHanging false s e D [] = some (H, C))
    (hC : addDirichlet none true false B.n s m e D V (fun x => ev p (x.x, x.y)) C = some C')
    {keep fuel fuel'} {af2 : AF2 CN ℝ} {af1 : AF1 CN ℝ}
    (h2 : assemble2 (consOf [] []) keep fuel (contribs e (laplace k) rc re j (meshCells rect false s D)) = .ok af2)
    (h3 : assemble1 (consOf [] []) keep fuel' (loads e (source kf) rc re j (meshCells rect false s D)) = .ok af1)
    {ord : List ℕ → List ℕ} (ho : SetOrder ord) (ha : Ascending ord)
    {A : Sys2 ℝ} {ub : List ℕ} {b : List ℝ} (hA : af2.consolidate ord = .ok A) (hb : af1.consolidate ord = .ok (ub, b))
    (hload : H.length ≤ 1 ∨ diffuse κ p = 0) (factor : Bool) (s' : Linsys.St ℝ D.count 1)
    (hs' : Linsys.Solve (Linsys.init (List.range D.count) C' (Matrix.of fun i j => A.entry i j) none) (some (Matrix.of fun i _ => b.getD i 0))
      factor s') :
    ∃ u, s'.u = some u ∧ ∀ c ∈ leaves false s, ∀ z, feFn e D (Linsys.colOf u 0) c z = ev p (F (cellQ s c) z) :=
  system h hd h1 hm hh hC h2 h3 ho ha hA hb hload factor s' hs'

/-- **C69** (the `LinearSystem` has a solution).  For any kernel that is positive on the domain, load and boundary values, on every mesh with at least one cell. -/
theorem C69_system_runs (h : Setting close B e false s D V rect) (hB : 0 < B.n) (hrc : Gauss.rule2 (n ^ 2) = .ok rc) (hre : Gauss.rule1 n1 = .ok re)
    (hn : deg e < n) {S : Nat} (hS : sampleSize k = .ok S) (hk : ∀ x : Pt ℝ, (x.x, x.y) ∈ Dom B → 0 < k.eval S x j) (kf : Kernel (Pt ℝ)) (h1 : OneBoundary B) {m : Nat}
    (hm : 4 * s.cells.length ≤ m) (g : Pt ℝ → ℝ) {H C : List (Linsys.Con ℝ)} (hh : setHanging false s e D [] = some (H, C)) (keep : Bool)
    {ord : List ℕ → List ℕ} (ho : SetOrder ord) (ha : Ascending ord) :
    ∃ C' N af2 af1 A ub b, addDirichlet none true false B.n s m e D V g C = some C' ∧
      (∀ fuel ≥ N, assemble2 (consOf [] []) keep fuel (contribs e (laplace k) rc re j (meshCells rect false s D)) = .ok af2 ∧
        assemble1 (consOf [] []) keep fuel (loads e (source kf) rc re j (meshCells rect false s D)) = .ok af1) ∧
      af2.consolidate ord = .ok A ∧ af1.consolidate ord = .ok (ub, b) ∧ ∀ factor, ∃ s' : Linsys.St ℝ D.count 1,
        Linsys.Solve (Linsys.init (List.range D.count) C' (Matrix.of fun i j => A.entry i j) none) (some (Matrix.of fun i _ => b.getD i 0))
          factor s' := system_runs h hB hrc hre hn hS hk kf h1 hm g hh keep ho ha

end
end Verif.Gal
