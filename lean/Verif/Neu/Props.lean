import Verif.Neu.Solve
import Verif.Gal.Props

/-!
# C88: Neumann, Robin and mixed boundary conditions (patch test)

The whole pipeline for `−div(κ∇u) = f` with Dirichlet values on a part of the boundary and `κ ∂u/∂n + α u = h` on the rest.
-/

namespace Verif.Neu
open Verif.Mesh Verif.Dof Verif.Quad Verif.Fem Verif.Form Verif.Asm Verif.Phys Verif.Gal Verif.Bnd Verif.Reg Verif.Dir Verif.Gauss

/-- A run of `assemble` and `solve` for the mixed problem on the mesh, with hanging nodes `H` and Dirichlet values `d`. -/
def SolvedM (e : ET) (k kf : Kernel (Pt ℝ)) (rob neu : List (Kernel (Pt ℝ) × Nat)) (rc : List ((ℝ × ℝ) × ℝ)) (re : List (ℝ × ℝ)) (j : Nat)
    (em : CN → Fin 4 → Finset Nat) (rect : Nat → Bool) (sf : Bool) (s : St ℝ) (D : DH) (H : List (Linsys.Con ℝ)) (d : List (Nat × ℝ)) (keep : Bool)
    (fuel : Nat) (ord : List ℕ → List ℕ) (y u : List ℝ) : Prop :=
  Run (consOf H d) D.count (H.map (·.dof)) (d.map (·.1)) keep fuel (contribs e (mixedBil k rob) rc re j (meshCellsM em rect sf s D))
    (loads e (mixedLin kf neu) rc re j (meshCellsM em rect sf s D)) ord y u

section
variable {close : Pt ℝ → Pt ℝ → Bool} {B : Base ℝ} {e : ET} {sf : Bool} {s : St ℝ} {D : DH} {V : DV ℝ} {rect : Nat → Bool}
variable {n n1 j : Nat} {rc : List ((ℝ × ℝ) × ℝ)} {re : List (ℝ × ℝ)} {k kf : Kernel (Pt ℝ)} {κ p : Poly}
variable {em : CN → Fin 4 → Finset Nat} {d : List (Nat × ℝ)} {rob neu : List (Kernel (Pt ℝ) × Nat)}

/-- **C88** (reproduction).  Elements of degree 1 to 3, any connected mesh with hanging nodes, values of `p` as Dirichlet values at some boundary nodes,
and on every boundary side without Dirichlet values `κ ∂p/∂n + α p = h`, where `α` and `h` are the sums of the kernels of the boundary forms whose
flag the side carries: whatever `solve` returns is `p`. -/
theorem C88_reproduces (h : Setting close B e sf s D V rect) (hcon : Connected B) (hd : Mixed B sf s e D em d n n1 j rc re k kf rob neu κ p)
    {H C : List (Linsys.Con ℝ)} (hh : setHanging sf s e D [] = some (H, C)) (hD : Holds B sf s e D (fun x => ev p (x.x, x.y)) d) (hne : d ≠ [])
    {keep fuel} {ord : List ℕ → List ℕ} (ho : SetOrder ord) (ha : Ascending ord) {y u : List ℝ}
    (hr : SolvedM e k kf rob neu rc re j em rect sf s D H d keep fuel ord y u) : Equals s sf e D u p := by
  obtain ⟨af2, af1, A, ub, b, x0, h2, h1, hA, hb, hx, _, hs, hu⟩ := hr.run
  exact assembled h hcon hd hD hne hh h2 h1 ho ha hA hb (fun x0' hx' => by rw [hx] at hx'; cases hx'; exact hs) hu

/-- **C88** (the matrix).  With a diffusion kernel that is positive and boundary kernels that are not negative on the domain, and at least one Dirichlet
value, the assembled matrix is square, with the same dofs as rows and columns, and invertible. -/
theorem C88_solvable (h : Setting close B e sf s D V rect) (hcon : Connected B) (hrc : Gauss.rule2 (n ^ 2) = .ok rc) (hre : Gauss.rule1 n1 = .ok re)
    (hn : deg e < n) {S : Nat} (hS : sampleSize k = .ok S) (hk : ∀ x : Pt ℝ, (x.x, x.y) ∈ Dom B → 0 < k.eval S x j)
    (hrob : ∀ y ∈ rob, ∃ S, sampleSize y.1 = .ok S ∧ ∀ x : Pt ℝ, (x.x, x.y) ∈ Dom B → 0 ≤ y.1.eval S x j) {g : Pt ℝ → ℝ} {H C : List (Linsys.Con ℝ)}
    (hh : setHanging sf s e D [] = some (H, C)) (hD : Holds B sf s e D g d) (hne : d ≠ []) {keep fuel} {af : AF2 CN ℝ}
    (ha : assemble2 (consOf H d) keep fuel (contribs e (mixedBil k rob) rc re j (meshCellsM em rect sf s D)) = .ok af)
    {ord : List ℕ → List ℕ} (ho : SetOrder ord) (hasc : Ascending ord) {A : Sys2 ℝ} (hA : af.consolidate ord = .ok A) :
    A.ucol = A.urow ∧ IsUnit A.mat := by
  refine C54_solvable (level_acyclic (dict_level h hh hD)) (contribs_same _ _ _ _ _ _) ha ho hasc hA (fun v hv h0 f r _ hr hrf => ?_)
  obtain ⟨h1, h2⟩ := (test_iff h hh hD v).1 hv
  obtain ⟨c, hc, i, hi, rfl⟩ := reach_leaf h hh hrf ((uses2_iff h k rob r).1 hr)
  exact definite h hcon hD hne hrc hre hn hS hk hrob h1 h2 h0 c hc i hi

/-- A mesh on which `assemble` and `solve` succeed has a free node. -/
theorem free_node_of (h : Setting close B e sf s D V rect) {H C : List (Linsys.Con ℝ)}
    (hh : setHanging sf s e D [] = some (H, C)) {keep fuel} {ord : List ℕ → List ℕ} (ho : SetOrder ord) {y u : List ℝ}
    (hr : SolvedM e k kf rob neu rc re j em rect sf s D H d keep fuel ord y u) : FreeNode sf s e D H d := by
  obtain ⟨af2, af1, A, ub, b, x0, h2, h1, hA, hb, hx, _, hs, hu⟩ := hr.run
  have hne : A.urow ≠ [] := by
    intro h0
    obtain ⟨ir, ic, hir, hic, hur, _⟩ := consolidate2_ok hA
    rw [← hur, h0] at hir
    cases hir
  obtain ⟨f, hf⟩ := List.exists_mem_of_ne_nil _ hne
  obtain ⟨⟨h3, h4⟩, r, h5, h6⟩ := (uses_rows h2 (contribs_same _ _ _ _ _ _) ho hA f).1.1 hf
  obtain ⟨c, hc, i, hi, rfl⟩ := reach_leaf h hh h6 ((uses2_iff h k rob r).1 h5)
  refine ⟨c, hc, i, hi, h4, fun x hx he => ?_⟩
  have h9 : (H.find? (fun x => x.dof == dofAt D c i)) = none := Option.map_eq_none_iff.1 h3
  rw [List.find?_eq_none] at h9
  simpa [he] using h9 x hx

/-- **C88** (one answer).  With at least one Dirichlet value, `assemble` and `solve` succeed exactly on meshes with a node that neither hangs nor has a
Dirichlet value; the answer is then unique. -/
theorem C88_one_answer (h : Setting close B e sf s D V rect) (hcon : Connected B) (hrc : Gauss.rule2 (n ^ 2) = .ok rc) (hre : Gauss.rule1 n1 = .ok re)
    (hn : deg e < n) {S : Nat} (hS : sampleSize k = .ok S) (hk : ∀ x : Pt ℝ, (x.x, x.y) ∈ Dom B → 0 < k.eval S x j)
    (hrob : ∀ y ∈ rob, ∃ S, sampleSize y.1 = .ok S ∧ ∀ x : Pt ℝ, (x.x, x.y) ∈ Dom B → 0 ≤ y.1.eval S x j) {g : Pt ℝ → ℝ} {H C : List (Linsys.Con ℝ)}
    (hh : setHanging sf s e D [] = some (H, C)) (hD : Holds B sf s e D g d) (hne : d ≠ []) (keep : Bool)
    (kf : Kernel (Pt ℝ)) (neu : List (Kernel (Pt ℝ) × Nat)) {ord : List ℕ → List ℕ} (ho : SetOrder ord) (hasc : Ascending ord) :
    (FreeNode sf s e D H d ↔ ∃ fuel y u, SolvedM e k kf rob neu rc re j em rect sf s D H d keep fuel ord y u) ∧
    ∃ N, ∀ fuel ≥ N, (FreeNode sf s e D H d → ∃ y u, SolvedM e k kf rob neu rc re j em rect sf s D H d keep fuel ord y u) ∧
      ∀ y u y' u', SolvedM e k kf rob neu rc re j em rect sf s D H d keep fuel ord y u →
        SolvedM e k kf rob neu rc re j em rect sf s D H d keep fuel ord y' u' → y = y' ∧ u = u' := by
  constructor
  · constructor
    · intro hI
      obtain ⟨N, hN⟩ := total h hcon hrc hre hn hS hk hrob hh hD hne hI keep kf neu ho hasc
      exact ⟨N, (hN N le_rfl).1⟩
    · rintro ⟨fuel, y, u, hr⟩
      exact free_node_of h hh ho hr
  · by_cases hI : FreeNode sf s e D H d
    · obtain ⟨N, hN⟩ := total h hcon hrc hre hn hS hk hrob hh hD hne hI keep kf neu ho hasc
      exact ⟨N, fun fuel hf => ⟨fun _ => (hN fuel hf).1, (hN fuel hf).2⟩⟩
    · exact ⟨0, fun fuel _ => ⟨fun h => absurd h hI, fun y u y' u' hr _ => absurd (free_node_of h hh ho hr) hI⟩⟩

/-- **C88** (meshes with a free node).  All meshes with a refined cell; biquadratic and bicubic elements: all meshes. -/
theorem C88_free (h : Setting close B e sf s D V rect) {H C : List (Linsys.Con ℝ)} (hh : setHanging sf s e D [] = some (H, C)) {g : Pt ℝ → ℝ}
    (hD : Holds B sf s e D g d) :
    (∀ c ∈ leaves sf s, e = .Q2 ∨ e = .Q3 → FreeNode sf s e D H d) ∧ (∀ c ∈ s.cells, Dof.Sub sf s c → hasCh sf s c = true → FreeNode sf s e D H d) := by
  have key : Inner B sf s e D H → FreeNode sf s e D H d := by
    rintro ⟨c, hc, i, hi, hb, hn⟩
    refine ⟨c, hc, i, hi, ?_, hn⟩
    by_contra hl
    obtain ⟨c', hc', i', hi', hv', _, ⟨f, l, r, h4, h5, h6, h7, h8⟩⟩ := held_leaf hD (Option.isSome_iff_ne_none.2 hl)
    have hv := (row_leaf h.wf h.plain h.ready.ready hc).2.2 i hi
    have hS := (C34_shared h.wf h.plain h.cont h.ready.ready.uses _ _ _ _ _ _ hi hi' hv hv').1 rfl
    exact hb ⟨f, l, r, h4, h5, h6, h7, .trans _ _ _ hS h8⟩
  exact ⟨fun c hc he => key ((C69_inner h hh).1 c hc he), fun c hc h1 h2 => key ((C69_inner h hh).2 c hc h1 h2)⟩

theorem node_side {i : Fin 4} {a : Nat} (ha : a < nd2 .Q1) {t : ℚ} (h : node .Q1 a = E i t) : node .Q1 a = E i 0 ∨ node .Q1 a = E (i + 1) 0 := by
  have h4 : a < 4 := ha
  have hE : node .Q1 a = E (⟨a, h4⟩ : Fin 4) 0 :=
    (show ∀ l : Fin 4, node .Q1 l = E l 0 by decide +kernel) ⟨a, h4⟩
  rw [hE] at h ⊢
  generalize (⟨a, h4⟩ : Fin 4) = l at h ⊢
  fin_cases i <;> fin_cases l <;> simp [E] at h ⊢

theorem mem_marks {K : Type} (fl : List Nat) (mk : Nat → Ent → Bool) (s : St K) (c : CN) (i : Fin 4) (t : Nat) :
    t ∈ edgeMarks fl mk s c i ↔ t ∈ fl ∧ mk t (.half (s.sides c i)) = true := by
  simp [edgeMarks]

/-- **C88** (from the mesh to the solution, bilinear elements).  Take any connected mesh of strictly convex quadrilaterals with one boundary curve, refine
it as you like and balance it.  Mark boundary vertices with the Dirichlet flag and boundary half-edges with the flags of the boundary forms, so that
every boundary side either has both ends marked or satisfies `κ ∂p/∂n + α p = h`.  Then `distribute_dofs`, `set_hanging_nodes` and
`Assembler.add_dirichlet` succeed; `assemble` and `solve` succeed if there is a free node; and every answer is the linear function `p`. -/
theorem C88_bilinear (hB : B.WF) (hP : Plain B) (hc : Fn.Convex B) (h1 : OneBoundary B) (hrect : RectOk rect B) (hs : MReach B s)
    (hb : isBalanced false s = true) (hcon : Connected B) (mk : Nat → Ent → Bool) (t0 : Nat) {fl : List Nat} (hfl : fl = (rob ++ neu).map (·.2))
    (hd : Data B .Q1 n n1 j rc re k kf κ p) (h5 : n1 ≤ 5)
    (hrob : ∀ y ∈ rob, ∃ α, IsPoly y.1 j α ∧ α.totalDegree + 2 ≤ 2 * n1 - 1 ∧ ∀ z ∈ Dom B, 0 ≤ ev α z)
    (hneu : ∀ y ∈ neu, ∃ η, IsPoly y.1 j η ∧ η.totalDegree + 1 ≤ 2 * n1 - 1)
    (hin : ∀ c ∈ leaves false s, ∀ i, ¬ OnBoundary B c i → ∀ t ∈ fl, mk t (.half (s.sides c i)) = false)
    (hside : ∀ c ∈ leaves false s, ∀ i, OnBoundary B c i → (mk t0 (.vertex (ends s (s.sides c i)).1) = true ∧
      mk t0 (.vertex (ends s (s.sides c (i + 1))).1) = true) ∨ Natural s (edgeMarks fl mk s) rob neu j κ p c i)
    (hdir : ∃ c ∈ leaves false s, ∃ i, OnBoundary B c i ∧ mk t0 (.vertex (ends s (s.sides c i)).1) = true)
    {m : Nat} (hm : 4 * s.cells.length ≤ m) (close : Pt ℝ → Pt ℝ → Bool) :
    ∃ D V H C d, distributeV close false B.n s .Q1 m DH.new DV.new = some (D, V) ∧ setHanging false s .Q1 D [] = some (H, C) ∧
      addDirichletA (some (mk t0)) true false B.n s m .Q1 D V (fun x => ev p (x.x, x.y)) [] = some d ∧
      ∀ keep ord, SetOrder ord → Ascending ord →
        (∀ fuel y u, SolvedM .Q1 k kf rob neu rc re j (edgeMarks fl mk s) rect false s D H d keep fuel ord y u → Equals s false .Q1 D u p) ∧
        (FreeNode false s .Q1 D H d → ∃ N, ∀ fuel ≥ N, ∃ y u, SolvedM .Q1 k kf rob neu rc re j (edgeMarks fl mk s) rect false s D H d keep fuel ord y u) := by
  obtain ⟨D, V, _, hD, hV, _, _⟩ := Fn.C67_setup hB hP hs hb .Q1 close hm
  have h : Setting close B .Q1 false s D V rect := ⟨hB, hP, hc, hrect, rfl, hV, fun _ _ => .inl rfl, .inl rfl⟩
  obtain ⟨⟨H, C⟩, hh⟩ := C62_succeeds (F := ℝ) hB hV.ready (.inl rfl) []
  obtain ⟨d, hda, k2, k3⟩ := C66_assembler_partial hB hP rfl hV h.roots (.inl rfl) hm h1 (some (mk t0)) (fun x => ev p (x.x, x.y)) [] (by simp)
  have hH : Holds B false s .Q1 D (fun x => ev p (x.x, x.y)) d := by
    refine ⟨k2, fun a v hl => ?_⟩
    rcases (k3 a v).1 hl with ⟨c, i, hm', hval, rfl⟩ | ⟨_, h0⟩
    · exact ⟨c, hm'.1, i, hm'.2.1, hval, hm'.bnd hB hs, rfl⟩
    · simp [Dir.look] at h0
  have hat : ∀ c a, AtMarked B false s .Q1 (some (mk t0)) c a → (Dir.look d (dofAt D c a)).isSome := by
    intro c a hm'
    have hv := (row_leaf h.wf h.plain h.ready.ready hm'.1).2.2 a hm'.2.1
    rw [(k3 (dofAt D c a) _).2 (.inl ⟨c, a, hm', hv, rfl⟩)]
    rfl
  have hne : d ≠ [] := by
    obtain ⟨c, hcl, i, hbd, hw⟩ := hdir
    have : AtMarked B false s .Q1 (some (mk t0)) c i := ⟨hcl, i.2, i, i, hbd, .inl rfl, hw, by fin_cases i <;> decide +kernel⟩
    intro h0
    have := hat c i this
    rw [h0] at this
    simp [Dir.look] at this
  have hM : Mixed B false s .Q1 D (edgeMarks fl mk s) d n n1 j rc re k kf rob neu κ p := by
    refine ⟨hd, h5, hrob, hneu, fun c hcl i hbd y hy hmem => ?_, fun c hcl i hbd => ?_⟩
    · have := hin c hcl i hbd y.2 (by rw [hfl]; exact List.mem_map.2 ⟨y, hy, rfl⟩)
      rw [((mem_marks _ _ _ _ _ _).1 hmem).2] at this
      cases this
    · refine (hside c hcl i hbd).imp (fun hw a ha hn => ?_) id
      obtain ⟨t, _, _, ht⟩ := hn
      refine hat c a ?_
      rcases node_side ha ht with h3 | h3
      · exact ⟨hcl, ha, i, i, hbd, .inl rfl, hw.1, h3⟩
      · exact ⟨hcl, ha, i, i + 1, hbd, .inr rfl, hw.2, h3⟩
  refine ⟨D, V, H, C, d, hD, hh, hda, fun keep ord ho ha => ⟨fun fuel y u hr => C88_reproduces h hcon hM hh hH hne ho ha hr, fun hI => ?_⟩⟩
  obtain ⟨S, hS, hk⟩ := hd.diff
  obtain ⟨_, N, hN⟩ := C88_one_answer (em := edgeMarks fl mk s) h hcon hd.rule2 hd.rule1 hd.order hS (fun x hx => by rw [hk]; exact hd.pos _ hx) (rob_pos hM) hh hH hne
    keep kf neu ho ha
  exact ⟨N, fun fuel hf => (hN fuel hf).1 hI⟩

end
end Verif.Neu
