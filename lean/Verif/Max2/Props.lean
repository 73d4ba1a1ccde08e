import Verif.Max2.Core

/-!
# C101: comparison and extreme values for bilinear elements in two dimensions

`−c₀Δu = f` on a mesh of near-square rectangles without hanging nodes, solved with bilinear elements (C69).  The load is any kernel whatever.
-/

namespace Verif.Max2
open Verif.Mesh Verif.Dof Verif.Quad Verif.Fem Verif.Form Verif.Asm Verif.Phys Verif.Bnd Verif.Reg Verif.Dir Verif.Gauss Verif.Gal Verif.Cea MeasureTheory

section
variable {close : Pt ℝ → Pt ℝ → Bool} {B : Base ℝ} {sf : Bool} {s : St ℝ} {D : DH} {V : DV ℝ} {rect : Nat → Bool}
variable {n n1 j : Nat} {rc : List ((ℝ × ℝ) × ℝ)} {re : List (ℝ × ℝ)} {k kf kf' : Kernel (Pt ℝ)} {c0 : ℝ} {g g' : Pt ℝ → ℝ} {C : List (Linsys.Con ℝ)}

theorem near_cell (h : Setting close B .Q1 sf s D V rect) (hN : NearSquare B) {c : CN} (hc : c ∈ leaves sf s) : Near (cellQ s c) :=
  (near_at hN (leaf_root h hc) c.2).same (cellQ_eq h.wf h.ready.ready.uses.uses.reach c (leaf_mem h hc))

/-- The problem whose bilinear form is exact. -/
theorem prob (hrc : Gauss.rule2 (n ^ 2) = .ok rc) (h5 : n ≤ 5) (hre : Gauss.rule1 n1 = .ok re) (hn : 1 < n) (hk : IsPoly k j (MvPolynomial.C c0)) :
    Problem .Q1 n n1 j rc re k (kernelOf 0) (MvPolynomial.C c0) 0 :=
  ⟨hrc, h5, hre, by rw [MvPolynomial.totalDegree_C]; show 0 + 2 * 1 < _; omega, by rw [MvPolynomial.totalDegree_zero]; show 0 + 1 < _; omega, hk, kernel_poly _ _⟩

/-- If the energy of `U` with every nonnegative test function is nonnegative, and `U` is nonnegative at the boundary nodes, `U` is nonnegative. -/
theorem nonneg (h : Setting close B .Q1 sf s D V rect) (hN : NearSquare B) (hh : setHanging sf s .Q1 D [] = some ([], C))
    (hrc : Gauss.rule2 (n ^ 2) = .ok rc) (h5 : n ≤ 5) (hre : Gauss.rule1 n1 = .ok re) (hn : 1 < n) (hk : IsPoly k j (MvPolynomial.C c0)) (h0 : 0 < c0)
    {U : Nat → ℝ} (hU : ∀ c ∈ leaves sf s, ∀ a < nd2 .Q1, BndPt B (rootPt c (node .Q1 a)) → 0 ≤ U (dofAt D c a))
    (hE : ∀ v : Nat → ℝ, (∀ a, 0 ≤ v a) → Single B sf s .Q1 D v → ZeroBnd B sf s .Q1 D v →
      0 ≤ total2 (contribs .Q1 (laplace k) rc re j (meshCells rect sf s D)) v U) : ∀ c ∈ leaves sf s, ∀ a < nd2 .Q1, 0 ≤ U (dofAt D c a) := by
  have hA := hN.par
  have hp := prob hrc h5 hre hn hk
  have hz : ZeroBnd B sf s .Q1 D (neg U) := by
    intro c hc a ha hb
    exact max_eq_right (by have := hU c hc a ha hb; linarith)
  have hS : Single B sf s .Q1 D (neg U) :=
    (C62_continuous h.wf h.plain h.cont h.ready.ready (h.full.imp id (fun x => x.2)) hh (neg U)).1 (fun x hx => absurd hx (List.not_mem_nil))
  have h1 := hE (neg U) (fun a => le_max_right _ _) hS hz
  rw [total2_exact h hA hp] at h1
  have hcell : ∀ c ∈ leaves sf s, prodE (MvPolynomial.C c0) (cellQ s c) .Q1 (fun a => neg U (dofAt D c a)) (fun a => U (dofAt D c a)) ≤
      -prodE (MvPolynomial.C c0) (cellQ s c) .Q1 (fun a => neg U (dofAt D c a)) (fun a => neg U (dofAt D c a)) := fun c hc =>
    cell_le (leaf_convex h hc) (near_cell h hN hc) h0 (fun a => U (dofAt D c a))
  have h2 := h1.trans (List.sum_le_sum hcell)
  have hnn : ∀ c ∈ leaves sf s, 0 ≤ prodE (MvPolynomial.C c0) (cellQ s c) .Q1 (fun a => neg U (dofAt D c a)) (fun a => neg U (dofAt D c a)) := by
    intro c hc
    refine setIntegral_nonneg (measurableSet_Icc.prod measurableSet_Icc) (fun r hr => ?_)
    obtain ⟨⟨a, b⟩, d, d'⟩ := hr
    have hd := C21_det_pos _ (leaf_convex h hc) ⟨r.1, r.2⟩ a b d d'
    have hev : 0 < ev (MvPolynomial.C c0) (F (cellQ s c) r) := by simpa [ev] using h0
    exact mul_nonneg (mul_nonneg hd.le hev.le) (add_nonneg (mul_self_nonneg _) (mul_self_nonneg _))
  have h3 : ((leaves sf s).map (fun c => prodE (MvPolynomial.C c0) (cellQ s c) .Q1 (fun a => neg U (dofAt D c a)) (fun a => neg U (dofAt D c a)))).sum = 0 := by
    refine le_antisymm ?_ (List.sum_nonneg (fun z hz => ?_))
    · have : ∀ (L : List CN) (f : CN → ℝ), (L.map (fun c => -f c)).sum = -(L.map f).sum := by
        intro L f
        induction L with
        | nil => simp
        | cons a L ih => simp only [List.map_cons, List.sum_cons, ih]; ring
      rw [this] at h2
      linarith
    · obtain ⟨c, hc, rfl⟩ := List.mem_map.1 hz
      exact hnn c hc
  have h4 := definite_dom h hA (fun p _ => by simpa [ev] using h0) hS hz h3
  intro c hc a ha
  have := h4 c hc a ha
  have h5 := le_max_left (-(U (dofAt D c a))) 0
  unfold neg at this
  linarith

/-- From the dofs to the function. -/
theorem fn_nonneg {U : Nat → ℝ} {c : CN} (hU : ∀ a < nd2 .Q1, 0 ≤ U (dofAt D c a)) {z : ℝ × ℝ} (hz : Dof.InSq z) : 0 ≤ feFn .Q1 D U c z := by
  obtain ⟨a, b, d, d'⟩ := hz
  have h4 : nd2 .Q1 = 4 := rfl
  rw [show feFn .Q1 D U c z = interp2 .Q1 (fun a => U (dofAt D c a)) z from rfl, fe_q1]
  have u0 := hU 0 (by omega)
  have u1 := hU 1 (by omega)
  have u2 := hU 2 (by omega)
  have u3 := hU 3 (by omega)
  have e1 : 0 ≤ 1 - z.1 := by linarith
  have e2 : 0 ≤ 1 - z.2 := by linarith
  positivity

/-! ### The load -/

theorem load_form (h : Setting close B .Q1 sf s D V rect) (hrc : Gauss.rule2 (n ^ 2) = .ok rc) (hre : Gauss.rule1 n1 = .ok re) {Sf : Nat}
    (hSf : sampleSize kf = .ok Sf) (v : Nat → ℝ) :
    total1 (loads .Q1 (source kf) rc re j (meshCells rect sf s D)) v = ((leaves sf s).map (fun c => ((qps .dx none rc re (qcell rect s c)).map (fun p =>
      fieldAt (qcell rect s c) ⟨.Q1, [0]⟩ (fun a => v (dofAt D c a)) p.ref * (p.w * kf.eval Sf p.x j))).sum)).sum := by
  rw [total1_leaves h.wf h.plain h.ready.ready]
  congr 1
  refine List.map_congr_left (fun c _ => ?_)
  exact lin_field hrc hre hSf (t := ⟨.Q1, [0]⟩) (.inl rfl) .dx none (qcell rect s c) j _

/-- A point of the rule: in the domain, with a positive weight; a nonnegative function is nonnegative there. -/
theorem point (h : Setting close B .Q1 sf s D V rect) (hrc : Gauss.rule2 (n ^ 2) = .ok rc) {c : CN} (hc : c ∈ leaves sf s) {p : QP}
    (hp : p ∈ qps .dx none rc re (qcell rect s c)) {v : Nat → ℝ} (hv : ∀ a, 0 ≤ v a) :
    (p.x.x, p.x.y) ∈ Dom B ∧ 0 ≤ fieldAt (qcell rect s c) ⟨.Q1, [0]⟩ (fun a => v (dofAt D c a)) p.ref * p.w := by
  have hq : qps .dx none rc re (qcell rect s c) = points rc re (qcell rect s c) .cell := by simp [qps, regions, marked]
  rw [hq] at hp
  simp only [points, List.mem_map] at hp
  obtain ⟨q, hq, rfl⟩ := hp
  obtain ⟨w0, a, b, d, e⟩ := (C32_weights2 _ _ hrc).2 q hq
  have hop : InOpen q.1 := ⟨a, b, d, e⟩
  refine ⟨leaf_dom h hc (open_sq hop), ?_⟩
  rw [field_val _ _ _ hop]
  exact mul_nonneg (fn_nonneg (U := v) (c := c) (fun a _ => hv _) (open_sq hop))
    (mul_nonneg w0.le (C21_det_pos _ (leaf_convex h hc) ⟨q.1.1, q.1.2⟩ a.le b.le d.le e.le).le)

/-- Larger data, larger load. -/
theorem load_le (h : Setting close B .Q1 sf s D V rect) (hrc : Gauss.rule2 (n ^ 2) = .ok rc) (hre : Gauss.rule1 n1 = .ok re) {Sf Sf' : Nat}
    (hSf : sampleSize kf = .ok Sf) (hSf' : sampleSize kf' = .ok Sf')
    (hf : ∀ x : Pt ℝ, (x.x, x.y) ∈ Dom B → kf.eval Sf x j ≤ kf'.eval Sf' x j) {v : Nat → ℝ} (hv : ∀ a, 0 ≤ v a) :
    total1 (loads .Q1 (source kf) rc re j (meshCells rect sf s D)) v ≤ total1 (loads .Q1 (source kf') rc re j (meshCells rect sf s D)) v := by
  rw [load_form h hrc hre hSf, load_form h hrc hre hSf']
  refine List.sum_le_sum (fun c hc => List.sum_le_sum (fun p hp => ?_))
  obtain ⟨p1, p2⟩ := point h hrc hc hp hv
  rw [← mul_assoc, ← mul_assoc]
  exact mul_le_mul_of_nonneg_left (hf _ p1) p2

/-- Data of one sign, load of one sign (`t` is `1` or `-1`). -/
theorem load_sign (h : Setting close B .Q1 sf s D V rect) (hrc : Gauss.rule2 (n ^ 2) = .ok rc) (hre : Gauss.rule1 n1 = .ok re) {Sf : Nat}
    (hSf : sampleSize kf = .ok Sf) {t : ℝ} (hf : ∀ x : Pt ℝ, (x.x, x.y) ∈ Dom B → 0 ≤ t * kf.eval Sf x j) {v : Nat → ℝ} (hv : ∀ a, 0 ≤ v a) :
    0 ≤ t * total1 (loads .Q1 (source kf) rc re j (meshCells rect sf s D)) v := by
  rw [load_form h hrc hre hSf, ← List.sum_map_mul_left]
  refine List.sum_nonneg (fun z hz => ?_)
  obtain ⟨c, hc, rfl⟩ := List.mem_map.1 hz
  rw [← List.sum_map_mul_left]
  refine List.sum_nonneg (fun z hz => ?_)
  obtain ⟨p, hp, rfl⟩ := List.mem_map.1 hz
  obtain ⟨p1, p2⟩ := point h hrc hc hp hv
  have := mul_nonneg p2 (hf _ p1)
  calc (0 : ℝ) ≤ _ := this
    _ = _ := by ring

/-! ### The bilinear form in its second argument -/

theorem total2_sub (h : Setting close B .Q1 sf s D V rect) (v x y : Nat → ℝ) :
    total2 (contribs .Q1 (laplace k) rc re j (meshCells rect sf s D)) v (fun a => x a - y a) =
      total2 (contribs .Q1 (laplace k) rc re j (meshCells rect sf s D)) v x - total2 (contribs .Q1 (laplace k) rc re j (meshCells rect sf s D)) v y := by
  rw [total2_leaves h.wf h.plain h.ready.ready, total2_leaves h.wf h.plain h.ready.ready, total2_leaves h.wf h.plain h.ready.ready, ← Gal.map_sub]
  congr 1
  exact List.map_congr_left (fun c _ => bilC_sub ..)

theorem total2_scale (h : Setting close B .Q1 sf s D V rect) (t : ℝ) (v x : Nat → ℝ) :
    total2 (contribs .Q1 (laplace k) rc re j (meshCells rect sf s D)) v (fun a => t * x a) =
      t * total2 (contribs .Q1 (laplace k) rc re j (meshCells rect sf s D)) v x := by
  rw [total2_leaves h.wf h.plain h.ready.ready, total2_leaves h.wf h.plain h.ready.ready, ← List.sum_map_mul_left]
  congr 1
  refine List.map_congr_left (fun c _ => ?_)
  unfold bilC
  rw [mul_add, Finset.mul_sum, Finset.mul_sum]
  congr 1
  all_goals
    refine Finset.sum_congr rfl (fun a _ => ?_)
    rw [Finset.mul_sum]
    refine Finset.sum_congr rfl (fun i _ => ?_)
    ring

theorem total2_const (h : Setting close B .Q1 sf s D V rect) (hN : NearSquare B)
    (hrc : Gauss.rule2 (n ^ 2) = .ok rc) (h5 : n ≤ 5) (hre : Gauss.rule1 n1 = .ok re) (hn : 1 < n) (hk : IsPoly k j (MvPolynomial.C c0)) (v : Nat → ℝ) (M : ℝ) :
    total2 (contribs .Q1 (laplace k) rc re j (meshCells rect sf s D)) v (fun _ => M) = 0 := by
  rw [total2_exact h hN.par (prob hrc h5 hre hn hk)]
  refine List.sum_eq_zero (fun z hz => ?_)
  obtain ⟨c, hc, rfl⟩ := List.mem_map.1 hz
  have hn := near_cell h hN hc
  rw [prod_rect (leaf_convex h hc) hn.hx hn.hy hn.perp]
  ring

/-! ### Theorems -/

/-- **C101** (comparison).  Two problems `−c₀Δu = f` on one mesh.  Where the load and the Dirichlet values of the second are at least those of the first, what
`solve` returns for the second is nowhere below what it returns for the first. -/
theorem C101_comparison (h : Setting close B .Q1 sf s D V rect) (hN : NearSquare B) (hh : setHanging sf s .Q1 D [] = some ([], C))
    (hrc : Gauss.rule2 (n ^ 2) = .ok rc) (h5 : n ≤ 5) (hre : Gauss.rule1 n1 = .ok re) (hn : 1 < n) (hk : IsPoly k j (MvPolynomial.C c0)) (h0 : 0 < c0)
    {Sf Sf' : Nat} (hSf : sampleSize kf = .ok Sf) (hSf' : sampleSize kf' = .ok Sf')
    (hf : ∀ x : Pt ℝ, (x.x, x.y) ∈ Dom B → kf.eval Sf x j ≤ kf'.eval Sf' x j)
    (hg : ∀ c ∈ leaves sf s, ∀ a < nd2 .Q1, BndPt B (rootPt c (node .Q1 a)) → g (place s .Q1 c a) ≤ g' (place s .Q1 c a))
    {d d' : List (Nat × ℝ)} (hd : BndDict B sf s .Q1 D g d) (hd' : BndDict B sf s .Q1 D g' d') {keep keep' fuel fuel'} {ord : List ℕ → List ℕ}
    (ho : SetOrder ord) (ha : Ascending ord) {y u y' u' : List ℝ} (hr : Solved .Q1 k kf rc re j rect sf s D [] d keep fuel ord y u)
    (hr' : Solved .Q1 k kf' rc re j rect sf s D [] d' keep' fuel' ord y' u') :
    ∀ c ∈ leaves sf s, ∀ z, Dof.InSq z → feFn .Q1 D (fun a => u.getD a 0) c z ≤ feFn .Q1 D (fun a => u'.getD a 0) c z := by
  obtain ⟨A1, E1⟩ := galerkin h hh hd ho ha hr
  obtain ⟨A2, E2⟩ := galerkin h hh hd' ho ha hr'
  have key := nonneg h hN hh hrc h5 hre hn hk h0 (U := fun a => u'.getD a 0 - u.getD a 0)
    (fun c hc a ha hb => by
      have e1 := A1.bnd c hc a ha hb
      have e2 := A2.bnd c hc a ha hb
      have := hg c hc a ha hb
      rw [e1, e2]
      linarith)
    (fun v hv hS hz => by
      rw [total2_sub h v (fun a => u'.getD a 0) (fun a => u.getD a 0), E1 v hS hz, E2 v hS hz]
      have := load_le h hrc hre hSf hSf' hf hv
      linarith)
  intro c hc z hz
  have := fn_nonneg (U := fun a => u'.getD a 0 - u.getD a 0) (key c hc) hz
  rw [fe_sub] at this
  linarith

theorem fe_const1 (M : ℝ) (c : CN) (z : ℝ × ℝ) : feFn .Q1 D (fun _ => M) c z = M := by
  rw [show feFn .Q1 D (fun _ => M) c z = interp2 .Q1 (fun _ => M) z from rfl, fe_q1]
  ring

theorem fe_scale (t : ℝ) (U : Nat → ℝ) (c : CN) (z : ℝ × ℝ) : feFn .Q1 D (fun a => t * U a) c z = t * feFn .Q1 D U c z := by
  rw [show feFn .Q1 D (fun a => t * U a) c z = interp2 .Q1 (fun a => t * U (dofAt D c a)) z from rfl,
    show feFn .Q1 D U c z = interp2 .Q1 (fun a => U (dofAt D c a)) z from rfl, fe_q1, fe_q1]
  ring

/-- The bound in terms of a sign. -/
theorem bound (h : Setting close B .Q1 sf s D V rect) (hN : NearSquare B) (hh : setHanging sf s .Q1 D [] = some ([], C))
    (hrc : Gauss.rule2 (n ^ 2) = .ok rc) (h5 : n ≤ 5) (hre : Gauss.rule1 n1 = .ok re) (hn : 1 < n) (hk : IsPoly k j (MvPolynomial.C c0)) (h0 : 0 < c0)
    {U : Nat → ℝ} (t M : ℝ)
    (hg : ∀ c ∈ leaves sf s, ∀ a < nd2 .Q1, BndPt B (rootPt c (node .Q1 a)) → 0 ≤ t * (U (dofAt D c a) - M))
    (hE : ∀ v : Nat → ℝ, (∀ a, 0 ≤ v a) → Single B sf s .Q1 D v → ZeroBnd B sf s .Q1 D v →
      0 ≤ t * total2 (contribs .Q1 (laplace k) rc re j (meshCells rect sf s D)) v U) :
    ∀ c ∈ leaves sf s, ∀ z, Dof.InSq z → 0 ≤ t * (feFn .Q1 D U c z - M) := by
  have key := nonneg h hN hh hrc h5 hre hn hk h0 (U := fun a => t * (U a - M)) hg (fun v hv hS hz => by
    rw [total2_scale h t v (fun a => U a - M), total2_sub h v U (fun _ => M), total2_const h hN hrc h5 hre hn hk, sub_zero]
    exact hE v hv hS hz)
  intro c hc z hz
  have := fn_nonneg (U := fun a => t * (U a - M)) (key c hc) hz
  rwa [fe_scale t (fun a => U a - M), fe_sub U (fun _ => M), fe_const1] at this

/-- **C101** (smallest value).  The load is nowhere negative: no value of what `solve` returns is below the smallest Dirichlet value.  In particular, the answer
is nonnegative if the data are. -/
theorem C101_minimum (h : Setting close B .Q1 sf s D V rect) (hN : NearSquare B) (hh : setHanging sf s .Q1 D [] = some ([], C))
    (hrc : Gauss.rule2 (n ^ 2) = .ok rc) (h5 : n ≤ 5) (hre : Gauss.rule1 n1 = .ok re) (hn : 1 < n) (hk : IsPoly k j (MvPolynomial.C c0)) (h0 : 0 < c0)
    {Sf : Nat} (hSf : sampleSize kf = .ok Sf) (hf : ∀ x : Pt ℝ, (x.x, x.y) ∈ Dom B → 0 ≤ kf.eval Sf x j) {M : ℝ}
    (hg : ∀ c ∈ leaves sf s, ∀ a < nd2 .Q1, BndPt B (rootPt c (node .Q1 a)) → M ≤ g (place s .Q1 c a))
    {d : List (Nat × ℝ)} (hd : BndDict B sf s .Q1 D g d) {keep fuel} {ord : List ℕ → List ℕ}
    (ho : SetOrder ord) (ha : Ascending ord) {y u : List ℝ} (hr : Solved .Q1 k kf rc re j rect sf s D [] d keep fuel ord y u) :
    ∀ c ∈ leaves sf s, ∀ z, Dof.InSq z → M ≤ feFn .Q1 D (fun a => u.getD a 0) c z := by
  obtain ⟨A, E⟩ := galerkin h hh hd ho ha hr
  intro c hc z hz
  have := bound h hN hh hrc h5 hre hn hk h0 (U := fun a => u.getD a 0) 1 M
    (fun c hc a ha hb => by
      have e1 := A.bnd c hc a ha hb
      have := hg c hc a ha hb
      rw [e1]
      linarith)
    (fun v hv hS hz => by
      rw [E v hS hz]
      exact load_sign h hrc hre hSf (fun x hx => by rw [one_mul]; exact hf x hx) hv) c hc z hz
  linarith

/-- **C101** (largest value).  The load is nowhere positive: no value of what `solve` returns is above the largest Dirichlet value. -/
theorem C101_maximum (h : Setting close B .Q1 sf s D V rect) (hN : NearSquare B) (hh : setHanging sf s .Q1 D [] = some ([], C))
    (hrc : Gauss.rule2 (n ^ 2) = .ok rc) (h5 : n ≤ 5) (hre : Gauss.rule1 n1 = .ok re) (hn : 1 < n) (hk : IsPoly k j (MvPolynomial.C c0)) (h0 : 0 < c0)
    {Sf : Nat} (hSf : sampleSize kf = .ok Sf) (hf : ∀ x : Pt ℝ, (x.x, x.y) ∈ Dom B → kf.eval Sf x j ≤ 0) {M : ℝ}
    (hg : ∀ c ∈ leaves sf s, ∀ a < nd2 .Q1, BndPt B (rootPt c (node .Q1 a)) → g (place s .Q1 c a) ≤ M)
    {d : List (Nat × ℝ)} (hd : BndDict B sf s .Q1 D g d) {keep fuel} {ord : List ℕ → List ℕ}
    (ho : SetOrder ord) (ha : Ascending ord) {y u : List ℝ} (hr : Solved .Q1 k kf rc re j rect sf s D [] d keep fuel ord y u) :
    ∀ c ∈ leaves sf s, ∀ z, Dof.InSq z → feFn .Q1 D (fun a => u.getD a 0) c z ≤ M := by
  obtain ⟨A, E⟩ := galerkin h hh hd ho ha hr
  intro c hc z hz
  have := bound h hN hh hrc h5 hre hn hk h0 (U := fun a => u.getD a 0) (-1) M
    (fun c hc a ha hb => by
      have e1 := A.bnd c hc a ha hb
      have := hg c hc a ha hb
      rw [e1]
      linarith)
    (fun v hv hS hz => by
      rw [E v hS hz]
      exact load_sign h hrc hre hSf (fun x hx => by have := hf x hx; linarith) hv) c hc z hz
  linarith

/-- **C101** (stability).  The same load, Dirichlet values that differ by at most `ε`: the answers differ by at most `ε` everywhere. -/
theorem C101_stable (h : Setting close B .Q1 sf s D V rect) (hN : NearSquare B) (hh : setHanging sf s .Q1 D [] = some ([], C))
    (hrc : Gauss.rule2 (n ^ 2) = .ok rc) (h5 : n ≤ 5) (hre : Gauss.rule1 n1 = .ok re) (hn : 1 < n) (hk : IsPoly k j (MvPolynomial.C c0)) (h0 : 0 < c0)
    {ε : ℝ} (hg : ∀ c ∈ leaves sf s, ∀ a < nd2 .Q1, BndPt B (rootPt c (node .Q1 a)) → |g (place s .Q1 c a) - g' (place s .Q1 c a)| ≤ ε)
    {d d' : List (Nat × ℝ)} (hd : BndDict B sf s .Q1 D g d) (hd' : BndDict B sf s .Q1 D g' d') {keep keep' fuel fuel'} {ord : List ℕ → List ℕ}
    (ho : SetOrder ord) (ha : Ascending ord) {y u y' u' : List ℝ} (hr : Solved .Q1 k kf rc re j rect sf s D [] d keep fuel ord y u)
    (hr' : Solved .Q1 k kf rc re j rect sf s D [] d' keep' fuel' ord y' u') :
    ∀ c ∈ leaves sf s, ∀ z, Dof.InSq z → |feFn .Q1 D (fun a => u.getD a 0) c z - feFn .Q1 D (fun a => u'.getD a 0) c z| ≤ ε := by
  obtain ⟨A1, E1⟩ := galerkin h hh hd ho ha hr
  obtain ⟨A2, E2⟩ := galerkin h hh hd' ho ha hr'
  have hE : ∀ t : ℝ, ∀ v : Nat → ℝ, (∀ a, 0 ≤ v a) → Single B sf s .Q1 D v → ZeroBnd B sf s .Q1 D v →
      0 ≤ t * total2 (contribs .Q1 (laplace k) rc re j (meshCells rect sf s D)) v (fun a => u.getD a 0 - u'.getD a 0) := by
    intro t v _ hS hz
    rw [total2_sub h v (fun a => u.getD a 0) (fun a => u'.getD a 0), E1 v hS hz, E2 v hS hz, sub_self, mul_zero]
  have hb : ∀ c ∈ leaves sf s, ∀ a < nd2 .Q1, BndPt B (rootPt c (node .Q1 a)) → |u.getD (dofAt D c a) 0 - u'.getD (dofAt D c a) 0| ≤ ε := by
    intro c hc a ha hb
    have e1 := A1.bnd c hc a ha hb
    have e2 := A2.bnd c hc a ha hb
    rw [e1, e2]
    exact hg c hc a ha hb
  intro c hc z hz
  have k1 := bound h hN hh hrc h5 hre hn hk h0 (U := fun a => u.getD a 0 - u'.getD a 0) 1 (-ε)
    (fun c hc a ha hB => by have := abs_le.1 (hb c hc a ha hB); linarith) (hE 1) c hc z hz
  have k2 := bound h hN hh hrc h5 hre hn hk h0 (U := fun a => u.getD a 0 - u'.getD a 0) (-1) ε
    (fun c hc a ha hB => by have := abs_le.1 (hb c hc a ha hB); linarith) (hE (-1)) c hc z hz
  rw [fe_sub (fun a => u.getD a 0) (fun a => u'.getD a 0)] at k1 k2
  rw [abs_le]
  constructor <;> linarith

end
end Verif.Max2
