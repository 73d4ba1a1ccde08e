import Verif.Intg.Viol
import Verif.Bvp.Galerkin

/-!
# C76 on interval meshes: exact integrals

For polynomial kernels the matrix entries on an interval mesh are the double integrals themselves.
-/

namespace Verif.Intg
open Verif.Line Verif.OneD Verif.Fem Verif.Form Verif.Bvp
open Verif.Asm (Loc2 localBilin total2 Cons assemble2 AF2 Sys2 SetOrder Ascending IsProlongation Acyclic Free Test Trial Reach)

/-- `shape_eval` for `dmu='dx'` on an `Interval` (assembler.py 3330-3535): the mapped rule and the shape functions. -/
noncomputable def regItv (re : List (ℝ × ℝ)) (e : ET) (d : Itv ℝ) : Reg ℝ ℝ where
  n := re.length
  x g := toPhys d (re.getD g (0, 0)).1
  w g := (re.getD g (0, 0)).2 * jacR2P d
  tst g a := Fem.val (shapeAt1 d ⟨e, [0]⟩ (re.getD g (0, 0)).1 a)
  trl g a := Fem.val (shapeAt1 d ⟨e, [0]⟩ (re.getD g (0, 0)).1 a)

/-- The regions of an integral form without flag on the leaves of an interval mesh (assembler.py 1183-1192). -/
noncomputable def regsOf (re : List (ℝ × ℝ)) (e : ET) (F : List (Cell ℝ)) (c : IN) : List (Reg ℝ ℝ) := [regItv re e (dataAt F c)]

/-- `form.test.dofs(ci)` (assembler.py 2452-2453). -/
def rowsOf (D : DH) (c : IN) : List Nat := (rowOf D c).getD []

/-- `IPForm(kernel, test=u, trial=u)` on an interval mesh (gmrf.py 648; assembler.py 1588-1635). -/
noncomputable def ipForm (k : ℝ → ℝ → ℝ) (sym : Bool) (re : List (ℝ × ℝ)) (e : ET) (F : List (Cell ℝ)) (D : DH) : BForm IN ℝ ℝ Nat :=
  .ip k 1 sym (regsOf re e F) (rowsOf D) (rowsOf D)

/-- `IIForm(kernel, test=u, trial=u)` on an interval mesh (gmrf.py 634; assembler.py 1468-1508); `all` lists the dofs of the mesh. -/
noncomputable def iiForm (k : ℝ → ℝ → ℝ) (vert : Nat → ℝ) (all : List Nat) (re : List (ℝ × ℝ)) (e : ET) (F : List (Cell ℝ)) (D : DH) : BForm IN ℝ ℝ Nat :=
  .ii k 1 (regsOf re e F) none vert all (rowsOf D)

/-- The kernel is a polynomial in two variables, of degree at most `N` in both. -/
def IsPoly2 (k : ℝ → ℝ → ℝ) (N : Nat) : Prop :=
  ∃ T : List (Polynomial ℝ × Polynomial ℝ), (∀ t ∈ T, t.1.natDegree ≤ N ∧ t.2.natDegree ≤ N) ∧ ∀ x y, k x y = (T.map fun t => t.1.eval x * t.2.eval y).sum

section
variable {close : ℝ → ℝ → Bool} {xs : List ℝ} {e : ET} {sf : Option Nat} {m : Nat} {F : List (Cell ℝ)} {D : DH} {V : DV ℝ} {L : List IN}
variable {n : Nat} {re : List (ℝ × ℝ)} {k : ℝ → ℝ → ℝ}

theorem ipForm_ok (h : Setting close xs e sf m F D V L) (hk : ∀ x y, k x y = k y x) (sym : Bool) : (ipForm k sym re e F D).Ok L ∧ (ipForm k sym re e F D).Same L :=
  ⟨⟨rfl, by simp [regsOf], ⟨re.length, by simp [regsOf, regItv]⟩, fun _ => ⟨hk, rfl, by simp [regsOf, regItv]⟩⟩, rfl⟩

theorem feVal_loc (hre : Gauss.rule1 n = .ok re) {d : Itv ℝ} (hd : d.lo < d.hi) {ds : List Nat} (hl : ds.length = nd1 e) (v : Nat → ℝ) {g : Nat} (hg : g < re.length) :
    feVal (regItv re e d).tst ds v g = loc d e (fun a => v (ds.getD a 0)) (toPhys d (re.getD g (0, 0)).1) := by
  have hmem : re.getD g (0, 0) ∈ re := by rw [List.getD_eq_getElem?_getD, List.getElem?_eq_getElem hg]; exact List.getElem_mem hg
  obtain ⟨_, h0, h1⟩ := (Gauss.C32_weights1 n re hre).2 _ hmem
  unfold feVal loc
  rw [toRef_toPhys hd, ← hl, ← Fin.sum_univ_eq_sum_range (fun a => v (ds.getD a 0) * tb (pTab e) a (re.getD g (0, 0)).1) ds.length]
  refine Finset.sum_congr rfl fun a _ => ?_
  have ha : a.1 < nd1 e := hl ▸ a.2
  have e1 : (regItv re e d).tst g a = tb (pTab e) a (re.getD g (0, 0)).1 := by
    simp only [regItv]
    generalize (re.getD g (0, 0)).1 = z at h0 h1
    simp [shapeAt1, shape1, h0.le, h1.le, phi1_tb e a ha, Fem.val, not_lt.2 h0.le, not_lt.2 h1.le]
  rw [e1, List.getD_eq_getElem?_getD (l := ds), List.getElem?_eq_getElem a.2, mul_comm]
  rfl

/-- The quadrature nodes of the mesh, with the values of the finite element function. -/
theorem tstNodes_line (h : Setting close xs e sf m F D V L) (hre : Gauss.rule1 n = .ok re) (v : Nat → ℝ) :
    tstNodes (regsOf re e F) (rowsOf D) L v = L.flatMap fun c => (points1 re (dataAt F c)).map fun p => (p.2.1, p.2.2 * feFn e F D v c p.2.1) := by
  unfold tstNodes
  refine List.flatMap_congr fun c hc => ?_
  simp only [regsOf, List.flatMap_cons, List.flatMap_nil, List.append_nil]
  have hr : (rowsOf D c).length = nd1 e ∧ (∀ p < nd1 e, (rowsOf D c).getD p 0 = dof D c p) ∧ _ := h.row hc
  refine List.ext_getElem (by simp [regItv, points1]) fun g h1 h2 => ?_
  have hg : g < re.length := by simpa [regItv] using h1
  simp only [List.getElem_map, List.getElem_range]
  rw [feVal_loc hre (h.pos hc) hr.1 v hg]
  have hgd : re.getD g (0, 0) = re[g] := by simp [List.getD_eq_getElem?_getD, hg]
  have hpt : (points1 re (dataAt F c))[g]'(by simpa using h2) = (re[g].1, toPhys (dataAt F c) re[g].1, re[g].2 * jacR2P (dataAt F c)) := List.getElem_map _
  simp only [hpt, regItv, hgd, feFn_loc]
  congr 2
  unfold loc
  refine Finset.sum_congr rfl fun a ha => ?_
  simp only [hr.2.1 a (Finset.mem_range.1 ha)]

theorem trlNodes_line (h : Setting close xs e sf m F D V L) (hre : Gauss.rule1 n = .ok re) (v : Nat → ℝ) :
    trlNodes (regsOf re e F) (rowsOf D) L v = L.flatMap fun c => (points1 re (dataAt F c)).map fun p => (p.2.1, p.2.2 * feFn e F D v c p.2.1) :=
  tstNodes_line h hre v

theorem feFn_cont (v : Nat → ℝ) (c : IN) : Continuous (feFn e F D v c) := by
  have : feFn e F D v c = loc (dataAt F c) e (fun a => v (dof D c a)) := funext fun x => feFn_loc v c x
  rw [this]
  exact loc_cont _ _ _

/-- One integral, for a kernel that is a polynomial. -/
theorem quad_exact (h : Setting close xs e sf m F D V L) (hre : Gauss.rule1 n = .ok re) (h5 : n ≤ 5) (q : Polynomial ℝ) (hq : q.natDegree + deg e ≤ 2 * n - 1)
    (u : Nat → ℝ) {c : IN} (hc : c ∈ L) :
    ((points1 re (dataAt F c)).map fun p => q.eval p.2.1 * (p.2.2 * feFn e F D u c p.2.1)).sum =
      ∫ y in (dataAt F c).lo..(dataAt F c).hi, q.eval y * feFn e F D u c y := by
  refine itv_sum hre h5 _ (h.pos hc) _ _ (fun r => q.eval (toPhys (dataAt F c) r) * loc (dataAt F c) e (fun a => u (dof D c a)) (toPhys (dataAt F c) r))
    (((poly_phys q).mul (loc_poly (h.pos hc) e _)).mono hq) (fun t _ _ => by rw [feFn_loc]) (fun t w _ _ => by ring)

theorem single_exact (h : Setting close xs e sf m F D V L) (hre : Gauss.rule1 n = .ok re) (h5 : n ≤ 5) {x : ℝ} {q : Polynomial ℝ}
    (hq : q.natDegree + deg e ≤ 2 * n - 1) (hk : ∀ y, k x y = q.eval y) (u : Nat → ℝ) :
    single k x (trlNodes (regsOf re e F) (rowsOf D) L u) =
      (L.map fun c => ∫ y in (dataAt F c).lo..(dataAt F c).hi, k x y * feFn e F D u c y).sum := by
  rw [trlNodes_line h hre, single_flatMap]
  refine congrArg List.sum (List.map_congr_left fun c hc => ?_)
  simp only [single, List.map_map, Function.comp_def, hk]
  exact quad_exact h hre h5 q hq u hc

/-- A polynomial kernel for fixed `x`. -/
theorem poly_row {T : List (Polynomial ℝ × Polynomial ℝ)} {N : Nat} (hT : ∀ t ∈ T, t.1.natDegree ≤ N ∧ t.2.natDegree ≤ N) (g : Polynomial ℝ × Polynomial ℝ → ℝ) :
    (∃ q : Polynomial ℝ, q.natDegree ≤ N ∧ ∀ y, (T.map fun t => g t * t.2.eval y).sum = q.eval y) ∧
    ∃ q : Polynomial ℝ, q.natDegree ≤ N ∧ ∀ y, (T.map fun t => t.1.eval y * g t).sum = q.eval y := by
  induction T with
  | nil => exact ⟨⟨0, by simp, by simp⟩, 0, by simp, by simp⟩
  | cons t T ih =>
    obtain ⟨⟨q, h1, h2⟩, q', h1', h2'⟩ := ih (fun s hs => hT s (by simp [hs]))
    refine ⟨⟨Polynomial.C (g t) * t.2 + q, ?_, fun y => ?_⟩, Polynomial.C (g t) * t.1 + q', ?_, fun y => ?_⟩
    · exact (Polynomial.natDegree_add_le _ _).trans (max_le ((Polynomial.natDegree_C_mul_le _ _).trans (hT t (by simp)).2) h1)
    · simp [h2]
    · exact (Polynomial.natDegree_add_le _ _).trans (max_le ((Polynomial.natDegree_C_mul_le _ _).trans (hT t (by simp)).1) h1')
    · rw [List.map_cons, List.sum_cons, h2', Polynomial.eval_add, Polynomial.eval_mul, Polynomial.eval_C, mul_comm]

theorem sum_integral {α : Type} (l : List α) (f : α → ℝ → ℝ) (a b : ℝ) (hf : ∀ t ∈ l, Continuous (f t)) :
    ∫ y in a..b, (l.map fun t => f t y).sum = (l.map fun t => ∫ y in a..b, f t y).sum := by
  induction l with
  | nil => simp
  | cons t l ih =>
    simp only [List.map_cons, List.sum_cons]
    have hc : Continuous fun y => (l.map fun t => f t y).sum := by
      have := fun t ht => hf t (List.mem_cons_of_mem _ ht)
      clear ih hf
      induction l with
      | nil => simpa using continuous_const
      | cons s l ih2 =>
        simp only [List.map_cons, List.sum_cons]
        exact (this s (by simp)).add (ih2 fun t ht => this t (by simp [ht]))
    rw [intervalIntegral.integral_add ((hf t (by simp)).intervalIntegrable _ _) (hc.intervalIntegrable _ _), ih (fun s hs => hf s (by simp [hs]))]

/-- **C76** (values on interval meshes).  For a polynomial kernel, an `IPForm` is the double integral of `k(x,y) v(x) u(y)`, over all pairs of leaves, for all
finite element functions `v` and `u`. -/
theorem ip_exact (h : Setting close xs e sf m F D V L) (hre : Gauss.rule1 n = .ok re) (h5 : n ≤ 5) {N : Nat} (hN : N + deg e ≤ 2 * n - 1) (hk : IsPoly2 k N)
    (sym : Bool) (v u : Nat → ℝ) :
    value L v u (ipForm k sym re e F D) = (L.map fun c => (L.map fun c' => ∫ x in (dataAt F c).lo..(dataAt F c).hi, ∫ y in (dataAt F c').lo..(dataAt F c').hi,
      feFn e F D v c x * k x y * feFn e F D u c' y).sum).sum := by
  obtain ⟨T, hT, hkT⟩ := hk
  show double k (tstNodes (regsOf re e F) (rowsOf D) L v) (trlNodes (regsOf re e F) (rowsOf D) L u) = _
  rw [double_eq_single]
  -- the inner integrals
  set J : Polynomial ℝ × Polynomial ℝ → ℝ := fun t => (L.map fun c' => ∫ y in (dataAt F c').lo..(dataAt F c').hi, t.2.eval y * feFn e F D u c' y).sum with hJ
  have hI : ∀ x, single k x (trlNodes (regsOf re e F) (rowsOf D) L u) = (T.map fun t => t.1.eval x * J t).sum := by
    intro x
    have e1 : single k x (trlNodes (regsOf re e F) (rowsOf D) L u) =
        (T.map fun t => t.1.eval x * single (fun _ y => t.2.eval y) x (trlNodes (regsOf re e F) (rowsOf D) L u)).sum := by
      simp only [single, ← List.sum_map_mul_left]
      rw [sum_comm_list]
      refine congrArg List.sum (List.map_congr_left fun p _ => ?_)
      rw [hkT, ← List.sum_map_mul_right]
      exact congrArg List.sum (List.map_congr_left fun t _ => by ring)
    rw [e1]
    refine congrArg List.sum (List.map_congr_left fun t ht => ?_)
    rw [single_exact h hre h5 (q := t.2) (by have := (hT t ht).2; omega) (fun y => rfl)]
  obtain ⟨Q, hQ1, hQ2⟩ := (poly_row hT J).2
  rw [tstNodes_line h hre, List.map_flatMap, List.flatMap, List.sum_flatten, List.map_map]
  refine congrArg List.sum (List.map_congr_left fun c hc => ?_)
  simp only [Function.comp_def, List.map_map, hI, hQ2]
  have e2 := quad_exact h hre h5 Q (by omega) v hc
  rw [show ((points1 re (dataAt F c)).map fun p => p.2.2 * feFn e F D v c p.2.1 * Q.eval p.2.1) =
    (points1 re (dataAt F c)).map fun p => Q.eval p.2.1 * (p.2.2 * feFn e F D v c p.2.1) from List.map_congr_left fun p _ => by ring, e2]
  -- outer integral
  have e3 : ∀ c' x, ∫ y in (dataAt F c').lo..(dataAt F c').hi, feFn e F D v c x * k x y * feFn e F D u c' y =
      (T.map fun t => feFn e F D v c x * t.1.eval x * ∫ y in (dataAt F c').lo..(dataAt F c').hi, t.2.eval y * feFn e F D u c' y).sum := by
    intro c' x
    rw [show (fun y => feFn e F D v c x * k x y * feFn e F D u c' y) = fun y => (T.map fun t => feFn e F D v c x * t.1.eval x * (t.2.eval y * feFn e F D u c' y)).sum from
      funext fun y => by
        rw [hkT, ← List.sum_map_mul_left, ← List.sum_map_mul_right]
        exact congrArg List.sum (List.map_congr_left fun t _ => by ring)]
    rw [sum_integral T (fun t y => feFn e F D v c x * t.1.eval x * (t.2.eval y * feFn e F D u c' y)) _ _ (fun t _ => continuous_const.mul (t.2.continuous.mul (feFn_cont u c')))]
    exact congrArg List.sum (List.map_congr_left fun t _ => intervalIntegral.integral_const_mul _ _)
  have e4 : ∀ c' ∈ L, ∫ x in (dataAt F c).lo..(dataAt F c).hi, ∫ y in (dataAt F c').lo..(dataAt F c').hi, feFn e F D v c x * k x y * feFn e F D u c' y =
      (T.map fun t => ∫ x in (dataAt F c).lo..(dataAt F c).hi, feFn e F D v c x * t.1.eval x * ∫ y in (dataAt F c').lo..(dataAt F c').hi, t.2.eval y * feFn e F D u c' y).sum := by
    intro c' _
    simp only [e3]
    exact sum_integral T (fun t x => feFn e F D v c x * t.1.eval x * ∫ y in (dataAt F c').lo..(dataAt F c').hi, t.2.eval y * feFn e F D u c' y) _ _ (fun t _ => ((feFn_cont v c).mul t.1.continuous).mul continuous_const)
  rw [List.map_congr_left e4, sum_comm_list]
  have e5 : ∀ x, Q.eval x * feFn e F D v c x = (T.map fun t => (feFn e F D v c x * t.1.eval x) * J t).sum := by
    intro x
    rw [← hQ2, ← List.sum_map_mul_right]
    exact congrArg List.sum (List.map_congr_left fun t _ => by ring)
  simp only [e5]
  rw [sum_integral T (fun t x => feFn e F D v c x * t.1.eval x * J t) _ _ (fun t _ => ((feFn_cont v c).mul t.1.continuous).mul continuous_const)]
  refine congrArg List.sum (List.map_congr_left fun t _ => ?_)
  simp only [intervalIntegral.integral_mul_const, hJ]
  rw [List.sum_map_mul_left]

/-- **C76** (interval meshes).  On every interval mesh, after any history, for every continuous element, symmetric polynomial kernel and Gauss rule with enough
points: `IPForm` assembles, with and without the symmetric shortcut, the matrix of the double integrals of `k(x,y) φ_i(x) φ_j(y)` over the leaves, `φ_i` the
constrained basis functions. -/
theorem C76_exact_ip_partial {C : Cons ℝ} (hac : Acyclic C.hng) (keep : Bool) (h : Setting close xs e sf m F D V L) (hre : Gauss.rule1 n = .ok re) (h5 : n ≤ 5)
    {N : Nat} (hN : N + deg e ≤ 2 * n - 1) (hk : IsPoly2 k N) (hsym : ∀ x y, k x y = k y x) (sym : Bool) :
    ∃ cs af M, contribs L [ipForm k sym re e F D] = .ok cs ∧ (∀ fuel ≥ M, assemble2 C keep fuel cs = .ok af) ∧
      ∀ ord, SetOrder ord → ∀ s, af.consolidate ord = .ok s → ∀ P, IsProlongation C.hng C.dir P → ∀ i j (hi : i < s.urow.length) (hj : j < s.ucol.length),
        s.entry i j = (L.map fun c => (L.map fun c' => ∫ x in (dataAt F c).lo..(dataAt F c).hi, ∫ y in (dataAt F c').lo..(dataAt F c').hi,
          feFn e F D (P s.urow[i]) c x * k x y * feFn e F D (P s.ucol[j]) c' y).sum).sum := by
  obtain ⟨cs, af, M, h1, h2, h3⟩ := C76_matrix_partial hac keep h.nodup (forms := [ipForm k sym re e F D]) (by simp) (by simpa using (ipForm_ok h hsym sym).1)
  refine ⟨cs, af, M, h1, h2, fun ord ho s hs P hP i j hi hj => ?_⟩
  rw [h3 ord ho s hs P hP i j hi hj]
  simp only [List.map_cons, List.map_nil, List.sum_cons, List.sum_nil, add_zero]
  exact ip_exact h hre h5 hN hk sym _ _

/-- **C76** (interval meshes, collocation).  If the kernel is a polynomial in its second argument, `IIForm` assembles the integrals of `k(x_i, y) φ_j(y)`,
`x_i` the vertex of dof `i`. -/
theorem C76_exact_ii_partial (keep : Bool) (h : Setting close xs e sf m F D V L) (hre : Gauss.rule1 n = .ok re) (h5 : n ≤ 5)
    {N : Nat} (hN : N + deg e ≤ 2 * n - 1) (hk : ∀ x, ∃ q : Polynomial ℝ, q.natDegree ≤ N ∧ ∀ y, k x y = q.eval y) (vert : Nat → ℝ) {all : List Nat} (hall : all.Nodup) :
    ∃ cs af M, contribs L [iiForm k vert all re e F D] = .ok cs ∧ (∀ fuel ≥ M, assemble2 (⟨fun _ => none, fun _ => none⟩ : Cons ℝ) keep fuel cs = .ok af) ∧
      ∀ ord, SetOrder ord → ∀ s, af.consolidate ord = .ok s → ∀ i j (hi : i < s.urow.length) (hj : j < s.ucol.length),
        s.entry i j = (L.map fun c => ∫ y in (dataAt F c).lo..(dataAt F c).hi,
          k (vert s.urow[i]) y * feFn e F D (fun d => if d = s.ucol[j] then 1 else 0) c y).sum := by
  have hac : Acyclic (fun _ : ℕ => (none : Option (List ℕ × List ℝ))) := ⟨fun _ => 0, by simp⟩
  obtain ⟨cs, af, M, h1, h2, h3⟩ := C76_matrix_partial (C := ⟨fun _ => none, fun _ => none⟩) hac keep h.nodup (forms := [iiForm k vert all re e F D]) (by simp)
    (by simpa [iiForm, BForm.Ok, regsOf] using trivial)
  refine ⟨cs, af, M, h1, h2, fun ord ho s hs i j hi hj => ?_⟩
  have hP : IsProlongation (R := ℝ) (fun _ => none) (fun _ => none) (fun f d => if d = f then 1 else 0) := by
    intro f _
    exact ⟨⟨fun h S hh => by simp at hh, fun d g _ hh => by simp at hh⟩, fun f' _ => rfl⟩
  rw [h3 ord ho s hs _ hP i j hi hj]
  simp only [List.map_cons, List.map_nil, List.sum_cons, List.sum_nil, add_zero, iiForm, value]
  have hmem : s.urow[i] ∈ all := by
    obtain ⟨_, _, m1, _⟩ := Asm.C35_dofs (h2 M le_rfl) ho hs
    obtain ⟨_, c, hc, l, hl, ⟨r, hr, hrd⟩, _⟩ := (m1 _).1 (List.getElem_mem hi)
    have hrr : r = s.urow[i] := by
      rcases Relation.ReflTransGen.cases_head hrd with q | ⟨y, ⟨S, hS, _⟩, _⟩
      · exact q
      · simp at hS
    have hla : l.tst = all := by
      have hcs : cs = L.map fun c => (c, [⟨all, rowsOf D c, blockII k (fun i => (all.map vert).getD i (vert 0)) (regItv re e (dataAt F c))⟩]) := by
        have := mapM_ok (l := L) (f := cellOf L [iiForm k vert all re e F D])
          (g := fun c => (c, [⟨all, rowsOf D c, blockII k (fun i => (all.map vert).getD i (vert 0)) (regItv re e (dataAt F c))⟩])) (fun c _ => rfl)
        rw [contribs, this] at h1
        exact (Except.ok.inj h1).symm
      rw [hcs] at hc
      obtain ⟨d, _, rfl⟩ := List.mem_map.1 hc
      rw [List.mem_singleton] at hl
      rw [hl]
    rw [← hrr, ← hla]
    exact hr
  have hsum : (all.map fun d => (if d = s.urow[i] then (1 : ℝ) else 0) * single k (vert d) (trlNodes (regsOf re e F) (rowsOf D) L fun d => if d = s.ucol[j] then 1 else 0)).sum =
      single k (vert s.urow[i]) (trlNodes (regsOf re e F) (rowsOf D) L fun d => if d = s.ucol[j] then 1 else 0) := by
    clear h1 h2 h3 hs
    generalize s.urow[i] = r at *
    have key : ∀ f : Nat → ℝ, (all.map fun d => (if d = r then (1 : ℝ) else 0) * f d).sum = f r := by
      intro f
      clear hP hac
      induction all with
      | nil => simp at hmem
      | cons a l ih =>
        rw [List.map_cons, List.sum_cons]
        by_cases har : a = r
        · subst har
          have h0 : (l.map fun d => (if d = a then (1 : ℝ) else 0) * f d).sum = 0 := List.sum_eq_zero fun x hx => by
            obtain ⟨d, hd, rfl⟩ := List.mem_map.1 hx
            rw [if_neg fun q : d = a => (List.nodup_cons.1 hall).1 (q ▸ hd), zero_mul]
          rw [h0]; simp
        · rw [if_neg har, zero_mul, zero_add, ih (List.nodup_cons.1 hall).2]
          rcases List.mem_cons.1 hmem with q | q
          · exact absurd q.symm har
          · exact q
    exact key fun d => single k (vert d) (trlNodes (regsOf re e F) (rowsOf D) L fun d => if d = s.ucol[j] then 1 else 0)
  rw [hsum]
  obtain ⟨q, hq1, hq2⟩ := hk (vert s.urow[i])
  exact single_exact h hre h5 (q := q) (by omega) hq2 _

end
end Verif.Intg
