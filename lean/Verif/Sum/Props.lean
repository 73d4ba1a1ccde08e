import Verif.Sum.Assembled
import Verif.Cea.Ex
import Verif.Form.Edges

/-!
# C86: theorems
-/

set_option linter.unusedSectionVars false

namespace Verif.Sum
open Verif.Mesh Verif.Dof Verif.Quad Verif.Fem Verif.Form Verif.Asm Verif.Phys Verif.Gal Verif.Bnd Verif.Reg Verif.Dir Verif.Cea MeasureTheory

variable {κ : Type} [DecidableEq κ]

section
variable {n1 n2 : Nat} {rc : List ((ℝ × ℝ) × ℝ)} {re : List (ℝ × ℝ)} {e : ET} {j : Nat} {cells : List (DCell κ)} {C : Cons ℝ} {keep : Bool} {fuel : ℕ}
variable {ord : List ℕ → List ℕ}

theorem sum_getD (b : List ℝ) (u : List ℕ) (h : b.length = u.length) : ∑ i : Fin u.length, b.getD i 0 = b.sum := by
  rw [← List.sum_ofFn]
  congr 1
  refine List.ext_getElem (by simp [h]) (fun i h1 h2 => ?_)
  simp [h2]

/-- **C86 (load vectors).**  On every list of cells, with any numbering of the dofs and any hanging nodes whose coefficients add up to one,
the entries of the assembled load vector of `∫ k v dμ` add up to the assembled constant form `∫ k dμ`. -/
theorem C86_load (hC : Unbound C) (hrc : Gauss.rule2 n2 = .ok rc) (hre : Gauss.rule1 n1 = .ok re) (hname : (cells.map (·.name)).Nodup)
    (hlen : ∀ d ∈ cells, d.dofs.length = nd2 e) {ls : List LTerm} (hS : ∀ t ∈ ls, ∃ S, sampleSize t.k = .ok S)
    (hl : ∀ t ∈ ls, t.der = [0] ∧ t.dmu ≠ .dv) (ho : SetOrder ord)
    {af1 : AF1 κ ℝ} (h1 : assemble1 C keep fuel (loads e ls rc re j cells) = .ok af1) {u : List ℕ} {b : List ℝ}
    (hb : af1.consolidate ord = .ok (u, b))
    {af0 : AF0 κ ℝ} (h0 : assemble0 keep (consts (ls.map (·.const)) rc re j cells) = .ok af0) :
    b.sum = af0.consolidate := by
  have hn : ((consts (ls.map (·.const)) rc re j cells).map (·.1)).Nodup := by
    unfold consts
    rw [List.map_map]
    exact hname
  rw [C35_constant hn h0, ← total1_one hrc hre hlen hS hl, ← vector_apply hC h1 ho hb hC.conforms, ← sum_getD b u (vec_eq ho hb).1]
  exact Finset.sum_congr rfl (fun i _ => (one_mul _).symm)

theorem uses1_of_mats {ts : List BTerm} {r : ℕ} (h : ∃ c ∈ mats e ts rc re j cells, ∃ l ∈ c.2, r ∈ l.tst) :
    Uses1 (loads e (ts.map (·.lin)) rc re j cells) r := by
  obtain ⟨c, hc, l, hl, hr⟩ := h
  unfold mats at hc
  obtain ⟨d, hd, rfl⟩ := List.mem_map.1 hc
  obtain ⟨t, ht, rfl⟩ := List.mem_map.1 hl
  exact ⟨_, List.mem_map.2 ⟨d, hd, rfl⟩, _, List.mem_map.2 ⟨t.lin, List.mem_map.2 ⟨t, ht, rfl⟩, rfl⟩, hr⟩

/-- The sum of row `i` is the form at the basis function of the row and the constant function. -/
theorem row_sum (hC : Unbound C) {cs : List (κ × List (Loc2 ℝ))} {af2 : AF2 κ ℝ} (h2 : assemble2 C keep fuel cs = .ok af2) (ho : SetOrder ord)
    {A : Sys2 ℝ} (hA : af2.consolidate ord = .ok A) {P : ℕ → ℕ → ℝ} (hP : IsProlongation C.hng C.dir P) (i : Fin A.urow.length) :
    ∑ l : Fin A.ucol.length, A.entry i l = total2 cs (P A.urow[i]) (fun _ => 1) := by
  have f1 := urow_free h2 ho hA i.2
  have := matrix_apply hC h2 ho hA (hP _ f1).1.1 hC.conforms
  refine Eq.trans ?_ this
  rw [Finset.sum_eq_single i]
  · refine Finset.sum_congr rfl (fun l _ => ?_)
    show _ = P A.urow[(i : ℕ)] A.urow[(i : ℕ)] * _ * _
    rw [(hP _ f1).2 _ f1, if_pos rfl, one_mul, mul_one]
  · intro i' _ hne
    refine Finset.sum_eq_zero (fun l _ => ?_)
    show P A.urow[(i : ℕ)] A.urow[(i' : ℕ)] * _ * _ = _
    rw [(hP _ f1).2 _ (urow_free h2 ho hA i'.2), if_neg, zero_mul, zero_mul]
    intro h0
    exact hne (Fin.ext ((List.Nodup.getElem_inj_iff (C35_dofs h2 ho hA).1 (hi := i'.2) (hj := i.2)).1 h0))
  · intro h0
    exact absurd (Finset.mem_univ _) h0

/-- **C86 (rows of matrices).**  If the trial function is not differentiated, the rows of the assembled matrix of `∫ k Dv u dμ` add up to the
assembled load vector of `∫ k Dv dμ`, dof by dof. -/
theorem C86_rows (hC : Unbound C) (hrc : Gauss.rule2 n2 = .ok rc) (hre : Gauss.rule1 n1 = .ok re)
    (hlen : ∀ d ∈ cells, d.dofs.length = nd2 e) {ts : List BTerm} (hS : ∀ t ∈ ts, ∃ S, sampleSize t.k = .ok S)
    (ht : ∀ t ∈ ts, ValidDer t.tder) (hu : ∀ t ∈ ts, t.uder = [0]) (ho : SetOrder ord)
    {af2 : AF2 κ ℝ} (h2 : assemble2 C keep fuel (mats e ts rc re j cells) = .ok af2) {A : Sys2 ℝ} (hA : af2.consolidate ord = .ok A)
    {af1 : AF1 κ ℝ} (h1 : assemble1 C keep fuel (loads e (ts.map (·.lin)) rc re j cells) = .ok af1) {u : List ℕ} {b : List ℝ}
    (hb : af1.consolidate ord = .ok (u, b)) (i : Fin A.urow.length) :
    ∃ m : Fin u.length, u[m] = A.urow[i] ∧ ∑ l : Fin A.ucol.length, A.entry i l = b.getD m 0 := by
  obtain ⟨⟨P, hP⟩, -⟩ := C35_prolongation (dir := C.dir) hC.acyclic
  obtain ⟨_, _, hmem, hval⟩ := C35_vector h1 ho hb hP
  obtain ⟨f1, c, hc, l, hl, ⟨r, hr, hre'⟩, -⟩ := ((C35_dofs h2 ho hA).2.2.1 A.urow[i]).1 (List.getElem_mem _)
  obtain ⟨m, hm, hmu⟩ := List.mem_iff_getElem.1 ((hmem A.urow[i]).2 ⟨f1, r, uses1_of_mats ⟨c, hc, l, hl, hr⟩, hre'⟩)
  refine ⟨⟨m, hm⟩, hmu, ?_⟩
  rw [row_sum hC h2 ho hA hP i, total2_one hrc hre hlen hS ht hu]
  show _ = b.getD m 0
  rw [hval m hm, hmu]

/-- **C86 (matrices that see derivatives only).**  If the trial function is differentiated in every term, every row of the assembled matrix adds
up to zero: constant functions are in the kernel. -/
theorem C86_kernel (hC : Unbound C) (hrc : Gauss.rule2 n2 = .ok rc) (hre : Gauss.rule1 n1 = .ok re)
    (hlen : ∀ d ∈ cells, d.dofs.length = nd2 e) {ts : List BTerm} (hS : ∀ t ∈ ts, ∃ S, sampleSize t.k = .ok S)
    (ht : ∀ t ∈ ts, ValidDer t.tder) (hu : ∀ t ∈ ts, ValidDer t.uder ∧ t.uder ≠ [0]) (ho : SetOrder ord)
    {af2 : AF2 κ ℝ} (h2 : assemble2 C keep fuel (mats e ts rc re j cells) = .ok af2) {A : Sys2 ℝ} (hA : af2.consolidate ord = .ok A)
    (i : Fin A.urow.length) : ∑ l : Fin A.ucol.length, A.entry i l = 0 := by
  obtain ⟨⟨P, hP⟩, -⟩ := C35_prolongation (dir := C.dir) hC.acyclic
  rw [row_sum hC h2 ho hA hP i, total2_zero hrc hre hlen hS ht hu]

/-- **C86 (whole matrices).**  If neither function is differentiated, all entries of the assembled matrix add up to the assembled constant form. -/
theorem C86_matrix (hC : Unbound C) (hrc : Gauss.rule2 n2 = .ok rc) (hre : Gauss.rule1 n1 = .ok re) (hname : (cells.map (·.name)).Nodup)
    (hlen : ∀ d ∈ cells, d.dofs.length = nd2 e) {ts : List BTerm} (hS : ∀ t ∈ ts, ∃ S, sampleSize t.k = .ok S)
    (ht : ∀ t ∈ ts, t.tder = [0] ∧ t.uder = [0] ∧ t.dmu ≠ .dv) (ho : SetOrder ord)
    {af2 : AF2 κ ℝ} (h2 : assemble2 C keep fuel (mats e ts rc re j cells) = .ok af2) {A : Sys2 ℝ} (hA : af2.consolidate ord = .ok A)
    {af0 : AF0 κ ℝ} (h0 : assemble0 keep (consts (ts.map (·.lin.const)) rc re j cells) = .ok af0) :
    ∑ i : Fin A.urow.length, ∑ l : Fin A.ucol.length, A.entry i l = af0.consolidate := by
  have hn : ((consts (ts.map (·.lin.const)) rc re j cells).map (·.1)).Nodup := by
    unfold consts
    rw [List.map_map]
    exact hname
  have e0 := total1_one (j := j) hrc hre hlen (ls := ts.map (·.lin)) (by
    intro t ht'
    obtain ⟨t, hm, rfl⟩ := List.mem_map.1 ht'
    exact hS t hm) (by
    intro t ht'
    obtain ⟨t, hm, rfl⟩ := List.mem_map.1 ht'
    exact ⟨(ht t hm).1, (ht t hm).2.2⟩)
  rw [List.map_map] at e0
  rw [C35_constant hn h0]
  refine Eq.trans ?_ e0
  rw [← total2_one hrc hre hlen hS (fun t h => Or.inl (ht t h).1) (fun t h => (ht t h).2.1), ← matrix_apply hC h2 ho hA hC.conforms hC.conforms]
  exact Finset.sum_congr rfl (fun i _ => Finset.sum_congr rfl (fun l _ => by rw [one_mul, mul_one]))

end

/-! ### Meshes -/

section
variable {close : Pt ℝ → Pt ℝ → Bool} {B : Base ℝ} {e : ET} {sf : Bool} {s : St ℝ} {D : DH} {V : DV ℝ} {rect : Nat → Bool}
variable {n n1 j : Nat} {rc : List ((ℝ × ℝ) × ℝ)} {re : List (ℝ × ℝ)}

/-- **C86 (hanging nodes).**  The constraints that `set_hanging_nodes` finds on a mesh are of the form needed, for continuous elements. -/
theorem C86_hanging (h : Setting close B e sf s D V rect) {H C : List (Linsys.Con ℝ)} (hh : setHanging sf s e D [] = some (H, C)) :
    Unbound (consOf H []) := by
  have hO := C66_one_level h.wf h.plain h.cont h.ready.ready hh ([] : List (Nat × ℝ)) (by simp) (by simp)
  refine ⟨hO.acyclic, fun a => rfl, fun a S hS => ?_⟩
  have h1 := hang_one h hh hS
  obtain ⟨x, hx, rfl⟩ := Option.map_eq_some_iff.1 hS
  refine ⟨by simp, ?_⟩
  rw [← h1]
  unfold combo
  rw [List.zip_map', List.map_map]
  congr 1
  exact List.map_congr_left (fun y _ => by simp)

/-- Discontinuous elements have no hanging nodes. -/
theorem C86_torn : Unbound (consOf [] [] : Cons ℝ) :=
  ⟨⟨fun _ => 0, fun a S hS => by cases hS⟩, fun _ => rfl, fun a S hS => by cases hS⟩

/-- The integral of a continuous function over the leaves is the integral over the initial cells. -/
theorem leaves_integral (hB : B.WF) (hc : Fn.Convex B) (hs : MReach B s) (hr : RootsIn B sf s) (hf : sf = false ∨ (RootedFlag B s ∧ FullFlag s))
    {g : ℝ × ℝ → ℝ} (hg : Continuous g) :
    ((leaves sf s).map (fun c => ∫ p in Quad.region (cellQ s c), g p)).sum = ∑ f ∈ Finset.range B.n, ∫ p in Quad.region (rootQ B f), g p := by
  have hi := hs.inv hB
  set Φ : CN → ℝ := fun c => ∫ r in Gauss.sq, det (quadOf B c) ⟨r.1, r.2⟩ * g (F (quadOf B c) r) with hΦ
  have e1 : (leaves sf s).map (fun c => ∫ p in Quad.region (cellQ s c), g p) = (leaves sf s).map Φ := by
    refine List.map_congr_left (fun c hcl => ?_)
    have hcm := (hi.mem c).2 ((Dof.mem_leaves hi c).1 hcl).1
    refine cell_integral (Fn.cell_convex hB hc hs hcm) g _ (fun r _ => ?_)
    have hq := cellQ_eq hB hs c hcm
    rw [det_same hq, F_same hq]
    rfl
  rw [e1, sum_leaves hB hs hr hf Φ]
  · refine Finset.sum_congr rfl (fun f hf => (cell_integral (hc f (Finset.mem_range.1 hf)) g _ (fun r _ => ?_)).symm)
    rfl
  · intro c _ _ _
    have hcont : Continuous fun r : ℝ × ℝ => det (quadOf B c) ⟨r.1, r.2⟩ * g (F (quadOf B c) r) := by
      refine Continuous.mul ?_ (hg.comp (cont_F _))
      exact continuous_det _
    rw [hΦ]
    simp only
    rw [sq_quarters hcont, Finset.mul_sum]
    refine Finset.sum_congr rfl (fun k _ => ?_)
    rw [← int_mul]
    congr 1
    funext r
    have h1 : det (quadOf B (child c k)) ⟨r.1, r.2⟩ = 1 / 4 * det (quadOf B c) ⟨(emb k r).1, (emb k r).2⟩ := det_child_at _ k r
    have h2 : F (quadOf B (child c k)) r = F (quadOf B c) (emb k r) := F_child _ k r
    rw [h1, h2]
    ring

theorem mesh_cells (h : Setting close B e sf s D V rect) : ((meshCells rect sf s D).map (·.name)).Nodup ∧
    ∀ d ∈ meshCells rect sf s D, d.dofs.length = nd2 e := by
  constructor
  · unfold meshCells
    rw [List.map_map]
    have := leaves_nodup h.wf h.ready.ready.uses.uses.reach sf
    simpa [Function.comp_def] using this
  · intro d hd
    obtain ⟨c, hc, rfl⟩ := List.mem_map.1 hd
    exact (row_leaf h.wf h.plain h.ready.ready hc).1

/-- The constant form of a polynomial on one cell. -/
theorem const_exact (hrc : Gauss.rule2 (n ^ 2) = .ok rc) (h5 : n ≤ 5) (hre : Gauss.rule1 n1 = .ok re) {k : Kernel (Pt ℝ)} {S : Nat}
    (hS : sampleSize k = .ok S) {m : Nat} (hm : m + 2 ≤ 2 * n) {κ : Nat → Nat → ℝ} (hk : ∀ x, k.eval S x j = Gauss.totpoly m κ x.x x.y) (c : QCell)
    (hc : ConvexCCW c.q) : Fem.val (evalConst k .dx none rc re c j) = ∫ p in Quad.region c.q, Gauss.totpoly m κ p.1 p.2 := by
  rw [← (C56_constants_value hrc hre k S hS ⟨.DQ0, [0]⟩ ⟨.DQ0, [0]⟩ (Or.inl rfl) rfl .dx none c j).2 (by simp)]
  rw [show nd2 ET.DQ0 = 1 from rfl, Finset.sum_range_one]
  rw [C56_exact_load hrc h5 hre k S hS .DQ0 m (by simpa [deg] using hm) none c rfl hc j κ hk 0 (by decide) (fun _ => 1) ?_]
  · simp [Fem.val]
  · intro r _
    simp [phi2, bi2, nd2, dpv, dpe2, dpc2, pTab, Fem.look, mulE, Fem.val]

theorem mesh_const (h : Setting close B e sf s D V rect) (hrc : Gauss.rule2 (n ^ 2) = .ok rc) (h5 : n ≤ 5) (hre : Gauss.rule1 n1 = .ok re)
    {k : Kernel (Pt ℝ)} {S : Nat} (hS : sampleSize k = .ok S) {m : Nat} (hm : m + 2 ≤ 2 * n) {κ : Nat → Nat → ℝ}
    (hk : ∀ x, k.eval S x j = Gauss.totpoly m κ x.x x.y) :
    ((consts [⟨k, .dx, none⟩] rc re j (meshCells rect sf s D)).map fun c => (c.2.map List.sum).sum).sum =
      ∑ f ∈ Finset.range B.n, ∫ p in Quad.region (rootQ B f), Gauss.totpoly m κ p.1 p.2 := by
  have hs := h.ready.ready.uses.uses.reach
  have hi := hs.inv h.wf
  rw [← leaves_integral h.wf h.convex hs h.roots h.full (g := fun p => Gauss.totpoly m κ p.1 p.2)]
  · unfold consts meshCells
    simp only [List.map_map]
    congr 1
    refine List.map_congr_left (fun c hc => ?_)
    simp only [Function.comp, List.map_cons, List.map_nil, List.sum_cons, List.sum_nil, add_zero]
    exact const_exact hrc h5 hre hS hm hk _ (Fn.cell_convex h.wf h.convex hs ((hi.mem c).2 ((Dof.mem_leaves hi c).1 hc).1))
  · unfold Gauss.totpoly
    fun_prop

theorem sum_area (h : Setting close B e sf s D V rect) (hrc : Gauss.rule2 (n ^ 2) = .ok rc) (h5 : n ≤ 5) (hre : Gauss.rule1 n1 = .ok re)
    {k : Kernel (Pt ℝ)} {S : Nat} (hS : sampleSize k = .ok S) {m : Nat} (hm : m + 2 ≤ 2 * n) {κ : Nat → Nat → ℝ}
    (hk : ∀ x, k.eval S x j = Gauss.totpoly m κ x.x x.y) (h1 : ∀ x, k.eval S x j = 1) :
    ∑ f ∈ Finset.range B.n, ∫ p in Quad.region (rootQ B f), Gauss.totpoly m κ p.1 p.2 = ∑ f ∈ Finset.range B.n, (rootQ B f).area := by
  refine Finset.sum_congr rfl (fun f hf => ?_)
  have hq := h.convex f (Finset.mem_range.1 hf)
  rw [← const_exact hrc h5 hre hS hm hk ⟨rootQ B f, false, fun _ => ∅, fun _ => ∅⟩ hq, C56_area hrc h5 k S hS j h1 none _ rfl, Form.val_ok]

/-- **C86 (integrals).**  On every refined mesh of convex quadrilaterals, with hanging nodes: the load vector of `∫ k v` for a polynomial `k`
adds up to the integral of `k` over the domain; for `k = 1`, to the area of the domain. -/
theorem C86_integral (h : Setting close B e sf s D V rect) {H Cc : List (Linsys.Con ℝ)} (hh : setHanging sf s e D [] = some (H, Cc))
    (hrc : Gauss.rule2 (n ^ 2) = .ok rc) (h5 : n ≤ 5) (hre : Gauss.rule1 n1 = .ok re) {k : Kernel (Pt ℝ)} {S : Nat}
    (hS : sampleSize k = .ok S) {m : Nat} (hm : m + 2 ≤ 2 * n) {κ : Nat → Nat → ℝ} (hk : ∀ x, k.eval S x j = Gauss.totpoly m κ x.x x.y)
    {keep : Bool} {fuel : ℕ} {ord : List ℕ → List ℕ} (ho : SetOrder ord) {af1 : AF1 CN ℝ}
    (h1 : assemble1 (consOf H []) keep fuel (loads e (source k) rc re j (meshCells rect sf s D)) = .ok af1) {u : List ℕ} {b : List ℝ}
    (hb : af1.consolidate ord = .ok (u, b)) :
    b.sum = (∑ f ∈ Finset.range B.n, ∫ p in Quad.region (rootQ B f), Gauss.totpoly m κ p.1 p.2) ∧
    ((∀ x, k.eval S x j = 1) → b.sum = ∑ f ∈ Finset.range B.n, (rootQ B f).area) := by
  have hC := C86_hanging h hh
  obtain ⟨_, hlen⟩ := mesh_cells h
  have main : b.sum = ∑ f ∈ Finset.range B.n, ∫ p in Quad.region (rootQ B f), Gauss.totpoly m κ p.1 p.2 := by
    rw [← mesh_const h hrc h5 hre hS hm hk, ← sum_getD b u (vec_eq ho hb).1]
    refine Eq.trans ?_ ((vector_apply hC h1 ho hb hC.conforms).trans (total1_one hrc hre hlen (by simpa [source] using ⟨S, hS⟩) (by simp [source])))
    exact Finset.sum_congr rfl (fun i _ => (one_mul _).symm)
  exact ⟨main, fun h1 => main.trans (sum_area h hrc h5 hre hS hm hk h1)⟩

/-- **C86 (mass matrices).**  The entries of the assembled matrix of `∫ k u v` add up to the integral of `k` over the domain; for `k = 1`, to the
area of the domain. -/
theorem C86_mass (h : Setting close B e sf s D V rect) {H Cc : List (Linsys.Con ℝ)} (hh : setHanging sf s e D [] = some (H, Cc))
    (hrc : Gauss.rule2 (n ^ 2) = .ok rc) (h5 : n ≤ 5) (hre : Gauss.rule1 n1 = .ok re) {k : Kernel (Pt ℝ)} {S : Nat}
    (hS : sampleSize k = .ok S) {m : Nat} (hm : m + 2 ≤ 2 * n) {κ : Nat → Nat → ℝ} (hk : ∀ x, k.eval S x j = Gauss.totpoly m κ x.x x.y)
    {keep : Bool} {fuel : ℕ} {ord : List ℕ → List ℕ} (ho : SetOrder ord) {af2 : AF2 CN ℝ}
    (h2 : assemble2 (consOf H []) keep fuel (mats e [⟨k, [0], [0], .dx, none⟩] rc re j (meshCells rect sf s D)) = .ok af2) {A : Sys2 ℝ}
    (hA : af2.consolidate ord = .ok A) :
    ∑ i : Fin A.urow.length, ∑ l : Fin A.ucol.length, A.entry i l =
        (∑ f ∈ Finset.range B.n, ∫ p in Quad.region (rootQ B f), Gauss.totpoly m κ p.1 p.2) ∧
    ((∀ x, k.eval S x j = 1) →
      ∑ i : Fin A.urow.length, ∑ l : Fin A.ucol.length, A.entry i l = ∑ f ∈ Finset.range B.n, (rootQ B f).area) := by
  have hC := C86_hanging h hh
  obtain ⟨_, hlen⟩ := mesh_cells h
  have hSs : ∀ t ∈ [(⟨k, [0], [0], .dx, none⟩ : BTerm)], ∃ S, sampleSize t.k = .ok S := by simpa using ⟨S, hS⟩
  have main : ∑ i : Fin A.urow.length, ∑ l : Fin A.ucol.length, A.entry i l =
      ∑ f ∈ Finset.range B.n, ∫ p in Quad.region (rootQ B f), Gauss.totpoly m κ p.1 p.2 := by
    rw [← mesh_const h hrc h5 hre hS hm hk]
    refine Eq.trans ?_ (((matrix_apply hC h2 ho hA hC.conforms hC.conforms).trans
      (total2_one hrc hre hlen hSs (by simp [ValidDer]) (by simp) _)).trans
      (total1_one hrc hre hlen (by simpa [BTerm.lin] using ⟨S, hS⟩) (by simp [BTerm.lin])))
    exact Finset.sum_congr rfl (fun i _ => Finset.sum_congr rfl (fun l _ => by rw [one_mul, mul_one]))
  exact ⟨main, fun h1 => main.trans (sum_area h hrc h5 hre hS hm hk h1)⟩

/-- Every dof is free or depends on a free one. -/
theorem reach_free {C : Cons ℝ} (hC : Unbound C) (r : ℕ) :
    ∃ f, Free C.hng C.dir f ∧ Reach C.hng r f := by
  obtain ⟨rank, hr⟩ := hC.acyclic
  induction hn : rank r using Nat.strong_induction_on generalizing r with
  | _ N ih =>
    cases h : C.hng r with
    | none => exact ⟨r, ⟨h, hC.dir r⟩, Relation.ReflTransGen.refl⟩
    | some S =>
      obtain ⟨h1, h2⟩ := hC.one r S h
      have hne : S.1 ≠ [] := by
        intro h0
        rw [h0] at h1
        have : S.2 = [] := List.length_eq_zero_iff.1 h1.symm
        rw [this] at h2
        simp at h2
      obtain ⟨t, ht⟩ := List.exists_mem_of_ne_nil _ hne
      obtain ⟨f, hf, hrf⟩ := ih (rank t) (hn ▸ hr r S h t ht) t rfl
      exact ⟨f, hf, (supp_reach h h1 ht).trans hrf⟩

theorem assemble0_total {κ : Type} [DecidableEq κ] (keep : Bool) (cs : List (κ × List (List ℝ))) (hne : ∀ c ∈ cs, c.2 ≠ []) :
    ∃ af, assemble0 keep cs = .ok af := by
  have upd : ∀ (k : κ) (ls : List (List ℝ)) (a : AF0 κ ℝ), (∃ v, a.cells k = some v) → ∃ v, (ls.foldl (fun a l => a.update k l) a).cells k = some v := by
    intro k ls
    induction ls with
    | nil => exact fun a h => h
    | cons l ls ih => exact fun a _ => ih _ ⟨(a.cells k).getD [] ++ l, Function.update_self _ _ _⟩
  have go : ∀ (cs : List (κ × List (List ℝ))) (a : AF0 κ ℝ), (∀ c ∈ cs, c.2 ≠ []) → ∃ af, cs.foldlM (cell0 keep) a = .ok af := by
    intro cs
    induction cs with
    | nil => exact fun a _ => ⟨a, rfl⟩
    | cons c cs ih =>
      intro a h
      have h1 : ∃ v, (c.2.foldl (fun a l => a.update c.1 l) a).cells c.1 = some v := by
        obtain ⟨l, ls, hl⟩ := List.exists_cons_of_ne_nil (h c (by simp))
        rw [hl]
        exact upd _ ls (a.update c.1 l) ⟨(a.cells c.1).getD [] ++ l, Function.update_self _ _ _⟩
      obtain ⟨v, hv⟩ := h1
      obtain ⟨b, hb⟩ : ∃ b, cell0 keep a c = .ok b := by
        unfold cell0 AF0.distribute
        simp only [hv]
        exact ⟨_, rfl⟩
      obtain ⟨af, haf⟩ := ih b (fun c hc => h c (by simp [hc]))
      exact ⟨af, by rw [List.foldlM_cons, hb]; exact haf⟩
  exact go cs _ hne

/-- **C86 (the hypotheses are met).**  On every mesh with at least one cell, assembling returns for every problem with at least one bilinear and
one linear term, if sets of dofs are iterated in order (see C82). -/
theorem C86_runs (h : Setting close B e sf s D V rect) (hB : 0 < B.n) {H Cc : List (Linsys.Con ℝ)} (hh : setHanging sf s e D [] = some (H, Cc))
    {ts : List BTerm} {ls : List LTerm} (ht : ts ≠ []) (hl : ls ≠ []) (keep : Bool) {ord : List ℕ → List ℕ} (ho : SetOrder ord) (ha : Ascending ord) :
    ∃ N, ∀ fuel ≥ N, ∃ af2 af1 A u b,
      assemble2 (consOf H []) keep fuel (mats e ts rc re j (meshCells rect sf s D)) = .ok af2 ∧ af2.consolidate ord = .ok A ∧
      assemble1 (consOf H []) keep fuel (loads e ls rc re j (meshCells rect sf s D)) = .ok af1 ∧ af1.consolidate ord = .ok (u, b) ∧
      ∃ af0, assemble0 keep (consts (ls.map (·.const)) rc re j (meshCells rect sf s D)) = .ok af0 := by
  have hC := C86_hanging h hh
  obtain ⟨N, af2, af1, hN⟩ := C35_terminates hC.acyclic keep (mats e ts rc re j (meshCells rect sf s D))
    (loads e ls rc re j (meshCells rect sf s D))
    (fun c hc => by
      obtain ⟨d, _, rfl⟩ := List.mem_map.1 hc
      simpa using ht)
    (fun c hc => by
      obtain ⟨d, _, rfl⟩ := List.mem_map.1 hc
      simpa using hl)
  obtain ⟨c0, hc0, _⟩ := leaf_cover h.wf h.ready.ready.uses.uses.reach h.full (0, []) hB (h.roots 0 hB) (0, 0)
    ⟨le_rfl, zero_le_one, le_rfl, zero_le_one⟩
  obtain ⟨d0, hd0⟩ : ∃ d0, d0 ∈ meshCells rect sf s D := ⟨_, List.mem_map.2 ⟨c0, hc0, rfl⟩⟩
  obtain ⟨r, hr⟩ : ∃ r, r ∈ d0.dofs := by
    have := (mesh_cells h).2 d0 hd0
    exact List.exists_mem_of_ne_nil _ (fun h0 => by rw [h0] at this; exact absurd this.symm (Phys.nd2_pos e).ne')
  obtain ⟨f, hf, hrf⟩ := reach_free hC r
  obtain ⟨t, ht'⟩ := List.exists_mem_of_ne_nil _ ht
  obtain ⟨l, hl'⟩ := List.exists_mem_of_ne_nil _ hl
  refine ⟨N, fun fuel hfu => ?_⟩
  obtain ⟨h2, h3⟩ := hN fuel hfu
  obtain ⟨A, hA⟩ := C35_consolidates_partial h2 (by
    intro c hc l hl
    obtain ⟨d, _, rfl⟩ := List.mem_map.1 hc
    obtain ⟨t, _, rfl⟩ := List.mem_map.1 hl
    rfl) ho ha ⟨r, f, ⟨_, List.mem_map.2 ⟨d0, hd0, rfl⟩, _, List.mem_map.2 ⟨t, ht', rfl⟩, hr⟩, hrf, hf⟩
  have hagg1 : af1.agg ≠ [] := by
    have : f ∈ af1.agg.map (·.row) := ((fold1_ok _ _ _ empty1_new h3).2.2 _).2
      (.inr ⟨_, List.mem_map.2 ⟨d0, hd0, rfl⟩, _, List.mem_map.2 ⟨l, hl', rfl⟩, _, hr, hf, hrf⟩)
    intro h0
    rw [h0] at this
    cases this
  obtain ⟨ub, b, hb⟩ := consolidate1_total ho ha hagg1
  refine ⟨af2, af1, A, ub, b, h2, hA, h3, hb, assemble0_total keep _ (fun c hc => ?_)⟩
  obtain ⟨d, _, rfl⟩ := List.mem_map.1 hc
  simpa using hl

/-- The hypotheses of the theorems above hold on a mesh with hanging nodes: two unit squares, one refined, `Q2`, `∫ v` and `∫ u v + ∂_y v u_x`. -/
example (close : Pt ℝ → Pt ℝ → Bool) : ∃ rc re D V H C fuel af2 af1 A u b, Setting close twoR .Q2 false witR D V (fun _ => true) ∧
    Gauss.rule2 (3 ^ 2) = .ok rc ∧ Gauss.rule1 1 = .ok re ∧ setHanging false witR .Q2 D [] = some (H, C) ∧ SetOrder sortedSet ∧
    assemble2 (consOf H []) true fuel (mats .Q2 [⟨kernelOf 1, [0], [0], .dx, none⟩, ⟨kernelOf 1, [1, 1], [1, 0], .dx, none⟩] rc re 0
      (meshCells (fun _ => true) false witR D)) = .ok af2 ∧ af2.consolidate sortedSet = .ok A ∧
    assemble1 (consOf H []) true fuel (loads .Q2 (source (kernelOf 1)) rc re 0 (meshCells (fun _ => true) false witR D)) = .ok af1 ∧
    af1.consolidate sortedSet = .ok (u, b) ∧ b.sum = 2 := by
  obtain ⟨rc, re, D, V, H, C, _, _, _, _, _, h, hp, hh, _, _, _⟩ := ex_run close
  obtain ⟨N, hN⟩ := C86_runs (rc := rc) (re := re) (j := 0) h (by decide) hh
    (ts := [⟨kernelOf 1, [0], [0], .dx, none⟩, ⟨kernelOf 1, [1, 1], [1, 0], .dx, none⟩]) (ls := source (kernelOf 1)) (by simp) (by simp [source])
    true sortedSet_spec.1 sortedSet_spec.2
  obtain ⟨af2, af1, A, u, b, h2, hA, h1, hb, _⟩ := hN N le_rfl
  refine ⟨rc, re, D, V, H, C, N, af2, af1, A, u, b, h, hp.rule2, hp.rule1, hh, sortedSet_spec.1, h2, hA, h1, hb, ?_⟩
  obtain ⟨S, hS, hk⟩ := hp.diff
  have hk1 : ∀ x : Pt ℝ, (kernelOf 1).eval S x 0 = 1 := fun x => by rw [hk]; simp [ev]
  rw [(C86_integral (κ := fun _ _ => 1) (m := 0) h hh hp.rule2 (by norm_num) hp.rule1 hS (by norm_num)
    (fun x => by rw [hk1]; simp [Gauss.totpoly]) sortedSet_spec.1 h1 hb).2 hk1]
  show ∑ f ∈ Finset.range 2, _ = _
  rw [Finset.sum_range_succ, Finset.sum_range_one, two_quad 0 (by decide), two_quad 1 (by decide)]
  norm_num [QD.area, QD.edges]

end
end Verif.Sum
