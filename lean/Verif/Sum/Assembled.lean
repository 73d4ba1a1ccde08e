import Verif.Cea.Nested

/-!
# C86: the sums of what is assembled

`assemble` with hanging nodes and without Dirichlet values: the entries of a load vector add up to the assembled constant form, the rows
of a matrix to the load vector.
-/

namespace Verif.Sum
open Verif.Mesh Verif.Dof Verif.Quad Verif.Fem Verif.Form Verif.Asm Verif.Phys Verif.Gal

variable {κ : Type} [DecidableEq κ]

/-- A term `∫ k D₁φ_a D₂φ_i dμ` of a bilinear form; test and trial function may be differentiated differently. -/
structure BTerm where
  k : Kernel (Pt ℝ)
  tder : List Nat
  uder : List Nat
  dmu : Dmu
  flag : Option Nat

/-- What `assemble` collects cell by cell for the bilinear forms of a problem (assembler.py 2363-2433), sample `j`. -/
noncomputable def mats (e : ET) (ts : List BTerm) (rc : List ((ℝ × ℝ) × ℝ)) (re : List (ℝ × ℝ)) (j : Nat) (cells : List (DCell κ)) :
    List (κ × List (Loc2 ℝ)) :=
  cells.map (fun d => (d.name, ts.map (fun t => ⟨d.dofs, d.dofs, fun a i =>
    Fem.val (evalBil t.k ⟨e, t.tder⟩ ⟨e, t.uder⟩ t.dmu t.flag rc re d.c a i j)⟩)))

/-- A term `∫ k dμ` of a constant form. -/
structure CTerm where
  k : Kernel (Pt ℝ)
  dmu : Dmu
  flag : Option Nat

/-- What `assemble` collects cell by cell for the constant forms of a problem (assembler.py 2363-2404), sample `j`. -/
noncomputable def consts (ts : List CTerm) (rc : List ((ℝ × ℝ) × ℝ)) (re : List (ℝ × ℝ)) (j : Nat) (cells : List (DCell κ)) :
    List (κ × List (List ℝ)) :=
  cells.map (fun d => (d.name, ts.map (fun t => [Fem.val (evalConst t.k t.dmu t.flag rc re d.c j)])))

/-- The linear form that is left if the trial function is the constant 1. -/
def BTerm.lin (t : BTerm) : LTerm := ⟨t.k, t.tder, t.dmu, t.flag⟩

/-- The constant form that is left if the test function is the constant 1. -/
def _root_.Verif.Gal.LTerm.const (t : LTerm) : CTerm := ⟨t.k, t.dmu, t.flag⟩

/-- Constraints that the constant function satisfies: no Dirichlet values, no cycles of hanging nodes, and the coefficients of every hanging node add up to one. -/
structure Unbound (C : Cons ℝ) : Prop where
  acyclic : Acyclic C.hng
  dir : ∀ a, C.dir a = none
  one : ∀ a S, C.hng a = some S → S.1.length = S.2.length ∧ S.2.sum = 1

theorem Unbound.conforms {C : Cons ℝ} (h : Unbound C) : Conforms C.hng (fun _ => 1) := by
  intro a S hS
  obtain ⟨h1, h2⟩ := h.one a S hS
  unfold combo
  simp only [mul_one]
  rw [← h2]
  congr 1
  exact (List.map_snd_zip (le_of_eq h1.symm)).symm

theorem Unbound.test {C : Cons ℝ} (h : Unbound C) {v : ℕ → ℝ} (hv : Conforms C.hng v) : Test C.hng C.dir v :=
  ⟨hv, fun a g _ hg => by rw [h.dir a] at hg; cases hg⟩

/-- The vector of the linear forms applied to a conforming function. -/
theorem vector_apply {C : Cons ℝ} (hC : Unbound C) {keep fuel} {cs : List (κ × List (Loc1 ℝ))} {af : AF1 κ ℝ}
    (h : assemble1 C keep fuel cs = .ok af) {ord : List ℕ → List ℕ} (ho : SetOrder ord) {u : List ℕ} {b : List ℝ}
    (hs : af.consolidate ord = .ok (u, b)) {v : ℕ → ℝ} (hv : Conforms C.hng v) :
    ∑ i : Fin u.length, v u[i] * b.getD i 0 = total1 cs v := by
  obtain ⟨_, h2, h3⟩ := fold1_ok cs _ _ empty1_new h
  obtain ⟨_, _, hu, _⟩ := consolidate1_ok hs
  have := h2 v (hC.test hv)
  simp only [AF1.new, val1_nil, add_zero] at this
  rw [← this]
  have hn : u.Nodup := hu ▸ (ho _).1
  unfold val1
  have e1 : ∀ i : Fin u.length, v u[i] * b.getD i 0 = (af.agg.map (fun e => if e.row = u[i] then v u[i] * e.val else 0)).sum := by
    intro i
    rw [(vec_eq ho hs).2 i i.2, ← List.sum_map_mul_left]
    congr 1
    refine List.map_congr_left (fun e _ => ?_)
    simp only [mul_ite, mul_zero]
    rfl
  rw [Finset.sum_congr rfl (fun i _ => e1 i)]
  rw [Form.sum_finset_list]
  congr 1
  refine List.map_congr_left (fun e he => ?_)
  have hm : e.row ∈ u := by rw [hu, (ho _).2]; exact List.mem_map.2 ⟨e, he, rfl⟩
  obtain ⟨i, hi, hie⟩ := List.mem_iff_getElem.1 hm
  rw [Finset.sum_eq_single ⟨i, hi⟩]
  · simp [hie]
  · intro i' _ hne
    rw [if_neg]
    intro h0
    apply hne
    ext
    exact (List.Nodup.getElem_inj_iff hn (hi := i'.2) (hj := hi)).1 (h0.symm.trans hie.symm)
  · intro h0
    exact absurd (Finset.mem_univ _) h0

/-- The matrix applied to conforming functions. -/
theorem matrix_apply {C : Cons ℝ} (hC : Unbound C) {keep fuel} {cs : List (κ × List (Loc2 ℝ))} {af : AF2 κ ℝ}
    (h : assemble2 C keep fuel cs = .ok af) {ord : List ℕ → List ℕ} (ho : SetOrder ord) {A : Sys2 ℝ}
    (hs : af.consolidate ord = .ok A) {v x : ℕ → ℝ} (hv : Conforms C.hng v) (hx : Conforms C.hng x) :
    ∑ i : Fin A.urow.length, ∑ j : Fin A.ucol.length, v A.urow[i] * A.entry i j * x A.ucol[j] = total2 cs v x := by
  rw [matrix_val ho hs, ← assemble2_val (t := 0) h (hC.test hv) hx (fun a g _ hg => by rw [hC.dir a] at hg; cases hg), zero_mul, add_zero]

section
variable {n1 n2 : Nat} {rc : List ((ℝ × ℝ) × ℝ)} {re : List (ℝ × ℝ)} {e : ET} {j : Nat} {cells : List (DCell κ)}

/-- Inserting 1 for the test function. -/
theorem total1_one (hrc : Gauss.rule2 n2 = .ok rc) (hre : Gauss.rule1 n1 = .ok re) (hlen : ∀ d ∈ cells, d.dofs.length = nd2 e) {ls : List LTerm}
    (hS : ∀ t ∈ ls, ∃ S, sampleSize t.k = .ok S) (hl : ∀ t ∈ ls, t.der = [0] ∧ t.dmu ≠ .dv) :
    total1 (loads e ls rc re j cells) (fun _ => 1) = ((consts (ls.map (·.const)) rc re j cells).map fun c => (c.2.map List.sum).sum).sum := by
  unfold total1 loads consts
  simp only [List.map_map]
  congr 1
  refine List.map_congr_left (fun d hd => ?_)
  simp only [Function.comp, List.map_map]
  congr 1
  refine List.map_congr_left (fun t ht => ?_)
  obtain ⟨S, hS⟩ := hS t ht
  obtain ⟨h1, h2⟩ := hl t ht
  simp only [Function.comp, List.sum_singleton]
  rw [localLin_range, hlen d hd]
  simp only [one_mul]
  rw [h1]
  exact (C56_constants_value hrc hre t.k S hS ⟨e, [0]⟩ ⟨e, [0]⟩ (Or.inl rfl) rfl t.dmu t.flag d.c j).2 h2

/-- Inserting 1 for a trial function that is not differentiated. -/
theorem total2_one (hrc : Gauss.rule2 n2 = .ok rc) (hre : Gauss.rule1 n1 = .ok re) (hlen : ∀ d ∈ cells, d.dofs.length = nd2 e) {ts : List BTerm}
    (hS : ∀ t ∈ ts, ∃ S, sampleSize t.k = .ok S) (ht : ∀ t ∈ ts, ValidDer t.tder) (hu : ∀ t ∈ ts, t.uder = [0]) (v : ℕ → ℝ) :
    total2 (mats e ts rc re j cells) v (fun _ => 1) = total1 (loads e (ts.map (·.lin)) rc re j cells) v := by
  unfold total2 total1 mats loads
  simp only [List.map_map]
  congr 1
  refine List.map_congr_left (fun d hd => ?_)
  simp only [Function.comp, List.map_map]
  congr 1
  refine List.map_congr_left (fun t htm => ?_)
  obtain ⟨S, hS⟩ := hS t htm
  simp only [Function.comp]
  rw [localBilin_range, localLin_range, hlen d hd]
  refine Finset.sum_congr rfl (fun a ha => ?_)
  simp only [mul_one]
  rw [← Finset.mul_sum, hu t htm]
  congr 1
  exact (C56_constants_value hrc hre t.k S hS ⟨e, t.tder⟩ ⟨e, [0]⟩ (ht t htm) rfl t.dmu t.flag d.c j).1 a (Finset.mem_range.1 ha)

/-- Inserting 1 for a trial function that is differentiated. -/
theorem total2_zero (hrc : Gauss.rule2 n2 = .ok rc) (hre : Gauss.rule1 n1 = .ok re) (hlen : ∀ d ∈ cells, d.dofs.length = nd2 e) {ts : List BTerm}
    (hS : ∀ t ∈ ts, ∃ S, sampleSize t.k = .ok S) (ht : ∀ t ∈ ts, ValidDer t.tder) (hu : ∀ t ∈ ts, ValidDer t.uder ∧ t.uder ≠ [0]) (v : ℕ → ℝ) :
    total2 (mats e ts rc re j cells) v (fun _ => 1) = 0 := by
  unfold total2 mats
  simp only [List.map_map]
  refine List.sum_eq_zero ?_
  intro y hy
  obtain ⟨d, hd, rfl⟩ := List.mem_map.1 hy
  simp only [Function.comp, List.map_map]
  refine List.sum_eq_zero ?_
  intro y hy
  obtain ⟨t, htm, rfl⟩ := List.mem_map.1 hy
  obtain ⟨S, hS⟩ := hS t htm
  simp only [Function.comp]
  rw [localBilin_range, hlen d hd]
  refine Finset.sum_eq_zero (fun a ha => ?_)
  simp only [mul_one]
  rw [← Finset.mul_sum, C56_constants_derivative hrc hre t.k S hS ⟨e, t.tder⟩ ⟨e, t.uder⟩ (ht t htm) (hu t htm).1 (hu t htm).2 t.dmu t.flag d.c a
    (Finset.mem_range.1 ha) j, mul_zero]

end
end Verif.Sum
