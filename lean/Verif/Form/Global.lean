import Verif.Form.Stiff
import Verif.Asm.Witness

/-!
# C61: the assembled matrix (C56 together with C35, C54)
-/

set_option linter.unusedSectionVars false

namespace Verif.Form

open Verif.Quad Verif.Fem Verif.Gauss Verif.Asm

variable {κ : Type} [DecidableEq κ]

/-- A term `∫ κ Dφ_a Dφ_i dμ` of a symmetric bilinear form. -/
structure Term where
  k : Kernel (Pt ℝ)
  der : List Nat
  dmu : Dmu
  flag : Option Nat

/-- A cell of the mesh with its name, its global dofs and its geometry. -/
structure DCell (κ : Type) where
  name : κ
  dofs : List ℕ
  c : QCell

/-- What `assemble` collects cell by cell for the forms of a problem (assembler.py 2363-2411): the local
matrices of all terms, sample `s`. -/
noncomputable def contribs (e : ET) (ts : List Term) (rc : List ((ℝ × ℝ) × ℝ)) (re : List (ℝ × ℝ)) (s : Nat)
    (cells : List (DCell κ)) : List (κ × List (Loc2 ℝ)) :=
  cells.map (fun d => (d.name, ts.map (fun t => ⟨d.dofs, d.dofs, fun a i =>
    Fem.val (evalBil t.k ⟨e, t.der⟩ ⟨e, t.der⟩ t.dmu t.flag rc re d.c a i s)⟩)))

theorem contribs_same (e : ET) (ts : List Term) (rc re s) (cells : List (DCell κ)) :
    SameBasis (contribs e ts rc re s cells) := by
  intro c hc l hl
  simp only [contribs, List.mem_map] at hc
  obtain ⟨d, _, rfl⟩ := hc
  simp only [List.mem_map] at hl
  obtain ⟨t, _, rfl⟩ := hl
  rfl

theorem localBilin_range (dofs : List ℕ) (M : ℕ → ℕ → ℝ) (v x : ℕ → ℝ) :
    localBilin dofs dofs M v x = ∑ a ∈ Finset.range dofs.length, ∑ i ∈ Finset.range dofs.length,
      v (dofs.getD a 0) * M a i * x (dofs.getD i 0) := by
  unfold localBilin
  rw [← Fin.sum_univ_eq_sum_range (fun a => ∑ i ∈ Finset.range dofs.length,
      v (dofs.getD a 0) * M a i * x (dofs.getD i 0))]
  refine Finset.sum_congr rfl (fun a _ => ?_)
  rw [← Fin.sum_univ_eq_sum_range (fun i => v (dofs.getD a 0) * M a i * x (dofs.getD i 0))]
  refine Finset.sum_congr rfl (fun i _ => ?_)
  simp

/-- The energy of `v` on one cell for one term. -/
noncomputable def energy (e : ET) (t : Term) (rc : List ((ℝ × ℝ) × ℝ)) (re : List (ℝ × ℝ)) (s : Nat) (d : DCell κ) (v : ℕ → ℝ) : ℝ :=
  ∑ a ∈ Finset.range (nd2 e), ∑ i ∈ Finset.range (nd2 e), v (d.dofs.getD a 0) *
    Fem.val (evalBil t.k ⟨e, t.der⟩ ⟨e, t.der⟩ t.dmu t.flag rc re d.c a i s) * v (d.dofs.getD i 0)

theorem total_energy (e : ET) (ts : List Term) (rc re s) (cells : List (DCell κ))
    (hlen : ∀ d ∈ cells, d.dofs.length = nd2 e) (v : ℕ → ℝ) :
    total2 (contribs e ts rc re s cells) v v =
      (cells.map (fun d => (ts.map (fun t => energy e t rc re s d v)).sum)).sum := by
  unfold total2 contribs
  rw [List.map_map]
  congr 1
  refine List.map_congr_left (fun d hd => ?_)
  simp only [Function.comp, List.map_map]
  congr 1
  refine List.map_congr_left (fun t _ => ?_)
  simp only [Function.comp, energy]
  rw [localBilin_range, hlen d hd]

section
variable {n1 n2 : Nat} {rc : List ((ℝ × ℝ) × ℝ)} {re : List (ℝ × ℝ)}

/-- **C61 (symmetry).** The consolidated matrix of a problem whose terms have the same test and
trial basis is symmetric, for every mesh, numbering, hanging-node relation and Dirichlet condition:
rows and columns are the same dofs, and the entry of `(f, g)` is the entry of `(g, f)`. -/
theorem C61_symmetric (hrc : rule2 n2 = .ok rc) (hre : rule1 n1 = .ok re) (e : ET) (ts : List Term)
    (hts : ∀ t ∈ ts, ValidDer t.der) (s : Nat) (cells : List (DCell κ))
    (hlen : ∀ d ∈ cells, d.dofs.length = nd2 e) {C : Cons ℝ} (hac : Acyclic C.hng) {keep fuel}
    {af : AF2 κ ℝ} (h : assemble2 C keep fuel (contribs e ts rc re s cells) = .ok af)
    {ord : List ℕ → List ℕ} (ho : SetOrder ord) {A : Sys2 ℝ} (hA : af.consolidate ord = .ok A) :
    A.urow.Perm A.ucol ∧
    ∀ i j i' j', (hi : i < A.urow.length) → (hj : j < A.ucol.length) → (hi' : i' < A.urow.length) →
      (hj' : j' < A.ucol.length) → A.urow[i] = A.ucol[j'] → A.ucol[j] = A.urow[i'] →
      A.entry i j = A.entry i' j' := by
  obtain ⟨u1, u2, -, -⟩ := C35_dofs h ho hA
  have hb := contribs_same e ts rc re s cells
  constructor
  · rw [List.perm_ext_iff_of_nodup u1 u2]
    intro f
    rw [(uses_rows h hb ho hA f).1, (uses_rows h hb ho hA f).2]
  · intro i j i' j' hi hj hi' hj' e1 e2
    obtain ⟨P, hP⟩ := (C35_prolongation (dir := C.dir) hac).1
    rw [C35_matrix h ho hA hP hi hj, C35_matrix h ho hA hP hi' hj', e1, e2]
    generalize P A.ucol[j'] = v
    generalize P A.urow[i'] = x
    unfold total2 contribs
    simp only [List.map_map]
    congr 1
    refine List.map_congr_left (fun d hd => ?_)
    simp only [Function.comp, List.map_map]
    congr 1
    refine List.map_congr_left (fun t ht => ?_)
    simp only [Function.comp]
    rw [localBilin_range, localBilin_range, Finset.sum_comm, hlen d hd]
    refine Finset.sum_congr rfl (fun a ha => Finset.sum_congr rfl (fun b hb => ?_))
    rw [C56_symmetric hrc hre t.k ⟨e, t.der⟩ (hts t ht) t.dmu t.flag d.c b a (Finset.mem_range.1 hb)
      (Finset.mem_range.1 ha) s]
    ring

theorem energy_nonneg (hrc : rule2 n2 = .ok rc) (hre : rule1 n1 = .ok re) (e : ET) (t : Term)
    (ht : ValidDer t.der) (S s : Nat) (hS : sampleSize t.k = .ok S) (d : DCell κ)
    (hk : ∀ x : Pt ℝ, (x.x, x.y) ∈ Quad.region d.c.q → 0 ≤ t.k.eval S x s)
    (hc : ConvexCCW d.c.q) (v : ℕ → ℝ) : 0 ≤ energy e t rc re s d v :=
  C56_psd hrc hre t.k S hS ⟨e, t.der⟩ ht t.dmu t.flag d.c hc s hk (fun a => v (d.dofs.getD a 0))

/-- A coefficient vector on the rows of the system extends to an admissible test function. -/
theorem quad_form {cs : List (κ × List (Loc2 ℝ))} {C : Cons ℝ} (hac : Acyclic C.hng) {keep fuel}
    {af : AF2 κ ℝ} (h : assemble2 C keep fuel cs = .ok af)
    {ord : List ℕ → List ℕ} (ho : SetOrder ord) {A : Sys2 ℝ} (hA : af.consolidate ord = .ok A) (x : ℕ → ℝ) :
    ∃ v, Test C.hng C.dir v ∧ (∀ f, Free C.hng C.dir f → v f = x f) ∧
      ∑ i : Fin A.urow.length, ∑ j : Fin A.ucol.length, x A.urow[i] * A.entry i j * x A.ucol[j] =
        total2 cs v v := by
  obtain ⟨v, v1, v2, v3⟩ := exists_conforming (dir := C.dir) hac x 0
  refine ⟨v, ⟨v1, v2⟩, v3, ?_⟩
  have hval := assemble2_val (t := 0) h ⟨v1, v2⟩ v1 v2
  rw [zero_mul, add_zero, ← matrix_val ho hA] at hval
  rw [← hval]
  refine Finset.sum_congr rfl (fun i _ => Finset.sum_congr rfl (fun j _ => ?_))
  have a1 := v3 _ (urow_free h ho hA i.2)
  have a2 := v3 _ (ucol_free h ho hA j.2)
  simp only [Fin.getElem_fin] at a1 a2 ⊢
  rw [a1, a2]

theorem sum_nonneg_map {α : Type} (l : List α) (f : α → ℝ) (h : ∀ x ∈ l, 0 ≤ f x) : 0 ≤ (l.map f).sum :=
  List.sum_nonneg (by simp only [List.mem_map]; rintro y ⟨p, hp, rfl⟩; exact h p hp)

/-- **C61 (semidefiniteness).** If moreover the cells are convex and the kernels nonnegative, the
consolidated matrix is positive semidefinite. -/
theorem C61_psd (hrc : rule2 n2 = .ok rc) (hre : rule1 n1 = .ok re) (e : ET) (ts : List Term) (s : Nat)
    (cells : List (DCell κ))
    (hts : ∀ t ∈ ts, ValidDer t.der ∧ ∃ S, sampleSize t.k = .ok S ∧ ∀ d ∈ cells, ∀ x : Pt ℝ, (x.x, x.y) ∈ Quad.region d.c.q → 0 ≤ t.k.eval S x s)
    (hlen : ∀ d ∈ cells, d.dofs.length = nd2 e) (hconv : ∀ d ∈ cells, ConvexCCW d.c.q)
    {C : Cons ℝ} (hac : Acyclic C.hng) {keep fuel}
    {af : AF2 κ ℝ} (h : assemble2 C keep fuel (contribs e ts rc re s cells) = .ok af)
    {ord : List ℕ → List ℕ} (ho : SetOrder ord) {A : Sys2 ℝ} (hA : af.consolidate ord = .ok A) (x : ℕ → ℝ) :
    0 ≤ ∑ i : Fin A.urow.length, ∑ j : Fin A.ucol.length, x A.urow[i] * A.entry i j * x A.ucol[j] := by
  obtain ⟨v, -, -, hv⟩ := quad_form hac h ho hA x
  rw [hv, total_energy e ts rc re s cells hlen]
  refine sum_nonneg_map _ _ (fun d hd => sum_nonneg_map _ _ (fun t ht => ?_))
  obtain ⟨h1, S, h2, h3⟩ := hts t ht
  exact energy_nonneg hrc hre e t h1 S s h2 d (h3 d hd) (hconv d hd) v

end

section
variable {n n1 : Nat} {rc : List ((ℝ × ℝ) × ℝ)} {re : List (ℝ × ℝ)}

/-- **C61 (mass matrices are positive definite).** For a term without derivative and marker and with a
positive kernel, the consolidated matrix is positive definite: zero energy only for coefficients that
vanish at every dof of a cell. -/
theorem C61_mass_pd (hrc : rule2 (n ^ 2) = .ok rc) (hre : rule1 n1 = .ok re) (e : ET) (hn : deg e < n)
    (k : Kernel (Pt ℝ)) (S s : Nat) (hS : sampleSize k = .ok S) (cells : List (DCell κ))
    (hk : ∀ d ∈ cells, ∀ x : Pt ℝ, (x.x, x.y) ∈ Quad.region d.c.q → 0 < k.eval S x s)
    (hlen : ∀ d ∈ cells, d.dofs.length = nd2 e) (hconv : ∀ d ∈ cells, ConvexCCW d.c.q)
    {C : Cons ℝ} (hac : Acyclic C.hng) {keep fuel}
    {af : AF2 κ ℝ} (h : assemble2 C keep fuel (contribs e [⟨k, [0], .dx, none⟩] rc re s cells) = .ok af)
    {ord : List ℕ → List ℕ} (ho : SetOrder ord) {A : Sys2 ℝ} (hA : af.consolidate ord = .ok A) (x : ℕ → ℝ)
    (hx : ∃ d ∈ cells, ∃ f ∈ d.dofs, Free C.hng C.dir f ∧ x f ≠ 0) :
    0 < ∑ i : Fin A.urow.length, ∑ j : Fin A.ucol.length, x A.urow[i] * A.entry i j * x A.ucol[j] := by
  obtain ⟨v, -, hvf, hv⟩ := quad_form hac h ho hA x
  rw [hv, total_energy e _ rc re s cells hlen]
  obtain ⟨d, hd, f, hf, hfree, hne⟩ := hx
  have nn : ∀ d ∈ cells, 0 ≤ ([(⟨k, [0], .dx, none⟩ : Term)].map (fun t => energy e t rc re s d v)).sum := by
    intro d hd
    refine sum_nonneg_map _ _ (fun t ht => ?_)
    simp only [List.mem_singleton] at ht
    subst ht
    exact energy_nonneg hrc hre e _ (Or.inl rfl) S s hS d (fun x hx => (hk d hd x hx).le) (hconv d hd) v
  refine lt_of_lt_of_le ?_ (List.single_le_sum (l := cells.map _) ?_ _ (List.mem_map.2 ⟨d, hd, rfl⟩))
  · simp only [List.map_cons, List.map_nil, List.sum_cons, List.sum_nil, add_zero]
    obtain ⟨a, ha, rfl⟩ := List.mem_iff_getElem.1 hf
    refine C56_mass_pd hrc hre e hn k S hS none d.c rfl (hconv d hd) s (hk d hd) (fun a => v (d.dofs.getD a 0))
      ⟨a, hlen d hd ▸ ha, ?_⟩
    simp only [List.getD_eq_getElem?_getD, List.getElem?_eq_getElem ha, Option.getD_some]
    rw [hvf _ hfree]
    exact hne
  · simp only [List.mem_map]
    rintro y ⟨d, hd, rfl⟩
    exact nn d hd

/-! ## The Poisson problem has exactly one solution -/

/-- Two cells share a dof. -/
def Touch (a b : DCell κ) : Prop := ∃ f ∈ a.dofs, f ∈ b.dofs

/-- The terms of `∫ κ ∇φ_a · ∇φ_i`. -/
def laplace (k : Kernel (Pt ℝ)) : List Term := [⟨k, [1, 0], .dx, none⟩, ⟨k, [1, 1], .dx, none⟩]

/-- **C61 (the Poisson problem is uniquely solvable).** Convex cells that hang together through shared
dofs, a positive kernel, a rule with more points per direction than the degree of the element, and at
least one dof of a cell with a Dirichlet condition: then the matrix that `assemble` builds for
`∫ κ ∇u·∇v` is invertible (whatever the hanging nodes), so `solve` has exactly one answer. -/
theorem C61_poisson_solvable (hrc : rule2 (n ^ 2) = .ok rc) (hre : rule1 n1 = .ok re) (e : ET) (hn : deg e < n)
    (k : Kernel (Pt ℝ)) (S s : Nat) (hS : sampleSize k = .ok S) (cells : List (DCell κ))
    (hk : ∀ d ∈ cells, ∀ x : Pt ℝ, (x.x, x.y) ∈ Quad.region d.c.q → 0 < k.eval S x s)
    (hlen : ∀ d ∈ cells, d.dofs.length = nd2 e) (hconv : ∀ d ∈ cells, ConvexCCW d.c.q)
    (hrect : ∀ d ∈ cells, d.c.rect = true → Upright d.c.q)
    (hconn : ∀ a ∈ cells, ∀ b ∈ cells, Relation.ReflTransGen (fun x y => y ∈ cells ∧ Touch x y) a b)
    {C : Cons ℝ} (hac : Acyclic C.hng)
    (hdir : ∃ d ∈ cells, ∃ f ∈ d.dofs, C.hng f = none ∧ ∃ g, C.dir f = some g)
    (hused : ∀ f r, Free C.hng C.dir f → (∃ d ∈ cells, r ∈ d.dofs) → Reach C.hng r f → ∃ d ∈ cells, f ∈ d.dofs)
    {keep fuel}
    {af : AF2 κ ℝ} (h : assemble2 C keep fuel (contribs e (laplace k) rc re s cells) = .ok af)
    {ord : List ℕ → List ℕ} (ho : SetOrder ord) (ha : Ascending ord) {A : Sys2 ℝ}
    (hA : af.consolidate ord = .ok A) :
    A.ucol = A.urow ∧ IsUnit A.mat := by
  refine C54_solvable hac (contribs_same e _ rc re s cells) h ho ha hA ?_
  intro v hv hz f r hf hr hre'
  rw [total_energy e _ rc re s cells hlen] at hz
  have nn : ∀ d ∈ cells, ∀ t ∈ laplace k, 0 ≤ energy e t rc re s d v := by
    intro d hd t ht
    refine energy_nonneg hrc hre e _ ?_ S s ?_ d ?_ (hconv d hd) v
    · simp only [laplace, List.mem_cons, List.not_mem_nil, or_false] at ht
      rcases ht with rfl | rfl
      · exact Or.inr (Or.inl ⟨0, by omega, rfl⟩)
      · exact Or.inr (Or.inl ⟨1, by omega, rfl⟩)
    · simp only [laplace, List.mem_cons, List.not_mem_nil, or_false] at ht
      rcases ht with rfl | rfl <;> exact hS
    · simp only [laplace, List.mem_cons, List.not_mem_nil, or_false] at ht
      rcases ht with rfl | rfl <;> exact fun x hx => (hk d hd x hx).le
  have hcell := sum_zero cells _ (fun d hd => sum_nonneg_map _ _ (nn d hd)) hz
  -- `v` is constant on every cell
  have hconst : ∀ d ∈ cells, ∀ f ∈ d.dofs, ∀ g ∈ d.dofs, v f = v g := by
    intro d hd f hf g hg
    have h0 := hcell d hd
    simp only [laplace, List.map_cons, List.map_nil, List.sum_cons, List.sum_nil, add_zero] at h0
    have := (C56_stiffness_kernel hrc hre e hn k S hS none d.c rfl (hconv d hd) (hrect d hd) s (hk d hd)
      (fun a => v (d.dofs.getD a 0))).1 (by
        rw [← h0]
        simp only [energy, mul_add, add_mul, Finset.sum_add_distrib])
    obtain ⟨a, ha, rfl⟩ := List.mem_iff_getElem.1 hf
    obtain ⟨b, hb, rfl⟩ := List.mem_iff_getElem.1 hg
    have := this a (hlen d hd ▸ ha) b (hlen d hd ▸ hb)
    simpa [List.getD_eq_getElem?_getD, List.getElem?_eq_getElem ha, List.getElem?_eq_getElem hb] using this
  obtain ⟨d0, hd0, f0, hf0, hh, g, hg⟩ := hdir
  have z0 : v f0 = 0 := by rw [hv.2 f0 g hh hg, zero_mul]
  have hall : ∀ d, Relation.ReflTransGen (fun x y => y ∈ cells ∧ Touch x y) d0 d → d ∈ cells ∧ ∀ f ∈ d.dofs, v f = 0 := by
    intro d hd
    induction hd with
    | refl => exact ⟨hd0, fun f hf => (hconst d0 hd0 f hf f0 hf0).trans z0⟩
    | tail _ hst ih =>
      obtain ⟨hm, p, hp1, hp2⟩ := hst
      exact ⟨hm, fun f hf => (hconst _ hm f hf p hp2).trans (ih.2 p hp1)⟩
  have hr' : ∃ d ∈ cells, r ∈ d.dofs := by
    obtain ⟨c, hc, l, hl, hr⟩ := hr
    simp only [contribs, List.mem_map] at hc
    obtain ⟨d, hd, rfl⟩ := hc
    simp only [List.mem_map] at hl
    obtain ⟨t, _, rfl⟩ := hl
    exact ⟨d, hd, hr⟩
  obtain ⟨d, hd, hfd⟩ := hused f r hf hr' hre'
  exact (hall d (hconn d0 hd0 d hd)).2 f hfd

end

/-! ## Example: two cells, a hanging dof, a Dirichlet dof -/

/-- Constraints: dof 0 has the value 7, dof 5 hangs between dofs 1 and 2. -/
noncomputable def exCons : Cons ℝ where
  hng := fun d => if d = 5 then some ([1, 2], [1 / 2, 1 / 2]) else none
  dir := fun d => if d = 0 then some 7 else none

/-- A skew cell with dofs 0,1,2,3 and a rectangle with dofs 1,4,5,2. -/
noncomputable def exCells : List (DCell ℕ) :=
  [⟨0, [0, 1, 2, 3], ⟨skewR, false, fun _ => ∅, fun _ => ∅⟩⟩,
   ⟨1, [1, 4, 5, 2], ⟨⟨⟨1, 0⟩, ⟨2, 0⟩, ⟨2, 1⟩, ⟨1, 1⟩, ∅⟩, true, fun _ => ∅, fun _ => ∅⟩⟩]

/-- All hypotheses of the solvability theorem are met by this problem. -/
example : ∃ rc re af A, rule2 16 = .ok rc ∧ rule1 4 = .ok re ∧
    (∃ fuel, assemble2 exCons false fuel (contribs .Q1 (laplace (⟨[⟨1, fun _ _ => 1⟩], fun l => l.headD 0⟩)) rc re 0 exCells) = .ok af) ∧
    af.consolidate sortedSet = .ok A ∧ A.ucol = A.urow ∧ IsUnit A.mat := by
  obtain ⟨rc, hrc⟩ : ∃ rc, rule2 (4 ^ 2) = .ok rc := ⟨_, by unfold rule2; rw [if_pos (by decide)]⟩
  obtain ⟨re, hre⟩ : ∃ re, rule1 4 = .ok re := ⟨_, by unfold rule1; rw [if_pos (by decide)]⟩
  have hac : Acyclic exCons.hng := by
    refine ⟨fun d => if d = 5 then 1 else 0, fun h S hS s hs => ?_⟩
    simp only [exCons] at hS
    split_ifs at hS with h5
    obtain rfl := Option.some.inj hS
    subst h5
    simp at hs
    rcases hs with rfl | rfl <;> simp
  set k : Kernel (Pt ℝ) := ⟨[⟨1, fun _ _ => 1⟩], fun l => l.headD 0⟩ with hk
  obtain ⟨N, af, _, hN⟩ := C35_terminates hac false (contribs .Q1 (laplace k) rc re 0 exCells) [] (by
    intro c hc
    simp only [contribs, List.mem_map] at hc
    obtain ⟨d, _, rfl⟩ := hc
    simp [laplace]) (by simp)
  have haf := (hN N le_rfl).1
  have hlen : ∀ d ∈ exCells, d.dofs.length = nd2 .Q1 := by
    intro d hd
    simp only [exCells, List.mem_cons, List.not_mem_nil, or_false] at hd
    rcases hd with rfl | rfl <;> rfl
  obtain ⟨A, hA⟩ := C35_consolidates_partial haf (contribs_same .Q1 _ rc re 0 exCells) sortedSet_spec.1
    sortedSet_spec.2 ⟨1, 1, ⟨_, List.mem_cons_self .., _, List.mem_cons_self .., by simp⟩,
      Relation.ReflTransGen.refl, by simp [Free, exCons]⟩
  refine ⟨rc, re, af, A, hrc, hre, ⟨N, haf⟩, hA, ?_⟩
  refine C61_poisson_solvable hrc hre .Q1 (by decide) k 1 0 ?_ exCells ?_ hlen ?_ ?_ ?_ hac ?_ ?_ haf
    sortedSet_spec.1 sortedSet_spec.2 hA
  · rw [C56_sample_size]; simp [hk]
  · intro d _ x _; simp [Kernel.eval, hk]
  · intro d hd
    simp only [exCells, List.mem_cons, List.not_mem_nil, or_false] at hd
    rcases hd with rfl | rfl
    · simp only [ConvexCCW, skewR, tri]; norm_num
    · simp only [ConvexCCW, tri]; norm_num
  · intro d hd
    simp only [exCells, List.mem_cons, List.not_mem_nil, or_false] at hd
    rcases hd with rfl | rfl
    · simp
    · intro _; simp [Upright]
  · have t : ∀ a ∈ exCells, ∀ b ∈ exCells, Touch a b := by
      intro a ha b hb
      simp only [exCells, List.mem_cons, List.not_mem_nil, or_false] at ha hb
      rcases ha with rfl | rfl <;> rcases hb with rfl | rfl <;> exact ⟨1, by simp, by simp⟩
    exact fun a ha b hb => Relation.ReflTransGen.single ⟨hb, t a ha b hb⟩
  · exact ⟨_, List.mem_cons_self .., 0, by simp, by simp [exCons], 7, by simp [exCons]⟩
  · intro f r hf hr hre'
    -- the supports 1 and 2 are dofs of the cells
    have : ∀ r f, Reach exCons.hng r f → (∃ d ∈ exCells, r ∈ d.dofs) → ∃ d ∈ exCells, f ∈ d.dofs := by
      intro r f h
      induction h with
      | refl => exact id
      | tail _ hst ih =>
        intro _
        obtain ⟨S, hS, c, hc⟩ := hst
        simp only [exCons] at hS
        split_ifs at hS with h5
        obtain rfl := Option.some.inj hS
        refine ⟨_, List.mem_cons_self .., ?_⟩
        simp at hc
        rcases hc with ⟨rfl, _⟩ | ⟨rfl, _⟩ <;> simp
    exact this r f hre' hr

end Verif.Form
