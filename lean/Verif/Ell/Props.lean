import Verif.Ell.Lumped
import Verif.Ell.Algebra

/-!
# C89: theorems
-/

set_option linter.unusedSectionVars false

namespace Verif.Ell
open Verif.Mesh Verif.Dof Verif.Quad Verif.Fem Verif.Form Verif.Asm Verif.Phys Verif.Gal Verif.Sum Verif.Dir Matrix

section
variable {close : Pt ℝ → Pt ℝ → Bool} {B : Base ℝ} {e : ET} {s : St ℝ} {D : DH} {V : DV ℝ} {rect : Nat → Bool}
variable {n n1 j : Nat} {rc : List ((ℝ × ℝ) × ℝ)} {re : List (ℝ × ℝ)} {keep : Bool} {fuel : ℕ} {ord : List ℕ → List ℕ}
variable {tau : Tau} {kappa : Option (Kernel (Pt ℝ))}

theorem uses_mats {κ : Type} {cells : List (DCell κ)} {ts : List BTerm} (ht : ts ≠ []) (r : ℕ) :
    Uses2 (mats e ts rc re j cells) r ↔ ∃ d ∈ cells, r ∈ d.dofs := by
  constructor
  · rintro ⟨c, hc, l, hl, hr⟩
    obtain ⟨d, hd, rfl⟩ := List.mem_map.1 hc
    obtain ⟨t, _, rfl⟩ := List.mem_map.1 hl
    exact ⟨d, hd, hr⟩
  · rintro ⟨d, hd, hr⟩
    obtain ⟨t, ht⟩ := List.exists_mem_of_ne_nil _ ht
    exact ⟨_, List.mem_map.2 ⟨d, hd, rfl⟩, _, List.mem_map.2 ⟨t, ht, rfl⟩, hr⟩

theorem mats_same {κ : Type} {cells : List (DCell κ)} {ts : List BTerm} : SameBasis (mats e ts rc re j cells) := by
  intro c hc l hl
  obtain ⟨d, _, rfl⟩ := List.mem_map.1 hc
  obtain ⟨t, _, rfl⟩ := List.mem_map.1 hl
  rfl

theorem mesh_dofs (h : Setting close B e false s D V rect) (r : ℕ) : (∃ d ∈ meshCells rect false s D, r ∈ d.dofs) ↔ r < D.count := by
  rw [← uses_count h]
  constructor
  · rintro ⟨d, hd, hr⟩
    obtain ⟨c, hc, rfl⟩ := List.mem_map.1 hd
    exact ⟨c, hc, (row_mem h hc r).1 hr⟩
  · rintro ⟨c, hc, hr⟩
    exact ⟨_, List.mem_map.2 ⟨c, hc, rfl⟩, (row_mem h hc r).2 hr⟩

theorem ell_ne : ellForms tau kappa ≠ [] := by
  unfold ellForms
  simp

theorem mat_apply (h : Setting close B e false s D V rect) {ts : List BTerm} (ht : ts ≠ []) {af : AF2 CN ℝ}
    (h2 : assemble2 (consOf [] []) keep fuel (mats e ts rc re j (meshCells rect false s D)) = .ok af) (ho : SetOrder ord) (ha : Ascending ord)
    {A : Sys2 ℝ} (hA : af.consolidate ord = .ok A) (v x : ℕ → ℝ) :
    ∑ i : Fin D.count, ∑ l : Fin D.count, v i * matOf A D.count i l * x l = total2 (mats e ts rc re j (meshCells rect false s D)) v x :=
  (plain_matrix h2 mats_same ho ha hA (fun r => (uses_mats ht r).trans (mesh_dofs h r)) v x).2.2

theorem mat_entry (h : Setting close B e false s D V rect) {ts : List BTerm} (ht : ts ≠ []) {af : AF2 CN ℝ}
    (h2 : assemble2 (consOf [] []) keep fuel (mats e ts rc re j (meshCells rect false s D)) = .ok af) (ho : SetOrder ord) (ha : Ascending ord)
    {A : Sys2 ℝ} (hA : af.consolidate ord = .ok A) (a : Fin D.count) (x : ℕ → ℝ) :
    ∑ l : Fin D.count, matOf A D.count a l * x l = total2 (mats e ts rc re j (meshCells rect false s D)) (fun i => if i = a then 1 else 0) x := by
  rw [← mat_apply h ht h2 ho ha hA]
  symm
  rw [Finset.sum_eq_single a]
  · simp
  · intro b _ hb
    refine Finset.sum_eq_zero (fun l _ => ?_)
    rw [if_neg (fun h0 => hb (Fin.ext h0))]
    ring
  · intro h0
    exact absurd (Finset.mem_univ _) h0

theorem mesh_convex (h : Setting close B e false s D V rect) : ∀ d ∈ meshCells rect false s D, ConvexCCW d.c.q ∧ Quad.region d.c.q ⊆ Dom B := by
  intro d hd
  obtain ⟨c, hc, rfl⟩ := List.mem_map.1 hd
  have hs := h.ready.ready.uses.uses.reach
  have hi := hs.inv h.wf
  exact ⟨Fn.cell_convex h.wf h.convex hs ((hi.mem c).2 ((Dof.mem_leaves hi c).1 hc).1), fun p hp => leaf_region h hc hp⟩

variable {K : Matrix (Fin D.count) (Fin D.count) ℝ} {m : Fin D.count → ℝ}

/-- **C89 (the matrix).**  On every refined mesh of convex cells, for every element type: `vᵀ K x` is the quadrature of `∫ ∇v·T∇x + κ v x`. -/
theorem C89_form (h : Setting close B e false s D V rect) (hrc : Gauss.rule2 (n ^ 2) = .ok rc) (hre : Gauss.rule1 n1 = .ok re)
    (ht : tau.Sized) (hk : ∃ S, sampleSize (kappaOf kappa) = .ok S) (ho : SetOrder ord) (ha : Ascending ord)
    (hK : Assembled e tau kappa rc re j (meshCells rect false s D) keep fuel ord K m) (v x : ℕ → ℝ) :
    ∑ i : Fin D.count, ∑ l : Fin D.count, v i * K i l * x l =
      ((meshCells rect false s D).map (fun d => ((points rc re d.c .cell).map (fun y => y.w *
        (inner (tau.at j (y.x.x, y.x.y)) (grd e d v y.ref) (grd e d x y.ref) +
          Neu.kval (kappaOf kappa) j (y.x.x, y.x.y) * (fld e d [0] v y.ref * fld e d [0] x y.ref)))).sum)).sum := by
  obtain ⟨af, A, af', A', h1, h2, h3, h4, rfl, rfl⟩ := hK
  rw [mat_apply h ell_ne h1 ho ha h2]
  exact ell_total hrc hre (mesh_cells h).2 ht hk v x

/-- **C89 (positive definite).**  If `T` is positive semidefinite and `κ` positive on the domain, `K` is symmetric and positive definite. -/
theorem C89_spd (h : Setting close B e false s D V rect) (hrc : Gauss.rule2 (n ^ 2) = .ok rc) (hre : Gauss.rule1 n1 = .ok re) (hn : deg e < n)
    (ht : tau.Sized) (hT : tau.Psd j (Dom B)) (hk : ∃ S, sampleSize (kappaOf kappa) = .ok S) (hpos : ∀ x ∈ Dom B, 0 < Neu.kval (kappaOf kappa) j x)
    (ho : SetOrder ord) (ha : Ascending ord) (hK : Assembled e tau kappa rc re j (meshCells rect false s D) keep fuel ord K m) : K.PosDef := by
  obtain ⟨af, A, af', A', h1, h2, h3, h4, rfl, rfl⟩ := hK
  have hl := (mesh_cells h).2
  have hc := mesh_convex h
  refine Matrix.PosDef.of_dotProduct_mulVec_pos ?_ (fun x hx => ?_)
  · ext a b
    rw [conjTranspose_apply, star_trivial]
    have e1 := mat_entry h ell_ne h1 ho ha h2 a (fun i => if i = (b : ℕ) then 1 else 0)
    have e2 := mat_entry h ell_ne h1 ho ha h2 b (fun i => if i = (a : ℕ) then 1 else 0)
    rw [ell_symm hrc hre hl ht hk, ← e2] at e1
    have pick : ∀ (M : Matrix (Fin D.count) (Fin D.count) ℝ) (a b : Fin D.count), ∑ l : Fin D.count, M a l * (if (l : ℕ) = (b : ℕ) then 1 else 0) = M a b := by
      intro M a b
      rw [Finset.sum_eq_single b]
      · simp
      · intro c _ hcb
        rw [if_neg (fun h0 => hcb (Fin.ext h0)), mul_zero]
      · intro h0
        exact absurd (Finset.mem_univ _) h0
    rw [pick, pick] at e1
    exact e1.symm
  · set v : ℕ → ℝ := fun i => if hi : i < D.count then x ⟨i, hi⟩ else 0 with hv
    have hvi : ∀ i : Fin D.count, v i = x i := fun i => by simp [hv]
    have e1 := mat_apply h ell_ne h1 ho ha h2 v v
    have e2 : star x ⬝ᵥ matOf A D.count *ᵥ x = ∑ i : Fin D.count, ∑ l : Fin D.count, v i * matOf A D.count i l * v l := by
      simp only [dotProduct, mulVec, star_trivial, hvi, Finset.mul_sum, mul_assoc]
    rw [e2, e1]
    refine ell_pos hrc hre hn hl (fun d hd => (hc d hd).1) ht (fun d hd x hx => hT x ((hc d hd).2 hx)) hk (fun d hd x hx => hpos x ((hc d hd).2 hx)) ?_
    obtain ⟨i, hi⟩ := Function.ne_iff.1 hx
    obtain ⟨d, hd, hr⟩ := (mesh_dofs h i).2 i.2
    exact ⟨d, hd, i, hr, by rw [hvi]; exact hi⟩

/-- **C89 (lumped mass).**  The row sums of the mass matrix are positive, for every element type on every mesh of convex cells: the square roots and
quotients of the constructor exist. -/
theorem C89_lumped (h : Setting close B e false s D V rect) (hrc : Gauss.rule2 (n ^ 2) = .ok rc) (h5 : n ≤ 5) (hre : Gauss.rule1 n1 = .ok re)
    (hn : deg e < n) (ho : SetOrder ord) (ha : Ascending ord)
    (hK : Assembled e tau kappa rc re j (meshCells rect false s D) keep fuel ord K m) (i : Fin D.count) : 0 < m i := by
  obtain ⟨af, A, af', A', h1, h2, h3, h4, rfl, rfl⟩ := hK
  have hl := (mesh_cells h).2
  have hc := mesh_convex h
  have e1 := mat_entry h (by simp [massForms]) h3 ho ha h4 i (fun _ => 1)
  simp only [mul_one] at e1
  show 0 < ∑ l, _
  rw [e1, total2_one hrc hre hl (by simpa [massForms] using ⟨1, one_size _⟩) (by simp [massForms, ValidDer]) (by simp [massForms])]
  unfold total1 loads
  simp only [List.map_map, massForms, BTerm.lin, List.map_cons, List.map_nil, Function.comp_def, List.sum_cons, List.sum_nil, add_zero]
  have nn : ∀ d ∈ meshCells rect false s D, ∀ a < nd2 e, 0 < Fem.val (evalLin (Form.one (Pt ℝ)) ⟨e, [0]⟩ .dx none rc re d.c a j) :=
    fun d hd a ha' => load_pos hrc h5 hre e hn d.c (hc d hd).1 j ha'
  obtain ⟨d, hd, hr⟩ := (mesh_dofs h i).2 i.2
  refine sum_ge (fun d hd => ?_) hd ?_
  · rw [localLin_range, hl d hd]
    refine Finset.sum_nonneg (fun a ha' => mul_nonneg ?_ (nn d hd a (Finset.mem_range.1 ha')).le)
    split_ifs <;> norm_num
  · rw [localLin_range, hl d hd]
    obtain ⟨a, ha', hae⟩ := List.mem_iff_getElem.1 hr
    have hal : a < nd2 e := hl d hd ▸ ha'
    refine Finset.sum_pos' (fun b hb => mul_nonneg (by split_ifs <;> norm_num) (nn d hd b (Finset.mem_range.1 hb)).le) ⟨a, Finset.mem_range.2 hal, ?_⟩
    rw [List.getD_eq_getElem?_getD, List.getElem?_eq_getElem ha', Option.getD_some, hae, if_pos rfl, one_mul]
    exact nn d hd a hal

/-- **C89 (the loop, partial).**  With a CHOLMOD that keeps its promises, the loop ends for every exponent with a factor of a precision matrix: that
of the exponent `γ + 1`.  Missing: the exponent `γ` that was asked for, see `C89_exponent_violated`; a field, see `C89_constructor_violated`. -/
theorem C89_precision_partial (h : Setting close B e false s D V rect) (hrc : Gauss.rule2 (n ^ 2) = .ok rc) (h5 : n ≤ 5)
    (hre : Gauss.rule1 n1 = .ok re) (hn : deg e < n) (ht : tau.Sized) (hT : tau.Psd j (Dom B)) (hk : ∃ S, sampleSize (kappaOf kappa) = .ok S)
    (hpos : ∀ x ∈ Dom B, 0 < Neu.kval (kappaOf kappa) j x) (ho : SetOrder ord) (ha : Ascending ord)
    (hK : Assembled e tau kappa rc re j (meshCells rect false s D) keep fuel ord K m) {ch : Cholmod D.count} (hch : ch.Spec) (γ : Nat) :
    ∃ R, factor ch K m γ = .ok R ∧ Solves K (diagonal m) (γ + 1) (R * Rᵀ) := by
  have hp := C89_spd h hrc hre hn ht hT hk hpos ho ha hK
  have hm := C89_lumped h hrc h5 hre hn ho ha hK
  obtain ⟨R, h1, h2⟩ := factor_spec hch hp hm γ
  exact ⟨R, h1, (solves_iff hp hm _).2 h2⟩

/-- **C89 (the field exists and is unique).**  For every exponent there is exactly one precision matrix of the discrete equation. -/
theorem C89_unique {N : Nat} {K : Matrix (Fin N) (Fin N) ℝ} {m : Fin N → ℝ} (hK : K.PosDef) (hm : ∀ i, 0 < m i) (γ : Nat) :
    ∃! Q, Solves K (diagonal m) γ Q :=
  ⟨_, (solves_iff hK hm γ).2 rfl, fun _ h => (solves_iff hK hm γ).1 h⟩

/-- **C89 (constants).**  For a constant `κ`, `K` maps the constant function to `κ` times the lumped mass. -/
theorem C89_constants (h : Setting close B e false s D V rect) (hrc : Gauss.rule2 (n ^ 2) = .ok rc) (hre : Gauss.rule1 n1 = .ok re)
    (ht : tau.Sized) (hk : ∃ S, sampleSize (kappaOf kappa) = .ok S) {c : ℝ} (hc : ∀ x, Neu.kval (kappaOf kappa) j x = c)
    (ho : SetOrder ord) (ha : Ascending ord)
    (hK : Assembled e tau kappa rc re j (meshCells rect false s D) keep fuel ord K m) (i : Fin D.count) : ∑ l, K i l = c * m i := by
  obtain ⟨af, A, af', A', h1, h2, h3, h4, rfl, rfl⟩ := hK
  have hl := (mesh_cells h).2
  have e1 := mat_entry h ell_ne h1 ho ha h2 i (fun _ => 1)
  have e2 := mat_entry h (by simp [massForms]) h3 ho ha h4 i (fun _ => 1)
  simp only [mul_one] at e1 e2
  show _ = c * ∑ l, _
  rw [e1, e2]
  have v1 : ValidDer [1, 0] := Or.inr (Or.inl ⟨0, by omega, rfl⟩)
  have v2 : ValidDer [1, 1] := Or.inr (Or.inl ⟨1, by omega, rfl⟩)
  have o1 : ∃ S, sampleSize (Form.one (Pt ℝ)) = .ok S := ⟨1, one_size _⟩
  have split : ∀ (ts ts' : List BTerm) (v x : ℕ → ℝ), total2 (mats e (ts ++ ts') rc re j (meshCells rect false s D)) v x =
      total2 (mats e ts rc re j (meshCells rect false s D)) v x + total2 (mats e ts' rc re j (meshCells rect false s D)) v x := by
    intro ts ts' v x
    unfold total2 mats
    simp only [List.map_map]
    rw [← List.sum_map_add]
    congr 1
    exact List.map_congr_left (fun d _ => by simp)
  unfold ellForms
  rw [split, total2_zero hrc hre hl, zero_add]
  · unfold total2 mats massForms
    simp only [List.map_map, List.map_cons, List.map_nil, Function.comp_def, List.sum_cons, List.sum_nil, add_zero]
    rw [← List.sum_map_mul_left]
    congr 1
    refine List.map_congr_left (fun d hd => ?_)
    rw [term_fields hrc hre hk (Or.inl rfl) (Or.inl rfl) d (hl d hd), term_fields hrc hre o1 (Or.inl rfl) (Or.inl rfl) d (hl d hd), ← List.sum_map_mul_left]
    congr 1
    refine List.map_congr_left (fun y _ => ?_)
    rw [hc, kval_one]
    ring
  · cases tau with
    | none => simpa [tauForms] using ⟨1, one_size _⟩
    | fn k => simpa [tauForms] using (show ∃ S, sampleSize k = .ok S from ht)
    | tensor axx axy ayy =>
      obtain ⟨t1, t2, t3⟩ := ht
      simp only [tauForms, List.mem_cons, List.not_mem_nil, or_false]
      rintro t (rfl | rfl | rfl | rfl) <;> assumption
  · cases tau <;> simp [tauForms, v1, v2]
  · cases tau <;> simp [tauForms, v1, v2]

/-- **C89 (violated: the exponent).**  On every mesh, for every exponent and every constant `κ ≠ 1`, the factor does not belong to the exponent that
was asked for. -/
theorem C89_exponent_violated (h : Setting close B e false s D V rect) (hB : 0 < D.count) (hrc : Gauss.rule2 (n ^ 2) = .ok rc) (h5 : n ≤ 5)
    (hre : Gauss.rule1 n1 = .ok re) (hn : deg e < n) (ht : tau.Sized) (hT : tau.Psd j (Dom B)) (hk : ∃ S, sampleSize (kappaOf kappa) = .ok S)
    {c : ℝ} (hc : ∀ x, Neu.kval (kappaOf kappa) j x = c) (hc0 : 0 < c) (hc1 : c ≠ 1) (ho : SetOrder ord) (ha : Ascending ord)
    (hK : Assembled e tau kappa rc re j (meshCells rect false s D) keep fuel ord K m) {ch : Cholmod D.count} (hch : ch.Spec) (γ : Nat) :
    ∃ R, factor ch K m γ = .ok R ∧ ¬ Solves K (diagonal m) γ (R * Rᵀ) := by
  have hpos : ∀ x ∈ Dom B, 0 < Neu.kval (kappaOf kappa) j x := fun x _ => by rw [hc]; exact hc0
  have hp := C89_spd h hrc hre hn ht hT hk hpos ho ha hK
  have hm := C89_lumped h hrc h5 hre hn ho ha hK
  obtain ⟨R, h1, h2⟩ := C89_precision_partial h hrc h5 hre hn ht hT hk hpos ho ha hK hch γ
  refine ⟨R, h1, fun h0 => ?_⟩
  have he := solves_succ hp hm h0 h2
  have hr := C89_constants h hrc hre ht hk hc ho ha hK ⟨0, hB⟩
  rw [he] at hr
  have hs : ∑ l, diagonal m ⟨0, hB⟩ l = m ⟨0, hB⟩ := by
    rw [Finset.sum_eq_single ⟨0, hB⟩]
    · simp
    · intro b _ hb
      exact diagonal_apply_ne _ hb.symm
    · intro h0
      exact absurd (Finset.mem_univ _) h0
  rw [hs] at hr
  have := hm ⟨0, hB⟩
  exact hc1 (mul_right_cancel₀ this.ne' (by rw [one_mul]; exact hr.symm))

/-- **C89 (violated: the operator).**  The documented operator is `κ² − div(T∇·)`; the assembled one has `κ` instead of `κ²`, which shows on the
constant function for every constant `κ` but 0 and 1. -/
theorem C89_kappa_violated (h : Setting close B e false s D V rect) (hrc : Gauss.rule2 (n ^ 2) = .ok rc) (h5 : n ≤ 5) (hre : Gauss.rule1 n1 = .ok re)
    (hn : deg e < n) (ht : tau.Sized) (hk : ∃ S, sampleSize (kappaOf kappa) = .ok S) {c : ℝ} (hc : ∀ x, Neu.kval (kappaOf kappa) j x = c)
    (hc0 : c ≠ 0) (hc1 : c ≠ 1) (ho : SetOrder ord) (ha : Ascending ord)
    (hK : Assembled e tau kappa rc re j (meshCells rect false s D) keep fuel ord K m) (i : Fin D.count) : ∑ l, K i l ≠ c ^ 2 * m i := by
  rw [C89_constants h hrc hre ht hk hc ho ha hK i]
  have hm := C89_lumped h hrc h5 hre hn ho ha hK i
  intro h0
  have := mul_right_cancel₀ hm.ne' h0
  rw [pow_two] at this
  exact hc1 (mul_left_cancel₀ hc0 (by rw [mul_one]; exact this.symm))

/-- **C89 (violated: the constructor).**  No elliptic field can be constructed: the constructor raises for all arguments, whether CHOLMOD is
available or not. -/
theorem C89_constructor_violated {N : Nat} (ch : Option (Cholmod N)) (K : Matrix (Fin N) (Fin N) ℝ) (m : Fin N → ℝ) (γ : Nat) :
    ∀ Q, init ch K m γ ≠ .ok Q := by
  intro Q h
  unfold init at h
  cases ch with
  | none => cases h
  | some ch =>
    simp only at h
    cases hf : factor ch K m γ <;> rw [hf] at h <;> cases h

/-- **C89 (the hypotheses are met).**  On every mesh with at least one cell the matrices are assembled, if sets of dofs are iterated in order (see C82). -/
theorem C89_runs (h : Setting close B e false s D V rect) (hB : 0 < D.count) (keep : Bool) (ho : SetOrder ord) (ha : Ascending ord)
    (tau : Tau) (kappa : Option (Kernel (Pt ℝ))) :
    ∃ N, ∀ fuel ≥ N, ∃ (K : Matrix (Fin D.count) (Fin D.count) ℝ) (m : Fin D.count → ℝ),
      Assembled e tau kappa rc re j (meshCells rect false s D) keep fuel ord K m := by
  have hac : Acyclic (consOf ([] : List (Linsys.Con ℝ)) []).hng := C86_torn.acyclic
  obtain ⟨d, hd, hr⟩ := (mesh_dofs h 0).2 hB
  have run : ∀ ts : List BTerm, ts ≠ [] → ∃ N, ∀ fuel ≥ N, ∃ af A, assemble2 (consOf [] []) keep fuel
      (mats e ts rc re j (meshCells rect false s D)) = .ok af ∧ af.consolidate ord = .ok A := by
    intro ts hts
    obtain ⟨N, af, _, hN⟩ := C35_terminates hac keep (mats e ts rc re j (meshCells rect false s D)) ([] : List (CN × List (Loc1 ℝ)))
      (fun c hc => by
        obtain ⟨d, _, rfl⟩ := List.mem_map.1 hc
        simpa using hts) (by simp)
    refine ⟨N, fun fuel hf => ?_⟩
    obtain ⟨A, hA⟩ := C35_consolidates_partial (hN fuel hf).1 mats_same ho ha
      ⟨0, 0, (uses_mats hts 0).2 ⟨d, hd, hr⟩, Relation.ReflTransGen.refl, rfl, rfl⟩
    exact ⟨af, A, (hN fuel hf).1, hA⟩
  obtain ⟨N1, h1⟩ := run (ellForms tau kappa) ell_ne
  obtain ⟨N2, h2⟩ := run massForms (by simp [massForms])
  refine ⟨max N1 N2, fun fuel hf => ?_⟩
  obtain ⟨af, A, a1, a2⟩ := h1 fuel (le_trans (le_max_left _ _) hf)
  obtain ⟨af', A', a3, a4⟩ := h2 fuel (le_trans (le_max_right _ _) hf)
  exact ⟨_, _, af, A, af', A', a1, a2, a3, a4, rfl, rfl⟩

end

/-- A CHOLMOD that keeps its promises exists. -/
theorem cholmod_exists (N : Nat) : ∃ ch : Cholmod N, ch.Spec := by
  classical
  have pd : ∀ A : Matrix (Fin N) (Fin N) ℝ, A.PosDef → ∃ R, R * Rᵀ = A := by
    intro A hA
    obtain ⟨S, h1, h2⟩ := root hA (m := fun _ => 1) (by simp)
    have e1 : diagonal (fun _ : Fin N => (1 : ℝ)) = 1 := diagonal_one
    rw [e1, inv_one, one_mul] at h1
    rw [e1, one_mul] at h2
    have : Sᵀ = S := by simpa [IsHermitian, conjTranspose_eq_transpose_of_trivial] using h2.1
    exact ⟨S, by rw [this, h1]⟩
  refine ⟨⟨fun A => if h : A.PosDef then .ok (pd A h).choose else .error .notPosDef, fun A => .ok A⟩, ?_, ?_, ?_, ?_⟩
  · intro A R h
    simp only at h
    split_ifs at h with hp
    cases h
    exact (pd A hp).choose_spec
  · intro A hA
    exact ⟨_, dif_pos hA⟩
  · intro A R h
    cases h
    rfl
  · intro A _
    exact ⟨A, rfl⟩

/-- The hypotheses of the theorems above hold together: two squares, one refined, `Q2`, an anisotropic tensor, `κ = 4`, `γ = 3`. -/
example (close : Pt ℝ → Pt ℝ → Bool) : ∃ rc re D V fuel, ∃ (K : Matrix (Fin D.count) (Fin D.count) ℝ) (m : Fin D.count → ℝ) (ch : Cholmod D.count) (R : _),
    Setting close twoR .Q2 false witR D V (fun _ => true) ∧ Gauss.rule2 (3 ^ 2) = .ok rc ∧ Gauss.rule1 1 = .ok re ∧
    Assembled .Q2 (.tensor (kernelOf 2) (kernelOf 1) (kernelOf 3)) (some (kernelOf 4)) rc re 0 (meshCells (fun _ => true) false witR D) true fuel
      sortedSet K m ∧ ch.Spec ∧ factor ch K m 3 = .ok R ∧ Solves K (diagonal m) 4 (R * Rᵀ) ∧ ¬ Solves K (diagonal m) 3 (R * Rᵀ) := by
  obtain ⟨rc, re, D, V, H, C, _, _, _, _, _, h, hp, hh, _, _, _⟩ := Cea.ex_run close
  have hB : 0 < D.count := by
    obtain ⟨c0, hc0, _⟩ := leaf_cover h.wf h.ready.ready.uses.uses.reach h.full (0, []) (show 0 < 2 by decide) (h.roots 0 (by decide)) (0, 0)
      ⟨le_rfl, zero_le_one, le_rfl, zero_le_one⟩
    exact lt_of_le_of_lt (Nat.zero_le _) (dof_lt h hc0 (i := 0) (by decide))
  have hkv : ∀ (q : Poly) (x : ℝ × ℝ), Neu.kval (kernelOf q) 0 x = ev q x := fun q x => by
    rw [Neu.kval, show sampleSize (kernelOf q) = .ok 1 from rfl]
    simp [kernelOf, Kernel.eval]
  have hsz : ∀ q : Poly, ∃ S, sampleSize (kernelOf q) = .ok S := fun q => ⟨1, rfl⟩
  obtain ⟨N, hN⟩ := C89_runs (rc := rc) (re := re) (j := 0) h hB true sortedSet_spec.1 sortedSet_spec.2
    (.tensor (kernelOf 2) (kernelOf 1) (kernelOf 3)) (some (kernelOf 4))
  obtain ⟨K, m, hK⟩ := hN N le_rfl
  obtain ⟨ch, hch⟩ := cholmod_exists D.count
  have hT : (Tau.tensor (kernelOf 2) (kernelOf 1) (kernelOf 3)).Psd 0 (Dom twoR) := by
    intro x _ v
    simp only [Tau.at, hkv, inner]
    have e2 : ev (2 : Poly) x = 2 := by simp [ev]
    have e1 : ev (1 : Poly) x = 1 := by simp [ev]
    have e3 : ev (3 : Poly) x = 3 := by simp [ev]
    rw [e1, e2, e3]
    nlinarith [sq_nonneg (v.1 + v.2), sq_nonneg v.1, sq_nonneg v.2]
  have hc : ∀ x, Neu.kval (kappaOf (some (kernelOf 4))) 0 x = 4 := fun x => by
    show Neu.kval (kernelOf 4) 0 x = 4
    rw [hkv]
    simp [ev]
  have hts : (Tau.tensor (kernelOf 2) (kernelOf 1) (kernelOf 3)).Sized := ⟨hsz _, hsz _, hsz _⟩
  obtain ⟨R, r1, r2⟩ := C89_precision_partial h hp.rule2 (by norm_num) hp.rule1 (by decide) hts hT (show ∃ S, sampleSize (kappaOf (some (kernelOf 4))) = .ok S from hsz 4) (fun x _ => by rw [hc]; norm_num)
    sortedSet_spec.1 sortedSet_spec.2 hK hch 3
  obtain ⟨R', r3, r4⟩ := C89_exponent_violated h hB hp.rule2 (by norm_num) hp.rule1 (by decide) hts hT (show ∃ S, sampleSize (kappaOf (some (kernelOf 4))) = .ok S from hsz 4) hc (by norm_num) (by norm_num)
    sortedSet_spec.1 sortedSet_spec.2 hK hch 3
  rw [r1] at r3
  cases r3
  exact ⟨rc, re, D, V, N, K, m, ch, R, h, hp.rule2, hp.rule1, hK, hch, r1, r2, r4⟩

end Verif.Ell
