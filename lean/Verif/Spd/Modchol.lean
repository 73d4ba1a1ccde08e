import Verif.Spd.Chol
import Verif.Spd.Eigen

/-!
# C41: the modified Cholesky factorization `modchol_ldlt`
-/

set_option linter.unusedSectionVars false

namespace Verif.Spd

open Matrix

variable {n m : ℕ}

/-- `M` with everything outside the leading `k × k` block replaced by zero. -/
def mask (k : ℕ) (M : Mat n n) : Mat n n :=
  Matrix.of fun i j => if (i : ℕ) < k ∧ (j : ℕ) < k then M i j else 0

/-- `B` placed at the diagonal position `k`. -/
def emb {s : ℕ} (k : ℕ) (B : Matrix (Fin s) (Fin s) ℝ) : Mat n n :=
  Matrix.of fun i j =>
    if h : (k ≤ i ∧ (i : ℕ) < k + s) ∧ (k ≤ j ∧ (j : ℕ) < k + s) then
      B ⟨(i : ℕ) - k, by omega⟩ ⟨(j : ℕ) - k, by omega⟩ else 0

theorem sum_sel {s : ℕ} (k i : ℕ) (f : Fin s → ℝ) :
    (∑ a : Fin s, (if i = k + a then (1 : ℝ) else 0) * f a) =
      if h : k ≤ i ∧ i < k + s then f ⟨i - k, by omega⟩ else 0 := by
  split
  · rename_i h
    rw [Finset.sum_eq_single (⟨i - k, by omega⟩ : Fin s)]
    · rw [if_pos (by simp; omega), one_mul]
    · intro a _ ha
      rw [if_neg, zero_mul]
      intro he; apply ha; apply Fin.ext; simp; omega
    · simp
  · rename_i h
    apply Finset.sum_eq_zero
    intro a _
    rw [if_neg (by have := a.2; omega), zero_mul]

theorem emb_psd {s : ℕ} (k : ℕ) (B : Matrix (Fin s) (Fin s) ℝ) (hB : B.PosSemidef) :
    (emb k B : Mat n n).PosSemidef := by
  let S : Matrix (Fin n) (Fin s) ℝ := Matrix.of fun i a => if (i : ℕ) = k + a then 1 else 0
  have h := hB.mul_mul_conjTranspose_same S
  rw [conjTranspose_eq_transpose_of_trivial] at h
  have he : S * B * Sᵀ = (emb k B : Mat n n) := by
    ext i j
    rw [Matrix.mul_apply]
    simp only [transpose_apply, Matrix.mul_apply, S, of_apply]
    rw [Finset.sum_congr rfl fun b _ => mul_comm _ _, sum_sel]
    simp only [sum_sel, emb, of_apply]
    by_cases h1 : k ≤ (j : ℕ) ∧ (j : ℕ) < k + s
    · by_cases h2 : k ≤ (i : ℕ) ∧ (i : ℕ) < k + s
      · simp [h1, h2]
      · simp [h1, h2]
    · simp [h1]
  rwa [he] at h

theorem emb_add {s : ℕ} (k : ℕ) (A B : Matrix (Fin s) (Fin s) ℝ) :
    (emb k (A + B) : Mat n n) = emb k A + emb k B := by
  ext i j
  simp only [emb, of_apply, Matrix.add_apply]
  split <;> simp

theorem emb_sub {s : ℕ} (k : ℕ) (A B : Matrix (Fin s) (Fin s) ℝ) :
    (emb k (A - B) : Mat n n) = emb k A - emb k B := by
  ext i j
  simp only [emb, of_apply, Matrix.sub_apply]
  split <;> simp

theorem emb_smul {s : ℕ} (k : ℕ) (c : ℝ) (A : Matrix (Fin s) (Fin s) ℝ) :
    (emb k (c • A) : Mat n n) = c • emb k A := by
  ext i j
  simp only [emb, of_apply, Matrix.smul_apply]
  split <;> simp

theorem mask_one_add (k s : ℕ) :
    (mask (k + s) (1 : Mat n n)) = mask k 1 + emb k (1 : Matrix (Fin s) (Fin s) ℝ) := by
  ext i j
  simp only [mask, emb, of_apply, Matrix.add_apply, Matrix.one_apply, Fin.ext_iff]
  split_ifs <;> first | (exfalso; omega) | simp

/-- Symmetric matrices that decouple at `k` split into the leading block and the next one. -/
theorem mask_add (k s : ℕ) (M : Mat n n) (hs : k + s ≤ n) (hM : Mᵀ = M)
    (h0 : ∀ i j : Fin n, (i : ℕ) < k → k ≤ (j : ℕ) → (j : ℕ) < k + s → M i j = 0) :
    mask (k + s) M = mask k M +
      emb k (Matrix.of fun a b : Fin s => M ⟨k + a, by omega⟩ ⟨k + b, by omega⟩) := by
  have h0' : ∀ i j : Fin n, (j : ℕ) < k → k ≤ (i : ℕ) → (i : ℕ) < k + s → M i j = 0 := by
    intro i j h1 h2 h3
    have := congrFun (congrFun hM i) j
    rw [← this, transpose_apply]; exact h0 j i h1 h2 h3
  ext i j
  simp only [mask, emb, of_apply, Matrix.add_apply]
  by_cases hi : (i : ℕ) < k
  · by_cases hj : (j : ℕ) < k
    · rw [if_pos (by omega), if_pos (by omega), dif_neg (by omega), add_zero]
    · rw [if_neg (c := (i : ℕ) < k ∧ (j : ℕ) < k) (by omega), dif_neg (by omega), add_zero]
      split
      · exact h0 i j hi (by omega) (by omega)
      · rfl
  · rw [if_neg (c := (i : ℕ) < k ∧ (j : ℕ) < k) (by omega), zero_add]
    by_cases hj : (j : ℕ) < k
    · rw [dif_neg (by omega)]
      split
      · exact h0' i j hj (by omega) (by omega)
      · rfl
    · by_cases h2 : (i : ℕ) < k + s ∧ (j : ℕ) < k + s
      · rw [if_pos h2, dif_pos (by omega)]
        congr 1 <;> apply Fin.ext <;> simp <;> omega
      · rw [if_neg h2, dif_neg (by omega)]

theorem mask_all (M : Mat n n) : mask n M = M := by
  ext i j; simp [mask]

/-- Loop invariant of `modchol_ldlt` at index `k`. -/
structure LoopInv (D : Mat n n) (delta : ℝ) (k : ℕ) (W : Mat n n) : Prop where
  le : k ≤ n
  rest : ∀ i j : Fin n, k ≤ (i : ℕ) ∨ k ≤ (j : ℕ) → W i j = (1 : Mat n n) i j
  symm : Wᵀ = W
  bdry : ∀ i j : Fin n, (i : ℕ) < k → k ≤ (j : ℕ) → D i j = 0
  low : (mask k W - delta • mask k (1 : Mat n n)).PosSemidef
  above : (mask k W - mask k D).PosSemidef
  same : (D - delta • (1 : Mat n n)).PosSemidef → mask k W = mask k D
  diag : (∀ i j, i ≠ j → D i j = 0) → ∀ i j, i ≠ j → W i j = 0

theorem clamp1_le (delta x : ℝ) : delta ≤ clamp1 delta x ∧ x ≤ clamp1 delta x := by
  unfold clamp1; split
  · exact ⟨le_refl _, by assumption⟩
  · exact ⟨le_of_lt (not_le.mp (by assumption)), le_refl _⟩

theorem clamp1_eq (delta x : ℝ) (h : delta ≤ x) : clamp1 delta x = x := by
  unfold clamp1; split
  · exact le_antisymm h (by assumption)
  · rfl

/-- The general step: the next `s` rows become the block `B`. -/
theorem LoopInv.step {D W W' : Mat n n} {delta : ℝ} {k s : ℕ} (hD : Dᵀ = D)
    (h : LoopInv D delta k W) (hs : k + s ≤ n)
    (hb : ∀ i j : Fin n, (i : ℕ) < k + s → k + s ≤ (j : ℕ) → D i j = 0)
    (B : Matrix (Fin s) (Fin s) ℝ) (hB : Bᵀ = B)
    (hin : ∀ i j : Fin n, (hi : k ≤ (i : ℕ) ∧ (i : ℕ) < k + s) → (hj : k ≤ (j : ℕ) ∧ (j : ℕ) < k + s) →
      W' i j = B ⟨(i : ℕ) - k, by omega⟩ ⟨(j : ℕ) - k, by omega⟩)
    (hout : ∀ i j : Fin n, ¬ ((k ≤ (i : ℕ) ∧ (i : ℕ) < k + s) ∧ (k ≤ (j : ℕ) ∧ (j : ℕ) < k + s)) →
      W' i j = W i j)
    (h1 : (B - delta • (1 : Matrix (Fin s) (Fin s) ℝ)).PosSemidef)
    (h2 : (B - Matrix.of fun a b : Fin s => D ⟨k + a, by omega⟩ ⟨k + b, by omega⟩).PosSemidef)
    (h3 : (D - delta • (1 : Mat n n)).PosSemidef →
      B = Matrix.of fun a b : Fin s => D ⟨k + a, by omega⟩ ⟨k + b, by omega⟩)
    (h4 : (∀ i j, i ≠ j → D i j = 0) → ∀ a b, a ≠ b → B a b = 0) :
    LoopInv D delta (k + s) W' := by
  have hsym : W'ᵀ = W' := by
    ext i j
    rw [transpose_apply]
    by_cases hi : (k ≤ (i : ℕ) ∧ (i : ℕ) < k + s) ∧ (k ≤ (j : ℕ) ∧ (j : ℕ) < k + s)
    · rw [hin j i hi.2 hi.1, hin i j hi.1 hi.2]
      exact congrFun (congrFun hB _) _
    · rw [hout j i (fun hc => hi ⟨hc.2, hc.1⟩), hout i j hi]
      exact congrFun (congrFun h.symm i) j
  have hWW : mask k W' = mask k W := by
    ext i j
    simp only [mask, of_apply]
    split
    · rw [hout i j (by omega)]
    · rfl
  have hmW : mask (k + s) W' = mask k W + emb k B := by
    rw [mask_add k s W' hs hsym, hWW]
    · congr 2
      ext a b
      simp only [of_apply]
      rw [hin _ _ (by simp) (by simp)]
      congr 1 <;> apply Fin.ext <;> simp
    · intro i j hi hj _
      rw [hout i j (by omega), h.rest i j (.inr hj), Matrix.one_apply, if_neg]
      intro he; rw [he] at hi; omega
  have hmD := mask_add k s D hs hD (fun i j hi hj _ => h.bdry i j hi hj)
  refine ⟨hs, ?_, hsym, hb, ?_, ?_, ?_, ?_⟩
  · intro i j hij
    rw [hout i j (by omega)]
    exact h.rest i j (by omega)
  · rw [hmW, mask_one_add, smul_add, ← emb_smul, add_sub_add_comm, ← emb_sub]
    exact h.low.add (emb_psd k _ h1)
  · rw [hmW, hmD, add_sub_add_comm, ← emb_sub]
    exact h.above.add (emb_psd k _ h2)
  · intro hp
    rw [hmW, hmD, h.same hp]
    congr 2
    exact h3 hp
  · intro hd i j hij
    by_cases hi : (k ≤ (i : ℕ) ∧ (i : ℕ) < k + s) ∧ (k ≤ (j : ℕ) ∧ (j : ℕ) < k + s)
    · rw [hin i j hi.1 hi.2]
      apply h4 hd
      intro he
      apply hij; apply Fin.ext
      have := congrArg Fin.val he
      simp at this; omega
    · rw [hout i j hi]; exact h.diag hd i j hij

theorem psd_one (x : ℝ) (h : 0 ≤ x) (A : Matrix (Fin 1) (Fin 1) ℝ) (hA : A 0 0 = x) :
    A.PosSemidef := by
  have : A = diagonal fun _ => x := by ext i j; fin_cases i; fin_cases j; simpa using hA
  rw [this]; exact PosSemidef.diagonal fun _ => h

/-- One-by-one step. -/
theorem LoopInv.one {D W : Mat n n} {delta : ℝ} {k : ℕ} (hD : Dᵀ = D)
    (h : LoopInv D delta k W) (hk : k < n)
    (hb : ∀ i j : Fin n, (i : ℕ) < k + 1 → k + 1 ≤ (j : ℕ) → D i j = 0) :
    LoopInv D delta (k + 1) (Matrix.updateRow W ⟨k, hk⟩ (Function.update (W ⟨k, hk⟩) ⟨k, hk⟩
          (clamp1 delta (D ⟨k, hk⟩ ⟨k, hk⟩)))) := by
  obtain ⟨hc1, hc2⟩ := clamp1_le delta (D ⟨k, hk⟩ ⟨k, hk⟩)
  refine h.step hD (s := 1) (by omega) hb
    (Matrix.of fun _ _ => clamp1 delta (D ⟨k, hk⟩ ⟨k, hk⟩)) rfl ?_ ?_ ?_ ?_ ?_ ?_
  · intro i j hi hj
    have e1 : i = ⟨k, hk⟩ := Fin.ext (by simp; omega)
    have e2 : j = ⟨k, hk⟩ := Fin.ext (by simp; omega)
    subst e1 e2
    simp
  · intro i j hij
    by_cases e1 : i = ⟨k, hk⟩
    · subst e1
      have e2 : j ≠ ⟨k, hk⟩ := by rintro rfl; exact hij (by simp)
      simp [e2]
    · simp [e1]
  · apply psd_one (clamp1 delta (D ⟨k, hk⟩ ⟨k, hk⟩) - delta) (by linarith)
    simp
  · apply psd_one (clamp1 delta (D ⟨k, hk⟩ ⟨k, hk⟩) - D ⟨k, hk⟩ ⟨k, hk⟩) (by linarith)
    simp
  · intro hp
    have := hp.diag_nonneg (i := ⟨k, hk⟩)
    simp at this
    ext a b
    fin_cases a; fin_cases b
    simp [clamp1_eq _ _ this]
  · intro _ a b hab
    exact absurd (Subsingleton.elim a b) hab

/-- Two-by-two step. -/
theorem LoopInv.two {D W : Mat n n} {delta : ℝ} {k : ℕ} (hD : Dᵀ = D)
    (h : LoopInv D delta k W) (hk : k + 1 < n)
    (hb : ∀ i j : Fin n, (i : ℕ) < k + 2 → k + 2 ≤ (j : ℕ) → D i j = 0)
    (hne : D ⟨k, by omega⟩ ⟨k + 1, hk⟩ ≠ 0)
    {t : Fin 2 → ℝ} {U : Matrix (Fin 2) (Fin 2) ℝ} (hE : Eigh2 (block2 D k hk) t U) :
    LoopInv D delta (k + 2) (setBlock2 W k (clamp2 delta t U)) := by
  have hbl : block2 D k hk = spec U t := by
    have := hE.eig
    rw [spec, ← this, Matrix.mul_assoc, ortho_comm hE.ortho, Matrix.mul_one]
  have hcl : clamp2 delta t U = spec U (fun i => clamp1 delta (t i)) := by
    unfold clamp2
    have e : U * (diagonal (fun i => clamp1 delta (t i)) * Uᵀ)
      = spec U (fun i => clamp1 delta (t i)) := by rw [spec, Matrix.mul_assoc]
    simp only
    rw [e, spec_transpose, ← two_smul ℝ, smul_smul]; norm_num
  refine h.step hD (s := 2) (by omega) hb (clamp2 delta t U) ?_ ?_ ?_ ?_ ?_ ?_ ?_
  · rw [hcl, spec_transpose]
  · intro i j hi hj
    simp only [setBlock2, of_apply]
    rw [dif_pos hi, dif_pos hj]
  · intro i j hij
    simp only [setBlock2, of_apply]
    split
    · split
      · exact absurd ⟨by assumption, by assumption⟩ hij
      · rfl
    · rfl
  · rw [hcl, ← spec_const hE.ortho, spec_sub]
    exact spec_psd _ _ fun i => by linarith [(clamp1_le delta (t i)).1]
  · show (clamp2 delta t U - block2 D k hk).PosSemidef
    rw [hcl, hbl, spec_sub]
    exact spec_psd _ _ fun i => by linarith [(clamp1_le delta (t i)).2]
  · intro hp
    show clamp2 delta t U = block2 D k hk
    have hp2 : (block2 D k hk - delta • (1 : Matrix (Fin 2) (Fin 2) ℝ)).PosSemidef := by
      have h1 := hp.submatrix (fun a : Fin 2 => (⟨k + a, by omega⟩ : Fin n))
      have e : (D - delta • (1 : Mat n n)).submatrix (fun a : Fin 2 => (⟨k + a, by omega⟩ : Fin n))
          (fun a : Fin 2 => (⟨k + a, by omega⟩ : Fin n))
          = block2 D k hk - delta • (1 : Matrix (Fin 2) (Fin 2) ℝ) := by
        ext a b
        simp [block2, Matrix.one_apply, Fin.ext_iff]
      rwa [e] at h1
    rw [hbl, ← spec_const hE.ortho, spec_sub, spec_psd_iff hE.ortho] at hp2
    rw [hcl, hbl]
    congr 1; funext i
    exact clamp1_eq _ _ (by linarith [hp2 i])
  · intro hd
    exact absurd (hd _ _ (by simp)) hne

/-- The loop keeps its invariant to the end. -/
theorem modLoop_inv {D : Mat n n} {delta : ℝ} (hD : Dᵀ = D)
    (hband : ∀ i j : Fin n, (i : ℕ) + 1 < j → D i j = 0)
    (hblk : ∀ i j k : Fin n, (i : ℕ) + 1 = j → (j : ℕ) + 1 = k → D i j ≠ 0 → D j k = 0)
    {k : ℕ} {W W' : Mat n n} (hl : ModLoop D delta k W W') (h : LoopInv D delta k W) :
    LoopInv D delta n W' := by
  induction hl with
  | done hk =>
    have e := le_antisymm h.le hk
    rw [e] at h; exact h
  | last hk hlast _ ih =>
    exact ih (h.one hD hk (fun i j _ hj => absurd j.2 (by omega)))
  | @one k W W' hk h0 _ ih =>
    refine ih (h.one hD (by omega) ?_)
    intro i j hi hj
    by_cases hik : (i : ℕ) = k
    · by_cases hjk : (j : ℕ) = k + 1
      · have e1 : i = ⟨k, Nat.lt_of_succ_lt hk⟩ := Fin.ext hik
        have e2 : j = ⟨k + 1, hk⟩ := Fin.ext hjk
        rw [e1, e2]; exact h0
      · exact hband i j (by omega)
    · exact h.bdry i j (by omega) (by omega)
  | @two k W W' t U hk hne hE _ ih =>
    refine ih (h.two hD hk ?_ hne hE)
    intro i j hi hj
    by_cases hik : (i : ℕ) < k
    · exact h.bdry i j hik (by omega)
    · by_cases hik1 : (i : ℕ) = k
      · exact hband i j (by omega)
      · by_cases hjk : (j : ℕ) = k + 2
        · exact hblk ⟨k, by omega⟩ i j (by simp; omega) (by omega) (by
            rw [show i = ⟨k + 1, hk⟩ from Fin.ext (by simp; omega)]; exact hne)
        · exact hband i j (by omega)

theorem loopInv_zero (D : Mat n n) (delta : ℝ) : LoopInv D delta 0 1 := by
  have hz : ∀ M : Mat n n, mask 0 M = 0 := by intro M; ext i j; simp [mask]
  refine ⟨by omega, fun _ _ _ => rfl, Matrix.transpose_one, by omega, ?_, ?_, ?_, ?_⟩
  · simp only [hz, smul_zero, sub_zero]; exact PosSemidef.zero
  · simp only [hz, sub_zero]; exact PosSemidef.zero
  · intro _; rw [hz, hz]
  · intro _ i j hij; exact Matrix.one_apply_ne hij

/-- What the loop computes. -/
theorem modLoop_spec {C L D D0 : Mat n n} {p : Equiv.Perm (Fin n)} {delta : ℝ}
    (hl : Ldl C L D0 p) (h : ModLoop D0 delta 0 1 D) :
    Dᵀ = D ∧ (D - delta • (1 : Mat n n)).PosSemidef ∧ (D - D0).PosSemidef ∧
      ((D0 - delta • (1 : Mat n n)).PosSemidef → D = D0) ∧
      ((∀ i j, i ≠ j → D0 i j = 0) → ∀ i j, i ≠ j → D i j = 0) := by
  have hi := modLoop_inv hl.symm hl.band hl.blocks h (loopInv_zero D0 delta)
  have h1 := hi.low
  have h2 := hi.above
  have h3 := hi.same
  rw [mask_all, mask_all] at h1 h2 h3
  exact ⟨hi.symm, h1, h2, h3, hi.diag⟩

/-- The factor of `ldl` is invertible. -/
theorem ldl_unit {C L D : Mat n n} {p : Equiv.Perm (Fin n)} (hl : Ldl C L D p) :
    IsUnit L.det := by
  have h1 : (L.submatrix p id).det = 1 := by
    rw [det_lower (L.submatrix p id) (fun i j hij => hl.lower i j hij)]
    exact Finset.prod_eq_one fun i _ => hl.unit i
  rw [Matrix.det_permute] at h1
  apply isUnit_iff_ne_zero.mpr
  intro h0
  rw [h0, mul_zero] at h1
  exact zero_ne_one h1

theorem frobenius_pos {C : Mat n n} (h : C ≠ 0) : 0 < frobenius C := by
  apply Real.sqrt_pos.mpr
  obtain ⟨i, j, hij⟩ : ∃ i j, C i j ≠ 0 := by
    by_contra hc
    push Not at hc
    exact h (by ext i j; exact hc i j)
  exact Finset.sum_pos' (fun i _ => Finset.sum_nonneg fun j _ => sq_nonneg _)
    ⟨i, Finset.mem_univ _, Finset.sum_pos' (fun j _ => sq_nonneg _)
      ⟨j, Finset.mem_univ _, by positivity⟩⟩

/-- The tolerance `delta` in force in `modchol_ldlt(C,delta)`. -/
noncomputable def deltaOf (C : Mat n n) (delta : Option ℝ) : ℝ :=
  delta.getD (Real.sqrt (1 / 2 ^ 52) * Real.sqrt (∑ i, ∑ j, C i j ^ 2))

theorem modDelta_ok {C : Mat n n} {delta : Option ℝ} {dl : ℝ} (h : modDelta C delta = .ok dl) :
    dl = deltaOf C delta ∧ 0 ≤ dl ∧ (C ≠ 0 → 0 < dl) := by
  cases delta with
  | none =>
    simp only [modDelta, Except.ok.injEq] at h
    subst h
    refine ⟨rfl, by unfold frobenius; positivity, fun hC => mul_pos ?_ (frobenius_pos hC)⟩
    exact Real.sqrt_pos.mpr (by unfold machineEps; positivity)
  | some x =>
    simp only [modDelta] at h
    split_ifs at h with hx
    simp only [Except.ok.injEq] at h
    subst h
    exact ⟨rfl, le_of_lt hx, fun _ => hx⟩

/-- **C41 (modified factorization).** For every symmetric matrix the factors returned by
`modchol_ldlt` satisfy `L D0 L' = C`; `D` is symmetric with smallest eigenvalue at least `delta`;
the matrix `C + E = L D L'` is at least `C`, it is positive definite unless `C = 0`, and it is `C`
itself if `D0` already has all eigenvalues `≥ delta`. -/
theorem C41_modchol (C : Mat n n) (delta : Option ℝ) (L D P D0 : Mat n n)
    (h : ModChol C delta L D P D0) :
    L * D0 * Lᵀ = C ∧ Dᵀ = D ∧ (D - deltaOf C delta • (1 : Mat n n)).PosSemidef ∧
    (L * D * Lᵀ - C).PosSemidef ∧ (C ≠ 0 → (L * D * Lᵀ).PosDef) ∧
    ((D0 - deltaOf C delta • (1 : Mat n n)).PosSemidef → L * D * Lᵀ = C) := by
  obtain ⟨hC, dl, p, hdl, hl, hloop, rfl⟩ := h
  obtain ⟨rfl, hd0, hdpos⟩ := modDelta_ok hdl
  obtain ⟨h1, h2, h3, h4, -⟩ := modLoop_spec hl hloop
  refine ⟨hl.fact, h1, h2, ?_, ?_, ?_⟩
  · have := h3.mul_mul_conjTranspose_same L
    rw [conjTranspose_eq_transpose_of_trivial, Matrix.mul_sub, Matrix.sub_mul, hl.fact] at this
    exact this
  · intro hC0
    have hDp : D.PosDef := by
      have hone : (deltaOf C delta • (1 : Mat n n)).PosDef :=
        (PosDef.one).smul (hdpos hC0)
      have := hone.add_posSemidef h2
      rwa [add_sub_cancel] at this
    have := hDp.mul_mul_conjTranspose_same (B := L)
      (Matrix.vecMul_injective_of_isUnit ((Matrix.isUnit_iff_isUnit_det L).mpr (ldl_unit hl)))
    rwa [conjTranspose_eq_transpose_of_trivial] at this
  · intro hp
    rw [h4 hp, hl.fact]

end Verif.Spd
