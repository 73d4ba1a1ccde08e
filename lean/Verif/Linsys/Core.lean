import Verif.Linsys.Spec
import Mathlib.Tactic.Ring
import Mathlib.Tactic.LinearCombination
import Mathlib.Tactic.Abel
import Mathlib.Tactic.Tauto
import Mathlib.Algebra.BigOperators.Ring.Finset

/-!
# The algebra of the elimination loops
-/

namespace Verif.Linsys

open Matrix

variable {K : Type} [Field K] [DecidableEq K] {n m : ℕ}

theorem stepA_apply (C A : Matrix (Fin n) (Fin n) K) (k i j : Fin n) :
    stepA C A k i j =
      (if i = k then 0 else
        (if j = k then 0 else A i j + A i k * C k j) +
          C k i * (if j = k then 0 else A k j + A k k * C k j)) +
      (if i = k ∧ j = k then 1 else 0) := by
  by_cases hi : i = k <;> by_cases hj : j = k <;>
    simp [stepA, Imk, vecMulVec_apply, diagonal_apply, hi, hj]
  intro h; exact absurd h.symm hj

/-- Rows in `S` replaced by the rows of `C`. -/
def QS (C : Matrix (Fin n) (Fin n) K) (S : List (Fin n)) : Matrix (Fin n) (Fin n) K := fun i j =>
  if i ∈ S then C i j else if i = j then 1 else 0

/-- Indicator diagonal. -/
def ES (K : Type) [Field K] (S : List (Fin n)) : Matrix (Fin n) (Fin n) K :=
  diagonal (fun i => if i ∈ S then 1 else 0)

def MS (C : Matrix (Fin n) (Fin n) K) (S : List (Fin n)) (A : Matrix (Fin n) (Fin n) K) :
    Matrix (Fin n) (Fin n) K := (QS C S)ᵀ * A * QS C S

theorem QS_single_mul (C : Matrix (Fin n) (Fin n) K) (k : Fin n) (X : Matrix (Fin n) (Fin m) K)
    (i : Fin n) (j : Fin m) :
    (QS C [k] * X) i j = if i = k then ∑ l, C k l * X l j else X i j := by
  by_cases h : i = k
  · subst h; simp [Matrix.mul_apply, QS]
  · simp [Matrix.mul_apply, QS, h]

theorem stepA_eq (C A : Matrix (Fin n) (Fin n) K) (k : Fin n) (hk : C k k = 0) :
    stepA C A k = MS C [k] A + ES K [k] := by
  ext i j
  rw [stepA_apply]
  have h2 : ∀ X : Matrix (Fin n) (Fin n) K, ∀ i j, (X * QS C [k]) i j =
      (if j = k then 0 else X i j + X i k * C k j) := by
    intro X i j
    rw [Matrix.mul_apply]
    have : ∀ l, X i l * QS C [k] l j =
        (if l = k then X i k * C k j else 0) + (if l = j then (if j = k then 0 else X i j) else 0) := by
      intro l
      by_cases h1 : l = k <;> by_cases h3 : l = j <;> simp [QS, h1, h3]
      · subst h1; subst h3; simp
      · subst h1; intro h; exact absurd h h3
      · subst h3; simp [h1]
    rw [Finset.sum_congr rfl (fun l _ => this l), Finset.sum_add_distrib]
    simp
    by_cases hj : j = k
    · simp [hj, hk]
    · simp [hj]; ring
  have h3 : ∀ X : Matrix (Fin n) (Fin n) K, ∀ i j, ((QS C [k])ᵀ * X) i j =
      (if i = k then 0 else X i j + C k i * X k j) := by
    intro X i j
    have := h2 Xᵀ j i
    rw [← Matrix.transpose_apply (Xᵀ * QS C [k]), Matrix.transpose_mul] at this
    rw [Matrix.transpose_transpose] at this
    rw [this]
    simp [mul_comm]
  rw [MS, Matrix.mul_assoc, Matrix.add_apply, h3, h2, h2]
  congr 1
  simp only [ES, diagonal_apply, List.mem_singleton]
  by_cases hi : i = k <;> by_cases hj : j = k <;> simp [hi, hj]
  · intro h; exact absurd h.symm hj
  

theorem QS_mul (C : Matrix (Fin n) (Fin n) K) (k : Fin n) (S : List (Fin n))
    (hk : k ∉ S) (h : ∀ l ∈ S, C k l = 0) : QS C [k] * QS C S = QS C (k :: S) := by
  ext i j
  rw [QS_single_mul]
  by_cases hi : i = k
  · subst hi
    simp only [if_true]
    have : ∀ l, C i l * QS C S l j = if l = j then C i j else 0 := by
      intro l
      by_cases hl : l ∈ S
      · rw [h l hl, zero_mul]
        by_cases hlj : l = j
        · subst hlj; simp [h l hl]
        · simp [hlj]
      · by_cases hlj : l = j
        · subst hlj; simp [QS, hl]
        · simp [QS, hl, hlj]
    rw [Finset.sum_congr rfl (fun l _ => this l)]
    simp [QS]
  · simp [QS, hi]

theorem MS_cons (C A : Matrix (Fin n) (Fin n) K) (k : Fin n) (S : List (Fin n))
    (hk : k ∉ S) (h : ∀ l ∈ S, C k l = 0) : MS C S (MS C [k] A) = MS C (k :: S) A := by
  simp only [MS]
  rw [← QS_mul C k S hk h, Matrix.transpose_mul]
  simp only [Matrix.mul_assoc]

theorem MS_ES (C : Matrix (Fin n) (Fin n) K) (k : Fin n) (S : List (Fin n)) (hk : k ∉ S) :
    MS C S (ES K [k]) = ES K [k] := by
  ext i j
  simp only [MS]
  rw [Matrix.mul_apply]
  have : ∀ l, ((QS C S)ᵀ * ES K [k]) i l * QS C S l j =
      if l = k then (QS C S k i * QS C S k j) else 0 := by
    intro l
    by_cases hl : l = k
    · subst hl; simp [ES, Matrix.mul_diagonal]
    · simp [ES, Matrix.mul_diagonal, hl]
  rw [Finset.sum_congr rfl (fun l _ => this l)]
  simp only [Finset.sum_ite_eq', Finset.mem_univ, if_true, QS, hk, if_false]
  by_cases hi : k = i <;> by_cases hj : k = j
  · subst hi; subst hj; simp [ES]
  · subst hi; simp [ES, hj]
  · subst hj; simp [ES, hi, diagonal_apply, Ne.symm hi]
  · simp [ES, hi, diagonal_apply]; intro _ h; exact absurd h.symm hi

theorem ES_cons (k : Fin n) (S : List (Fin n)) (hk : k ∉ S) :
    ES K [k] + ES K S = ES K (k :: S) := by
  ext i j
  by_cases hij : i = j
  · subst hij
    by_cases hi : i = k
    · subst hi; simp [ES, hk]
    · simp [ES, hi]
  · simp [ES, hij]

theorem elimA_hanging (C : Matrix (Fin n) (Fin n) K) (S : List (Fin n)) (hnd : S.Nodup)
    (h : ∀ k ∈ S, ∀ l ∈ S, C k l = 0) (A : Matrix (Fin n) (Fin n) K) :
    (elimA C S A).1 = MS C S A + ES K S := by
  induction S generalizing A with
  | nil =>
    have h1 : QS C [] = 1 := by ext i j; simp [QS, Matrix.one_apply]
    have h2 : ES K ([] : List (Fin n)) = 0 := by simp [ES]
    simp [elimA, MS, h1, h2]
  | cons k S ih =>
    rw [List.nodup_cons] at hnd
    simp only [elimA]
    rw [ih hnd.2 (fun a ha b hb => h a (by simp [ha]) b (by simp [hb]))]
    rw [stepA_eq C A k (h k (by simp) k (by simp))]
    have : MS C S (MS C [k] A + ES K [k]) = MS C S (MS C [k] A) + MS C S (ES K [k]) := by
      simp only [MS, Matrix.mul_add, Matrix.add_mul]
    rw [this, MS_cons C A k S hnd.1 (fun l hl => h k (by simp) l (by simp [hl])),
      MS_ES C k S hnd.1, add_assoc, ES_cons k S hnd.1]

theorem elimA_append (C : Matrix (Fin n) (Fin n) K) (S T : List (Fin n))
    (A : Matrix (Fin n) (Fin n) K) :
    elimA C (S ++ T) A =
      ((elimA C T (elimA C S A).1).1, (elimA C S A).2 ++ (elimA C T (elimA C S A).1).2) := by
  induction S generalizing A with
  | nil => simp [elimA]
  | cons k S ih => simp only [List.cons_append, elimA]; rw [ih]

theorem elimA_len (C : Matrix (Fin n) (Fin n) K) (S : List (Fin n)) (A : Matrix (Fin n) (Fin n) K) :
    (elimA C S A).2.length = S.length := by
  induction S generalizing A with
  | nil => simp [elimA]
  | cons k S ih => simp [elimA, ih]

theorem stepA_dir (C A : Matrix (Fin n) (Fin n) K) (k : Fin n) (hk : ∀ l, C k l = 0) (i j : Fin n) :
    stepA C A k i j = if i = k ∨ j = k then (if i = j then 1 else 0) else A i j := by
  rw [stepA_apply]
  by_cases hi : i = k <;> by_cases hj : j = k <;> simp [hi, hj, hk]
  · intro h; exact absurd h.symm hj

theorem elimA_dirichlet (C : Matrix (Fin n) (Fin n) K) (S : List (Fin n))
    (h : ∀ k ∈ S, ∀ l, C k l = 0) (N : Matrix (Fin n) (Fin n) K) (i j : Fin n) :
    (elimA C S N).1 i j = if i ∈ S ∨ j ∈ S then (if i = j then 1 else 0) else N i j := by
  induction S generalizing N with
  | nil => simp [elimA]
  | cons k S ih =>
    simp only [elimA]
    rw [ih (fun a ha => h a (by simp [ha])), stepA_dir C N k (h k (by simp))]
    by_cases h1 : i ∈ S <;> by_cases h2 : j ∈ S <;> simp [h1, h2]

theorem stepB_apply (C : Matrix (Fin n) (Fin n) K) (d : Fin n → K) (raws : List (Fin n))
    (k : Fin n) (ak : Fin n → K) (b : Matrix (Fin n) (Fin m) K) (i : Fin n) (j : Fin m) :
    stepB C d raws k ak b i j =
      if i ∈ raws then 0 else b i j - d k * ak i + C k i * (b k j - d k * ak k) := by
  by_cases h : i ∈ raws <;> simp [stepB, vecMulVec_apply, h]

/-- Right-hand side, hanging nodes after the first one: nothing changes. -/
theorem constrainRhs_zero (C : Matrix (Fin n) (Fin n) K) (d : Fin n → K) (raws : List (Fin n))
    (S : List (Fin n)) (hS : ∀ k ∈ S, k ∈ raws) (hd : ∀ k ∈ S, d k = 0)
    (recs : List (Fin n → K)) (hl : recs.length = S.length) (b : Matrix (Fin n) (Fin m) K)
    (hb : ∀ i ∈ raws, ∀ j, b i j = 0) : constrainRhs C d raws S recs b = .ok b := by
  induction S generalizing recs b with
  | nil => rfl
  | cons k S ih =>
    match recs, hl with
    | ak :: recs, hl =>
      simp only [constrainRhs]
      have : stepB C d raws k ak b = b := by
        ext i j
        rw [stepB_apply, hd k (by simp), hb k (hS k (by simp)) j]
        by_cases h : i ∈ raws
        · simp [h, hb i h j]
        · simp [h]
      rw [this]
      exact ih (fun a ha => hS a (by simp [ha])) (fun a ha => hd a (by simp [ha])) recs
        (by simpa using hl) b hb

theorem constrainRhs_append (C : Matrix (Fin n) (Fin n) K) (d : Fin n → K) (raws : List (Fin n))
    (S T : List (Fin n)) (r1 r2 : List (Fin n → K)) (hl : r1.length = S.length)
    (b b1 : Matrix (Fin n) (Fin m) K) (h : constrainRhs C d raws S r1 b = .ok b1) :
    constrainRhs C d raws (S ++ T) (r1 ++ r2) b = constrainRhs C d raws T r2 b1 := by
  induction S generalizing r1 b with
  | nil =>
    have : r1 = [] := by simpa using hl
    subst this
    simp only [constrainRhs, Except.ok.injEq] at h
    subst h; rfl
  | cons k S ih =>
    match r1, hl with
    | ak :: r1, hl =>
      simp only [constrainRhs, List.cons_append] at h ⊢
      exact ih r1 (by simpa using hl) _ h

/-- Right-hand side, Dirichlet part. -/
theorem constrainRhs_dirichlet (C : Matrix (Fin n) (Fin n) K) (d : Fin n → K)
    (raws : List (Fin n)) (S : List (Fin n)) (hS : ∀ k ∈ S, k ∈ raws)
    (h : ∀ k ∈ S, ∀ l, C k l = 0) (N : Matrix (Fin n) (Fin n) K) (b : Matrix (Fin n) (Fin m) K) :
    ∃ b', constrainRhs C d raws S (elimA C S N).2 b = .ok b' ∧
      (∀ i ∉ raws, ∀ j, b' i j = b i j - ∑ k ∈ S.toFinset, d k * N i k) ∧
      ((S ≠ [] ∨ ∀ i ∈ raws, ∀ j, b i j = 0) → ∀ i ∈ raws, ∀ j, b' i j = 0) := by
  induction S generalizing N b with
  | nil => exact ⟨b, rfl, by simp, by simp⟩
  | cons k S ih =>
    obtain ⟨b', h1, h2, h3⟩ := ih (fun a ha => hS a (by simp [ha])) (fun a ha => h a (by simp [ha]))
      (stepA C N k) (stepB C d raws k (fun i => N i k) b)
    refine ⟨b', h1, ?_, ?_⟩
    · intro i hi j
      have hik : i ≠ k := fun e => hi (e ▸ hS k (by simp))
      rw [h2 i hi j, stepB_apply, if_neg hi, h k (by simp) i, zero_mul, add_zero]
      have : ∀ l ∈ S.toFinset, d l * stepA C N k i l = if l = k then 0 else d l * N i l := by
        intro l _
        rw [stepA_dir C N k (h k (by simp))]
        by_cases hl : l = k
        · subst hl; simp [hik]
        · simp [hik, hl]
      rw [Finset.sum_congr rfl this, List.toFinset_cons]
      by_cases hk : k ∈ S
      · have hk' : k ∈ S.toFinset := by simpa using hk
        rw [Finset.insert_eq_of_mem hk', ← Finset.add_sum_erase _ _ hk',
          ← Finset.add_sum_erase S.toFinset (fun l => d l * N i l) hk']
        rw [Finset.sum_congr rfl (g := fun l => d l * N i l)
          (fun l hl => by rw [if_neg (Finset.ne_of_mem_erase hl)])]
        simp; ring
      · have hk' : k ∉ S.toFinset := by simpa using hk
        rw [Finset.sum_insert hk']
        rw [Finset.sum_congr rfl (g := fun l => d l * N i l)
          (fun l hl => by rw [if_neg (show l ≠ k from fun e => hk' (e ▸ hl))])]
        ring
    · intro _
      apply h3
      right
      intro i hi j
      rw [stepB_apply, if_pos hi]

/-- The hypotheses on the constraint system in equation numbers. -/
structure CoreH (C : Matrix (Fin n) (Fin n) K) (d : Fin n → K) (hk dk : List (Fin n)) : Prop where
  hrow : ∀ k ∈ hk, ∀ l ∈ hk, C k l = 0
  drow : ∀ k ∈ dk, ∀ l, C k l = 0
  irow : ∀ i, i ∉ hk → i ∉ dk → ∀ l, C i l = if i = l then 1 else 0
  nd : hk.Nodup
  disj : ∀ k ∈ hk, k ∉ dk
  dz : ∀ i, i ∉ dk → d i = 0

variable {C : Matrix (Fin n) (Fin n) K} {d : Fin n → K} {hk dk : List (Fin n)}

theorem QS_col (H : CoreH C d hk dk) {l : Fin n} (hl : l ∈ hk) (a : Fin n) : QS C hk a l = 0 := by
  by_cases ha : a ∈ hk
  · simp [QS, ha, H.hrow a ha l hl]
  · have : a ≠ l := fun e => ha (e ▸ hl)
    simp [QS, ha, this]

theorem MS_col (H : CoreH C d hk dk) (A : Matrix (Fin n) (Fin n) K) {l : Fin n} (hl : l ∈ hk)
    (i : Fin n) : MS C hk A i l = 0 := by
  simp only [MS]
  rw [Matrix.mul_apply]
  exact Finset.sum_eq_zero (fun a _ => by rw [QS_col H hl, mul_zero])

/-- The constrained matrix before scaling. -/
theorem elimA_all (H : CoreH C d hk dk) (A : Matrix (Fin n) (Fin n) K) (i j : Fin n) :
    (elimA C (hk ++ dk) A).1 i j =
      if i ∈ dk ∨ j ∈ dk then (if i = j then 1 else 0)
      else MS C hk A i j + (if i = j ∧ i ∈ hk then 1 else 0) := by
  rw [elimA_append]
  simp only
  rw [elimA_dirichlet C dk H.drow, elimA_hanging C hk H.nd H.hrow]
  congr 1
  rw [Matrix.add_apply, ES, diagonal_apply]
  congr 1
  by_cases h1 : i = j <;> simp [h1]

/-- The constrained right-hand side in the unconstrained rows. -/
theorem rhs_all (H : CoreH C d hk dk) (A : Matrix (Fin n) (Fin n) K)
    (b : Matrix (Fin n) (Fin m) K) :
    ∃ b', constrainRhs C d (hk ++ dk) (hk ++ dk) (elimA C (hk ++ dk) A).2 b = .ok b' ∧
      (∀ i ∉ hk ++ dk, ∀ j, b' i j =
        (∑ l, QS C hk l i * (if l ∈ hk.tail then 0 else b l j)) -
          ∑ k ∈ dk.toFinset, d k * MS C hk A i k) ∧
      (hk ++ dk ≠ [] → ∀ i ∈ hk ++ dk, ∀ j, b' i j = 0) := by
  have key : ∃ b1, constrainRhs C d (hk ++ dk) hk (elimA C hk A).2 b = .ok b1 ∧
      (∀ i ∉ hk ++ dk, ∀ j, b1 i j = ∑ l, QS C hk l i * (if l ∈ hk.tail then 0 else b l j)) ∧
      (hk ≠ [] → ∀ i ∈ hk ++ dk, ∀ j, b1 i j = 0) := by
    match hk, H with
    | [], H => exact ⟨b, rfl, by intro i hi j; simp [QS], by simp⟩
    | k :: S, H =>
      refine ⟨stepB C d (k :: S ++ dk) k (fun i => A i k) b, ?_, ?_, ?_⟩
      · simp only [elimA, constrainRhs]
        apply constrainRhs_zero
        · intro a ha; simp [ha]
        · intro a ha; exact H.dz a (H.disj a (by simp [ha]))
        · rw [elimA_len]
        · intro i hi j; rw [stepB_apply, if_pos hi]
      · intro i hi j
        rw [stepB_apply, if_neg hi, H.dz k (H.disj k (by simp))]
        have hnd := H.nd
        rw [List.nodup_cons] at hnd
        have hi' : i ≠ k ∧ i ∉ S := by
          simp at hi; tauto
        have : ∀ l, QS C (k :: S) l i * (if l ∈ (k :: S).tail then 0 else b l j) =
            (if l = i then b i j else 0) + (if l = k then C k i * b k j else 0) := by
          intro l
          by_cases h1 : l = k
          · subst h1
            simp [QS, hnd.1, Ne.symm hi'.1]
          · by_cases h2 : l ∈ S
            · have : l ≠ i := fun e => hi'.2 (e ▸ h2)
              simp [QS, h1, h2, this]
            · by_cases h3 : l = i
              · subst h3; simp [QS, h1, h2]
              · simp [QS, h1, h2, h3]
        rw [Finset.sum_congr rfl (fun l _ => this l), Finset.sum_add_distrib]
        simp
      · intro _ i hi j
        rw [stepB_apply, if_pos hi]
  obtain ⟨b1, h1, h2, h3⟩ := key
  rw [elimA_append]
  simp only
  rw [constrainRhs_append C d _ hk dk _ _ (elimA_len C hk A) b b1 h1]
  obtain ⟨b', h4, h5, h6⟩ := constrainRhs_dirichlet C d (hk ++ dk) dk (fun k hk => by simp [hk])
    H.drow (elimA C hk A).1 b1
  refine ⟨b', h4, ?_, ?_⟩
  · intro i hi j
    rw [h5 i hi j, h2 i hi j]
    congr 1
    apply Finset.sum_congr rfl
    intro k hkd
    rw [elimA_hanging C hk H.nd H.hrow, Matrix.add_apply, ES, diagonal_apply]
    have : i ∉ hk := by simp at hi; tauto
    by_cases hik : i = k <;> simp [this, hik]
    · subst hik; simp [this]
  · intro hne
    apply h6
    by_cases hd : dk = []
    · right
      apply h3
      intro e; simp [e, hd] at hne
    · exact Or.inl hd

theorem unit_row_mul (Q : Matrix (Fin n) (Fin n) K) (X : Matrix (Fin n) (Fin m) K) (i : Fin n)
    (h : ∀ l, Q i l = if i = l then 1 else 0) (j : Fin m) : (Q * X) i j = X i j := by
  rw [Matrix.mul_apply, Finset.sum_eq_single i]
  · rw [h i]; simp
  · intro l _ hl; rw [h l]; simp [Ne.symm hl]
  · simp

/-- `resolve` inserts the Dirichlet values and applies the hanging node interpolation. -/
theorem resolve_eq (H : CoreH C d hk dk) (u : Matrix (Fin n) (Fin m) K) :
    resolve C d u = QS C hk * Matrix.of (fun i j => if i ∈ dk then d i else u i j) := by
  ext i j
  have hcol : ∀ l, C i l * (if ∀ p, C l p = 0 then d l else u l j) =
      C i l * (if l ∈ dk then d l else u l j) ∨ (i ∉ hk ∧ i ∉ dk) ∨ i ∈ dk := by
    intro l
    by_cases hi : i ∈ hk
    · by_cases hl : l ∈ hk
      · left; simp [H.hrow i hi l hl]
      · by_cases hd : l ∈ dk
        · left; simp [hd, H.drow l hd]
        · left
          have : ¬ ∀ p, C l p = 0 := by
            intro h
            have := h l
            rw [H.irow l hl hd l] at this
            simp at this
          simp [hd, this]
    · right; tauto
  simp only [resolve, of_apply]
  by_cases hd : i ∈ dk
  · have hi : i ∉ hk := fun h => H.disj i h hd
    have h1 : ∀ X : Matrix (Fin n) (Fin m) K, (C * X) i j = 0 := by
      intro X; rw [Matrix.mul_apply]; exact Finset.sum_eq_zero (fun l _ => by rw [H.drow i hd, zero_mul])
    rw [h1, unit_row_mul _ _ i (fun l => by simp [QS, hi])]
    simp [hd]
  · rw [H.dz i hd, add_zero]
    by_cases hi : i ∈ hk
    · rw [Matrix.mul_apply, Matrix.mul_apply]
      apply Finset.sum_congr rfl
      intro l _
      have := hcol l
      simp only [QS, hi, if_true]
      tauto
    · have : ¬ ∀ p, C i p = 0 := by
        intro h
        have := h i
        rw [H.irow i hi hd i] at this
        simp at this
      rw [unit_row_mul _ _ i (H.irow i hi hd), unit_row_mul _ _ i (fun l => by simp [QS, hi])]
      simp [hd, this]

/-- Main algebraic fact: what any solution of the constrained system becomes. -/
theorem core_solve (H : CoreH C d hk dk) (A : Matrix (Fin n) (Fin n) K)
    (b b' : Matrix (Fin n) (Fin m) K)
    (hb : ∀ i ∉ hk ++ dk, ∀ j, b' i j =
        (∑ l, QS C hk l i * (if l ∈ hk.tail then 0 else b l j)) -
          ∑ k ∈ dk.toFinset, d k * MS C hk A i k)
    (w : Fin n → K) (hw : ∀ i ∉ hk ++ dk, w i = 1)
    (u : Matrix (Fin n) (Fin m) K)
    (hu : ((elimA C (hk ++ dk) A).1 * diagonal w) * u = b') :
    ∀ i ∉ hk ++ dk, ∀ j, ((QS C hk)ᵀ * (A * resolve C d u)) i j =
      ∑ l, QS C hk l i * (if l ∈ hk.tail then 0 else b l j) := by
  intro i hi j
  have hih : i ∉ hk := by simp at hi; tauto
  have hid : i ∉ dk := by simp at hi; tauto
  rw [resolve_eq H, ← Matrix.mul_assoc, ← Matrix.mul_assoc]
  rw [← MS]
  have h1 := congrFun (congrFun hu i) j
  rw [hb i hi j, Matrix.mul_apply] at h1
  rw [Matrix.mul_apply]
  have e1 : ∀ l, ((elimA C (hk ++ dk) A).1 * diagonal w) i l * u l j =
      if l ∈ dk then 0 else MS C hk A i l * u l j := by
    intro l
    rw [Matrix.mul_diagonal, elimA_all H]
    by_cases hl : l ∈ dk
    · have : i ≠ l := fun e => hid (e ▸ hl)
      simp [hl, this]
    · by_cases hl2 : l ∈ hk
      · simp [hid, hl, MS_col H A hl2, hih]
      · rw [hw l (by simp [hl, hl2])]; simp [hid, hl, hih]
  rw [Finset.sum_congr rfl (fun l _ => e1 l)] at h1
  have e2 : ∀ l, MS C hk A i l * (if l ∈ dk then d l else u l j) =
      (if l ∈ dk then 0 else MS C hk A i l * u l j) +
        (if l ∈ dk.toFinset then d l * MS C hk A i l else 0) := by
    intro l
    by_cases hl : l ∈ dk <;> simp [hl, mul_comm]
  simp only [of_apply]
  rw [Finset.sum_congr rfl (fun l _ => e2 l), Finset.sum_add_distrib, h1]
  rw [Finset.sum_ite_mem, Finset.univ_inter]
  ring

theorem core_galerkin (H : CoreH C d hk dk) (r : Fin n → K)
    (hr : ∀ i ∉ hk ++ dk, ∑ l, QS C hk l i * r l = 0) (v : Fin n → K)
    (hv : ∀ k ∈ hk, v k = ∑ l, C k l * v l) (hvd : ∀ k ∈ dk, v k = 0) :
    ∑ l, v l * r l = 0 := by
  have e : ∀ l, v l = ∑ i, QS C hk l i * v i := by
    intro l
    by_cases hl : l ∈ hk
    · simp [QS, hl]; exact hv l hl
    · simp [QS, hl]
  calc ∑ l, v l * r l = ∑ l, ∑ i, QS C hk l i * v i * r l := by
        apply Finset.sum_congr rfl
        intro l _
        conv_lhs => rw [e l, Finset.sum_mul]
    _ = ∑ i, v i * ∑ l, QS C hk l i * r l := by
        rw [Finset.sum_comm]
        apply Finset.sum_congr rfl
        intro i _
        rw [Finset.mul_sum]
        apply Finset.sum_congr rfl
        intro l _; ring
    _ = 0 := by
        apply Finset.sum_eq_zero
        intro i _
        by_cases h1 : i ∈ dk
        · rw [hvd i h1, zero_mul]
        · by_cases h2 : i ∈ hk
          · rw [Finset.sum_eq_zero (fun l _ => by rw [QS_col H h2, zero_mul]), mul_zero]
          · rw [hr i (by simp [h1, h2]), mul_zero]

end Verif.Linsys
