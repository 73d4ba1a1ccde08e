import Verif.PySet.Model
import Mathlib.RingTheory.ZMod.UnitsCyclic
import Mathlib.Data.Fintype.Card
import Mathlib.Tactic.Ring
import Mathlib.Tactic.Linarith
import Mathlib.Tactic.IntervalCases

/-!
# The probe sequence reaches every entry
-/

namespace Verif.PySet

/-- The index sequence once `perturb` is used up. -/
def lcg (N i : ℕ) : ℕ → ℕ
  | 0 => i
  | n + 1 => (lcg N i n * 5 + 1) % N

theorem lcg_lt {N i : ℕ} (h0 : 0 < N) (hi : i < N) : ∀ n, lcg N i n < N
  | 0 => hi
  | _ + 1 => Nat.mod_lt _ h0

theorem lcg_zmod (k i : ℕ) (n : ℕ) : (4 * (lcg (2 ^ k) i n : ZMod (2 ^ (k + 2))) + 1) = 5 ^ n * (4 * i + 1) := by
  induction n with
  | zero => simp [lcg]
  | succ n ih =>
    have h : (4 * ((lcg (2 ^ k) i n * 5 + 1) % 2 ^ k : ℕ) : ZMod (2 ^ (k + 2))) = 4 * ((lcg (2 ^ k) i n * 5 + 1 : ℕ) : ZMod (2 ^ (k + 2))) := by
      have h1 := Nat.mod_add_div (lcg (2 ^ k) i n * 5 + 1) (2 ^ k)
      have h2 : (4 * (((2 ^ k * ((lcg (2 ^ k) i n * 5 + 1) / 2 ^ k) : ℕ)) : ZMod (2 ^ (k + 2)))) = 0 := by
        have : ((2 ^ (k + 2) : ℕ) : ZMod (2 ^ (k + 2))) = 0 := ZMod.natCast_self _
        have h4 : ((4 * (2 ^ k * ((lcg (2 ^ k) i n * 5 + 1) / 2 ^ k)) : ℕ) : ZMod (2 ^ (k + 2))) = 0 := by
          rw [show 4 * (2 ^ k * ((lcg (2 ^ k) i n * 5 + 1) / 2 ^ k)) = 2 ^ (k + 2) * ((lcg (2 ^ k) i n * 5 + 1) / 2 ^ k) by ring, Nat.cast_mul, this, zero_mul]
        rw [Nat.cast_mul] at h4
        exact_mod_cast h4
      conv_rhs => rw [← h1]
      rw [Nat.cast_add, mul_add, h2, add_zero]
    show 4 * ((((lcg (2 ^ k) i n * 5 + 1) % 2 ^ k : ℕ)) : ZMod (2 ^ (k + 2))) + 1 = _
    rw [h, pow_succ (5 : ZMod (2 ^ (k + 2))) n, mul_comm ((5 : ZMod (2 ^ (k + 2))) ^ n) 5, mul_assoc, ← ih]
    push_cast
    ring

theorem lcg_inj (k i : ℕ) {a b : ℕ} (hab : a < b) (hb : b < 2 ^ k) : lcg (2 ^ k) i a ≠ lcg (2 ^ k) i b := by
  intro h
  have h1 := lcg_zmod k i a
  have h2 := lcg_zmod k i b
  rw [h] at h1
  have h3 := h1.symm.trans h2
  have hu : IsUnit (4 * (i : ZMod (2 ^ (k + 2))) + 1) := by
    have : ((4 * i + 1 : ℕ) : ZMod (2 ^ (k + 2))) = 4 * (i : ZMod (2 ^ (k + 2))) + 1 := by push_cast; rfl
    rw [← this, ZMod.isUnit_iff_coprime]
    refine Nat.Coprime.pow_right _ ?_
    exact Nat.coprime_two_right.2 ⟨2 * i, by ring⟩
  have h5 : IsUnit (5 : ZMod (2 ^ (k + 2))) := by
    have : ((5 : ℕ) : ZMod (2 ^ (k + 2))) = 5 := by norm_num
    rw [← this, ZMod.isUnit_iff_coprime]
    exact Nat.Coprime.pow_right _ (by norm_num)
  have h6 : (5 : ZMod (2 ^ (k + 2))) ^ a = 5 ^ b := hu.mul_right_cancel h3
  obtain ⟨d, rfl⟩ := Nat.exists_eq_add_of_lt hab
  have h7 : (5 : ZMod (2 ^ (k + 2))) ^ (d + 1) = 1 := by
    apply (h5.pow a).mul_left_cancel
    rw [mul_one, ← pow_add, h6]
    rfl
  have h8 := orderOf_dvd_of_pow_eq_one h7
  rw [ZMod.orderOf_five] at h8
  have := Nat.le_of_dvd (by omega) h8
  omega

/-- The sequence visits every entry. -/
theorem lcg_surj (k : ℕ) {i j : ℕ} (hi : i < 2 ^ k) (hj : j < 2 ^ k) : ∃ n < 2 ^ k, lcg (2 ^ k) i n = j := by
  have h0 : 0 < 2 ^ k := by positivity
  let f : Fin (2 ^ k) → Fin (2 ^ k) := fun n => ⟨lcg (2 ^ k) i n, lcg_lt h0 hi _⟩
  have hf : Function.Injective f := by
    intro a b h
    have h : lcg (2 ^ k) i a = lcg (2 ^ k) i b := congrArg Fin.val h
    rcases lt_trichotomy a.1 b.1 with g | g | g
    · exact absurd h (lcg_inj k i g b.2)
    · exact Fin.ext g
    · exact absurd h.symm (lcg_inj k i g a.2)
  obtain ⟨n, hn⟩ := (Finite.injective_iff_surjective.1 hf) ⟨j, hj⟩
  exact ⟨n, n.2, congrArg Fin.val hn⟩

/-- The outer loop after `m` rounds. -/
def rounds (L : ℕ) (s : ℕ × ℕ) : ℕ → ℕ × ℕ
  | 0 => s
  | m + 1 => rounds L ((s.1 * 5 + 1 + s.2 / 32) % L, s.2 / 32) m

theorem rounds_add (L : ℕ) : ∀ (a b : ℕ) (s : ℕ × ℕ), rounds L s (a + b) = rounds L (rounds L s a) b
  | 0, b, s => by rw [Nat.zero_add]; rfl
  | a + 1, b, s => by
    rw [show a + 1 + b = (a + b) + 1 by omega]
    exact rounds_add L a b _

theorem rounds_snd (L : ℕ) : ∀ (m : ℕ) (s : ℕ × ℕ), s.2 ≤ m → (rounds L s m).2 = 0
  | 0, s, h => by show s.2 = 0; omega
  | m + 1, s, h => rounds_snd L m _ (by show s.2 / 32 ≤ m; omega)

theorem rounds_lt {L : ℕ} (h0 : 0 < L) : ∀ (m : ℕ) (s : ℕ × ℕ), s.1 < L → (rounds L s m).1 < L
  | 0, _, h => h
  | m + 1, _, _ => rounds_lt h0 m _ (Nat.mod_lt _ h0)

theorem lcg_shift (L : ℕ) : ∀ (m i : ℕ), lcg L i (m + 1) = lcg L ((i * 5 + 1) % L) m
  | 0, _ => rfl
  | m + 1, i => by
    show (lcg L i (m + 1) * 5 + 1) % L = _
    rw [lcg_shift L m i]
    rfl

theorem rounds_lcg (L : ℕ) : ∀ (m i : ℕ), (rounds L (i, 0) m).1 = lcg L i m
  | 0, _ => rfl
  | m + 1, i => by
    rw [lcg_shift]
    have h := rounds_lcg L m ((i * 5 + 1) % L)
    simpa [rounds] using h

theorem scan_fits {t : Table} {x i : ℕ} (h : fits t x i = true) (n : ℕ) : scan t x n i = some i := by
  cases n <;> simp [scan, h]

theorem find_of_fits {t : Table} {x : ℕ} : ∀ (f i p m : ℕ), m < f → fits t x (rounds t.length (i, p) m).1 = true → ∃ j, find t x f i p = some j
  | 0, _, _, _, h, _ => absurd h (Nat.not_lt_zero _)
  | f + 1, i, p, m, h, hf => by
    unfold find
    cases hs : scan t x (probes t i) i with
    | some j => exact ⟨j, rfl⟩
    | none =>
      cases m with
      | zero =>
        have : fits t x i = true := hf
        rw [scan_fits this] at hs
        cases hs
      | succ m => exact find_of_fits f _ _ m (by omega) hf

/-- If there is an unused entry, the loop ends. -/
theorem slot_some {t : Table} {k : ℕ} (hk : t.length = 2 ^ k) {j : ℕ} (hj : j < t.length) (h : t.getD j none = none) (x : ℕ) :
    ∃ j, slot t x = some j := by
  have h0 : 0 < t.length := by omega
  obtain ⟨n, hn, he⟩ := lcg_surj k (i := (rounds t.length (x % t.length, x) x).1) (j := j)
    (by rw [← hk]; exact rounds_lt h0 _ _ (Nat.mod_lt _ h0)) (by rw [← hk]; exact hj)
  refine find_of_fits _ _ _ (x + n) (by rw [hk]; omega) ?_
  have h2 : (rounds t.length (x % t.length, x) x) = ((rounds t.length (x % t.length, x) x).1, 0) :=
    Prod.ext rfl (rounds_snd _ _ _ le_rfl)
  rw [rounds_add, h2, rounds_lcg, hk]
  rw [hk] at he
  rw [he]
  unfold fits
  rw [h]
  rfl

theorem scan_ok {t : Table} {x j : ℕ} : ∀ (n i : ℕ), scan t x n i = some j → i ≤ j ∧ j ≤ i + n ∧ fits t x j = true
  | 0, i, h => by
    simp only [scan] at h
    split_ifs at h with hf
    cases h
    exact ⟨le_rfl, le_rfl, hf⟩
  | n + 1, i, h => by
    simp only [scan] at h
    split_ifs at h with hf
    · cases h
      exact ⟨le_rfl, by omega, hf⟩
    · have := scan_ok n (i + 1) h
      exact ⟨by omega, by omega, this.2.2⟩

theorem find_ok {t : Table} {x j : ℕ} (h0 : 0 < t.length) : ∀ (f i p : ℕ), i < t.length → find t x f i p = some j → j < t.length ∧ fits t x j = true
  | 0, _, _, _, h => by cases h
  | f + 1, i, p, hi, h => by
    unfold find at h
    cases hs : scan t x (probes t i) i with
    | some j' =>
      rw [hs] at h
      cases h
      obtain ⟨h1, h2, h3⟩ := scan_ok _ _ hs
      refine ⟨?_, h3⟩
      unfold probes at h2
      split_ifs at h2 <;> omega
    | none =>
      rw [hs] at h
      exact find_ok h0 f _ _ (Nat.mod_lt _ h0) h

theorem slot_ok {t : Table} {x j : ℕ} (h0 : 0 < t.length) (h : slot t x = some j) : j < t.length ∧ (t.getD j none = none ∨ t.getD j none = some x) := by
  have := find_ok h0 _ _ _ (Nat.mod_lt _ h0) h
  simpa [fits] using this

theorem fits_set {t : Table} {x y j i : ℕ} (h : i ≠ j) : fits (t.set j (some x)) y i = fits t y i := by
  have : (t.set j (some x)).getD i none = t.getD i none := by
    simp only [List.getD_eq_getElem?_getD]
    rw [List.getElem?_set_ne (Ne.symm h)]
  unfold fits
  rw [this]

/-- Filling an unused entry that the search does not end at changes nothing; if the search for `x` ends there, it still does. -/
theorem scan_set {t : Table} {x y j : ℕ} (hj : t.getD j none = none) : ∀ (n i : ℕ), (scan t y n i ≠ some j ∨ y = x ∧ j < t.length) →
    scan (t.set j (some x)) y n i = scan t y n i := by
  have key : ∀ i, fits t y i = true → (i ≠ j ∨ y = x ∧ j < t.length) → fits (t.set j (some x)) y i = true := by
    intro i hf h
    by_cases hij : i = j
    · rcases h with h | ⟨rfl, h⟩
      · exact absurd hij h
      · subst hij
        simp [fits, h]
    · rw [fits_set hij]; exact hf
  have neg : ∀ i, ¬ fits t y i = true → ¬ fits (t.set j (some x)) y i = true := by
    intro i hf
    have : i ≠ j := by
      rintro rfl
      exact hf (by unfold fits; rw [hj]; rfl)
    rwa [fits_set this]
  intro n
  induction n with
  | zero =>
    intro i h
    simp only [scan] at h ⊢
    by_cases hf : fits t y i = true
    · rw [if_pos hf] at h ⊢
      rw [if_pos (key i hf (h.imp (fun h e => h (by rw [e])) id))]
    · rw [if_neg hf, if_neg (neg i hf)]
  | succ n ih =>
    intro i h
    simp only [scan] at h ⊢
    by_cases hf : fits t y i = true
    · rw [if_pos hf] at h ⊢
      rw [if_pos (key i hf (h.imp (fun h e => h (by rw [e])) id))]
    · rw [if_neg hf] at h ⊢
      rw [if_neg (neg i hf)]
      exact ih _ h

theorem find_set {t : Table} {x y j : ℕ} (hj : t.getD j none = none) : ∀ (f i p : ℕ), (find t y f i p ≠ some j ∨ y = x ∧ j < t.length) →
    find (t.set j (some x)) y f i p = find t y f i p
  | 0, _, _, _ => rfl
  | f + 1, i, p, h => by
    have hp : probes (t.set j (some x)) i = probes t i := by simp [probes]
    unfold find at h ⊢
    rw [hp, List.length_set]
    have h1 : scan t y (probes t i) i ≠ some j ∨ y = x ∧ j < t.length := by
      rcases h with h | h
      · left
        intro hs
        rw [hs] at h
        exact h rfl
      · exact .inr h
    rw [scan_set hj _ _ h1]
    cases hs : scan t y (probes t i) i with
    | some j' => rfl
    | none =>
      rw [hs] at h
      exact find_set hj f _ _ h

theorem slot_set {t : Table} {x y j : ℕ} (hj : t.getD j none = none) (h : slot t y ≠ some j ∨ y = x ∧ j < t.length) :
    slot (t.set j (some x)) y = slot t y := by
  unfold slot at h ⊢
  rw [List.length_set]
  exact find_set hj _ _ _ h

end Verif.PySet
