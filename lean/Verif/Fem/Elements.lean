import Verif.Fem.Model
import Mathlib.Tactic.Ring
import Mathlib.Tactic.FieldSimp
import Mathlib.Tactic.NormNum
import Mathlib.Tactic.LinearCombination
import Mathlib.Tactic.IntervalCases
import Mathlib.Algebra.CharZero.Defs
import Mathlib.Algebra.Polynomial.Eval.Degree
import Mathlib.Algebra.BigOperators.Group.List.Basic

/-!
# Lagrange elements: nodality, reproduction (C28, C30)
-/

namespace Verif.Fem

section
set_option linter.unusedSectionVars false
variable {K : Type} [Field K] [CharZero K]

/-- The number returned, if one is returned (`C28_defined1`, `C28_defined2`: it always is). -/
def val : Except Err K → K
  | .ok x => x
  | .error _ => 0

/-- `phi`, `dphi`, `d2phi` succeed for every basis function at every point. -/
theorem C28_defined1 (e : ET) (n : Nat) (h : n < nd1 e) (x : K) :
    (∃ y, phi1 e n x = .ok y) ∧ (∃ y, dphi1 e n x = .ok y) ∧ ∃ y, d2phi1 e n x = .ok y := by
  cases e <;> simp only [nd1, dpv, dpe1] at h <;> interval_cases n <;>
    exact ⟨⟨_, rfl⟩, ⟨_, rfl⟩, ⟨_, rfl⟩⟩

theorem C28_defined2 (e : ET) (n : Nat) (h : n < nd2 e) (x : K × K) :
    (∃ y, phi2 e n x = .ok y) ∧ (∀ v < 2, ∃ y, dphi2 e n x v = .ok y) ∧
      ∀ v < 2, ∀ w < 2, ∃ y, d2phi2 e n x v w = .ok y := by
  cases e <;> simp only [nd2, dpv, dpe2, dpc2] at h <;> interval_cases n <;>
    refine ⟨⟨_, rfl⟩, fun v hv => ?_, fun v hv w hw => ?_⟩ <;> interval_cases v <;>
    first | exact ⟨_, rfl⟩ | (interval_cases w <;> exact ⟨_, rfl⟩)

/-! ### One-dimensional tables -/

/-- The nodes belonging to the entries of `p`. -/
def xi : ET → List K
  | .DQ0 => [1 / 2]
  | .Q1 | .DQ1 => [0, 1]
  | .Q2 | .DQ2 => [0, 1, 1 / 2]
  | .Q3 | .DQ3 => [0, 1, 1 / 3, 2 / 3]

/-- Entry of a table as a function. -/
def tb (l : List (K → K)) (i : Nat) : K → K := l.getD i (fun _ => 0)

/-- Number of entries. -/
def np (e : ET) : Nat := deg e + 1

theorem look_tb (l : List (K → K)) {i : Nat} (h : i < l.length) (x : K) : look l i x = .ok (tb l i x) := by
  unfold look tb
  rw [List.getElem?_eq_getElem h]
  simp [List.getD_eq_getElem?_getD, List.getElem?_eq_getElem h]

theorem pTab_len (e : ET) : (pTab e : List (K → K)).length = np e := by cases e <;> rfl
theorem pxTab_len (e : ET) : (pxTab e : List (K → K)).length = np e := by cases e <;> rfl
theorem pxxTab_len (e : ET) : (pxxTab e : List (K → K)).length = np e := by cases e <;> rfl
theorem xi_len (e : ET) : (xi e : List K).length = np e := by cases e <;> rfl

theorem nodal_tb (e : ET) (i j : Nat) (hi : i < np e) (hj : j < np e) :
    tb (pTab e) i ((xi e).getD j 0 : K) = if j = i then 1 else 0 := by
  cases e <;> simp only [np, deg] at hi hj <;> interval_cases i <;> interval_cases j <;>
    simp [tb, pTab, xi] <;> norm_num

theorem bi2_lt (e : ET) : ∀ q ∈ bi2 e, q.1 < np e ∧ q.2 < np e := by cases e <;> decide
theorem bi2_nodup (e : ET) : (bi2 e).Nodup := by cases e <;> decide
theorem bi2_len (e : ET) : (bi2 e).length = nd2 e := by cases e <;> rfl
theorem bi1_eq (e : ET) : bi1 e = List.range (np e) := by cases e <;> rfl
theorem nd1_eq (e : ET) : nd1 e = np e := by cases e <;> rfl
theorem nd2_eq (e : ET) : nd2 e = np e * np e := by cases e <;> rfl

theorem nodes1_eq (e : ET) : (nodes1 e : List K) = xi e := by
  cases e <;> simp [nodes1, xi, intDofs, dpv, dpe1, List.range_succ] <;> norm_num

theorem sqrt4 : isqrt 4 = 2 := by decide +kernel
theorem sqrt1 : isqrt 1 = 1 := by decide +kernel

theorem nodes2_eq (e : ET) : (nodes2 e : List (K × K)) = (bi2 e).map (fun q => ((xi e).getD q.1 0, (xi e).getD q.2 0)) := by
  cases e <;>
    simp [nodes2, xi, bi2, edgeDofs, cellDofs, corners, dpv, dpe2, dpc2, sqrt4, sqrt1, List.range_succ] <;>
    norm_num

theorem phi1_tb (e : ET) (n : Nat) (h : n < nd1 e) (x : K) : phi1 e n x = .ok (tb (pTab e) n x) := by
  have h' := h
  rw [nd1_eq] at h'
  unfold phi1
  rw [if_pos h, bi1_eq, List.getElem?_range h']
  exact look_tb _ (by rw [pTab_len]; exact h') x

theorem dphi1_tb (e : ET) (n : Nat) (h : n < nd1 e) (x : K) : dphi1 e n x = .ok (tb (pxTab e) n x) := by
  have h' := h
  rw [nd1_eq] at h'
  unfold dphi1
  rw [if_pos h, bi1_eq, List.getElem?_range h']
  exact look_tb _ (by rw [pxTab_len]; exact h') x

theorem d2phi1_tb (e : ET) (n : Nat) (h : n < nd1 e) (x : K) : d2phi1 e n x = .ok (tb (pxxTab e) n x) := by
  have h' := h
  rw [nd1_eq] at h'
  unfold d2phi1
  rw [if_pos h, bi1_eq, List.getElem?_range h']
  exact look_tb _ (by rw [pxxTab_len]; exact h') x

/-- Both indices of basis function `n`. -/
def bix (e : ET) (n : Nat) : Nat × Nat := (bi2 e).getD n (0, 0)

theorem bix_lt (e : ET) (n : Nat) (h : n < nd2 e) : (bix e n).1 < np e ∧ (bix e n).2 < np e := by
  have h' : n < (bi2 e).length := by rw [bi2_len]; exact h
  unfold bix
  rw [List.getD_eq_getElem?_getD, List.getElem?_eq_getElem h']
  exact bi2_lt e _ (List.getElem_mem h')

theorem bix_some (e : ET) (n : Nat) (h : n < nd2 e) : (bi2 e)[n]? = some (bix e n) := by
  have h' : n < (bi2 e).length := by rw [bi2_len]; exact h
  unfold bix
  rw [List.getD_eq_getElem?_getD, List.getElem?_eq_getElem h']
  rfl

theorem phi2_tb (e : ET) (n : Nat) (h : n < nd2 e) (x : K × K) :
    phi2 e n x = .ok (tb (pTab e) (bix e n).1 x.1 * tb (pTab e) (bix e n).2 x.2) := by
  obtain ⟨h1, h2⟩ := bix_lt e n h
  unfold phi2
  rw [if_pos h, bix_some e n h]
  simp only
  rw [look_tb _ (by rw [pTab_len]; exact h1), look_tb _ (by rw [pTab_len]; exact h2)]
  rfl

theorem dphi2_tb0 (e : ET) (n : Nat) (h : n < nd2 e) (x : K × K) :
    dphi2 e n x 0 = .ok (tb (pxTab e) (bix e n).1 x.1 * tb (pTab e) (bix e n).2 x.2) := by
  obtain ⟨h1, h2⟩ := bix_lt e n h
  unfold dphi2
  rw [if_pos h, if_pos (by omega), bix_some e n h]
  simp only [if_true]
  rw [look_tb _ (by rw [pxTab_len]; exact h1), look_tb _ (by rw [pTab_len]; exact h2)]
  rfl

theorem dphi2_tb1 (e : ET) (n : Nat) (h : n < nd2 e) (x : K × K) :
    dphi2 e n x 1 = .ok (tb (pTab e) (bix e n).1 x.1 * tb (pxTab e) (bix e n).2 x.2) := by
  obtain ⟨h1, h2⟩ := bix_lt e n h
  unfold dphi2
  rw [if_pos h, if_pos (by omega), bix_some e n h]
  simp only [one_ne_zero, if_false]
  rw [look_tb _ (by rw [pTab_len]; exact h1), look_tb _ (by rw [pxTab_len]; exact h2)]
  rfl

/-! ### C28 -/

theorem C28_node_count (e : ET) : (nodes1 e : List K).length = nd1 e ∧ (nodes2 e : List (K × K)).length = nd2 e := by
  rw [nodes1_eq, nodes2_eq, List.length_map, bi2_len, xi_len, nd1_eq]
  exact ⟨rfl, rfl⟩

/-- Basis function `n` is 1 at node `n` and 0 at the other nodes (one dimension). -/
theorem C28_nodal1 (e : ET) (n m : Nat) (hn : n < nd1 e) (hm : m < nd1 e) (z : K)
    (hz : (nodes1 e)[m]? = some z) : phi1 e n z = .ok (if m = n then 1 else 0) := by
  rw [phi1_tb e n hn]
  rw [nd1_eq] at hn hm
  rw [nodes1_eq] at hz
  have : z = (xi e).getD m 0 := by rw [List.getD_eq_getElem?_getD, hz]; rfl
  rw [this, nodal_tb e n m hn hm]

/-- Basis function `n` is 1 at node `n` and 0 at the other nodes (two dimensions). -/
theorem C28_nodal2 (e : ET) (n m : Nat) (hn : n < nd2 e) (hm : m < nd2 e) (z : K × K)
    (hz : (nodes2 e)[m]? = some z) : phi2 e n z = .ok (if m = n then 1 else 0) := by
  rw [phi2_tb e n hn]
  rw [nodes2_eq, List.getElem?_map, bix_some e m hm] at hz
  simp only [Option.map_some, Option.some.injEq] at hz
  subst hz
  obtain ⟨h1, h2⟩ := bix_lt e n hn
  obtain ⟨h3, h4⟩ := bix_lt e m hm
  simp only
  rw [nodal_tb e _ _ h1 h3, nodal_tb e _ _ h2 h4]
  have key : bix e m = bix e n ↔ m = n := by
    constructor
    · intro h
      have hm' : m < (bi2 e).length := by rw [bi2_len]; exact hm
      have hn' : n < (bi2 e).length := by rw [bi2_len]; exact hn
      have a := bix_some e m hm
      have b := bix_some e n hn
      rw [List.getElem?_eq_getElem hm', Option.some.injEq] at a
      rw [List.getElem?_eq_getElem hn', Option.some.injEq] at b
      exact (List.Nodup.getElem_inj_iff (bi2_nodup e)).1 (by rw [a, b, h])
    · rintro rfl; rfl
  by_cases hmn : m = n
  · subst hmn; simp
  · rw [if_neg hmn]
    by_cases h5 : (bix e m).1 = (bix e n).1
    · by_cases h6 : (bix e m).2 = (bix e n).2
      · exact absurd (key.1 (Prod.ext h5 h6)) hmn
      · simp [h6]
    · simp [h5]

theorem pou_tb (e : ET) (x : K) : ((List.range (np e)).map (fun i => tb (pTab e) i x)).sum = 1 := by
  cases e <;> simp [np, deg, tb, pTab, List.range_succ] <;> ring

theorem pou_dtb (e : ET) (x : K) : ((List.range (np e)).map (fun i => tb (pxTab e) i x)).sum = 0 := by
  cases e <;> simp [np, deg, tb, pxTab, List.range_succ] <;> ring

/-- Sums over the basis of the square are double sums. -/
theorem sum_bix (e : ET) (g : Nat → Nat → K) : ((List.range (nd2 e)).map (fun n => g (bix e n).1 (bix e n).2)).sum =
    ((List.range (np e)).map (fun i => ((List.range (np e)).map (fun j => g i j)).sum)).sum := by
  cases e <;> simp [np, deg, nd2, dpv, dpe2, dpc2, bix, bi2, List.range_succ] <;> ring

theorem sum_map_mul (l : List Nat) (c : K) (f : Nat → K) : (l.map (fun i => c * f i)).sum = c * (l.map f).sum := by
  induction l with
  | nil => simp
  | cons a l ih => simp [ih, mul_add]

theorem sum_map_mul' (l : List Nat) (c : K) (f : Nat → K) : (l.map (fun i => f i * c)).sum = (l.map f).sum * c := by
  induction l with
  | nil => simp
  | cons a l ih => simp [ih, add_mul]

theorem sum_congr_range {n : Nat} {f g : Nat → K} (h : ∀ i < n, f i = g i) :
    ((List.range n).map f).sum = ((List.range n).map g).sum := by
  congr 1
  exact List.map_congr_left (fun i hi => h i (List.mem_range.1 hi))

theorem prod_sum (e : ET) (f g : Nat → K) : ((List.range (nd2 e)).map (fun n => f (bix e n).1 * g (bix e n).2)).sum =
    ((List.range (np e)).map f).sum * ((List.range (np e)).map g).sum := by
  rw [sum_bix e (fun i j => f i * g j)]
  simp only [sum_map_mul]
  rw [sum_map_mul' _ _ f]

/-- The basis functions sum to 1 at every point (not only in the reference cell), their first
derivatives to 0. -/
theorem C28_partition_of_unity1 (e : ET) (x : K) :
    ((List.range (nd1 e)).map (fun n => val (phi1 e n x))).sum = 1 ∧
    ((List.range (nd1 e)).map (fun n => val (dphi1 e n x))).sum = 0 := by
  constructor
  · rw [sum_congr_range (fun i hi => by rw [phi1_tb e i hi]), nd1_eq]
    exact pou_tb e x
  · rw [sum_congr_range (fun i hi => by rw [dphi1_tb e i hi]), nd1_eq]
    exact pou_dtb e x

theorem C28_partition_of_unity2 (e : ET) (x : K × K) :
    ((List.range (nd2 e)).map (fun n => val (phi2 e n x))).sum = 1 ∧
    ∀ v < 2, ((List.range (nd2 e)).map (fun n => val (dphi2 e n x v))).sum = 0 := by
  constructor
  · rw [sum_congr_range (fun i hi => by rw [phi2_tb e i hi]),
      show (fun n => val (Except.ok (tb (pTab e) (bix e n).1 x.1 * tb (pTab e) (bix e n).2 x.2))) =
        fun n => tb (pTab e) (bix e n).1 x.1 * tb (pTab e) (bix e n).2 x.2 from rfl,
      prod_sum e (fun i => tb (pTab e) i x.1) (fun j => tb (pTab e) j x.2), pou_tb, pou_tb, mul_one]
  · intro v hv
    interval_cases v
    · rw [sum_congr_range (fun i hi => by rw [dphi2_tb0 e i hi]),
        show (fun n => val (Except.ok (tb (pxTab e) (bix e n).1 x.1 * tb (pTab e) (bix e n).2 x.2))) =
          fun n => tb (pxTab e) (bix e n).1 x.1 * tb (pTab e) (bix e n).2 x.2 from rfl,
        prod_sum e (fun i => tb (pxTab e) i x.1) (fun j => tb (pTab e) j x.2), pou_dtb, zero_mul]
    · rw [sum_congr_range (fun i hi => by rw [dphi2_tb1 e i hi]),
        show (fun n => val (Except.ok (tb (pTab e) (bix e n).1 x.1 * tb (pxTab e) (bix e n).2 x.2))) =
          fun n => tb (pTab e) (bix e n).1 x.1 * tb (pxTab e) (bix e n).2 x.2 from rfl,
        prod_sum e (fun i => tb (pTab e) i x.1) (fun j => tb (pxTab e) j x.2), pou_dtb, mul_zero]

/-! ### C30 -/

/-- `u` is the interpolant with the given nodal values: `sum_n u_n phi_n(x)`. -/
def interp1 (e : ET) (u : Nat → K) (x : K) : K := ((List.range (nd1 e)).map (fun n => u n * val (phi1 e n x))).sum

def interp2 (e : ET) (u : Nat → K) (x : K × K) : K :=
  ((List.range (nd2 e)).map (fun n => u n * val (phi2 e n x))).sum

theorem mono_tb (e : ET) (a : Nat) (ha : a ≤ deg e) (x : K) :
    ((List.range (np e)).map (fun i => (xi e).getD i 0 ^ a * tb (pTab e) i x)).sum = x ^ a := by
  cases e <;> simp only [deg] at ha <;> interval_cases a <;>
    simp [np, deg, tb, pTab, xi, List.range_succ] <;> ring

theorem sum_add' (l : List Nat) (f g : Nat → K) : (l.map (fun i => f i + g i)).sum = (l.map f).sum + (l.map g).sum := by
  induction l with
  | nil => simp
  | cons a l ih => simp [ih]; ring

theorem sum_swap (l m : List Nat) (f : Nat → Nat → K) :
    (l.map (fun i => (m.map (fun j => f i j)).sum)).sum = (m.map (fun j => (l.map (fun i => f i j)).sum)).sum := by
  induction l with
  | nil => simp
  | cons a l ih =>
    simp only [List.map_cons, List.sum_cons]
    rw [sum_add', ih]

theorem nodes1_get (e : ET) (n : Nat) : (nodes1 e : List K).getD n 0 = (xi e).getD n 0 := by rw [nodes1_eq]

theorem nodes2_get (e : ET) (n : Nat) (h : n < nd2 e) :
    (nodes2 e : List (K × K)).getD n (0, 0) = ((xi e).getD (bix e n).1 0, (xi e).getD (bix e n).2 0) := by
  rw [nodes2_eq, List.getD_eq_getElem?_getD, List.getElem?_map, bix_some e n h]
  rfl

/-- A sum of monomials up to degree `k`. -/
def poly1 (k : Nat) (c : Nat → K) (x : K) : K := ((List.range (k + 1)).map (fun a => c a * x ^ a)).sum

/-- A sum of monomials up to degree `k` in each variable. -/
def poly2 (k : Nat) (c : Nat → Nat → K) (x : K × K) : K :=
  ((List.range (k + 1)).map (fun a => ((List.range (k + 1)).map (fun b => c a b * x.1 ^ a * x.2 ^ b)).sum)).sum

/-- Interpolation with the element reproduces polynomials of its degree, everywhere. -/
theorem C30_reproduces1 (e : ET) (c : Nat → K) (x : K) :
    interp1 e (fun n => poly1 (deg e) c ((nodes1 e).getD n 0)) x = poly1 (deg e) c x := by
  unfold interp1 poly1
  rw [sum_congr_range (g := fun n => ((List.range (deg e + 1)).map (fun a => c a * ((xi e).getD n 0 ^ a * tb (pTab e) n x))).sum),
    nd1_eq, sum_swap]
  · refine sum_congr_range (fun a ha => ?_)
    rw [sum_map_mul, mono_tb e a (by omega)]
  · intro n hn
    simp only [phi1_tb e n hn, val, nodes1_get]
    rw [← sum_map_mul']
    refine sum_congr_range (fun a _ => ?_)
    ring

theorem C30_reproduces2 (e : ET) (c : Nat → Nat → K) (x : K × K) :
    interp2 e (fun n => poly2 (deg e) c ((nodes2 e).getD n (0, 0))) x = poly2 (deg e) c x := by
  unfold interp2 poly2
  rw [sum_congr_range (g := fun n => ((List.range (deg e + 1)).map (fun a => ((List.range (deg e + 1)).map
    (fun b => c a b * (((xi e).getD (bix e n).1 0 ^ a * tb (pTab e) (bix e n).1 x.1) *
      ((xi e).getD (bix e n).2 0 ^ b * tb (pTab e) (bix e n).2 x.2)))).sum)).sum), sum_swap]
  · refine sum_congr_range (fun a ha => ?_)
    rw [sum_swap]
    refine sum_congr_range (fun b hb => ?_)
    rw [sum_map_mul, prod_sum e (fun i => (xi e).getD i 0 ^ a * tb (pTab e) i x.1)
      (fun j => (xi e).getD j 0 ^ b * tb (pTab e) j x.2), mono_tb e a (by omega), mono_tb e b (by omega)]
    ring
  · intro n hn
    simp only [phi2_tb e n hn, val, nodes2_get e n hn]
    rw [← sum_map_mul']
    refine sum_congr_range (fun a _ => ?_)
    rw [← sum_map_mul']
    refine sum_congr_range (fun b _ => ?_)
    ring

/-- The same for `Polynomial`s. -/
theorem C30_polynomial (e : ET) (P : Polynomial K) (hP : P.natDegree ≤ deg e) (x : K) :
    interp1 e (fun n => P.eval ((nodes1 e).getD n 0)) x = P.eval x := by
  have h : ∀ y, P.eval y = poly1 (deg e) P.coeff y := by
    intro y
    rw [Polynomial.eval_eq_sum_range' (n := deg e + 1) (by omega)]
    unfold poly1
    rw [Finset.sum, Finset.range_val, ← Multiset.coe_range, Multiset.map_coe, Multiset.sum_coe]
  rw [h x, ← C30_reproduces1 e P.coeff x]
  simp only [h]

/-- Unisolvence: nodal values determine the interpolant and conversely. -/
theorem C30_unisolvent (e : ET) (u : Nat → K) (m : Nat) (hm : m < nd2 e) :
    interp2 e u ((nodes2 e).getD m (0, 0)) = u m := by
  have hz : (nodes2 e)[m]? = some ((nodes2 e : List (K × K)).getD m (0, 0)) := by
    have hl : m < (nodes2 e : List (K × K)).length := by rw [(C28_node_count e).2]; exact hm
    rw [List.getD_eq_getElem?_getD, List.getElem?_eq_getElem hl]
    rfl
  unfold interp2
  rw [sum_congr_range (g := fun n => u n * if m = n then 1 else 0)]
  · have : ∀ N, m < N → ((List.range N).map (fun n => u n * if m = n then (1 : K) else 0)).sum = u m := by
      intro N
      induction N with
      | zero => intro h; omega
      | succ N ih =>
        intro h
        rw [List.range_succ, List.map_append, List.sum_append]
        rcases Nat.lt_or_ge m N with h1 | h1
        · rw [ih h1]; simp; intro h2; omega
        · have : m = N := by omega
          subst this
          have h0 : ((List.range m).map (fun n => u n * if m = n then (1 : K) else 0)).sum = 0 := by
            rw [sum_congr_range (g := fun _ => 0)]
            · simp
            · intro i hi; rw [if_neg (by omega), mul_zero]
          rw [h0]; simp
    exact this _ hm
  · intro n hn
    rw [C28_nodal2 e n m hn hm _ hz]
    rfl

end

/-- Non-vacuity: the 16 nodes and functions of Q3; function 7 and the nodes 7 and 5. -/
example : nd2 .Q3 = 16 ∧ (nodes2 .Q3 : List (ℚ × ℚ)).getD 7 (0, 0) = (1, 2 / 3) ∧
    phi2 .Q3 7 ((1 : ℚ), 2 / 3) = .ok 1 ∧ phi2 .Q3 7 ((2 / 3 : ℚ), 0) = .ok 0 := by
  refine ⟨rfl, ?_, ?_, ?_⟩
  · rw [nodes2_get .Q3 7 (by decide)]; rfl
  · rw [phi2_tb .Q3 7 (by decide)]
    simp [tb, pTab, bix, bi2]; norm_num
  · rw [phi2_tb .Q3 7 (by decide)]
    simp [tb, pTab, bix, bi2]

end Verif.Fem
