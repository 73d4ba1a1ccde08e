import Verif.Tri.Model
import Mathlib.Analysis.Calculus.Deriv.Add
import Mathlib.Analysis.Calculus.Deriv.Mul
import Mathlib.Analysis.Calculus.Deriv.Pow
import Mathlib.Tactic.NormNum
import Mathlib.Tactic.Ring
import Mathlib.Tactic.IntervalCases
import Mathlib.Tactic.FinCases
import Mathlib.Algebra.BigOperators.Group.List.Basic

/-! # C85: triangular elements -/

namespace Verif.Tri

/-! ### Specification -/

/-- The reference nodes: vertices of the interval or triangle, then inner points of the edges, then
the barycentre of the bubble element. -/
noncomputable def nodes : Nat → Ty → List (ℝ × ℝ)
  | 1, .P1 => [(0, 0), (1, 0)]
  | 1, .P2 => [(0, 0), (1, 0), (1 / 2, 0)]
  | 1, .P3 => [(0, 0), (1, 0), (1 / 3, 0), (2 / 3, 0)]
  | 2, .P1 => [(0, 0), (1, 0), (0, 1)]
  | 2, .P2 => [(0, 0), (1, 0), (0, 1), (1 / 2, 0), (1 / 2, 1 / 2), (0, 1 / 2)]
  | 2, .P3 => [(0, 0), (1, 0), (0, 1), (1 / 3, 0), (2 / 3, 0), (2 / 3, 1 / 3), (1 / 3, 2 / 3),
      (0, 2 / 3), (0, 1 / 3), (1 / 3, 1 / 3)]
  | 2, .Bubble => [(0, 0), (1, 0), (0, 1), (1 / 2, 0), (1 / 2, 1 / 2), (0, 1 / 2), (1 / 3, 1 / 3)]
  | _, _ => []

/-- The degree up to which polynomials belong to the element. -/
def degree : Ty → Nat
  | .P1 => 1 | .P2 => 2 | .P3 => 3 | .Bubble => 2 | .other => 0

/-- The documented elements (fem.py 727-730). -/
def Documented (dim : Nat) (ty : Ty) : Prop :=
  (dim = 1 ∧ (ty = .P1 ∨ ty = .P2 ∨ ty = .P3)) ∨
    (dim = 2 ∧ (ty = .P1 ∨ ty = .P2 ∨ ty = .P3 ∨ ty = .Bubble))

/-- Polynomials of total degree at most `d` in the first `dim` variables. -/
def IsPoly (dim d : Nat) (p : ℝ → ℝ → ℝ) : Prop :=
  ∃ c : Nat → Nat → ℝ, (dim = 1 → ∀ i j, j ≠ 0 → c i j = 0) ∧ (∀ i j, d < i + j → c i j = 0) ∧
    ∀ x y, p x y =
      ((List.range (d + 1)).map fun i => ((List.range (d + 1)).map fun j => c i j * x ^ i * y ^ j).sum).sum

/-- What a user expects of an element given by its values `f n x y` and derivatives `df n x y var`:
one basis function for each node, equal to one there and to zero at the other nodes, polynomials are
determined by their values at the nodes, and `df` is the derivative. -/
structure Lagrange (dim : Nat) (ty : Ty) (f : Nat → ℝ → ℝ → Except Err ℝ)
    (df : Nat → ℝ → ℝ → Nat → Except Err ℝ) : Prop where
  /-- basis functions exist for the nodes, and for them only -/
  total : ∀ n x y, (∃ v, f n x y = .ok v) ↔ n < (nodes dim ty).length
  nodal : ∀ n, n < (nodes dim ty).length → ∀ m, (h : m < (nodes dim ty).length) →
    f n ((nodes dim ty)[m].1) ((nodes dim ty)[m].2) = .ok (if n = m then 1 else 0)
  repro : ∀ p, IsPoly dim (degree ty) p → ∀ v : Nat → ℝ, ∀ x y,
    (∀ n, n < (nodes dim ty).length → f n x y = .ok (v n)) →
    ((List.range (nodes dim ty).length).map fun n =>
      p ((nodes dim ty).getD n 0).1 ((nodes dim ty).getD n 0).2 * v n).sum = p x y
  derx : ∀ n, n < (nodes dim ty).length → ∀ x y, ∃ g : ℝ → ℝ, ∃ d, (∀ s, f n s y = .ok (g s)) ∧
    df n x y 0 = .ok d ∧ HasDerivAt g d x
  dery : dim = 2 → ∀ n, n < (nodes dim ty).length → ∀ x y, ∃ g : ℝ → ℝ, ∃ d,
    (∀ s, f n x s = .ok (g s)) ∧ df n x y 1 = .ok d ∧ HasDerivAt g d y

/-! ### Theorems -/

/-- **C85, violated**: no element can be constructed, whatever the arguments: the parent's
constructor is called with an argument missing. -/
theorem C85_violated : ¬ ∀ dim ty, Documented dim ty → ∃ E, triFE dim ty = .ok E := by
  intro h
  obtain ⟨E, h⟩ := h 1 .P1 (.inl ⟨rfl, .inl rfl⟩)
  simp [triFE, elementInit] at h

theorem C85_never (dim : Nat) (ty : Ty) : triFE dim ty = .error .typeError := by
  simp [triFE, elementInit]

/-- Even with an element at hand no basis function could be evaluated: there is no `n_dofs`. -/
theorem C85_phi_violated (E : El) (n : Nat) (x y : ℝ) : phi E n x y = .error .attribute := rfl

/-- The cubic element on triangles is documented, but there are no basis functions for it. -/
theorem C85_cubic_violated : Documented 2 .P3 ∧ tables 2 .P3 = .error .unbound :=
  ⟨.inr ⟨rfl, .inr (.inr (.inl rfl))⟩, by simp [tables, tab2]⟩

theorem isPoly1 {d : Nat} {p} (h : IsPoly 1 d p) : ∃ c : Nat → ℝ, ∀ x y, p x y =
    ((List.range (d + 1)).map fun i => c i * x ^ i).sum := by
  obtain ⟨c, h1, -, h3⟩ := h
  refine ⟨fun i => c i 0, fun x y => ?_⟩
  rw [h3]
  congr 1
  apply List.map_congr_left
  intro i _
  rw [List.range_succ_eq_map]
  simp only [List.map_cons, List.map_map, List.sum_cons, pow_zero, mul_one]
  rw [List.sum_eq_zero, add_zero]
  intro z hz
  simp only [List.mem_map, Function.comp] at hz
  obtain ⟨j, -, rfl⟩ := hz
  rw [h1 rfl i (j + 1) (by omega)]
  ring

theorem call_ok (l : List (ℝ → ℝ → ℝ)) (n : Nat) (x y : ℝ) :
    (∃ v, call l n x y = .ok v) ↔ n < l.length := by
  unfold call
  constructor
  · rintro ⟨v, h⟩
    split at h
    · next f hf => exact (List.getElem?_eq_some_iff.mp hf).1
    · cases h
  · intro h
    rw [List.getElem?_eq_getElem h]
    exact ⟨_, rfl⟩

theorem call_val {l : List (ℝ → ℝ → ℝ)} {n : Nat} {x y v : ℝ} (h : call l n x y = .ok v) :
    v = (l.getD n fun _ _ => 0) x y := by
  unfold call at h
  split at h
  · next f hf =>
    injection h with h
    rw [List.getD_eq_getElem?_getD, hf, ← h]
    rfl
  · cases h

theorem isPoly1_elim {d : Nat} {p : ℝ → ℝ → ℝ} {Q : Prop} (hp : IsPoly 1 d p)
    (h : ∀ c : Nat → ℝ, (∀ x y, p x y = ((List.range (d + 1)).map fun i => c i * x ^ i).sum) → Q) :
    Q :=
  (isPoly1 hp).elim h

/-- A cubic function, given by its values at -1, 0, 1 and 2, and its derivative. -/
theorem der_cubic {g : ℝ → ℝ} {d x : ℝ} (b c e : ℝ) (_he : e = (g 2 - 3 * g 1 + 3 * g 0 - g (-1)) / 6)
    (_hc : c = (g 1 + g (-1)) / 2 - g 0) (_hb : b = g 1 - g 0 - c - e)
    (hg : ∀ s, g s = g 0 + b * s + c * s ^ 2 + e * s ^ 3)
    (hd : d = b + c * (2 * x) + e * (3 * x ^ 2)) : HasDerivAt g d x := by
  have h1 : HasDerivAt (fun s : ℝ => s ^ 2) (2 * x) x := by simpa using hasDerivAt_pow 2 x
  have h2 : HasDerivAt (fun s : ℝ => s ^ 3) (3 * x ^ 2) x := by simpa using hasDerivAt_pow 3 x
  have h := (((hasDerivAt_id x).const_mul b).const_add (g 0)).add
    ((h1.const_mul c).add (h2.const_mul e))
  rw [mul_one, show b + (c * (2 * x) + e * (3 * x ^ 2)) = d by rw [hd]; ring] at h
  refine h.congr_of_eventuallyEq (Filter.Eventually.of_forall fun s => ?_)
  rw [hg s]
  simp only [Pi.add_apply, id]
  ring

/-- **C85** (part): the lists of basis functions that the constructor would store are those of the
documented elements, the cubic element on triangles excepted.  Missing: the constructor itself and
the evaluation, see `C85_violated`, `C85_phi_violated` and `C85_cubic_violated`. -/
theorem C85_partial (dim : Nat) (ty : Ty) (h : Documented dim ty) (hc : ¬ (dim = 2 ∧ ty = .P3)) :
    ∃ E, tables dim ty = .ok E ∧ E.nDof = (nodes dim ty).length ∧
      Lagrange dim ty (call E.phi) (dcall E) := by
  obtain ⟨rfl, rfl | rfl | rfl⟩ | ⟨rfl, rfl | rfl | rfl | rfl⟩ := h
  case inr.inr.inr.inl => exact absurd ⟨rfl, rfl⟩ hc
  all_goals
    refine ⟨_, rfl, rfl, ⟨?_, ?_, ?_, ?_, ?_⟩⟩
    · intro n x y
      rw [call_ok]
      rfl
    · intro n hn m hm
      change n < _ at hn
      simp only [nodes, List.length_cons, List.length_nil] at hn hm
      interval_cases n <;> interval_cases m <;> simp [call, nodes] <;> norm_num
    · intro p hp v x y hv
      rw [List.map_congr_left (fun n hn => by
        rw [call_val (hv n (List.mem_range.mp hn))])]
      first
        | (refine isPoly1_elim hp fun c hp => ?_
           simp [nodes, List.range_succ, degree, hp]
           ring)
        | (obtain ⟨c, -, hz, hp⟩ := hp
           have z1 := hz 1 1
           have z2 := hz 1 2
           have z3 := hz 2 1
           have z4 := hz 2 2
           simp [degree] at z1 z2 z3 z4
           simp [nodes, List.range_succ, degree, hp, z1, z2, z3, z4]
           ring)
    · intro n hn x y
      simp only [nodes, List.length_cons, List.length_nil] at hn
      interval_cases n <;>
        exact ⟨_, _, fun _ => rfl, rfl, der_cubic _ _ _ rfl rfl rfl (fun s => by ring) (by ring)⟩
    · intro hd n hn x y
      first
        | (exfalso; omega)
        | (simp only [nodes, List.length_cons, List.length_nil] at hn
           interval_cases n <;>
             exact ⟨_, _, fun _ => rfl, rfl, der_cubic _ _ _ rfl rfl rfl (fun s => by ring) (by ring)⟩)

/-- Two elements the theorem is about, and a polynomial they reproduce. -/
example : (∃ E, tables 1 .P3 = .ok E) ∧ (∃ E, tables 2 .Bubble = .ok E) ∧
    IsPoly 2 (degree .Bubble) (fun x y => 1 - x * y) := by
  refine ⟨⟨_, rfl⟩, ⟨_, rfl⟩, fun i j => if i = 0 ∧ j = 0 then 1 else if i = 1 ∧ j = 1 then -1 else 0,
    fun h => absurd h (by decide), ?_, ?_⟩
  · intro i j h
    simp only [degree] at h ⊢
    rw [if_neg (by omega), if_neg (by omega)]
  · intro x y
    simp [degree, List.range_succ]
    ring

end Verif.Tri
