import Verif.Coef.Props

/-!
# `Basis.eval`

fem.py 1120-1176.
-/

namespace Verif.Coef
open Verif.Mesh Verif.Dof Verif.Quad Verif.Fem Verif.Form Verif.Phys Verif.Gal

/-- `Basis.eval(x, cell, location)` (fem.py 1120-1176), one point, entry `n`: `flag` and `der` are those of the basis; a cell without flagged ancestor gives `cell=None`
in `shape`.  Points said to be physical go through `cell.reference_map(x)`, whose default is `mapsto='physical'` (mesh.py 3872).  No Jacobian is handed over. -/
noncomputable def basisEval (rect : Nat → Bool) (s : St ℝ) (e : ET) (der : List Nat) (flag : Option (CN → Bool)) (x : Pt ℝ) (c : CN) (physical : Bool) (n : Nat) :
    Except Fem.Err ℝ :=
  let y := if physical then toPhys (cellQ s c) x else x
  shape2 e (y.x, y.y) ((nearest flag c).map fun a => rect a.1) der none none n

/-- **C105** (reference points): the values of the reference basis functions, on every cell, for every element; points outside of the reference cell are rejected. -/
theorem C105_reference (rect : Nat → Bool) (s : St ℝ) (e : ET) (flag : Option (CN → Bool)) (x : Pt ℝ) (c : CN) {n : Nat} (hn : n < nd2 e) :
    (Form.InSq (x.x, x.y) → basisEval rect s e [0] flag x c false n = .ok (val (phi2 e n (x.x, x.y)))) ∧
    (¬ Form.InSq (x.x, x.y) → ∀ der, basisEval rect s e der flag x c false n = .error .assertion) := by
  constructor
  · rintro ⟨h0, h1, h2, h3⟩
    unfold basisEval shape2
    rw [if_neg (by simpa using ⟨h0, h2⟩), if_neg (by simpa using ⟨h1, h3⟩)]
    cases nearest flag c <;> exact Fn.phi2_some e hn _
  · intro h der
    unfold basisEval shape2
    simp only [Form.InSq, not_and_or] at h
    by_cases hp : 0 ≤ x.x ∧ 0 ≤ x.y
    · rw [if_neg (by simpa using hp), if_pos]
      intro hq
      simp only [Bool.false_eq_true, if_false] at hq
      rcases h with h | h | h | h
      · exact h hp.1
      · exact h hq.1
      · exact h hp.2
      · exact h hq.2
    · rw [if_pos (by simpa using hp)]

/-- **C105** (physical points), what holds: on the unit square, where physical and reference coordinates are the same; missing: every other cell, see
`C105_physical_violated`. -/
theorem C105_physical_partial (rect : Nat → Bool) (s : St ℝ) (e : ET) (flag : Option (CN → Bool)) (c : CN)
    (hc : SameVerts (cellQ s c) ⟨⟨0, 0⟩, ⟨1, 0⟩, ⟨1, 1⟩, ⟨0, 1⟩, ∅⟩) (r : Pt ℝ) (hr : Form.InSq (r.x, r.y)) {n : Nat} (hn : n < nd2 e) :
    basisEval rect s e [0] flag (toPhys (cellQ s c) r) c true n = .ok (val (phi2 e n (r.x, r.y))) := by
  have h : ∀ y, toPhys (cellQ s c) y = y := by
    intro y
    obtain ⟨h0, h1, h2, h3⟩ := hc
    unfold toPhys
    rw [h0, h1, h2, h3]
    apply Pt.ext <;> simp only <;> ring
  have := (C105_reference rect s e flag r c hn).1 hr
  unfold basisEval at this ⊢
  simp only [Bool.false_eq_true, if_false, if_true] at this ⊢
  rw [h, h]
  exact this

/-- Non-vacuity: the first of two squares. -/
example : SameVerts (cellQ witR (0, [])) ⟨⟨0, 0⟩, ⟨1, 0⟩, ⟨1, 1⟩, ⟨0, 1⟩, ∅⟩ := by
  have h := cellQ_eq twoR_wf witR_reach (0, []) (by decide +kernel)
  have e : quadAt twoR 0 [] = ⟨⟨((0 : ℕ) : ℝ), 0⟩, ⟨((0 : ℕ) : ℝ) + 1, 0⟩, ⟨((0 : ℕ) : ℝ) + 1, 1⟩, ⟨((0 : ℕ) : ℝ), 1⟩, ∅⟩ := two_quad 0 (by decide)
  rw [e] at h
  simpa using h

/-- **C105**: `location='physical'` is wrong off the unit square: in the second square `[1, 2] × [0, 1]` every interior point of the cell is rejected. -/
theorem C105_physical_violated (rect : Nat → Bool) (e : ET) (der : List Nat) (n : Nat) :
    ((1, []) : CN) ∈ witR.cells ∧ ∀ r : Pt ℝ, InOpen (r.x, r.y) → basisEval rect witR e der none (toPhys (cellQ witR (1, [])) r) (1, []) true n = .error .assertion := by
  refine ⟨by decide +kernel, fun r hr => ?_⟩
  have hx : ∀ z : Pt ℝ, (toPhys (cellQ witR (1, [])) z).x = 1 + z.x ∧ (toPhys (cellQ witR (1, [])) z).y = z.y := by
    intro z
    obtain ⟨h0, h1, h2, h3⟩ := cellQ_eq twoR_wf witR_reach (1, []) (by decide +kernel)
    have e : quadAt twoR 1 [] = ⟨⟨((1 : ℕ) : ℝ), 0⟩, ⟨((1 : ℕ) : ℝ) + 1, 0⟩, ⟨((1 : ℕ) : ℝ) + 1, 1⟩, ⟨((1 : ℕ) : ℝ), 1⟩, ∅⟩ := two_quad 1 (by decide)
    simp only [e] at h0 h1 h2 h3
    unfold toPhys
    rw [h0, h1, h2, h3]
    push_cast
    constructor <;> ring
  obtain ⟨h1, h2, h3, h4⟩ := hr
  unfold basisEval shape2
  simp only [if_true]
  rw [(hx _).1, (hx _).2, (hx _).1, (hx _).2]
  rw [if_neg (by rw [not_not]; simp only at h1 h3 ⊢; constructor <;> linarith), if_pos]
  intro h
  simp only at h h1
  linarith [h.1]

/-- **C105**: a basis with a derivative cannot be evaluated on a cell at all: `shape` asks for the Jacobian, which `eval` does not hand over (fem.py 533-535). -/
theorem C105_derivative_violated (rect : Nat → Bool) (s : St ℝ) (e : ET) (x : Pt ℝ) (c : CN) (physical : Bool) (n v w : Nat) :
    basisEval rect s e [1, v] none x c physical n = .error .assertion ∧ basisEval rect s e [2, v, w] none x c physical n = .error .assertion := by
  constructor
  · unfold basisEval shape2
    simp only [nearest, Option.map_some]
    split_ifs <;> rfl
  · unfold basisEval shape2
    simp only [nearest, Option.map_some]
    split_ifs <;> rfl

/-- **C105**, the same with a subforest flag: on a cell inside the subforest the derivative always raises; on a cell outside of it, where there is nothing to
differentiate, the derivative with respect to the reference coordinates comes back without complaint. -/
theorem C105_flag_violated (rect : Nat → Bool) (s : St ℝ) (e : ET) (flag : Option (CN → Bool)) (x : Pt ℝ) (c : CN) (n v : Nat) :
    ((nearest flag c).isSome → ∀ physical, basisEval rect s e [1, v] flag x c physical n = .error .assertion) ∧
    (nearest flag c = none → Form.InSq (x.x, x.y) → basisEval rect s e [1, v] flag x c false n = dphi2 e n (x.x, x.y) v) := by
  constructor
  · intro h physical
    obtain ⟨a, ha⟩ := Option.isSome_iff_exists.1 h
    unfold basisEval shape2
    simp only [ha, Option.map_some]
    split_ifs <;> rfl
  · rintro h ⟨h0, h1, h2, h3⟩
    unfold basisEval shape2
    rw [if_neg (by simpa using ⟨h0, h2⟩), if_neg (by simpa using ⟨h1, h3⟩)]
    simp only [h, Option.map_none, Bool.false_eq_true, if_false]

/-- Non-vacuity: the subforest of the roots contains an ancestor of every cell, the empty one of none. -/
example : (nearest (some fun c => c.2.isEmpty) (0, [1])).isSome ∧ nearest (some fun _ => false) (0, [1]) = none ∧ Form.InSq ((1 / 2 : ℝ), 1 / 2) := by
  refine ⟨by decide, by decide, ?_⟩
  unfold Form.InSq
  norm_num

end Verif.Coef
