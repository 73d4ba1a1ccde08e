import Verif.Fem.Elements

/-!
# Hanging nodes and continuity across edges (C31)

`DofHandler.set_hanging_nodes` (fem.py 2477-2570) works on the reference cell of the refined
neighbour: side `s` of the neighbour is bisected, the nodes of the two half sides that are not nodes of
the side are constrained to the values of the side's shape functions.
-/

namespace Verif.Fem

section
set_option linter.unusedSectionVars false
variable {K : Type} [Field K] [CharZero K]

/-- The local dofs on side `s`: those of base and head vertex, then those inside the side
(fem.py 2515-2523). -/
def sideDofs (e : ET) (s : Nat) : List Nat :=
  s :: (s + 1) % 4 :: (List.range (dpe2 e)).map (fun j => 4 + s * dpe2 e + j)

/-- Points of side `s`: `0` is the base, `1` the head. -/
def sidePt (s : Nat) (t : K) : K × K :=
  match s with
  | 0 => (t, 0)
  | 1 => (1, t)
  | 2 => (1 - t, 1)
  | _ => (0, 1 - t)

/-- The parameters of the nodes of a side, in the order of `sideDofs`: base, head, interior
(mesh.py 4219-4228). -/
def sideT (e : ET) : List K := 0 :: 1 :: (List.range (dpe2 e)).map (fun j => (j + 1) * (1 / (dpe2 e + 1)))

/-- `constraint_coefficients` for the node at parameter `t` of side `s` (fem.py 2540-2544). -/
def hangCoef (e : ET) (s : Nat) (t : K) : List (Except Err K) :=
  (sideDofs e s).map (fun i => phi2 e i (sidePt s t))

/-- The finite element function on a cell with dof values `U`. -/
def cellFn (e : ET) (U : Nat → K) (x : K × K) : K := interp2 e U x

/-- What the dof at the node with parameter `t'` of half `c` of side `s` gets: the value at the node of the side at the
same place if there is one (`get_pos(0)` is not `None`, fem.py 2536), the combination of the supporting values otherwise. -/
def FineValue (e : ET) (s : Nat) (U : Nat → K) (t : K) (w : K) : Prop :=
  (∀ k < dpe2 e + 2, (sideT e).getD k 0 = t → w = U ((sideDofs e s).getD k 0)) ∧
  ((∀ k < dpe2 e + 2, (sideT e).getD k 0 ≠ t) →
    w = ((List.range (dpe2 e + 2)).map (fun k => val ((hangCoef e s t).getD k (.error .index)) * U ((sideDofs e s).getD k 0))).sum)

/-- Continuous elements. -/
def Cont (e : ET) : Prop := e = .Q1 ∨ e = .Q2 ∨ e = .Q3

theorem sideDofs_len (e : ET) (s : Nat) : (sideDofs e s).length = dpe2 e + 2 := by simp [sideDofs]

/-- Shape functions on a side: those of the side are the one-dimensional ones, all others vanish. -/
theorem trace_phi (e : ET) (he : Cont e) (s : Nat) (hs : s < 4) (t : K) (n : Nat) (hn : n < nd2 e) :
    tb (pTab e) (bix e n).1 (sidePt s t).1 * tb (pTab e) (bix e n).2 (sidePt s t).2 =
      ((List.range (dpe2 e + 2)).map (fun k => if (sideDofs e s).getD k 0 = n then tb (pTab e) k t else 0)).sum := by
  rcases he with rfl | rfl | rfl <;> simp only [nd2, dpv, dpe2, dpc2] at hn <;> interval_cases s <;>
    interval_cases n <;> simp [bix, bi2, sidePt, sideDofs, dpe2, List.range_succ, tb, pTab, -mul_eq_zero] <;> ring

/-- The trace on a side. -/
def sideFn (e : ET) (u : Nat → K) (t : K) : K :=
  ((List.range (dpe2 e + 2)).map (fun k => u k * tb (pTab e) k t)).sum

theorem sum_ite_eq (N m : Nat) (hm : m < N) (f : Nat → K) (c : K) :
    ((List.range N).map (fun n => f n * if m = n then c else 0)).sum = f m * c := by
  induction N with
  | zero => omega
  | succ N ih =>
    rw [List.range_succ, List.map_append, List.sum_append]
    rcases Nat.lt_or_ge m N with h1 | h1
    · rw [ih h1]; simp; intro h2; omega
    · have : m = N := by omega
      subst this
      rw [sum_congr_range (g := fun _ => 0)]
      · simp
      · intro i hi; rw [if_neg (by omega), mul_zero]

theorem sideDofs_lt (e : ET) (he : Cont e) (s : Nat) (hs : s < 4) (k : Nat) (hk : k < dpe2 e + 2) :
    (sideDofs e s).getD k 0 < nd2 e := by
  rcases he with rfl | rfl | rfl <;> simp only [dpe2] at hk <;> interval_cases s <;> interval_cases k <;> decide

theorem trace_eq (e : ET) (he : Cont e) (s : Nat) (hs : s < 4) (U : Nat → K) (t : K) :
    cellFn e U (sidePt s t) = sideFn e (fun k => U ((sideDofs e s).getD k 0)) t := by
  unfold cellFn interp2 sideFn
  rw [sum_congr_range (g := fun n => ((List.range (dpe2 e + 2)).map (fun k =>
    U n * if (sideDofs e s).getD k 0 = n then tb (pTab e) k t else 0)).sum), sum_swap]
  · refine sum_congr_range (fun k hk => ?_)
    rw [sum_ite_eq _ _ (sideDofs_lt e he s hs k hk)]
  · intro n hn
    rw [phi2_tb e n hn]
    simp only [val]
    rw [trace_phi e he s hs t n hn, ← sum_map_mul]

theorem sideT_eq (e : ET) (he : Cont e) : (sideT e : List K) = xi e := by
  rcases he with rfl | rfl | rfl <;> simp [sideT, xi, dpe2, List.range_succ] <;> norm_num

theorem np_cont (e : ET) (he : Cont e) : np e = dpe2 e + 2 := by rcases he with rfl | rfl | rfl <;> rfl

/-- The function on a side reproduces its own restriction to a half. -/
theorem half_tb (e : ET) (he : Cont e) (c : K) (k : Nat) (hk : k < dpe2 e + 2) (t : K) :
    ((List.range (dpe2 e + 2)).map (fun j => tb (pTab e) k ((c + (sideT e).getD j 0) / 2) * tb (pTab e) j t)).sum =
      tb (pTab e) k ((c + t) / 2) := by
  rw [sideT_eq e he]
  rcases he with rfl | rfl | rfl <;> simp only [dpe2] at hk <;> interval_cases k <;>
    simp [dpe2, xi, List.range_succ, tb, pTab] <;> ring

theorem fine_eq (e : ET) (he : Cont e) (s : Nat) (hs : s < 4) (U : Nat → K) (t w : K) (h : FineValue e s U t w) :
    w = sideFn e (fun k => U ((sideDofs e s).getD k 0)) t := by
  by_cases hx : ∃ k < dpe2 e + 2, (sideT e).getD k 0 = t
  · obtain ⟨k, hk, ht⟩ := hx
    rw [h.1 k hk ht]
    unfold sideFn
    subst ht
    rw [sum_congr_range (g := fun j => U ((sideDofs e s).getD j 0) * if k = j then 1 else 0)]
    · rw [sum_ite_eq _ _ hk (fun j => U ((sideDofs e s).getD j 0)), mul_one]
    · intro j hj
      rw [sideT_eq e he, nodal_tb e j k (by rw [np_cont e he]; exact hj) (by rw [np_cont e he]; exact hk)]
  · push Not at hx
    rw [h.2 hx]
    unfold sideFn
    refine sum_congr_range (fun k hk => ?_)
    have hlt := sideDofs_lt e he s hs k hk
    have hl : k < (sideDofs e s).length := by rw [sideDofs_len]; exact hk
    have e1 : (hangCoef e s t).getD k (.error .index) = phi2 e ((sideDofs e s).getD k 0) (sidePt s t) := by
      unfold hangCoef
      rw [List.getD_eq_getElem?_getD, List.getElem?_map, List.getD_eq_getElem?_getD, List.getElem?_eq_getElem hl]
      rfl
    rw [e1, phi2_tb e _ hlt]
    simp only [val]
    rw [trace_phi e he s hs t _ hlt, mul_comm]
    congr 1
    rw [sum_congr_range (g := fun j => tb (pTab e) j t * if k = j then 1 else 0)]
    · rw [sum_ite_eq _ _ hk, mul_one]
    · intro j hj
      have hinj : (sideDofs e s).getD j 0 = (sideDofs e s).getD k 0 ↔ k = j := by
        clear e1 hl hlt hx h
        rcases he with rfl | rfl | rfl <;> simp only [dpe2] at hk hj <;> interval_cases s <;> interval_cases k <;>
          interval_cases j <;> decide
      by_cases hkj : k = j
      · rw [if_pos (hinj.2 hkj), if_pos hkj, mul_one]
      · rw [if_neg (fun h => hkj (hinj.1 h)), if_neg hkj, mul_zero]

/-- Continuity across a bisected side: if the dofs of the half-side's cell (child `c` of the refined
neighbour; its side is again side `s`) on that side have the values prescribed by the constraints, then the
function on the fine cell agrees with the function on the coarse side at every point. -/
theorem C31_hanging_continuous (e : ET) (he : Cont e) (s : Nat) (hs : s < 4) (c : Nat) (U W : Nat → K)
    (h : ∀ k < dpe2 e + 2, FineValue e s U (((c : K) + (sideT e).getD k 0) / 2) (W ((sideDofs e s).getD k 0))) (t : K) :
    cellFn e W (sidePt s t) = cellFn e U (sidePt s (((c : K) + t) / 2)) := by
  rw [trace_eq e he s hs, trace_eq e he s hs]
  unfold sideFn
  rw [sum_congr_range (g := fun j => ((List.range (dpe2 e + 2)).map (fun k => U ((sideDofs e s).getD k 0) *
    (tb (pTab e) k (((c : K) + (sideT e).getD j 0) / 2) * tb (pTab e) j t))).sum), sum_swap]
  · refine sum_congr_range (fun k hk => ?_)
    rw [sum_map_mul, half_tb e he _ k hk]
  · intro j hj
    beta_reduce
    rw [fine_eq e he s hs U _ _ (h j hj)]
    unfold sideFn
    rw [← sum_map_mul']
    refine sum_congr_range (fun k _ => ?_)
    ring

/-- Continuity across a side shared by two cells: the dofs of side `s` in the order base, head, interior
are in the other cell those of head, base and the interior ones reversed (fem.py 1374-1377). -/
theorem C31_conforming_continuous (e : ET) (he : Cont e) (s s' : Nat) (hs : s < 4) (hs' : s' < 4) (U V : Nat → K)
    (h0 : V ((s' + 1) % 4) = U s) (h1 : V s' = U ((s + 1) % 4))
    (h2 : ∀ j < dpe2 e, V (4 + s' * dpe2 e + (dpe2 e - 1 - j)) = U (4 + s * dpe2 e + j)) (t : K) :
    cellFn e V (sidePt s' (1 - t)) = cellFn e U (sidePt s t) := by
  rw [trace_eq e he s hs, trace_eq e he s' hs']
  rcases he with rfl | rfl | rfl
  · simp [sideFn, dpe2, List.range_succ, tb, pTab, sideDofs, h0, h1]; ring
  · have a := h2 0 (by decide)
    simp [dpe2] at a
    simp [sideFn, dpe2, List.range_succ, tb, pTab, sideDofs, h0, h1, a]; ring
  · have a := h2 0 (by decide)
    have b := h2 1 (by decide)
    simp [dpe2] at a b
    simp [sideFn, dpe2, List.range_succ, tb, pTab, sideDofs, h0, h1, a, b]; ring

/-- The coefficients of a hanging node sum to 1. -/
theorem C31_coefficients_sum (e : ET) (he : Cont e) (s : Nat) (hs : s < 4) (t : K) :
    ((hangCoef e s t).map val).sum = 1 := by
  rcases he with rfl | rfl | rfl <;> interval_cases s <;>
    simp [hangCoef, sideDofs, dpe2, List.range_succ, phi2, nd2, dpv, dpc2, bi2, look, pTab, mulE, val, sidePt] <;> ring

/-- The coefficients are the values of the side's shape functions at the node; those of the other dofs of
the cell vanish there. -/
theorem C31_others_vanish (e : ET) (he : Cont e) (s : Nat) (hs : s < 4) (t : K) (n : Nat) (hn : n < nd2 e)
    (hns : n ∉ sideDofs e s) : phi2 e n (sidePt s t) = .ok 0 := by
  rw [phi2_tb e n hn, trace_phi e he s hs t n hn]
  congr 1
  rw [sum_congr_range (g := fun _ => 0)]
  · simp
  · intro k hk
    rw [if_neg]
    intro h
    apply hns
    have hl : k < (sideDofs e s).length := by rw [sideDofs_len]; exact hk
    rw [← h, List.getD_eq_getElem?_getD, List.getElem?_eq_getElem hl]
    exact List.getElem_mem hl

/-! ### `constraint_coefficients()` -/

/-- Node `k` of half `ch` is listed iff it is not a node of the long side.  The coefficients sum to 1 and give the value
at the node of every polynomial of the element's degree from its values at the nodes `j/(d+1)` of the long side, in
increasing order. -/
theorem C31_constraint_coefficients (e : ET) (he : Cont e) (ch k : Nat) (hc : ch < 2) (hk : k < dpe2 e + 2) :
    ((constrOf e ch k : Option (List (Except Err K))) = none ↔
      ∃ r < dpe2 e + 2, (r : ℚ) / (dpe2 e + 1) = (ch + k / (dpe2 e + 1)) / 2) ∧
    ∀ l : List (Except Err K), constrOf e ch k = some l → (l.map val).sum = 1 ∧
      ∀ a : Nat → K, poly1 (deg e) a ((ch + k / (dpe2 e + 1)) / 2) =
        ((List.range (dpe2 e + 2)).map (fun j : Nat => poly1 (deg e) a ((j : K) / (dpe2 e + 1)) * val (l.getD j (.error .index)))).sum := by
  constructor
  · have e1 : (constrOf e ch k : Option (List (Except Err K))) = none ↔ ∃ r < dpe2 e + 2, k + ch * (dpe2 e + 1) = 2 * r := by
      rcases he with rfl | rfl | rfl <;> simp only [dpe2] at hk <;> interval_cases ch <;> interval_cases k <;>
        simp [constrOf, dpe2] <;> decide
    rw [e1]
    have hd : ((dpe2 e : ℚ) + 1) ≠ 0 := by positivity
    constructor
    · rintro ⟨r, hr, h⟩
      refine ⟨r, hr, ?_⟩
      have h' : (k : ℚ) + ch * (dpe2 e + 1) = 2 * r := by exact_mod_cast h
      field_simp
      linarith
    · rintro ⟨r, hr, h⟩
      refine ⟨r, hr, ?_⟩
      field_simp at h
      have h' : (k : ℚ) + ch * (dpe2 e + 1) = 2 * r := by linarith
      exact_mod_cast h'
  · intro l hl
    have hl' : l = constr e (k + ch * (dpe2 e + 1)) := by
      unfold constrOf at hl
      simp only at hl
      split_ifs at hl with h1 h2
      · subst h1
        simpa using (Option.some.inj hl).symm
      · have : ch = 1 := by omega
        subst this
        simpa using (Option.some.inj hl).symm
    subst hl'
    refine ⟨?_, ?_⟩
    · rcases he with rfl | rfl | rfl <;>
        simp [constr, edgeIdx, dpe2, List.range_succ, look, pTab, val] <;> ring
    · intro u
      rcases he with rfl | rfl | rfl <;>
        simp [poly1, deg, constr, edgeIdx, dpe2, List.range_succ, look, pTab, val] <;> ring

/-- Non-vacuity: on a side of Q2 the node at 1/4 hangs with coefficients 3/8, -1/8, 3/4. -/
example : (hangCoef .Q2 0 (1 / 4 : ℚ)) = [.ok (3 / 8), .ok (-1 / 8), .ok (3 / 4)] := by
  simp [hangCoef, sideDofs, dpe2, List.range_succ, phi2, nd2, dpv, dpc2, bi2, look, pTab, mulE, sidePt]
  norm_num

example : (constrOf .Q2 0 1 : Option (List (Except Err ℚ))) = some [.ok (3 / 8), .ok (3 / 4), .ok (-1 / 8)] := by
  simp [constrOf, constr, dpe2, edgeIdx, List.range_succ, look, pTab]
  norm_num
  omega

end
end Verif.Fem
