import Verif.PySet.Order
import Verif.Asm.Total

/-!
# C82: renumbering through `list(set(..))`

`consolidate` renumbers the dofs through `list(set(dofs))` and takes the last entry for the largest dof (assembler.py 4353-4364).  Most theorems about
`solve` assume that `list(set(..))` is sorted.  Here it is CPython's.
-/

namespace Verif.PySet
open Verif.Asm

/-! ## Specification -/

/-- Enough of the dofs are there: the largest one is small, or at most about 5/3 of their number. -/
def Dense (F : Finset ℕ) : Prop := ∀ x ∈ F, x < 8 ∨ 3 * x ≤ 5 * F.card + 3

/-- The free dofs that the local forms lead to. -/
def Coupled {κ R : Type} (C : Cons R) (cs : List (κ × List (Loc2 R))) (f : ℕ) : Prop := Free C.hng C.dir f ∧ ∃ r, Uses2 cs r ∧ Reach C.hng r f

/-! ## The set -/

/-- **C82** (the set).  `list(set(l))` has every element of `l` exactly once: the search for an entry always ends, and never misses an element. -/
theorem C82_set : SetOrder pySet := by
  intro l
  obtain ⟨h1, h2⟩ := ok_ofList l
  refine ⟨h1.wf.nodup, fun x => ?_⟩
  unfold pySet
  rw [mem_elems, h2]

/-- **C82** (ascending order).  `list(set(l))` is sorted if enough of the numbers are there. -/
theorem C82_ascending (l : List ℕ) (h : Dense l.toFinset) : (pySet l).Pairwise (· < ·) := by
  obtain ⟨h1, h2⟩ := ok_ofList l
  refine direct_sorted (h1.direct fun y hy => ?_)
  have h3 := h1.room
  rw [used_ofList] at h3
  have h4 := h1.wf.len
  rcases h y (List.mem_toFinset.2 ((h2 y).1 hy)) with h5 | h5 <;> omega

theorem pySet_sorted {l : List ℕ} (h : Dense l.toFinset) : pySet l = sortedSet l :=
  sorted_ext (C82_ascending l h) (sortedSet_spec.2 l) fun x => by rw [(C82_set l).2, (sortedSet_spec.1 l).2]

section
variable {κ : Type} [DecidableEq κ]

theorem consolidate2_congr {R : Type} [CommRing R] {ord ord' : List ℕ → List ℕ} {af : AF2 κ R} (h1 : ord (af.agg.map (·.row)) = ord' (af.agg.map (·.row)))
    (h2 : ord (af.agg.map (·.col)) = ord' (af.agg.map (·.col))) : af.consolidate ord = af.consolidate ord' := by
  unfold AF2.consolidate
  simp only [h1, h2]

theorem consolidate1_congr {R : Type} [CommRing R] {ord ord' : List ℕ → List ℕ} {af : AF1 κ R} (h1 : ord (af.agg.map (·.row)) = ord' (af.agg.map (·.row))) :
    af.consolidate ord = af.consolidate ord' := by
  unfold AF1.consolidate
  simp only [h1]

variable {K : Type} [Field K]

/-- The dofs of the matrix and of the vector. -/
theorem agg_dofs {C : Cons K} {keep : Bool} {fuel fuel' : ℕ} {cs2 : List (κ × List (Loc2 K))} {cs1 : List (κ × List (Loc1 K))} (hb : SameBasis cs2)
    (huse : ∀ r, Uses2 cs2 r ↔ Uses1 cs1 r) {af2 : AF2 κ K} {af1 : AF1 κ K} (h2 : assemble2 C keep fuel cs2 = .ok af2)
    (h1 : assemble1 C keep fuel' cs1 = .ok af1) (f : ℕ) :
    (f ∈ af2.agg.map (·.row) ↔ Coupled C cs2 f) ∧ (f ∈ af2.agg.map (·.col) ↔ Coupled C cs2 f) ∧ (f ∈ af1.agg.map (·.row) ↔ Coupled C cs2 f) := by
  have hp := fun f' => assemble2_pairs h2 f f'
  have hq := fun f' => assemble2_pairs h2 f' f
  refine ⟨⟨fun h => ?_, fun h => ?_⟩, ⟨fun h => ?_, fun h => ?_⟩, ⟨fun h => ?_, fun h => ?_⟩⟩
  · obtain ⟨a, ha, rfl⟩ := List.mem_map.1 h
    obtain ⟨c, hc, l, hl, r, hr, q, hq', g1, g2, g3, g4⟩ := (hp a.col).1 ⟨a, ha, rfl, rfl⟩
    exact ⟨g1, r, ⟨c, hc, l, hl, hr⟩, g3⟩
  · obtain ⟨hf, r, ⟨c, hc, l, hl, hr⟩, hre⟩ := h
    obtain ⟨a, ha, e1, _⟩ := (hp f).2 ⟨c, hc, l, hl, r, hr, r, (hb c hc l hl) ▸ hr, hf, hf, hre, hre⟩
    exact List.mem_map.2 ⟨a, ha, e1⟩
  · obtain ⟨a, ha, rfl⟩ := List.mem_map.1 h
    obtain ⟨c, hc, l, hl, r, hr, q, hq', g1, g2, g3, g4⟩ := (hq a.row).1 ⟨a, ha, rfl, rfl⟩
    exact ⟨g2, q, ⟨c, hc, l, hl, (hb c hc l hl) ▸ hq'⟩, g4⟩
  · obtain ⟨hf, r, ⟨c, hc, l, hl, hr⟩, hre⟩ := h
    obtain ⟨a, ha, _, e1⟩ := (hq f).2 ⟨c, hc, l, hl, r, hr, r, (hb c hc l hl) ▸ hr, hf, hf, hre, hre⟩
    exact List.mem_map.2 ⟨a, ha, e1⟩
  · have := ((fold1_ok cs1 _ _ empty1_new h1).2.2 f).1 h
    simp only [AF1.new, List.map_nil, List.not_mem_nil, false_or] at this
    obtain ⟨c, hc, l, hl, r, hr, hf, hre⟩ := this
    exact ⟨hf, r, (huse r).2 ⟨c, hc, l, hl, hr⟩, hre⟩
  · obtain ⟨hf, r, hr, hre⟩ := h
    obtain ⟨c, hc, l, hl, hr⟩ := (huse r).1 hr
    exact ((fold1_ok cs1 _ _ empty1_new h1).2.2 f).2 (.inr ⟨c, hc, l, hl, r, hr, hf, hre⟩)

/-- **C82** (`assemble` and `solve`).  Forms on the same dofs; enough of the dofs are free.  With CPython's `list(set(..))`, `assemble` and `solve` do exactly
what they do when it is sorted. -/
theorem C82_run {C : Cons K} {n : ℕ} {hdofs ddofs : List ℕ} {keep : Bool} {fuel : ℕ} {cs2 : List (κ × List (Loc2 K))}
    {cs1 : List (κ × List (Loc1 K))} (hb : SameBasis cs2) (huse : ∀ r, Uses2 cs2 r ↔ Uses1 cs1 r) {F : Finset ℕ} (hF : ∀ f, f ∈ F ↔ Coupled C cs2 f)
    (hd : Dense F) (y u : List K) :
    Run C n hdofs ddofs keep fuel cs2 cs1 pySet y u ↔ Run C n hdofs ddofs keep fuel cs2 cs1 sortedSet y u := by
  have key : ∀ l : List ℕ, (∀ f, f ∈ l ↔ Coupled C cs2 f) → pySet l = sortedSet l := by
    intro l hl
    have : l.toFinset = F := by
      ext f
      rw [List.mem_toFinset, hl, hF]
    exact pySet_sorted (by rw [this]; exact hd)
  have hc : ∀ af2 af1, assemble2 C keep fuel cs2 = .ok af2 → assemble1 C keep fuel cs1 = .ok af1 →
      af2.consolidate pySet = af2.consolidate sortedSet ∧ af1.consolidate pySet = af1.consolidate sortedSet := by
    intro af2 af1 h2 h1
    have := agg_dofs hb huse h2 h1
    exact ⟨consolidate2_congr (key _ fun f => (this f).1) (key _ fun f => (this f).2.1), consolidate1_congr (key _ fun f => (this f).2.2)⟩
  constructor
  · rintro ⟨af2, af1, A, ub, b, x0, h2, h1, hA, hB, hr⟩
    obtain ⟨e1, e2⟩ := hc af2 af1 h2 h1
    exact ⟨af2, af1, A, ub, b, x0, h2, h1, by rw [← e1]; exact hA, by rw [← e2]; exact hB, hr⟩
  · rintro ⟨af2, af1, A, ub, b, x0, h2, h1, hA, hB, hr⟩
    obtain ⟨e1, e2⟩ := hc af2 af1 h2 h1
    exact ⟨af2, af1, A, ub, b, x0, h2, h1, by rw [e1]; exact hA, by rw [e2]; exact hB, hr⟩

/-- **C82** (what happens otherwise).  If the last entry of `list(set(..))` is not the largest free dof, `solve` fails: an index is out of range. -/
theorem C82_fails {C : Cons K} {n : ℕ} {hdofs ddofs : List ℕ} {keep : Bool} {fuel : ℕ} {cs2 : List (κ × List (Loc2 K))}
    {cs1 : List (κ × List (Loc1 K))} (hb : SameBasis cs2) (huse : ∀ r, Uses2 cs2 r ↔ Uses1 cs1 r) {f : ℕ} (hf : Coupled C cs2 f)
    (hl : ∀ l : List ℕ, (∀ a, a ∈ l ↔ Coupled C cs2 a) → ∀ x, (pySet l).getLast? = some x → x < f) (y u : List K) :
    ¬ Run C n hdofs ddofs keep fuel cs2 cs1 pySet y u := by
  rintro ⟨af2, af1, A, ub, b, x0, h2, h1, hA, hB, hr⟩
  obtain ⟨ir, ic, hir, _⟩ := consolidate2_ok hA
  have hm := fun a => (agg_dofs hb huse h2 h1 a).1
  unfold mkIdx at hir
  cases hx : (pySet (af2.agg.map (·.row))).getLast? with
  | none => rw [hx] at hir; cases hir
  | some x =>
    rw [hx] at hir
    simp only at hir
    split_ifs at hir with hall
    have h3 := hl _ hm x hx
    have h4 : f ∈ pySet (af2.agg.map (·.row)) := ((C82_set _).2 f).2 ((hm f).2 hf)
    have h5 := (List.all_eq_true.1 hall) f h4
    have : f ≤ x := by simpa using h5
    omega

end
end Verif.PySet
