import Verif.Bvp.Solve

/-!
# C72: boundary value problems in one dimension, from the mesh to the solution

`−(κu')' = f` on the interval covered by a `Mesh1D`, Dirichlet values or fluxes at the two ends.
-/

namespace Verif.Bvp
open Verif.Line Verif.OneD Verif.Fem Verif.Form Verif.Asm Verif.Geom Verif.Gauss
open Verif.Dir (consOf look look_mem)

/-- A run of `assemble` and `solve` for the problem on the leaves `L`, with Dirichlet values `d`. -/
def Solved (e : ET) (k kf kn : Kernel ℝ) (mk : VX → Bool) (re : List (ℝ × ℝ)) (j : Nat) (F : List (Cell ℝ)) (D : DH) (L : List IN)
    (d : List (Nat × ℝ)) (keep : Bool) (fuel : Nat) (ord : List ℕ → List ℕ) (y u : List ℝ) : Prop :=
  Run (consOf [] d) D.count [] (d.map (·.1)) keep fuel (contribs1 e (stiffness k) re j F D L) (loads1 e (rhs kf kn mk) re j F D L) ord y u

/-! ## Specification -/

/-- The finite element function. -/
noncomputable def fn (e : ET) (F : List (Cell ℝ)) (D : DH) (u : List ℝ) (c : IN) : ℝ → ℝ := feFn e F D (fun a => u.getD a 0) c

/-- `x` lies in the leaf `c`. -/
def On (F : List (Cell ℝ)) (c : IN) (x : ℝ) : Prop := ∃ lo hi, coord F c 0 = some lo ∧ coord F c 1 = some hi ∧ lo ≤ x ∧ x ≤ hi

/-- The square of the distance in the energy norm, `∫ κ (u' − v')²`, leaf by leaf. -/
noncomputable def energy (κ : ℝ → ℝ) (F : List (Cell ℝ)) (L : List IN) (u' : ℝ → ℝ) (v : IN → ℝ → ℝ) : ℝ :=
  (L.map (fun c => ∫ x in ((coord F c 0).getD 0)..((coord F c 1).getD 0), κ x * (u' x - deriv (v c) x) ^ 2)).sum

section
variable {close : ℝ → ℝ → Bool} {xs : List ℝ} {e : ET} {sf : Option Nat} {m : Nat} {F : List (Cell ℝ)} {D : DH} {V : DV ℝ} {L : List IN}
variable {n j : Nat} {re : List (ℝ × ℝ)} {k kf kn : Kernel ℝ} {κ f : Polynomial ℝ} {dir neu : ℝ → Bool} {g gN : ℝ → ℝ} {mk : VX → Bool}

/-- The value at an end of a leaf is the value of the dof. -/
theorem fe_end (h : Setting close xs e sf m F D V L) (U : Nat → ℝ) {c : IN} (hc : c ∈ L) {i : Fin 2} {x : ℝ} (hx : coord F c i = some x) :
    feFn e F D U c x = U (dof D c i) := by
  rw [h.coord hc] at hx
  have hx' := Option.some.inj hx
  rw [feFn_loc, ← hx']
  fin_cases i
  · exact loc_lo (h.pos hc) h.cont _
  · exact loc_hi (h.pos hc) h.cont _

/-- **C72** (continuity).  Whatever the dof values are, the finite element function is continuous: where two leaves meet, it has one value. -/
theorem C72_continuous (h : Setting close xs e sf m F D V L) (u : List ℝ) {c c' : IN} (hc : c ∈ L) (hc' : c' ∈ L) {i i' : Fin 2} {x : ℝ}
    (h1 : coord F c i = some x) (h2 : coord F c' i' = some x) : fn e F D u c x = fn e F D u c' x := by
  unfold fn
  rw [fe_end h _ hc h1, fe_end h _ hc' h2, ← h.atX (fun a => u.getD a 0) hc h1, ← h.atX (fun a => u.getD a 0) hc' h2]

/-- A problem that `solve` solves has a free dof. -/
theorem inner_of (h : Setting close xs e sf m F D V L) {d : List (Nat × ℝ)} (hd : BndDict xs sf F D dir g d) {keep fuel} {ord : List ℕ → List ℕ}
    (ho : SetOrder ord) {y u : List ℝ} (hr : Solved e k kf kn mk re j F D L d keep fuel ord y u) : Inner xs e F L dir := by
  obtain ⟨af2, af1, A, ub, b, x0, h2, h1, hA, hb, hx, _, hs, hu⟩ := hr.run
  have hne : A.urow ≠ [] := by
    intro h0
    obtain ⟨ir, ic, hir, hic, hur, _⟩ := consolidate2_ok hA
    rw [← hur, h0] at hir
    cases hir
  obtain ⟨a, ha⟩ := List.exists_mem_of_ne_nil _ hne
  obtain ⟨⟨h3, h4⟩, r, h5, h6⟩ := (uses_rows h2 (same1 _ _ _ _ _ _ _) ho hA a).1.1 ha
  obtain ⟨c, hc, p, hp, rfl⟩ := (uses2_iff h k r).1 h5
  have h7 := reach_nil h6
  refine ⟨c, hc, p, hp, fun x hx hcon => ?_⟩
  obtain ⟨c', hc', i, hi⟩ := h.end_leaf hcon.1
  have hi' : i.1 < nd1 e := by have := h.nd.1; omega
  have e1 := (h.shared hc hc' hp hi').2 (by rw [hx, h.nodeX_end hc' i, hi])
  have h8 := dict_end h hd hc' hi hcon.1 hcon.2
  rw [← e1, h7, h4] at h8
  cases h8

/-- **C72** (one answer).  A kernel that is positive on the domain, any load, a Dirichlet value at one end at least.  `assemble` and `solve` succeed unless all dofs are
Dirichlet dofs, that is unless a linear element meets a single leaf with Dirichlet values at both ends; the answer is then unique. -/
theorem C72_one_answer (h : Setting close xs e sf m F D V L) (hre : Gauss.rule1 n = .ok re) (hn : deg e ≤ n) {S : Nat} (hS : sampleSize k = .ok S)
    (hk : ∀ x, InDom xs x → 0 < k.eval S x j) {d : List (Nat × ℝ)} (hd : BndDict xs sf F D dir g d) {y : ℝ} (hy : IsEnd xs y) (hdy : dir y = true)
    (keep : Bool) (kf kn : Kernel ℝ) (mk : VX → Bool) {ord : List ℕ → List ℕ} (ho : SetOrder ord) (ha : Ascending ord) :
    ((e ≠ .Q1 ∨ L.length ≠ 1 ∨ ∃ x, IsEnd xs x ∧ dir x = false) ↔ ∃ fuel y u, Solved e k kf kn mk re j F D L d keep fuel ord y u) ∧
    ∃ N, ∀ fuel ≥ N, ((e ≠ .Q1 ∨ L.length ≠ 1 ∨ ∃ x, IsEnd xs x ∧ dir x = false) → ∃ y u, Solved e k kf kn mk re j F D L d keep fuel ord y u) ∧
      ∀ y u y' u', Solved e k kf kn mk re j F D L d keep fuel ord y u → Solved e k kf kn mk re j F D L d keep fuel ord y' u' → y = y' ∧ u = u' := by
  rw [← inner_iff h (dir := dir)]
  constructor
  · constructor
    · intro hI
      obtain ⟨N, hN⟩ := total h hre hn hS hk hd hy hdy hI keep kf kn mk ho ha
      exact ⟨N, (hN N le_rfl).1⟩
    · rintro ⟨fuel, y, u, hr⟩
      exact inner_of h hd ho hr
  · by_cases hI : Inner xs e F L dir
    · obtain ⟨N, hN⟩ := total h hre hn hS hk hd hy hdy hI keep kf kn mk ho ha
      exact ⟨N, fun fuel hf => ⟨fun _ => (hN fuel hf).1, (hN fuel hf).2⟩⟩
    · exact ⟨0, fun fuel _ => ⟨fun h => absurd h hI, fun y u y' u' hr _ => absurd (inner_of h hd ho hr) hI⟩⟩

/-- **C72** (the Dirichlet values).  Whatever `solve` returns has them. -/
theorem C72_values (h : Setting close xs e sf m F D V L) {d : List (Nat × ℝ)} (hd : BndDict xs sf F D dir g d) {keep fuel} {ord : List ℕ → List ℕ}
    (ho : SetOrder ord) (ha : Ascending ord) {y u : List ℝ} (hr : Solved e k kf kn mk re j F D L d keep fuel ord y u) {c : IN} (hc : c ∈ L) {x : ℝ}
    (hx : On F c x) (he : IsEnd xs x) (hdx : dir x = true) : fn e F D u c x = g x := by
  have hU := discrete h hd ho ha hr
  obtain ⟨a, b, bs, ha', hb', hab, ht, hpm⟩ := h.tiles
  have hbox := (tiles_mem ht).2 _ (hpm.mem_iff.2 (List.mem_map.2 ⟨c, hc, rfl⟩))
  obtain ⟨lo, hi, h0, h1, h2, h3⟩ := hx
  have e0 := h0
  have e1 := h1
  rw [h.coord hc] at e0 e1
  have e0' : (dataAt F c).lo = lo := Option.some.inj e0
  have e1' : (dataAt F c).hi = hi := Option.some.inj e1
  rw [e0', e1'] at hbox
  obtain ⟨b1, b2, b3⟩ := hbox
  have hor : x = a ∨ x = b := by
    rcases he with h4 | h4
    · rw [ha'] at h4; exact .inl (Option.some.inj h4).symm
    · rw [hb'] at h4; exact .inr (Option.some.inj h4).symm
  have : coord F c 0 = some x ∨ coord F c 1 = some x := by
    rcases hor with rfl | rfl
    · left; rw [h0, le_antisymm h2 b1]
    · right; rw [h1, le_antisymm h3 b3]
  unfold fn
  rcases this with h5 | h5 <;> rw [fe_end h _ hc h5, ← h.atX (fun a => u.getD a 0) hc h5] <;> exact hU.value x he hdx

/-- **C72** (reproduction).  If the solution is a polynomial of the degree of the element, `solve` returns it. -/
theorem C72_reproduces (h : Setting close xs e sf m F D V L) (hd : Data xs e n j re k kf κ f) (hn : deg e ≤ n) {S : Nat} (hS : sampleSize kn = .ok S)
    (hm : BndMark xs sf F neu mk) {p : Polynomial ℝ} (hp : p.natDegree ≤ deg e) {z : ℝ} (hz : IsEnd xs z) (hdz : dir z = true)
    (hu : Classical xs (fun x => κ.eval x) (fun x => f.eval x) dir neu g (fun x => kn.eval S x j) (fun x => p.eval x) (fun x => p.derivative.eval x))
    {d : List (Nat × ℝ)} (hD : BndDict xs sf F D dir g d) {keep fuel} {ord : List ℕ → List ℕ} (ho : SetOrder ord) (ha : Ascending ord) {y u : List ℝ}
    (hr : Solved e k kf kn mk re j F D L d keep fuel ord y u) : ∀ c ∈ L, ∀ x, fn e F D u c x = p.eval x :=
  fun c hc x => (reproduces h hd hS hm hp hz hdz hu hn (discrete h hD ho ha hr) c hc).2 x

/-- **C72** (exact at the vertices).  If `κ` is constant, the answer agrees with the solution — any solution, polynomial or not — at both ends of every
leaf. -/
theorem C72_vertices (h : Setting close xs e sf m F D V L) {κ0 : ℝ} (hd : Data xs e n j re k kf (Polynomial.C κ0) f) {S : Nat} (hS : sampleSize kn = .ok S)
    (hm : BndMark xs sf F neu mk) {z : ℝ} (hz : IsEnd xs z) (hdz : dir z = true) {v v' : ℝ → ℝ}
    (hu : Classical xs (fun _ => κ0) (fun x => f.eval x) dir neu g (fun x => kn.eval S x j) v v')
    {d : List (Nat × ℝ)} (hD : BndDict xs sf F D dir g d) {keep fuel} {ord : List ℕ → List ℕ} (ho : SetOrder ord) (ha : Ascending ord) {y u : List ℝ}
    (hr : Solved e k kf kn mk re j F D L d keep fuel ord y u) : ∀ c ∈ L, ∀ i x, coord F c i = some x → fn e F D u c x = v x := by
  intro c hc i x hx
  unfold fn
  rw [fe_end h _ hc hx]
  exact vertices h hd hS hm hz hdz (by simpa using hu) (discrete h hD ho ha hr) c hc i x hx

theorem energy_eq (h : Setting close xs e sf m F D V L) (v' : ℝ → ℝ) (u : List ℝ) : energy (fun x => κ.eval x) F L v' (fn e F D u) =
    (L.map (fun c => ∫ x in (dataAt F c).lo..(dataAt F c).hi, κ.eval x * (v' x - dloc (dataAt F c) e (fun a => u.getD (dof D c a) 0) x) ^ 2)).sum := by
  unfold energy
  congr 1
  refine List.map_congr_left (fun c hc => ?_)
  rw [h.coord hc, h.coord hc]
  show (∫ x in (dataAt F c).lo..(dataAt F c).hi, _) = _
  congr 1
  funext x
  unfold fn
  rw [feFn_deriv]

/-- **C72** (best approximation).  Among all finite element functions with the Dirichlet values, the answer is nearest to the solution in the energy
norm. -/
theorem C72_best (h : Setting close xs e sf m F D V L) (hd : Data xs e n j re k kf κ f) {S : Nat} (hS : sampleSize kn = .ok S) (hm : BndMark xs sf F neu mk)
    {v v' : ℝ → ℝ} (hu : Classical xs (fun x => κ.eval x) (fun x => f.eval x) dir neu g (fun x => kn.eval S x j) v v')
    {d : List (Nat × ℝ)} (hD : BndDict xs sf F D dir g d) {keep fuel} {ord : List ℕ → List ℕ} (ho : SetOrder ord) (ha : Ascending ord) {y u : List ℝ}
    (hr : Solved e k kf kn mk re j F D L d keep fuel ord y u) (w : List ℝ)
    (hw : ∀ c ∈ L, ∀ x, On F c x → IsEnd xs x → dir x = true → fn e F D w c x = g x) :
    energy (fun x => κ.eval x) F L v' (fn e F D u) ≤ energy (fun x => κ.eval x) F L v' (fn e F D w) := by
  rw [energy_eq h, energy_eq h]
  refine best h hd hS hm hu (discrete h hD ho ha hr) (w := fun a => w.getD a 0) (fun x hx hdx => ?_)
  obtain ⟨c, hc, i, hi⟩ := h.end_leaf hx
  rw [h.atX _ hc hi, ← fe_end h (fun a => w.getD a 0) hc hi]
  refine hw c hc x ?_ hx hdx
  refine ⟨(dataAt F c).lo, (dataAt F c).hi, by rw [h.coord hc]; rfl, by rw [h.coord hc]; rfl, ?_⟩
  have hp := h.pos hc
  rw [h.coord hc] at hi
  have := Option.some.inj hi
  fin_cases i
  · have e1 : (dataAt F c).lo = x := this
    constructor <;> linarith
  · have e1 : (dataAt F c).hi = x := this
    constructor <;> linarith

/-- **C72** (from the mesh to the solution).  Take any mesh on points `x₀ < … < xₙ` after any history of refinement and dof distribution.
`distribute_dofs`, `mark_region` for the Dirichlet ends, `add_dirichlet` and `mark_region` for the flux ends succeed and set up the problem. -/
theorem C72_setup (hx : xs.IsChain (· < ·)) (hl : 2 ≤ xs.length) (he : torn e = false) {D0 : DH} {V0 : DV ℝ} (hu : UsesV close xs false e F D0 V0)
    {m : Nat} (hm : nCells F ≤ m) (dir neu : ℝ → Bool) (g : ℝ → ℝ) :
    ∃ D V L md d mk, distributeV close false (inSub none) e F m D0 V0 = some (D, V) ∧ leaves1 (inSub none) F m = some L ∧
      markV dir true false (inSub none) F m (fun _ => false) = some md ∧
      addDirichletA (some md) true false (inSub none) F m e D V g [] = some d ∧
      markV neu true false (inSub none) F m (fun _ => false) = some mk ∧
      Setting close xs e none m F D V L ∧ BndDict xs none F D dir g d ∧ BndMark xs none F neu mk := by
  have hN : false = true → 3 ≤ xs.length := fun h => by cases h
  have hq : e ≠ .DQ0 := by rintro rfl; simp [torn] at he
  obtain ⟨D, V, hd⟩ := C71_terminates hN hu none m hm (submesh_rooted (submesh_none F))
  obtain ⟨h1, h2⟩ := C71_ready hx hN he hu m hm hd
  obtain ⟨L, h3, _, _⟩ := leaves1_spec h1.uses.bis (inSub none) m hm
  obtain ⟨md, d, h4, h5, h6, h7⟩ := C71_marked_dirichlet_partial hx hl hq h1 none (submesh_none F) h2 m hm dir g
  obtain ⟨mk, h8, h9⟩ := C71_mark_partial hx hl h1.uses none m hm neu (fun _ => false) true (fun _ => rfl)
  refine ⟨D, V, L, md, d, mk, hd, h3, h4, h5, h8, ⟨hx, hl, he, h1, submesh_none F, h2, hm, h3⟩, ⟨h6, h7⟩, fun c i x hc hx => ?_⟩
  rw [h9 c i x hc hx]
  simp [IsEnd]

end
end Verif.Bvp
