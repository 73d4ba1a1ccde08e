import Verif.Max.Core

/-!
# C98: comparison, extreme values and stability for linear elements in one dimension

`−(κu')' = f` on the interval covered by a `Mesh1D`, solved with linear elements (C72).  No exactness of the quadrature rule is needed, no polynomial
data.
-/

namespace Verif.Max
open Verif.Line Verif.OneD Verif.Fem Verif.Form Verif.Asm Verif.Geom Verif.Gauss Verif.Bvp

section
variable {close : ℝ → ℝ → Bool} {xs : List ℝ} {sf : Option Nat} {m : Nat} {F : List (Cell ℝ)} {D : DH} {V : DV ℝ} {L : List IN}
variable {n j : Nat} {re : List (ℝ × ℝ)} {k kf kn kf' kn' : Kernel ℝ} {dir neu : ℝ → Bool} {g g' : ℝ → ℝ} {mk : VX → Bool}

/-- **C98** (comparison).  Two problems on one mesh with the same positive `κ`.  Where the load, the Dirichlet values and the fluxes of the second are at
least those of the first, what `solve` returns for the second is nowhere below what it returns for the first. -/
theorem C98_comparison (h : Setting close xs .Q1 sf m F D V L) (hre : Gauss.rule1 n = .ok re) {S : Nat} (hS : sampleSize k = .ok S)
    (hk : ∀ x, InDom xs x → 0 < k.eval S x j) (hm : BndMark xs sf F neu mk) {y : ℝ} (hy : IsEnd xs y) (hdy : dir y = true)
    {Sf Sn Sf' Sn' : Nat} (hSf : sampleSize kf = .ok Sf) (hSn : sampleSize kn = .ok Sn) (hSf' : sampleSize kf' = .ok Sf') (hSn' : sampleSize kn' = .ok Sn')
    (hf : ∀ x, InDom xs x → kf.eval Sf x j ≤ kf'.eval Sf' x j) (hg : ∀ x, IsEnd xs x → dir x = true → g x ≤ g' x)
    (hn : ∀ x, IsEnd xs x → neu x = true → kn.eval Sn x j ≤ kn'.eval Sn' x j)
    {d d' : List (Nat × ℝ)} (hd : BndDict xs sf F D dir g d) (hd' : BndDict xs sf F D dir g' d') {keep keep' fuel fuel'} {ord : List ℕ → List ℕ}
    (ho : SetOrder ord) (ha : Ascending ord) {z u z' u' : List ℝ} (hr : Solved .Q1 k kf kn mk re j F D L d keep fuel ord z u)
    (hr' : Solved .Q1 k kf' kn' mk re j F D L d' keep' fuel' ord z' u') :
    ∀ c ∈ L, ∀ x, On F c x → fn .Q1 F D u c x ≤ fn .Q1 F D u' c x := by
  have h1 := discrete h hd ho ha hr
  have h2 := discrete h hd' ho ha hr'
  have key := nonneg h hre hS hk hy hdy (U := fun a => u'.getD a 0 - u.getD a 0)
    (fun x hx hdx => by
      have e1 := h1.value x hx hdx
      have e2 := h2.value x hx hdx
      have := hg x hx hdx
      rw [atX_sub (fun a => u'.getD a 0) (fun a => u.getD a 0) x, e1, e2]
      linarith)
    (fun v hv hv0 => by
      rw [total2_sub h v (fun a => u'.getD a 0) (fun a => u.getD a 0), h1.eqn v hv0, h2.eqn v hv0]
      have := load_le h hre hSf hSn hSf' hSn' hm hf hn hv
      linarith)
  intro c hc x hx
  have := fn_nonneg h (U := fun a => u'.getD a 0 - u.getD a 0) key hc hx
  rw [feFn_q1] at this
  unfold fn
  rw [feFn_q1, feFn_q1]
  linarith

/-- The bound in terms of a sign. -/
theorem bound (h : Setting close xs .Q1 sf m F D V L) (hre : Gauss.rule1 n = .ok re) {S : Nat} (hS : sampleSize k = .ok S)
    (hk : ∀ x, InDom xs x → 0 < k.eval S x j) (hm : BndMark xs sf F neu mk) {y : ℝ} (hy : IsEnd xs y) (hdy : dir y = true)
    {Sf Sn : Nat} (hSf : sampleSize kf = .ok Sf) (hSn : sampleSize kn = .ok Sn) {s M : ℝ}
    (hf : ∀ x, InDom xs x → 0 ≤ s * kf.eval Sf x j) (hg : ∀ x, IsEnd xs x → dir x = true → 0 ≤ s * (g x - M))
    (hn : ∀ x, IsEnd xs x → neu x = true → 0 ≤ s * kn.eval Sn x j) {U : Nat → ℝ} (hU : Discrete xs .Q1 F D L j re k kf kn dir g mk U) :
    ∀ c ∈ L, ∀ x, On F c x → 0 ≤ s * (feFn .Q1 F D U c x - M) := by
  have key := nonneg h hre hS hk hy hdy (U := fun a => s * (U a - M))
    (fun x hx hdx => by
      have e1 := hU.value x hx hdx
      obtain ⟨c, hc, i, hi⟩ := h.end_leaf hx
      rw [h.atX _ hc hi] at e1 ⊢
      have := hg x hx hdx
      rw [e1]
      exact this)
    (fun v hv hv0 => by
      rw [total2_scale h s v (fun a => U a - M), total2_sub h v U (fun _ => M), hU.eqn v hv0, total2_const h hre hS, sub_zero]
      exact load_sign h hre hSf hSn hm hf hn hv)
  intro c hc x hx
  have := fn_nonneg h (U := fun a => s * (U a - M)) key hc hx
  rw [feFn_q1] at this
  rw [feFn_q1]
  linarith

/-- **C98** (smallest value).  No load and no flux is negative: no value is below the smaller of the Dirichlet values.  In particular, the answer is nonnegative if
the data are. -/
theorem C98_minimum (h : Setting close xs .Q1 sf m F D V L) (hre : Gauss.rule1 n = .ok re) {S : Nat} (hS : sampleSize k = .ok S)
    (hk : ∀ x, InDom xs x → 0 < k.eval S x j) (hm : BndMark xs sf F neu mk) {y : ℝ} (hy : IsEnd xs y) (hdy : dir y = true)
    {Sf Sn : Nat} (hSf : sampleSize kf = .ok Sf) (hSn : sampleSize kn = .ok Sn) {M : ℝ}
    (hf : ∀ x, InDom xs x → 0 ≤ kf.eval Sf x j) (hg : ∀ x, IsEnd xs x → dir x = true → M ≤ g x)
    (hn : ∀ x, IsEnd xs x → neu x = true → 0 ≤ kn.eval Sn x j) {d : List (Nat × ℝ)} (hd : BndDict xs sf F D dir g d) {keep fuel} {ord : List ℕ → List ℕ}
    (ho : SetOrder ord) (ha : Ascending ord) {z u : List ℝ} (hr : Solved .Q1 k kf kn mk re j F D L d keep fuel ord z u) :
    ∀ c ∈ L, ∀ x, On F c x → M ≤ fn .Q1 F D u c x := by
  intro c hc x hx
  have := bound h hre hS hk hm hy hdy hSf hSn (s := 1) (M := M) (fun x hx => by rw [one_mul]; exact hf x hx)
    (fun x hx hdx => by have := hg x hx hdx; linarith) (fun x hx hnx => by rw [one_mul]; exact hn x hx hnx) (discrete h hd ho ha hr) c hc x hx
  unfold fn
  linarith

/-- **C98** (largest value).  No load and no flux is positive: no value is above the larger of the Dirichlet values. -/
theorem C98_maximum (h : Setting close xs .Q1 sf m F D V L) (hre : Gauss.rule1 n = .ok re) {S : Nat} (hS : sampleSize k = .ok S)
    (hk : ∀ x, InDom xs x → 0 < k.eval S x j) (hm : BndMark xs sf F neu mk) {y : ℝ} (hy : IsEnd xs y) (hdy : dir y = true)
    {Sf Sn : Nat} (hSf : sampleSize kf = .ok Sf) (hSn : sampleSize kn = .ok Sn) {M : ℝ}
    (hf : ∀ x, InDom xs x → kf.eval Sf x j ≤ 0) (hg : ∀ x, IsEnd xs x → dir x = true → g x ≤ M)
    (hn : ∀ x, IsEnd xs x → neu x = true → kn.eval Sn x j ≤ 0) {d : List (Nat × ℝ)} (hd : BndDict xs sf F D dir g d) {keep fuel} {ord : List ℕ → List ℕ}
    (ho : SetOrder ord) (ha : Ascending ord) {z u : List ℝ} (hr : Solved .Q1 k kf kn mk re j F D L d keep fuel ord z u) :
    ∀ c ∈ L, ∀ x, On F c x → fn .Q1 F D u c x ≤ M := by
  intro c hc x hx
  have := bound h hre hS hk hm hy hdy hSf hSn (s := -1) (M := M) (fun x hx => by have := hf x hx; linarith)
    (fun x hx hdx => by have := hg x hx hdx; linarith) (fun x hx hnx => by have := hn x hx hnx; linarith) (discrete h hd ho ha hr) c hc x hx
  unfold fn
  linarith

/-- **C98** (stability).  The same load and fluxes, Dirichlet values that differ by at most `ε`: the answers differ by at most `ε` everywhere. -/
theorem C98_stable (h : Setting close xs .Q1 sf m F D V L) (hre : Gauss.rule1 n = .ok re) {S : Nat} (hS : sampleSize k = .ok S)
    (hk : ∀ x, InDom xs x → 0 < k.eval S x j) {y : ℝ} (hy : IsEnd xs y) (hdy : dir y = true) {ε : ℝ}
    (hg : ∀ x, IsEnd xs x → dir x = true → |g x - g' x| ≤ ε)
    {d d' : List (Nat × ℝ)} (hd : BndDict xs sf F D dir g d) (hd' : BndDict xs sf F D dir g' d') {keep keep' fuel fuel'} {ord : List ℕ → List ℕ}
    (ho : SetOrder ord) (ha : Ascending ord) {z u z' u' : List ℝ} (hr : Solved .Q1 k kf kn mk re j F D L d keep fuel ord z u)
    (hr' : Solved .Q1 k kf kn mk re j F D L d' keep' fuel' ord z' u') :
    ∀ c ∈ L, ∀ x, On F c x → |fn .Q1 F D u c x - fn .Q1 F D u' c x| ≤ ε := by
  have h1 := discrete h hd ho ha hr
  have h2 := discrete h hd' ho ha hr'
  have key : ∀ s : ℝ, s = 1 ∨ s = -1 → ∀ c ∈ L, ∀ p < nd1 .Q1, 0 ≤ s * ((fun a => u.getD a 0) (dof D c p) - u'.getD (dof D c p) 0) - -ε := by
    intro s hs
    refine nonneg h hre hS hk hy hdy (U := fun a => s * ((fun a => u.getD a 0) a - u'.getD a 0) - -ε) (fun x hx hdx => ?_) (fun v hv hv0 => ?_)
    · have e1 := h1.value x hx hdx
      have e2 := h2.value x hx hdx
      obtain ⟨c, hc, i, hi⟩ := h.end_leaf hx
      rw [h.atX _ hc hi] at e1 e2 ⊢
      have := abs_le.1 (hg x hx hdx)
      simp only at e1 e2 ⊢
      rw [e1, e2]
      rcases hs with rfl | rfl <;> linarith
    · rw [total2_sub h v (fun a => s * ((fun a => u.getD a 0) a - u'.getD a 0)) (fun _ => -ε),
        total2_scale h s v (fun a => (fun a => u.getD a 0) a - u'.getD a 0), total2_sub h v (fun a => u.getD a 0) (fun a => u'.getD a 0),
        h1.eqn v hv0, h2.eqn v hv0, total2_const h hre hS]
      simp
  intro c hc x hx
  have k1 := fn_nonneg h (U := fun a => (1 : ℝ) * (u.getD a 0 - u'.getD a 0) - -ε) (key 1 (.inl rfl)) hc hx
  have k2 := fn_nonneg h (U := fun a => (-1 : ℝ) * (u.getD a 0 - u'.getD a 0) - -ε) (key (-1) (.inr rfl)) hc hx
  rw [feFn_q1] at k1 k2
  unfold fn
  rw [feFn_q1, feFn_q1, abs_le]
  constructor <;> linarith

end
end Verif.Max
