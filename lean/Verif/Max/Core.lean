import Verif.Bvp.Props

/-!
# The maximum principle for linear elements on a one-dimensional mesh

The computation of C72 (`Mesh1D`, `DofHandler`, `Assembler.assemble`, `solve`; assembler.py 2340-2440, 1177-1406, 3330-3535) with the linear element
`Q1` (fem.py 44-118).
-/

namespace Verif.Max
open Verif.Line Verif.OneD Verif.Fem Verif.Form Verif.Asm Verif.Geom Verif.Gauss Verif.Bvp
open Verif.Dir (consOf look look_mem)
open Verif.Gal (map_sub)

theorem loc_q1 (d : Itv ℝ) (w : Nat → ℝ) (x : ℝ) : loc d .Q1 w x = w 0 * (1 - toRef d x) + w 1 * toRef d x := by
  have : nd1 .Q1 = 2 := rfl
  simp [loc, this, Finset.sum_range_succ, tb, pTab]

theorem dloc_q1 (d : Itv ℝ) (w : Nat → ℝ) (x : ℝ) : dloc d .Q1 w x = jacP2R d * (w 1 - w 0) := by
  have : nd1 .Q1 = 2 := rfl
  simp [dloc, this, Finset.sum_range_succ, tb, pxTab]
  ring

theorem ref_in {d : Itv ℝ} (hd : d.lo < d.hi) {x : ℝ} (h1 : d.lo ≤ x) (h2 : x ≤ d.hi) : 0 ≤ toRef d x ∧ toRef d x ≤ 1 := by
  have : 0 < d.hi - d.lo := by linarith
  refine ⟨div_nonneg (by linarith) this.le, ?_⟩
  unfold toRef
  rw [div_le_one this]
  linarith

theorem loc_nonneg {d : Itv ℝ} (hd : d.lo < d.hi) {w : Nat → ℝ} (h0 : 0 ≤ w 0) (h1 : 0 ≤ w 1) {x : ℝ} (hx1 : d.lo ≤ x) (hx2 : x ≤ d.hi) :
    0 ≤ loc d .Q1 w x := by
  obtain ⟨r0, r1⟩ := ref_in hd hx1 hx2
  rw [loc_q1]
  exact add_nonneg (mul_nonneg h0 (by linarith)) (mul_nonneg h1 r0)

/-- The negative part. -/
noncomputable def neg (U : Nat → ℝ) (a : Nat) : ℝ := max (-(U a)) 0

theorem neg_nonneg' (U : Nat → ℝ) (a : Nat) : 0 ≤ neg U a := le_max_right _ _

theorem neg_prod (U : Nat → ℝ) (a b : Nat) : (neg U b - neg U a) * (U b - U a) ≤ -((neg U b - neg U a) * (neg U b - neg U a)) := by
  unfold neg
  rcases le_total (-(U a)) 0 with h1 | h1 <;> rcases le_total (-(U b)) 0 with h2 | h2
  · rw [max_eq_right h1, max_eq_right h2]; nlinarith
  · rw [max_eq_right h1, max_eq_left h2]; nlinarith
  · rw [max_eq_left h1, max_eq_right h2]; nlinarith
  · rw [max_eq_left h1, max_eq_left h2]; nlinarith

theorem sum_le_neg {α : Type} (l : List α) (f g : α → ℝ) (h : ∀ a ∈ l, f a ≤ -g a) : (l.map f).sum ≤ -(l.map g).sum := by
  induction l with
  | nil => simp
  | cons a l ih =>
    simp only [List.map_cons, List.sum_cons]
    have := h a List.mem_cons_self
    have := ih (fun b hb => h b (List.mem_cons_of_mem _ hb))
    linarith

section
variable {close : ℝ → ℝ → Bool} {xs : List ℝ} {sf : Option Nat} {m : Nat} {F : List (Cell ℝ)} {D : DH} {V : DV ℝ} {L : List IN}
variable {n j : Nat} {re : List (ℝ × ℝ)} {k kf kn kf' kn' : Kernel ℝ} {dir neu : ℝ → Bool} {g g' : ℝ → ℝ} {mk : VX → Bool}

/-- The points of the rule are in the leaf, the weights positive. -/
theorem point_in (hre : Gauss.rule1 n = .ok re) {d : Itv ℝ} (hd : d.lo < d.hi) {p : ℝ × ℝ × ℝ} (hp : p ∈ points1 re d) :
    d.lo ≤ p.2.1 ∧ p.2.1 ≤ d.hi ∧ 0 < p.2.2 := by
  simp only [points1, List.mem_map] at hp
  obtain ⟨q, hq, rfl⟩ := hp
  have := (C32_weights1 n re hre).2 q hq
  have hL : 0 < jacR2P d := by simp only [jacR2P]; linarith
  exact ⟨(phys_in hd this.2.1 this.2.2).1, (phys_in hd this.2.1 this.2.2).2, mul_pos this.1 hL⟩

/-- If the energy of `U` with every nonnegative test function is nonnegative, and `U` is nonnegative at the Dirichlet ends, `U` is nonnegative. -/
theorem nonneg (h : Setting close xs .Q1 sf m F D V L) (hre : Gauss.rule1 n = .ok re) {S : Nat} (hS : sampleSize k = .ok S)
    (hk : ∀ x, InDom xs x → 0 < k.eval S x j) {y : ℝ} (hy : IsEnd xs y) (hdy : dir y = true) {U : Nat → ℝ}
    (hU : ∀ x, IsEnd xs x → dir x = true → 0 ≤ atX F D L U x)
    (hE : ∀ v : Nat → ℝ, (∀ a, 0 ≤ v a) → (∀ x, IsEnd xs x → dir x = true → atX F D L v x = 0) →
      0 ≤ total2 (contribs1 .Q1 (stiffness k) re j F D L) v U) : ∀ c ∈ L, ∀ p < nd1 .Q1, 0 ≤ U (dof D c p) := by
  have hv : ∀ x, IsEnd xs x → dir x = true → atX F D L (neg U) x = 0 := by
    intro x hx hdx
    obtain ⟨c, hc, i, hi⟩ := h.end_leaf hx
    have := hU x hx hdx
    rw [h.atX U hc hi] at this
    rw [h.atX (neg U) hc hi]
    exact max_eq_right (by linarith)
  have h1 := hE (neg U) (neg_nonneg' U) hv
  have hq : ∀ w w' : Nat → ℝ, total2 (contribs1 .Q1 (stiffness k) re j F D L) w w' = (L.map (fun c => ((points1 re (dataAt F c)).map (fun p =>
      p.2.2 * (k.eval S p.2.1 j * dloc (dataAt F c) .Q1 (fun a => w (dof D c a)) p.2.1 * dloc (dataAt F c) .Q1 (fun a => w' (dof D c a)) p.2.1))).sum)).sum := by
    intro w w'
    rw [total2_leaves h]
    congr 1
    exact List.map_congr_left (fun c hc => bil_quad hre hS (h.pos hc) .Q1 j _ _)
  have h2 : total2 (contribs1 .Q1 (stiffness k) re j F D L) (neg U) U ≤ -total2 (contribs1 .Q1 (stiffness k) re j F D L) (neg U) (neg U) := by
    rw [hq, hq]
    refine sum_le_neg _ _ _ (fun c hc => sum_le_neg _ _ _ (fun p hp => ?_))
    obtain ⟨p1, p2, p3⟩ := point_in hre (h.pos hc) hp
    have hkp := hk _ (h.inside hc p1 p2)
    simp only [dloc_q1]
    have := mul_le_mul_of_nonneg_left (neg_prod U (dof D c 0) (dof D c 1))
      (mul_nonneg (mul_nonneg p3.le hkp.le) (mul_self_nonneg (jacP2R (dataAt F c))))
    nlinarith [this]
  have h3 : 0 ≤ total2 (contribs1 .Q1 (stiffness k) re j F D L) (neg U) (neg U) := by
    rw [hq]
    refine List.sum_nonneg (fun z hz => ?_)
    obtain ⟨c, hc, rfl⟩ := List.mem_map.1 hz
    refine List.sum_nonneg (fun z hz => ?_)
    obtain ⟨p, hp, rfl⟩ := List.mem_map.1 hz
    obtain ⟨p1, p2, p3⟩ := point_in hre (h.pos hc) hp
    rw [mul_assoc (k.eval _ _ _)]
    exact mul_nonneg p3.le (mul_nonneg (hk _ (h.inside hc p1 p2)).le (mul_self_nonneg _))
  have h4 := definite h hre (rule_eq hre).2 hS hk hy (hv y hy hdy) (le_antisymm (by linarith) h3)
  intro c hc p hp
  have := h4 c hc p hp
  have h5 := le_max_left (-(U (dof D c p))) 0
  unfold neg at this
  linarith

/-- The load: values at the points of the rule and at the flux ends. -/
theorem load_form (h : Setting close xs .Q1 sf m F D V L) (hre : Gauss.rule1 n = .ok re) {Sf Sn : Nat} (hSf : sampleSize kf = .ok Sf)
    (hSn : sampleSize kn = .ok Sn) (hm : BndMark xs sf F neu mk) {a b : ℝ} (ha : xs.head? = some a) (hb : xs.getLast? = some b) (v : Nat → ℝ) :
    total1 (loads1 .Q1 (rhs kf kn mk) re j F D L) v = (L.map (fun c => ((points1 re (dataAt F c)).map (fun p =>
      p.2.2 * (kf.eval Sf p.2.1 j * loc (dataAt F c) .Q1 (fun a => v (dof D c a)) p.2.1))).sum)).sum +
      ((if neu a then kn.eval Sn a j * atX F D L v a else 0) + if neu b then kn.eval Sn b j * atX F D L v b else 0) := by
  rw [total1_leaves h, map_add, neumann h hSn hm ha hb]
  congr 2
  exact List.map_congr_left (fun c hc => lin_quad hre hSf (h.pos hc) .Q1 j _)

theorem atX_nonneg {v : Nat → ℝ} (hv : ∀ a, 0 ≤ v a) (x : ℝ) : 0 ≤ atX F D L v x := by
  unfold atX
  split_ifs
  · exact hv _
  · exact le_rfl

/-- Larger data, larger load. -/
theorem load_le (h : Setting close xs .Q1 sf m F D V L) (hre : Gauss.rule1 n = .ok re) {Sf Sn Sf' Sn' : Nat} (hSf : sampleSize kf = .ok Sf)
    (hSn : sampleSize kn = .ok Sn) (hSf' : sampleSize kf' = .ok Sf') (hSn' : sampleSize kn' = .ok Sn') (hm : BndMark xs sf F neu mk)
    (hf : ∀ x, InDom xs x → kf.eval Sf x j ≤ kf'.eval Sf' x j) (hn : ∀ x, IsEnd xs x → neu x = true → kn.eval Sn x j ≤ kn'.eval Sn' x j)
    {v : Nat → ℝ} (hv : ∀ a, 0 ≤ v a) :
    total1 (loads1 .Q1 (rhs kf kn mk) re j F D L) v ≤ total1 (loads1 .Q1 (rhs kf' kn' mk) re j F D L) v := by
  obtain ⟨a, b, bs, ha, hb, hab, ht, hp⟩ := h.tiles
  rw [load_form h hre hSf hSn hm ha hb, load_form h hre hSf' hSn' hm ha hb]
  refine add_le_add (List.sum_le_sum (fun c hc => List.sum_le_sum (fun p hp => ?_))) (add_le_add ?_ ?_)
  · obtain ⟨p1, p2, p3⟩ := point_in hre (h.pos hc) hp
    exact mul_le_mul_of_nonneg_left (mul_le_mul_of_nonneg_right (hf _ (h.inside hc p1 p2)) (loc_nonneg (h.pos hc) (hv (dof D c 0)) (hv (dof D c 1)) p1 p2
      (w := fun a => v (dof D c a)))) p3.le
  · split_ifs with hna
    · exact mul_le_mul_of_nonneg_right (hn a (.inl ha) hna) (atX_nonneg hv a)
    · exact le_rfl
  · split_ifs with hnb
    · exact mul_le_mul_of_nonneg_right (hn b (.inr hb) hnb) (atX_nonneg hv b)
    · exact le_rfl

/-- Data of one sign, load of one sign (`s` is `1` or `-1`). -/
theorem load_sign (h : Setting close xs .Q1 sf m F D V L) (hre : Gauss.rule1 n = .ok re) {Sf Sn : Nat} (hSf : sampleSize kf = .ok Sf)
    (hSn : sampleSize kn = .ok Sn) (hm : BndMark xs sf F neu mk) {s : ℝ} (hf : ∀ x, InDom xs x → 0 ≤ s * kf.eval Sf x j)
    (hn : ∀ x, IsEnd xs x → neu x = true → 0 ≤ s * kn.eval Sn x j) {v : Nat → ℝ} (hv : ∀ a, 0 ≤ v a) :
    0 ≤ s * total1 (loads1 .Q1 (rhs kf kn mk) re j F D L) v := by
  obtain ⟨a, b, bs, ha, hb, hab, ht, hp⟩ := h.tiles
  rw [load_form h hre hSf hSn hm ha hb, mul_add, mul_add, ← List.sum_map_mul_left]
  refine add_nonneg (List.sum_nonneg (fun z hz => ?_)) (add_nonneg ?_ ?_)
  · obtain ⟨c, hc, rfl⟩ := List.mem_map.1 hz
    rw [← List.sum_map_mul_left]
    refine List.sum_nonneg (fun z hz => ?_)
    obtain ⟨p, hp, rfl⟩ := List.mem_map.1 hz
    obtain ⟨p1, p2, p3⟩ := point_in hre (h.pos hc) hp
    have := mul_nonneg (mul_nonneg p3.le (hf _ (h.inside hc p1 p2))) (loc_nonneg (h.pos hc) (hv (dof D c 0)) (hv (dof D c 1)) p1 p2 (w := fun a => v (dof D c a)))
    calc (0 : ℝ) ≤ _ := this
      _ = _ := by ring
  · split_ifs with hna
    · rw [← mul_assoc]
      exact mul_nonneg (hn a (.inl ha) hna) (atX_nonneg hv a)
    · simp
  · split_ifs with hnb
    · rw [← mul_assoc]
      exact mul_nonneg (hn b (.inr hb) hnb) (atX_nonneg hv b)
    · simp

theorem total2_const (h : Setting close xs .Q1 sf m F D V L) (hre : Gauss.rule1 n = .ok re) {S : Nat} (hS : sampleSize k = .ok S) (v : Nat → ℝ) (M : ℝ) :
    total2 (contribs1 .Q1 (stiffness k) re j F D L) v (fun _ => M) = 0 := by
  rw [total2_leaves h]
  refine List.sum_eq_zero (fun z hz => ?_)
  obtain ⟨c, hc, rfl⟩ := List.mem_map.1 hz
  have := bil_quad hre hS (h.pos hc) .Q1 j (fun a => v (dof D c a)) (fun _ => M)
  rw [this]
  refine List.sum_eq_zero (fun z hz => ?_)
  obtain ⟨p, hp, rfl⟩ := List.mem_map.1 hz
  simp only [dloc_q1]
  ring

theorem total2_scale (h : Setting close xs .Q1 sf m F D V L) (s : ℝ) (v w : Nat → ℝ) :
    total2 (contribs1 .Q1 (stiffness k) re j F D L) v (fun a => s * w a) = s * total2 (contribs1 .Q1 (stiffness k) re j F D L) v w := by
  rw [total2_leaves h, total2_leaves h, ← List.sum_map_mul_left]
  congr 1
  refine List.map_congr_left (fun c _ => ?_)
  rw [Finset.mul_sum]
  refine Finset.sum_congr rfl (fun a _ => ?_)
  rw [Finset.mul_sum]
  refine Finset.sum_congr rfl (fun i _ => ?_)
  ring

/-- From the dofs to the function. -/
theorem fn_nonneg (h : Setting close xs .Q1 sf m F D V L) {U : Nat → ℝ} (hU : ∀ c ∈ L, ∀ p < nd1 .Q1, 0 ≤ U (dof D c p)) {c : IN} (hc : c ∈ L) {x : ℝ}
    (hx : On F c x) : 0 ≤ feFn .Q1 F D U c x := by
  obtain ⟨lo, hi, h0, h1, h2, h3⟩ := hx
  rw [h.coord hc] at h0 h1
  have e0 : (dataAt F c).lo = lo := Option.some.inj h0
  have e1 : (dataAt F c).hi = hi := Option.some.inj h1
  rw [feFn_loc]
  exact loc_nonneg (h.pos hc) (hU c hc 0 (by decide)) (hU c hc 1 (by decide)) (by rw [e0]; exact h2) (by rw [e1]; exact h3)

theorem feFn_q1 (U : Nat → ℝ) (c : IN) (x : ℝ) :
    feFn .Q1 F D U c x = U (dof D c 0) * (1 - toRef (dataAt F c) x) + U (dof D c 1) * toRef (dataAt F c) x := by
  rw [feFn_loc, loc_q1]

end
end Verif.Max
