import Verif.Bvp.Local
import Verif.Gal.Solve

/-!
# The discrete problem on a one-dimensional mesh
-/

namespace Verif.Bvp
open Verif.Line Verif.OneD Verif.Fem Verif.Form Verif.Asm Verif.Geom Verif.Gauss
open Verif.Dir (consOf look look_mem)
open Verif.Gal (localLin_range map_sub level_acyclic)
open MeasureTheory

/-- The dictionary of Dirichlet values holds `g(x)` for the dofs at the ends where `dir` holds, and nothing else. -/
def BndDict (xs : List ℝ) (sf : Option Nat) (F : List (Cell ℝ)) (D : DH) (dir : ℝ → Bool) (g : ℝ → ℝ) (d : List (Nat × ℝ)) : Prop :=
  (d.map (·.1)).Nodup ∧ ∀ a v, look d a = some v ↔ ∃ c i x, IsLeaf (inSub sf) F c ∧ coord F c i = some x ∧ IsEnd xs x ∧ dir x = true ∧
    val D c i.1 = some a ∧ v = g x

/-- On the leaves the marker marks the ends where `neu` holds, and nothing else. -/
def BndMark (xs : List ℝ) (sf : Option Nat) (F : List (Cell ℝ)) (neu : ℝ → Bool) (mk : VX → Bool) : Prop :=
  ∀ c i x, IsLeaf (inSub sf) F c → coord F c i = some x → (mk (vertOf c i) = true ↔ neu x = true ∧ IsEnd xs x)

/-- The kernels are the polynomials `κ` (positive on the domain) and `f`, and the quadrature rule is exact for the forms. -/
structure Data (xs : List ℝ) (e : ET) (n j : Nat) (re : List (ℝ × ℝ)) (k kf : Kernel ℝ) (κ f : Polynomial ℝ) : Prop where
  rule : Gauss.rule1 n = .ok re
  five : n ≤ 5
  degk : κ.natDegree + 2 * deg e ≤ 2 * n + 1
  degf : f.natDegree + deg e ≤ 2 * n - 1
  pos : ∀ x, InDom xs x → 0 < κ.eval x
  diff : IsPoly k j κ
  load : IsPoly kf j f

section
variable {close : ℝ → ℝ → Bool} {xs : List ℝ} {e : ET} {sf : Option Nat} {m : Nat} {F : List (Cell ℝ)} {D : DH} {V : DV ℝ} {L : List IN}
variable {n j : Nat} {re : List (ℝ × ℝ)} {k kf kn : Kernel ℝ} {κ f : Polynomial ℝ} {dir neu : ℝ → Bool} {g gN : ℝ → ℝ} {mk : VX → Bool}

theorem total2_leaves (h : Setting close xs e sf m F D V L) (k : Kernel ℝ) (v w : Nat → ℝ) :
    total2 (contribs1 e (stiffness k) re j F D L) v w = (L.map (fun c => ∑ a ∈ Finset.range (nd1 e), ∑ i ∈ Finset.range (nd1 e),
      v (dof D c a) * Fem.val (evalBil1 k ⟨e, [1, 0]⟩ ⟨e, [1, 0]⟩ none re (dataAt F c) a i j) * w (dof D c i))).sum := by
  unfold total2 contribs1
  simp only [List.map_map]
  congr 1
  refine List.map_congr_left (fun c hc => ?_)
  obtain ⟨h1, h2, _⟩ := h.row hc
  simp only [Function.comp, stiffness, List.map_cons, List.map_nil, List.sum_cons, List.sum_nil, add_zero]
  rw [localBilin_range, h1]
  refine Finset.sum_congr rfl (fun a ha => Finset.sum_congr rfl (fun i hi => ?_))
  rw [h2 a (Finset.mem_range.1 ha), h2 i (Finset.mem_range.1 hi)]

theorem total1_leaves (h : Setting close xs e sf m F D V L) (kf kn : Kernel ℝ) (mk : VX → Bool) (v : Nat → ℝ) :
    total1 (loads1 e (rhs kf kn mk) re j F D L) v = (L.map (fun c =>
      ∑ a ∈ Finset.range (nd1 e), v (dof D c a) * Fem.val (evalLin1 kf ⟨e, [0]⟩ none re (dataAt F c) a j) +
      ∑ a ∈ Finset.range (nd1 e), v (dof D c a) * Fem.val (evalLinV kn ⟨e, [0]⟩ (fun i => mk (vertOf c i)) (dataAt F c) a j))).sum := by
  unfold total1 loads1
  simp only [List.map_map]
  congr 1
  refine List.map_congr_left (fun c hc => ?_)
  obtain ⟨h1, h2, _⟩ := h.row hc
  simp only [Function.comp, rhs, List.map_cons, List.map_nil, List.sum_cons, List.sum_nil, add_zero]
  rw [localLin_range, localLin_range, h1]
  congr 1
  · refine Finset.sum_congr rfl (fun a ha => ?_)
    rw [h2 a (Finset.mem_range.1 ha)]
    rfl
  · refine Finset.sum_congr rfl (fun a ha => ?_)
    rw [h2 a (Finset.mem_range.1 ha)]
    rfl

theorem map_add {α : Type} (l : List α) (f g : α → ℝ) : (l.map (fun a => f a + g a)).sum = (l.map f).sum + (l.map g).sum := by
  induction l with
  | nil => simp
  | cons a l ih =>
    simp only [List.map_cons, List.sum_cons, ih]
    ring

/-- The bilinear form is the integral of `κ v' w'`. -/
theorem total2_exact (h : Setting close xs e sf m F D V L) (hd : Data xs e n j re k kf κ f) (v w : Nat → ℝ) :
    total2 (contribs1 e (stiffness k) re j F D L) v w = (L.map (fun c => ∫ x in (dataAt F c).lo..(dataAt F c).hi,
      κ.eval x * dloc (dataAt F c) e (fun a => v (dof D c a)) x * dloc (dataAt F c) e (fun a => w (dof D c a)) x)).sum := by
  rw [total2_leaves h]
  congr 1
  refine List.map_congr_left (fun c hc => ?_)
  obtain ⟨S, hS, hk⟩ := hd.diff
  exact bil_exact hd.rule hd.five hS (h.pos hc) h.cont hk hd.degk _ _

/-- The vertex loads act at the ends of the domain only. -/
theorem neumann (h : Setting close xs e sf m F D V L) {S : Nat} (hS : sampleSize kn = .ok S) (hm : BndMark xs sf F neu mk)
    {a b : ℝ} (ha : xs.head? = some a) (hb : xs.getLast? = some b) (v : Nat → ℝ) :
    (L.map (fun c => ∑ a ∈ Finset.range (nd1 e), v (dof D c a) * Fem.val (evalLinV kn ⟨e, [0]⟩ (fun i => mk (vertOf c i)) (dataAt F c) a j))).sum =
      (if neu a then kn.eval S a j * atX F D L v a else 0) + if neu b then kn.eval S b j * atX F D L v b else 0 := by
  set Ta := if neu a then kn.eval S a j * atX F D L v a else 0 with hTa
  set Tb := if neu b then kn.eval S b j * atX F D L v b else 0 with hTb
  obtain ⟨a', b', bs, ha', hb', hab, ht, hp⟩ := h.tiles
  rw [ha] at ha'
  rw [hb] at hb'
  cases ha'
  cases hb'
  have key := h.telescope (fun x => (if x = b then Tb else 0) - if x = a then Ta else 0) ha hb
  rw [if_pos rfl, if_neg hab.ne', if_neg hab.ne, if_pos rfl] at key
  rw [show Ta + Tb = Tb - 0 - (0 - Ta) by ring, ← key]
  congr 1
  refine List.map_congr_left (fun c hc => ?_)
  obtain ⟨p1, p2, p3⟩ := (tiles_mem ht).2 _ (hp.mem_iff.2 (List.mem_map.2 ⟨c, hc, rfl⟩))
  simp only at p1 p2 p3
  have hc0 : coord F c 0 = some (dataAt F c).lo := by rw [h.coord hc]; rfl
  have hc1 : coord F c 1 = some (dataAt F c).hi := by rw [h.coord hc]; rfl
  have hend : ∀ x, IsEnd xs x ↔ x = a ∨ x = b := by
    intro x
    unfold IsEnd
    rw [ha, hb]
    simp [eq_comm]
  rw [vert_sum hS (h.pos hc) h.cont, if_neg (show (dataAt F c).lo ≠ b by linarith), if_neg (show (dataAt F c).hi ≠ a by linarith)]
  have e0 : (if mk (vertOf c 0) then v (dof D c 0) * kn.eval S (dataAt F c).lo j else 0) = if (dataAt F c).lo = a then Ta else 0 := by
    have h1 := hm c 0 _ ((h.mem c).1 hc) hc0
    rw [hend] at h1
    by_cases hla : (dataAt F c).lo = a
    · rw [if_pos hla, hTa]
      have hW := h.atX v hc hc0
      rw [hla] at hW h1
      by_cases hn : neu a = true
      · rw [if_pos (h1.2 ⟨hn, .inl rfl⟩), if_pos hn, hW, hla, mul_comm]
        rfl
      · rw [if_neg hn, if_neg (fun h2 => hn (h1.1 h2).1)]
    · rw [if_neg hla, if_neg]
      intro h2
      rcases (h1.1 h2).2 with h3 | h3
      · exact hla h3
      · linarith
  have e1 : (if mk (vertOf c 1) then v (dof D c 1) * kn.eval S (dataAt F c).hi j else 0) = if (dataAt F c).hi = b then Tb else 0 := by
    have h1 := hm c 1 _ ((h.mem c).1 hc) hc1
    rw [hend] at h1
    by_cases hla : (dataAt F c).hi = b
    · rw [if_pos hla, hTb]
      have hW := h.atX v hc hc1
      rw [hla] at hW h1
      by_cases hn : neu b = true
      · rw [if_pos (h1.2 ⟨hn, .inr rfl⟩), if_pos hn, hW, hla, mul_comm]
        rfl
      · rw [if_neg hn, if_neg (fun h2 => hn (h1.1 h2).1)]
    · rw [if_neg hla, if_neg]
      intro h2
      rcases (h1.1 h2).2 with h3 | h3
      · linarith
      · exact hla h3
  rw [e0, e1]
  ring

/-- The classical solution satisfies the discrete equations. -/
theorem weak (h : Setting close xs e sf m F D V L) (hd : Data xs e n j re k kf κ f) {S : Nat} (hS : sampleSize kn = .ok S) (hm : BndMark xs sf F neu mk)
    {u u' : ℝ → ℝ} (hu : Classical xs (fun x => κ.eval x) (fun x => f.eval x) dir neu g (fun x => kn.eval S x j) u u') {v : Nat → ℝ}
    (hv : ∀ x, IsEnd xs x → dir x = true → atX F D L v x = 0) :
    total1 (loads1 e (rhs kf kn mk) re j F D L) v = (L.map (fun c => ∫ x in (dataAt F c).lo..(dataAt F c).hi,
      κ.eval x * u' x * dloc (dataAt F c) e (fun a => v (dof D c a)) x)).sum := by
  obtain ⟨a, b, bs, ha, hb, hab, ht, hp⟩ := h.tiles
  rw [total1_leaves h, map_add, neumann h hS hm ha hb]
  obtain ⟨Sf, hSf, hf⟩ := hd.load
  have h1 : ∀ c ∈ L, ∑ a ∈ Finset.range (nd1 e), v (dof D c a) * Fem.val (evalLin1 kf ⟨e, [0]⟩ none re (dataAt F c) a j) =
      (∫ x in (dataAt F c).lo..(dataAt F c).hi, κ.eval x * u' x * dloc (dataAt F c) e (fun a => v (dof D c a)) x) -
      (κ.eval (dataAt F c).hi * u' (dataAt F c).hi * atX F D L v (dataAt F c).hi - κ.eval (dataAt F c).lo * u' (dataAt F c).lo * atX F D L v (dataAt F c).lo) := by
    intro c hc
    rw [lin_exact hd.rule hd.five hSf (h.pos hc) e hf hd.degf,
      by_parts (h.pos hc) h.cont _ (q := fun x => κ.eval x * u' x) (f := fun x => f.eval x) f.continuous
        (fun x h1 h2 => hu.flux x (h.inside hc h1 h2)),
      h.atX v hc (i := 0) (x := (dataAt F c).lo) (by rw [h.coord hc]; rfl), h.atX v hc (i := 1) (x := (dataAt F c).hi) (by rw [h.coord hc]; rfl)]
    simp only [Fin.val_zero, Fin.val_one]
    ring
  rw [List.map_congr_left h1, map_sub, h.telescope (fun x => κ.eval x * u' x * atX F D L v x) ha hb]
  have hA : κ.eval a * u' a * atX F D L v a = -if neu a then kn.eval S a j * atX F D L v a else 0 := by
    cases hda : dir a with
    | true => rw [hv a (.inl ha) hda]; simp
    | false =>
      have := hu.left a ha hda
      have h2 : κ.eval a * u' a = -if neu a then kn.eval S a j else 0 := by linarith
      rw [h2]
      split_ifs <;> ring
  have hB : κ.eval b * u' b * atX F D L v b = if neu b then kn.eval S b j * atX F D L v b else 0 := by
    cases hdb : dir b with
    | true => rw [hv b (.inr hb) hdb]; simp
    | false =>
      have h2 := hu.right b hb hdb
      rw [h2]
      split_ifs <;> ring
  rw [hA, hB]
  ring

/-- A function of zero energy that vanishes at one end is zero. -/
theorem definite (h : Setting close xs e sf m F D V L) (hre : Gauss.rule1 n = .ok re) (hn : deg e ≤ n) {S : Nat} (hS : sampleSize k = .ok S)
    (hk : ∀ x, InDom xs x → 0 < k.eval S x j) {y : ℝ} (hy : IsEnd xs y) {w : Nat → ℝ} (hw : atX F D L w y = 0)
    (h0 : total2 (contribs1 e (stiffness k) re j F D L) w w = 0) : ∀ c ∈ L, ∀ p < nd1 e, w (dof D c p) = 0 := by
  rw [total2_leaves h] at h0
  have hq : ∀ c ∈ L, ∑ a ∈ Finset.range (nd1 e), ∑ i ∈ Finset.range (nd1 e),
      w (dof D c a) * Fem.val (evalBil1 k ⟨e, [1, 0]⟩ ⟨e, [1, 0]⟩ none re (dataAt F c) a i j) * w (dof D c i) =
      ((points1 re (dataAt F c)).map (fun p => p.2.2 * (k.eval S p.2.1 j * dloc (dataAt F c) e (fun a => w (dof D c a)) p.2.1 *
        dloc (dataAt F c) e (fun a => w (dof D c a)) p.2.1))).sum := fun c hc => bil_quad hre hS (h.pos hc) e j _ _
  rw [List.map_congr_left hq] at h0
  have key := sum_zero L _ (fun c hc => by
    refine List.sum_nonneg (fun z hz => ?_)
    simp only [points1, List.mem_map] at hz
    obtain ⟨p, ⟨q, hq, rfl⟩, rfl⟩ := hz
    have := (C32_weights1 n re hre).2 q hq
    have hL : 0 < jacR2P (dataAt F c) := by have := h.pos hc; simp only [jacR2P]; linarith
    simp only
    rw [mul_assoc (k.eval _ _ _)]
    exact mul_nonneg (mul_nonneg this.1.le hL.le) (mul_nonneg (hk _ (h.inside hc (phys_in (h.pos hc) this.2.1 this.2.2).1 (phys_in (h.pos hc) this.2.1 this.2.2).2)).le (mul_self_nonneg _))) h0
  have hcc : ∀ c ∈ L, ∀ p < nd1 e, w (dof D c p) = w (dof D c 0) := fun c hc =>
    cell_const hre (h.pos hc) h.cont hn (κ := fun x => k.eval S x j) (fun x h1 h2 => hk x (h.inside hc h1 h2)) (key c hc)
  have hn1 := h.nd.1
  have hz := h.const w (fun c hc => (hcc c hc 1 hn1).symm) hy
  intro c hc p hp
  rw [hcc c hc p hp, (hz c hc).1, hw]

theorem total2_sub (h : Setting close xs e sf m F D V L) (v x y : Nat → ℝ) : total2 (contribs1 e (stiffness k) re j F D L) v (fun a => x a - y a) =
    total2 (contribs1 e (stiffness k) re j F D L) v x - total2 (contribs1 e (stiffness k) re j F D L) v y := by
  rw [total2_leaves h, total2_leaves h, total2_leaves h, ← map_sub]
  congr 1
  refine List.map_congr_left (fun c _ => ?_)
  rw [← Finset.sum_sub_distrib]
  refine Finset.sum_congr rfl (fun a _ => ?_)
  rw [← Finset.sum_sub_distrib]
  refine Finset.sum_congr rfl (fun i _ => ?_)
  ring

theorem atX_sub (x y : Nat → ℝ) (z : ℝ) : atX F D L (fun a => x a - y a) z = atX F D L x z - atX F D L y z := by
  unfold atX
  split_ifs
  · rfl
  · ring

/-- Some leaf has the end as a vertex. -/
theorem atX_end (h : Setting close xs e sf m F D V L) (v : Nat → ℝ) {x : ℝ} (hx : IsEnd xs x) :
    ∃ c ∈ L, ∃ i : Fin 2, coord F c i = some x ∧ atX F D L v x = v (dof D c i) := by
  obtain ⟨c, hc, i, hi⟩ := h.end_leaf hx
  exact ⟨c, hc, i, hi, h.atX v hc hi⟩

end
end Verif.Bvp
