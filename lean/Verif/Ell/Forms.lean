import Verif.Ell.Model
import Verif.Form.Definite

/-!
# The matrices of an elliptic field
-/

set_option linter.unusedSectionVars false

namespace Verif.Ell
open Verif.Mesh Verif.Dof Verif.Quad Verif.Fem Verif.Form Verif.Asm Verif.Phys Verif.Gal Verif.Sum Verif.Dir Matrix

section
variable {κ : Type} [DecidableEq κ]
variable {n1 n2 : Nat} {rc : List ((ℝ × ℝ) × ℝ)} {re : List (ℝ × ℝ)} {e : ET} {j : Nat} {cells : List (DCell κ)}

theorem kval_eq {k : Kernel (Pt ℝ)} {S : Nat} (hS : sampleSize k = .ok S) (x : Pt ℝ) : k.eval S x j = Neu.kval k j (x.x, x.y) := by
  unfold Neu.kval
  rw [hS]

theorem kval_one (x : ℝ × ℝ) : Neu.kval (one (Pt ℝ)) j x = 1 := by
  unfold Neu.kval
  rw [one_size]
  simp [Kernel.eval, Form.one]

theorem term_fields (hrc : Gauss.rule2 n2 = .ok rc) (hre : Gauss.rule1 n1 = .ok re) {k : Kernel (Pt ℝ)} (hS : ∃ S, sampleSize k = .ok S) {p q : List Nat}
    (hp : ValidDer p) (hq : ValidDer q) (d : DCell κ) (hlen : d.dofs.length = nd2 e) (v x : ℕ → ℝ) :
    localBilin d.dofs d.dofs (fun a i => Fem.val (evalBil k ⟨e, p⟩ ⟨e, q⟩ .dx none rc re d.c a i j)) v x =
      ((points rc re d.c .cell).map (fun y => y.w * (Neu.kval k j (y.x.x, y.x.y) * (fld e d p v y.ref * fld e d q x y.ref)))).sum := by
  obtain ⟨S, hS⟩ := hS
  rw [localBilin_range, hlen]
  have := bil_fields (t := ⟨e, p⟩) (u := ⟨e, q⟩) hrc hre hS hp hq .dx none d.c j (fun a => v (d.dofs.getD a 0)) (fun a => x (d.dofs.getD a 0))
  rw [this]
  have hq : qps .dx none rc re d.c = points rc re d.c .cell := by simp [qps, regions, marked]
  rw [hq]
  congr 1
  refine List.map_congr_left (fun y _ => ?_)
  rw [kval_eq hS]
  unfold fld
  ring

/-- The assembled elliptic form is the quadrature of `∫ ∇v·T∇x + κ v x`. -/
theorem ell_total (hrc : Gauss.rule2 n2 = .ok rc) (hre : Gauss.rule1 n1 = .ok re) (hlen : ∀ d ∈ cells, d.dofs.length = nd2 e)
    {tau : Tau} (ht : tau.Sized) {kappa : Option (Kernel (Pt ℝ))} (hk : ∃ S, sampleSize (kappaOf kappa) = .ok S) (v x : ℕ → ℝ) :
    total2 (mats e (ellForms tau kappa) rc re j cells) v x = (cells.map (fun d => ((points rc re d.c .cell).map (fun y => y.w *
      (inner (tau.at j (y.x.x, y.x.y)) (grd e d v y.ref) (grd e d x y.ref) +
        Neu.kval (kappaOf kappa) j (y.x.x, y.x.y) * (fld e d [0] v y.ref * fld e d [0] x y.ref)))).sum)).sum := by
  unfold total2 mats
  simp only [List.map_map]
  congr 1
  refine List.map_congr_left (fun d hd => ?_)
  have v0 : ValidDer [0] := Or.inl rfl
  have v1 : ValidDer [1, 0] := Or.inr (Or.inl ⟨0, by omega, rfl⟩)
  have v2 : ValidDer [1, 1] := Or.inr (Or.inl ⟨1, by omega, rfl⟩)
  have hl := hlen d hd
  have o1 : ∃ S, sampleSize (one (Pt ℝ)) = .ok S := ⟨1, one_size _⟩
  simp only [Function.comp, List.map_map]
  unfold ellForms
  rw [List.map_append, List.sum_append]
  simp only [List.map_cons, List.map_nil, List.sum_cons, List.sum_nil, add_zero, Function.comp]
  rw [term_fields hrc hre hk v0 v0 d hl v x]
  have fin : ∀ (l : List QP) (f g h : QP → ℝ), (∀ y ∈ l, f y + g y = h y) → (l.map f).sum + (l.map g).sum = (l.map h).sum := by
    intro l f g h hh
    rw [← List.sum_map_add]
    congr 1
    exact List.map_congr_left hh
  have key : ((tauForms tau).map (fun t => localBilin d.dofs d.dofs
      (fun a i => Fem.val (evalBil t.k ⟨e, t.tder⟩ ⟨e, t.uder⟩ t.dmu t.flag rc re d.c a i j)) v x)).sum =
      ((points rc re d.c .cell).map (fun y => y.w * inner (tau.at j (y.x.x, y.x.y)) (grd e d v y.ref) (grd e d x y.ref))).sum := by
    cases tau with
    | none =>
      simp only [tauForms, List.map_cons, List.map_nil, List.sum_cons, List.sum_nil, add_zero]
      rw [term_fields hrc hre o1 v1 v1 d hl v x, term_fields hrc hre o1 v2 v2 d hl v x]
      refine fin _ _ _ _ (fun y _ => ?_)
      simp only [Tau.at, inner, grd, kval_one]
      ring
    | fn k =>
      simp only [tauForms, List.map_cons, List.map_nil, List.sum_cons, List.sum_nil, add_zero]
      rw [term_fields hrc hre ht v1 v1 d hl v x, term_fields hrc hre ht v2 v2 d hl v x]
      refine fin _ _ _ _ (fun y _ => ?_)
      simp only [Tau.at, inner, grd]
      ring
    | tensor axx axy ayy =>
      obtain ⟨t1, t2, t3⟩ := ht
      simp only [tauForms, List.map_cons, List.map_nil, List.sum_cons, List.sum_nil, add_zero]
      rw [term_fields hrc hre t1 v1 v1 d hl v x, term_fields hrc hre t2 v2 v1 d hl v x, term_fields hrc hre t2 v1 v2 d hl v x,
        term_fields hrc hre t3 v2 v2 d hl v x]
      rw [fin _ _ _ _ (fun y _ => rfl), fin _ _ _ _ (fun y _ => rfl)]
      refine fin _ _ _ _ (fun y _ => ?_)
      simp only [Tau.at, inner, grd]
      ring
  refine Eq.trans (congrArg (· + _) key) (fin _ _ _ _ (fun y _ => ?_))
  ring

theorem inner_comm (T : ℝ × ℝ × ℝ) (v u : ℝ × ℝ) : inner T v u = inner T u v := by
  unfold inner
  ring

theorem ell_symm (hrc : Gauss.rule2 n2 = .ok rc) (hre : Gauss.rule1 n1 = .ok re) (hlen : ∀ d ∈ cells, d.dofs.length = nd2 e)
    {tau : Tau} (ht : tau.Sized) {kappa : Option (Kernel (Pt ℝ))} (hk : ∃ S, sampleSize (kappaOf kappa) = .ok S) (v x : ℕ → ℝ) :
    total2 (mats e (ellForms tau kappa) rc re j cells) v x = total2 (mats e (ellForms tau kappa) rc re j cells) x v := by
  rw [ell_total hrc hre hlen ht hk, ell_total hrc hre hlen ht hk]
  congr 1
  refine List.map_congr_left (fun d _ => ?_)
  congr 1
  refine List.map_congr_left (fun y _ => ?_)
  rw [inner_comm, mul_comm (fld e d [0] v _)]

theorem sum_ge {α : Type} {l : List α} {f : α → ℝ} (h : ∀ a ∈ l, 0 ≤ f a) {a : α} (ha : a ∈ l) (hp : 0 < f a) : 0 < (l.map f).sum := by
  refine lt_of_lt_of_le hp ?_
  exact List.single_le_sum (by
    intro y hy
    obtain ⟨b, hb, rfl⟩ := List.mem_map.1 hy
    exact h b hb) _ (List.mem_map.2 ⟨a, ha, rfl⟩)

/-- The elliptic form is positive. -/
theorem ell_pos {n : Nat} (hrc : Gauss.rule2 (n ^ 2) = .ok rc) (hre : Gauss.rule1 n1 = .ok re) (hn : deg e < n)
    (hlen : ∀ d ∈ cells, d.dofs.length = nd2 e) (hconv : ∀ d ∈ cells, ConvexCCW d.c.q)
    {tau : Tau} (ht : tau.Sized) (hT : ∀ d ∈ cells, tau.Psd j (Quad.region d.c.q)) {kappa : Option (Kernel (Pt ℝ))}
    (hk : ∃ S, sampleSize (kappaOf kappa) = .ok S) (hpos : ∀ d ∈ cells, ∀ x ∈ Quad.region d.c.q, 0 < Neu.kval (kappaOf kappa) j x)
    {v : ℕ → ℝ} (hv : ∃ d ∈ cells, ∃ r ∈ d.dofs, v r ≠ 0) : 0 < total2 (mats e (ellForms tau kappa) rc re j cells) v v := by
  obtain ⟨S, hS⟩ := hk
  rw [ell_total hrc hre hlen ht ⟨S, hS⟩]
  have hsplit : ∀ d : DCell κ, ((points rc re d.c .cell).map (fun y => y.w * (inner (tau.at j (y.x.x, y.x.y)) (grd e d v y.ref) (grd e d v y.ref) +
        Neu.kval (kappaOf kappa) j (y.x.x, y.x.y) * (fld e d [0] v y.ref * fld e d [0] v y.ref)))).sum =
      ((points rc re d.c .cell).map (fun y => y.w * inner (tau.at j (y.x.x, y.x.y)) (grd e d v y.ref) (grd e d v y.ref))).sum +
      ((points rc re d.c .cell).map (fun y => y.w * (Neu.kval (kappaOf kappa) j (y.x.x, y.x.y) * (fld e d [0] v y.ref * fld e d [0] v y.ref)))).sum := by
    intro d
    rw [← List.sum_map_add]
    congr 1
    exact List.map_congr_left (fun y _ => by ring)
  have n1' : ∀ d ∈ cells, 0 ≤ ((points rc re d.c .cell).map (fun y => y.w * inner (tau.at j (y.x.x, y.x.y)) (grd e d v y.ref) (grd e d v y.ref))).sum := by
    intro d hd
    refine List.sum_nonneg ?_
    intro z hz
    obtain ⟨y, hy, rfl⟩ := List.mem_map.1 hz
    exact mul_nonneg (points_weight hrc hre d.c (hconv d hd) .cell y hy) (hT d hd _ (points_region hrc hre (hconv d hd) hy) _)
  have n2' : ∀ d ∈ cells, 0 ≤ ((points rc re d.c .cell).map (fun y => y.w * (Neu.kval (kappaOf kappa) j (y.x.x, y.x.y) *
      (fld e d [0] v y.ref * fld e d [0] v y.ref)))).sum := by
    intro d hd
    refine List.sum_nonneg ?_
    intro z hz
    obtain ⟨y, hy, rfl⟩ := List.mem_map.1 hz
    exact mul_nonneg (points_weight hrc hre d.c (hconv d hd) .cell y hy)
      (mul_nonneg (hpos d hd _ (points_region hrc hre (hconv d hd) hy)).le (mul_self_nonneg _))
  obtain ⟨d, hd, r, hr, hvr⟩ := hv
  refine sum_ge (fun d hd => ?_) hd ?_
  · rw [hsplit d]
    exact add_nonneg (n1' d hd) (n2' d hd)
  · rw [hsplit d]
    refine add_pos_of_nonneg_of_pos (n1' d hd) ?_
    have h0 := term_fields (j := j) hrc hre ⟨S, hS⟩ (e := e) (Or.inl rfl : ValidDer [0]) (Or.inl rfl) d (hlen d hd) v v
    rw [← h0, localBilin_range, hlen d hd]
    obtain ⟨a, ha, rfl⟩ := List.mem_iff_getElem.1 hr
    refine C56_mass_pd hrc hre e hn (kappaOf kappa) S hS none d.c rfl (hconv d hd) j (fun x hx => ?_) (fun a => v (d.dofs.getD a 0)) ⟨a, hlen d hd ▸ ha, ?_⟩
    · rw [kval_eq hS]
      exact hpos d hd _ hx
    · simpa [List.getD_eq_getElem?_getD, List.getElem?_eq_getElem ha] using hvr

end
end Verif.Ell
