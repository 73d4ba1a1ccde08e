import Verif.Gal.Telescope
import Verif.Gal.Cells
import Verif.Reg.Dofs

/-!
# The sum of the fluxes

Over all sides of all leaves it is zero for a single-valued function that vanishes on the boundary: inner sides cancel, boundary sides
do not count.
-/

namespace Verif.Gal
open Verif.Mesh Verif.Dof Verif.Bnd Verif.Quad Verif.Fem Verif.Gauss MeasureTheory Verif.Phys Verif.Reg

/-- A point that climbs to side `j` is on side `j`, and so is the whole path. -/
theorem climb_path {R : Type} [Field R] [LinearOrder R] [IsStrictOrderedRing R] (p : List (Fin 4)) {z : R × R} (hz : Dof.InSq z) {j : Fin 4} {r : R}
    (h : climb p z = E j r) : (∃ r', z = E j r') ∧ ∀ k ∈ p, k = j ∨ k = j + 1 := by
  induction p generalizing z with
  | nil => exact ⟨⟨r, h⟩, by simp⟩
  | cons k p ih =>
    obtain ⟨⟨r', h'⟩, hp⟩ := ih (emb_insq k hz) h
    rcases emb_on_side k j hz h' with ⟨h3, h, _⟩ | ⟨h3, h, _⟩
    · refine ⟨⟨_, h⟩, fun k' hk' => ?_⟩
      rcases List.mem_cons.1 hk' with h5 | h5
      · exact .inl (h5.trans h3)
      · exact hp k' h5
    · refine ⟨⟨_, h⟩, fun k' hk' => ?_⟩
      rcases List.mem_cons.1 hk' with h5 | h5
      · exact .inr (h5.trans h3)
      · exact hp k' h5

theorem path_climb {R : Type} [Field R] [LinearOrder R] [IsStrictOrderedRing R] {j : Fin 4} (p : List (Fin 4)) (hp : ∀ k ∈ p, k = j ∨ k = j + 1) :
    ∀ t : R, 0 ≤ t → t ≤ 1 → ∃ r, 0 ≤ r ∧ r ≤ 1 ∧ climb p (E j t) = E j r := by
  induction p with
  | nil => exact fun t h0 h1 => ⟨t, h0, h1, rfl⟩
  | cons k p ih =>
    intro t h0 h1
    have ih' := ih (fun k' hk' => hp k' (List.mem_cons_of_mem _ hk'))
    rcases hp k (List.mem_cons_self ..) with rfl | rfl
    · obtain ⟨r, r0, r1, e⟩ := ih' (t / 2) (by linarith) (by linarith)
      exact ⟨r, r0, r1, by show climb p (emb k (E k t)) = _; rw [emb_k]; exact e⟩
    · obtain ⟨r, r0, r1, e⟩ := ih' ((1 + t) / 2) (by linarith) (by linarith)
      exact ⟨r, r0, r1, by show climb p (emb (j + 1) (E j t)) = _; rw [emb_k3]; exact e⟩

/-- A function whose coefficients on a side are zero vanishes on the side. -/
theorem fe_side {e : ET} (he : torn e = false) (U : Nat → ℝ) (i : Fin 4) (h : ∀ p < nd2 e, (∃ t : ℚ, 0 ≤ t ∧ t ≤ 1 ∧ node e p = E i t) → U p = 0) (t : ℝ) :
    cellFn e U (E i t) = 0 := by
  have hz : ∀ m < dpe2 e + 2, U ((sideDofs e i).getD m 0) = 0 := by
    intro m hm
    obtain ⟨h1, h2⟩ := side_node e he i m hm
    have h3 : (0 : ℚ) ≤ (sideT e).getD m 0 ∧ (sideT e : List ℚ).getD m 0 ≤ 1 := by
      have : ∀ e : ET, torn e = true ∨ ∀ m < dpe2 e + 2, (0 : ℚ) ≤ (sideT e).getD m 0 ∧ (sideT e : List ℚ).getD m 0 ≤ 1 := by decide +kernel
      exact (this e).resolve_left (by simp [he]) m hm
    exact h _ h1 ⟨_, h3.1, h3.2, h2⟩
  have := C31_conforming_continuous e (cont_of he) (i : Nat) (i : Nat) i.2 i.2 U (fun _ => (0 : ℝ))
    (by have := hz 0 (by omega); simpa [sideDofs] using this.symm) (by have := hz 1 (by omega); simpa [sideDofs] using this.symm) (by
      intro j hj
      have := hz (j + 2) (by omega)
      simp [sideDofs, hj] at this
      exact this.symm) t
  rw [← sidePt_E, ← sidePt_E] at this
  rw [← this]
  simp [cellFn, interp2]

section
variable {B : Base ℝ} {s : St ℝ} {sf : Bool} {e : ET} {D : DH}

/-- The coefficients of the nodes on the boundary of the domain are zero. -/
def ZeroBnd (B : Base ℝ) (sf : Bool) (s : St ℝ) (e : ET) (D : DH) (v : Nat → ℝ) : Prop :=
  ∀ c ∈ leaves sf s, ∀ p < nd2 e, BndPt B (rootPt c (node e p)) → v (dofAt D c p) = 0

theorem glob_bnd (hB : B.WF) (h : MReach B s) (he : torn e = false) (hr : RootsIn B sf s) (hf : sf = false ∨ (RootedFlag B s ∧ FullFlag s))
    {v : Nat → ℝ} (hS : Single B sf s e D v) (hv : ZeroBnd B sf s e D v) {f : Nat} (hfn : f < B.n) {j : Fin 4} (hT : B.T (4 * f + j) = none)
    {r : ℝ} (h0 : 0 ≤ r) (h1 : r ≤ 1) : glob sf s e D v (f, E j r) = 0 := by
  obtain ⟨c, hc, z, hz, e1⟩ := leaf_cover hB h hf (f, []) hfn (hr f hfn) (E j r) (E_insq j h0 h1)
  change rootPt c z = (f, E j r) at e1
  rw [← e1, glob_leaf hS hc hz]
  have hf1 : c.1 = f := congrArg Prod.fst e1
  have hcl : climb c.2 z = E j r := congrArg Prod.snd e1
  obtain ⟨⟨r', rfl⟩, hp⟩ := climb_path c.2 hz hcl
  refine fe_side he _ j (fun p hp' hn => ?_) r'
  obtain ⟨t, t0, t1, ht⟩ := hn
  obtain ⟨q, q0, q1, hq⟩ := path_climb c.2 hp t t0 t1
  refine hv c hc p hp' ⟨f, j, q, hfn, hT, q0, q1, ?_⟩
  rw [ht]
  unfold rootPt
  rw [hf1, hq]
  exact .refl _

variable {P Q : ℝ × ℝ → ℝ}

theorem flux_zero {q : QD ℝ} {V : ℝ × ℝ → ℝ} (i : Fin 4) (h : ∀ t, 0 ≤ t → t ≤ 1 → V (E i t) = 0) : sideFlux q P Q V i = 0 := by
  rw [sideFlux_eq, intervalIntegral.integral_congr (g := fun _ => 0)]
  · simp
  · intro t ht
    rw [Set.uIcc_of_le zero_le_one] at ht
    simp only [integrand]
    rw [h t ht.1 ht.2, mul_zero]

/-- The fluxes of a function through a common side cancel. -/
theorem flux_twin (hB : B.WF) (hPl : Plain B) (h : MReach B s) (hr : RootsIn B sf s) (hf : sf = false ∨ (RootedFlag B s ∧ FullFlag s))
    {v : Nat → ℝ} (hS : Single B sf s e D v) {f g : Nat} (hfn : f < B.n) (hgn : g < B.n) {i j : Fin 4} (hT : B.T (4 * f + i) = some (4 * g + j)) :
    sideFlux (rootQ B f) P Q (fun z => glob sf s e D v (f, z)) i + sideFlux (rootQ B g) P Q (fun z => glob sf s e D v (g, z)) j = 0 := by
  have key : ∀ t : ℝ, 0 ≤ t → t ≤ 1 → integrand (rootQ B f) P Q (fun z => glob sf s e D v (f, z)) i t =
      - integrand (rootQ B g) P Q (fun z => glob sf s e D v (g, z)) j (1 - t) := by
    intro t h0 h1
    have hg : ∀ r : ℝ, 0 ≤ r → r ≤ 1 → Glued B (f, E i r) (g, E j (1 - r)) := fun r r0 r1 => ⟨i, j, r, r0, r1, hfn, hgn, hT, rfl, rfl⟩
    have hF : ∀ r : ℝ, 0 ≤ r → r ≤ 1 → F (rootQ B f) (E i r) = F (rootQ B g) (E j (1 - r)) := by
      intro r r0 r1
      rw [F_phys, F_phys]
      have := glued_phys hB hPl (hg r r0 r1)
      simp only at this
      rw [this]
    have a := hF t h0 h1
    have b := hF 0 le_rfl zero_le_one
    have c := hF 1 zero_le_one le_rfl
    rw [sub_zero] at b
    rw [sub_self] at c
    unfold integrand
    rw [a, b, c]
    simp only
    rw [glob_same hB h hr hf hS hfn hgn (E_insq i h0 h1) (E_insq j (by linarith) (by linarith)) (.rel _ _ (hg t h0 h1))]
    ring
  rw [sideFlux_eq, sideFlux_eq, intervalIntegral.integral_congr (g := fun t => - integrand (rootQ B g) P Q (fun z => glob sf s e D v (g, z)) j (1 - t)),
    intervalIntegral.integral_neg,
    intervalIntegral.integral_comp_sub_left (f := fun t => integrand (rootQ B g) P Q (fun z => glob sf s e D v (g, z)) j t)]
  · simp
  · intro t ht
    rw [Set.uIcc_of_le zero_le_one] at ht
    exact key t ht.1 ht.2

theorem flux_roots (hB : B.WF) (hPl : Plain B) (h : MReach B s) (he : torn e = false) (hr : RootsIn B sf s)
    (hf : sf = false ∨ (RootedFlag B s ∧ FullFlag s)) {v : Nat → ℝ} (hS : Single B sf s e D v) (hv : ZeroBnd B sf s e D v) :
    ∑ f ∈ Finset.range B.n, ∑ i : Fin 4, sideFlux (rootQ B f) P Q (fun z => glob sf s e D v (f, z)) i = 0 := by
  rw [← Finset.sum_product']
  set g : Nat × Fin 4 → Nat × Fin 4 := fun x => match B.T (4 * x.1 + x.2) with
    | none => x
    | some k => (k / 4, ⟨k % 4, Nat.mod_lt _ (by norm_num)⟩) with hg
  have hk : ∀ (f : Nat) (i : Fin 4) k, B.T (4 * f + i) = some k → g (f, i) = (k / 4, ⟨k % 4, Nat.mod_lt _ (by norm_num)⟩) := by
    intro f i k hk
    rw [hg]
    simp only [hk]
  have h4 : ∀ k : Nat, 4 * (k / 4) + k % 4 = k := fun k => Nat.div_add_mod k 4
  refine Finset.sum_involution (fun x _ => g x) ?_ ?_ ?_ ?_
  · rintro ⟨f, i⟩ hx
    rw [Finset.mem_product, Finset.mem_range] at hx
    cases ht : B.T (4 * f + i) with
    | none =>
      have h0 : sideFlux (rootQ B f) P Q (fun z => glob sf s e D v (f, z)) i = 0 :=
        flux_zero i (fun t t0 t1 => glob_bnd hB h he hr hf hS hv hx.1 ht t0 t1)
      have : g (f, i) = (f, i) := by rw [hg]; simp only [ht]
      simp only [this, h0, add_zero]
    | some k =>
      rw [hk f i k ht]
      refine flux_twin hB hPl h hr hf hS hx.1 ?_ ?_
      · have := hB.lt _ _ ht
        omega
      · rw [ht, h4]
  · rintro ⟨f, i⟩ hx hne
    rw [Finset.mem_product, Finset.mem_range] at hx
    cases ht : B.T (4 * f + i) with
    | none => exact absurd (flux_zero i (fun t t0 t1 => glob_bnd hB h he hr hf hS hv hx.1 ht t0 t1)) hne
    | some k =>
      rw [hk f i k ht]
      intro hc
      have h1 : k / 4 = f := congrArg Prod.fst hc
      have h2 : k % 4 = i := congrArg (fun x : Nat × Fin 4 => (x.2 : Nat)) hc
      exact hB.irr _ _ ht (by rw [← h4 k, h1, h2])
  · rintro ⟨f, i⟩ hx
    rw [Finset.mem_product, Finset.mem_range] at hx ⊢
    cases ht : B.T (4 * f + i) with
    | none => have : g (f, i) = (f, i) := by rw [hg]; simp only [ht]
              rw [this]
              exact hx
    | some k =>
      rw [hk f i k ht]
      have := hB.lt _ _ ht
      exact ⟨by simp only; omega, Finset.mem_univ _⟩
  · rintro ⟨f, i⟩ hx
    cases ht : B.T (4 * f + i) with
    | none => have : g (f, i) = (f, i) := by rw [hg]; simp only [ht]
              rw [this, this]
    | some k =>
      rw [hk f i k ht]
      have h1 := hB.inv _ _ ht
      rw [hk _ _ (4 * f + i) (by simp only [h4]; exact h1)]
      have : (i : Nat) < 4 := i.2
      refine Prod.ext ?_ (Fin.ext ?_)
      · simp only; omega
      · simp only; omega

/-- The fluxes through the sides of the leaves of a single-valued function that vanishes on the boundary add up to zero. -/
theorem flux_total (hB : B.WF) (hPl : Plain B) (h : MReach B s) (he : torn e = false) (hr : RootsIn B sf s)
    (hf : sf = false ∨ (RootedFlag B s ∧ FullFlag s)) {v : Nat → ℝ} (hS : Single B sf s e D v) (hv : ZeroBnd B sf s e D v)
    (hP : Continuous P) (hQ : Continuous Q) :
    ((leaves sf s).map (fun c => ∑ i : Fin 4, sideFlux (quadOf B c) P Q (feFn e D v c) i)).sum = 0 := by
  have e1 : (leaves sf s).map (fun c => ∑ i : Fin 4, sideFlux (quadOf B c) P Q (feFn e D v c) i) =
      (leaves sf s).map (fun c => ∑ i : Fin 4, sideFlux (quadOf B c) P Q (fun z => glob sf s e D v (rootPt c z)) i) := by
    refine List.map_congr_left (fun c hc => Finset.sum_congr rfl (fun i _ => ?_))
    exact flux_congr (fun z hz => (glob_leaf hS hc hz).symm) i
  rw [e1, sum_leaves hB h hr hf (fun c => ∑ i : Fin 4, sideFlux (quadOf B c) P Q (fun z => glob sf s e D v (rootPt c z)) i)]
  · exact flux_roots hB hPl h he hr hf hS hv
  · intro c _ hs hk
    exact flux_child hB h hf hS hP hQ c hs hk

end
end Verif.Gal
