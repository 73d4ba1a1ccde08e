import Verif.Gal.Boundary

/-!
# The sum of the fluxes, boundary sides included

Over the sides of all leaves that are not on the boundary it is zero, for every single-valued function.
-/

namespace Verif.Neu
open Verif.Mesh Verif.Dof Verif.Bnd Verif.Quad Verif.Fem Verif.Gauss MeasureTheory Verif.Phys Verif.Reg Verif.Gal

/-- A side of a cell lies on the boundary if the side of the initial cell has no twin and the path to the cell stays at this side. -/
theorem onB_iff {K : Type} (B : Base K) (c : CN) (i : Fin 4) :
    OnBoundary B c i ↔ B.T (4 * c.1 + i) = none ∧ ∀ k ∈ c.2, k = i ∨ k = i + 1 := by
  constructor
  · rintro ⟨j, hj, h⟩
    obtain ⟨r, r0, r1, e⟩ := h (1 / 2) (by norm_num) (by norm_num)
    obtain ⟨⟨r', h1⟩, h2⟩ := climb_path c.2 (E_insq i (by norm_num) (by norm_num)) e
    have : i = j := by
      have e1 := congrArg Prod.fst h1
      have e2 := congrArg Prod.snd h1
      fin_cases i <;> fin_cases j <;> first | rfl | (exfalso; simp [E] at e1 e2; done) | (exfalso; simp [E] at e1 e2; linarith)
    subst this
    exact ⟨hj, h2⟩
  · rintro ⟨h1, h2⟩
    exact ⟨i, h1, path_climb c.2 h2⟩

theorem onB_child {K : Type} (B : Base K) (c : CN) (k i : Fin 4) :
    OnBoundary B (child c k) i ↔ OnBoundary B c i ∧ (k = i ∨ k = i + 1) := by
  rw [onB_iff, onB_iff]
  simp only [child, List.mem_cons, forall_eq_or_imp]
  tauto

section
variable {B : Base ℝ} {s : St ℝ} {sf : Bool} {e : ET} {D : DH} {P Q : ℝ × ℝ → ℝ}

open Classical in
/-- The flux through side `i`, unless the side is on the boundary. -/
noncomputable def innerFlux (B : Base ℝ) (P Q : ℝ × ℝ → ℝ) (c : CN) (V : ℝ × ℝ → ℝ) (i : Fin 4) : ℝ :=
  if OnBoundary B c i then 0 else sideFlux (quadOf B c) P Q V i

open Classical in
theorem inner_child (hB : B.WF) (h : MReach B s) (hf : sf = false ∨ (RootedFlag B s ∧ FullFlag s)) {v : Nat → ℝ} (hS : Single B sf s e D v)
    (hP : Continuous P) (hQ : Continuous Q) (c : CN) (hk : hasCh sf s c = true) :
    ∑ i : Fin 4, innerFlux B P Q c (fun z => glob sf s e D v (rootPt c z)) i =
      ∑ k : Fin 4, ∑ i : Fin 4, innerFlux B P Q (child c k) (fun z => glob sf s e D v (rootPt (child c k) z)) i := by
  set V : ℝ × ℝ → ℝ := fun z => glob sf s e D v (rootPt c z) with hV
  have hsub : ∀ k, Dof.Sub sf s (child c k) := by
    intro k
    rcases hf with h9 | ⟨_, h9⟩
    · exact .inl h9
    · cases sf
      · exact .inl rfl
      · exact .inr (h9 c hk k)
  have hint : ∀ k i, IntervalIntegrable (integrand ((quadOf B c).child ∅ (k : Fin 4)) P Q (fun z => V (emb k z)) i) volume 0 1 := fun k i =>
    flux_int hB h hf hS hP hQ (child c k) (hasCh_kids hk) (hsub k) i
  have e1 : ∀ k i, innerFlux B P Q (child c k) (fun z => glob sf s e D v (rootPt (child c k) z)) i =
      if OnBoundary B c i ∧ (k = i ∨ k = i + 1) then 0 else sideFlux ((quadOf B c).child ∅ (k : Fin 4)) P Q (fun z => V (emb k z)) i := by
    intro k i
    unfold innerFlux
    simp only [onB_child]
    rfl
  have out : ∀ i : Fin 4, innerFlux B P Q (child c i) (fun z => glob sf s e D v (rootPt (child c i) z)) i +
      innerFlux B P Q (child c (i + 1)) (fun z => glob sf s e D v (rootPt (child c (i + 1)) z)) i = innerFlux B P Q c V i := by
    intro i
    rw [e1, e1]
    unfold innerFlux
    by_cases hb : OnBoundary B c i
    · simp [hb]
    · simp only [hb, false_and, if_false]
      exact (outer_int P Q (quadOf B c) V i (hint i i) (hint (i + 1) i)).2
  have inn : ∀ k : Fin 4, innerFlux B P Q (child c k) (fun z => glob sf s e D v (rootPt (child c k) z)) (k + 1) +
      innerFlux B P Q (child c (k + 1)) (fun z => glob sf s e D v (rootPt (child c (k + 1)) z)) (k + 3) = 0 := by
    intro k
    rw [e1, e1, if_neg, if_neg]
    · exact inner_cancel P Q (quadOf B c) V k
    · rintro ⟨-, h⟩
      fin_cases k <;> simp at h
    · rintro ⟨-, h⟩
      fin_cases k <;> simp at h
  have o0 := out 0
  have o1 := out 1
  have o2 := out 2
  have o3 := out 3
  have i0 := inn 0
  have i1 := inn 1
  have i2 := inn 2
  have i3 := inn 3
  simp only [show (0 + 1 : Fin 4) = 1 from rfl, show (1 + 1 : Fin 4) = 2 from rfl, show (2 + 1 : Fin 4) = 3 from rfl, show (3 + 1 : Fin 4) = 0 from rfl,
    show (0 + 3 : Fin 4) = 3 from rfl, show (1 + 3 : Fin 4) = 0 from rfl, show (2 + 3 : Fin 4) = 1 from rfl, show (3 + 3 : Fin 4) = 2 from rfl] at o0 o1 o2 o3 i0 i1 i2 i3
  simp only [Fin.sum_univ_four]
  linarith

theorem inner_roots (hB : B.WF) (hPl : Plain B) (h : MReach B s) (hr : RootsIn B sf s)
    (hf : sf = false ∨ (RootedFlag B s ∧ FullFlag s)) {v : Nat → ℝ} (hS : Single B sf s e D v) :
    ∑ f ∈ Finset.range B.n, ∑ i : Fin 4, innerFlux B P Q (f, []) (fun z => glob sf s e D v (rootPt (f, []) z)) i = 0 := by
  rw [← Finset.sum_product']
  have hnone : ∀ (f : Nat) (i : Fin 4) (V : ℝ × ℝ → ℝ), B.T (4 * f + i) = none → innerFlux B P Q (f, []) V i = 0 := by
    intro f i V ht
    unfold innerFlux
    rw [if_pos ((onB_iff B (f, []) i).2 ⟨ht, by simp⟩)]
  have hsome : ∀ (f : Nat) (i : Fin 4) (V : ℝ × ℝ → ℝ) k, B.T (4 * f + i) = some k → innerFlux B P Q (f, []) V i = sideFlux (rootQ B f) P Q V i := by
    intro f i V k ht
    unfold innerFlux
    rw [if_neg (fun hb => by
      have := ((onB_iff B (f, []) i).1 hb).1
      simp only at this
      rw [ht] at this
      cases this)]
    rfl
  set g : Nat × Fin 4 → Nat × Fin 4 := fun x => match B.T (4 * x.1 + x.2) with
    | none => x
    | some k => (k / 4, ⟨k % 4, Nat.mod_lt _ (by norm_num)⟩) with hg
  have hk : ∀ (f : Nat) (i : Fin 4) k, B.T (4 * f + i) = some k → g (f, i) = (k / 4, ⟨k % 4, Nat.mod_lt _ (by norm_num)⟩) := by
    intro f i k hk
    rw [hg]
    simp only [hk]
  have h4 : ∀ k : Nat, 4 * (k / 4) + k % 4 = k := fun k => Nat.div_add_mod k 4
  refine Finset.sum_involution (fun x _ => g x) ?_ ?_ ?_ ?_
  · rintro ⟨f, i⟩ hx
    rw [Finset.mem_product, Finset.mem_range] at hx
    cases ht : B.T (4 * f + i) with
    | none =>
      have : g (f, i) = (f, i) := by rw [hg]; simp only [ht]
      simp only [this, hnone f i _ ht, add_zero]
    | some k =>
      have h1 := hB.inv _ _ ht
      have hlt := hB.lt _ _ ht
      have h2 : B.T (4 * (k / 4) + ((⟨k % 4, Nat.mod_lt _ (by norm_num)⟩ : Fin 4) : Nat)) = some (4 * f + i) := by simp only [h4]; exact h1
      rw [hk f i k ht]
      simp only
      rw [hsome f i _ k ht, hsome _ _ _ _ h2]
      refine flux_twin hB hPl h hr hf hS hx.1 ?_ ?_
      · omega
      · rw [ht, h4]
  · rintro ⟨f, i⟩ hx hne
    rw [Finset.mem_product, Finset.mem_range] at hx
    cases ht : B.T (4 * f + i) with
    | none => exact absurd (hnone f i _ ht) hne
    | some k =>
      rw [hk f i k ht]
      intro hc
      have h1 : k / 4 = f := congrArg Prod.fst hc
      have h2 : k % 4 = i := congrArg (fun x : Nat × Fin 4 => (x.2 : Nat)) hc
      exact hB.irr _ _ ht (by rw [← h4 k, h1, h2])
  · rintro ⟨f, i⟩ hx
    rw [Finset.mem_product, Finset.mem_range] at hx ⊢
    cases ht : B.T (4 * f + i) with
    | none => have : g (f, i) = (f, i) := by rw [hg]; simp only [ht]
              rw [this]
              exact hx
    | some k =>
      rw [hk f i k ht]
      have := hB.lt _ _ ht
      exact ⟨by simp only; omega, Finset.mem_univ _⟩
  · rintro ⟨f, i⟩ hx
    cases ht : B.T (4 * f + i) with
    | none => have : g (f, i) = (f, i) := by rw [hg]; simp only [ht]
              rw [this, this]
    | some k =>
      rw [hk f i k ht]
      have h1 := hB.inv _ _ ht
      rw [hk _ _ (4 * f + i) (by simp only [h4]; exact h1)]
      have : (i : Nat) < 4 := i.2
      refine Prod.ext ?_ (Fin.ext ?_)
      · simp only; omega
      · simp only; omega

/-- The fluxes of a single-valued function through the inner sides of the leaves add up to zero. -/
theorem inner_total (hB : B.WF) (hPl : Plain B) (h : MReach B s) (hr : RootsIn B sf s)
    (hf : sf = false ∨ (RootedFlag B s ∧ FullFlag s)) {v : Nat → ℝ} (hS : Single B sf s e D v) (hP : Continuous P) (hQ : Continuous Q) :
    ((leaves sf s).map (fun c => ∑ i : Fin 4, innerFlux B P Q c (feFn e D v c) i)).sum = 0 := by
  have e1 : (leaves sf s).map (fun c => ∑ i : Fin 4, innerFlux B P Q c (feFn e D v c) i) =
      (leaves sf s).map (fun c => ∑ i : Fin 4, innerFlux B P Q c (fun z => glob sf s e D v (rootPt c z)) i) := by
    refine List.map_congr_left (fun c hc => Finset.sum_congr rfl (fun i _ => ?_))
    unfold innerFlux
    rw [flux_congr (fun z hz => (glob_leaf hS hc hz).symm) i]
  rw [e1, sum_leaves hB h hr hf (fun c => ∑ i : Fin 4, innerFlux B P Q c (fun z => glob sf s e D v (rootPt c z)) i)]
  · exact inner_roots hB hPl h hr hf hS
  · intro c _ _ hk
    exact inner_child hB h hf hS hP hQ c hk

open Classical in
/-- **Green's formula.**  The fluxes through all sides of all leaves add up to the fluxes through the boundary. -/
theorem flux_boundary (hB : B.WF) (hPl : Plain B) (h : MReach B s) (hr : RootsIn B sf s)
    (hf : sf = false ∨ (RootedFlag B s ∧ FullFlag s)) {v : Nat → ℝ} (hS : Single B sf s e D v) (hP : Continuous P) (hQ : Continuous Q) :
    ((leaves sf s).map (fun c => ∑ i : Fin 4, sideFlux (quadOf B c) P Q (feFn e D v c) i)).sum =
      ((leaves sf s).map (fun c => ∑ i : Fin 4, if OnBoundary B c i then sideFlux (quadOf B c) P Q (feFn e D v c) i else 0)).sum := by
  have h0 := inner_total (P := P) (Q := Q) hB hPl h hr hf hS hP hQ
  have : ∀ (l : List CN) (f g k : CN → ℝ), (∀ c, f c - g c = k c) → (l.map f).sum - (l.map g).sum = (l.map k).sum := by
    intro l f g k hfg
    induction l with
    | nil => simp
    | cons a l ih =>
      simp only [List.map_cons, List.sum_cons, ← ih, ← hfg]
      ring
  refine (sub_zero _).symm.trans ((congrArg (fun x => _ - x) h0.symm).trans (this _ _ _ _ (fun c => ?_)))
  rw [← Finset.sum_sub_distrib]
  refine Finset.sum_congr rfl (fun i _ => ?_)
  unfold innerFlux
  by_cases hb : OnBoundary B c i <;> simp [hb]

end
end Verif.Neu
