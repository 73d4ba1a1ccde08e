import Verif.Cea.Conv

/-!
# C79: fine meshes exist, and the method can be run on them
-/

namespace Verif.Cea
open Verif.Mesh Verif.Dof Verif.Quad Verif.Fem Verif.Form Verif.Asm Verif.Phys Verif.Bnd Verif.Reg Verif.Dir Verif.Gauss Verif.Gal Verif.Linsys MeasureTheory

section
variable {B : Base ℝ}

theorem split_all (hB : B.WF) {s : St ℝ} (hs : MReach B s) (L : List CN) (hL : ∀ c ∈ L, c ∈ s.cells) : ∃ s', MReach B s' ∧
    (∀ c ∈ s.cells, c ∈ s'.cells) ∧ (∀ c, s.kids c = true → s'.kids c = true) ∧ ∀ c ∈ L, s'.kids c = true := by
  induction L with
  | nil => exact ⟨s, hs, fun _ h => h, fun _ h => h, by simp⟩
  | cons c L ih =>
    obtain ⟨s1, h1, h2, h3, h4⟩ := ih (fun c hc => hL c (by simp [hc]))
    by_cases hk : s1.kids c = true
    · exact ⟨s1, h1, h2, h3, by simpa [hk] using h4⟩
    · obtain ⟨s2, -, k1, k2, k3⟩ := C52_split_ok hB h1 c (h2 c (hL c (by simp))) (by simpa using hk) false
      refine ⟨s2, k1, fun c hc => (k2 c).2 (.inl (h2 c hc)), fun c hc => (k3 c).2 (.inl (h3 c hc)), ?_⟩
      intro d hd
      rcases List.mem_cons.1 hd with rfl | hd
      · exact (k3 d).2 (.inr rfl)
      · exact (k3 d).2 (.inl (h4 d hd))

theorem deep_mesh (hB : B.WF) {s₀ : St ℝ} (h₀ : MReach B s₀) (R : Nat) : ∃ s, MReach B s ∧ (∀ c ∈ s₀.cells, c ∈ s.cells) ∧
    ∀ f < B.n, ∀ p, p.length ≤ R → (f, p) ∈ s.cells := by
  induction R with
  | zero =>
    refine ⟨s₀, h₀, fun _ h => h, fun f hf p hp => ?_⟩
    rw [List.length_eq_zero_iff.1 (Nat.le_zero.1 hp)]
    exact ((h₀.inv hB).mem _).2 hf
  | succ R ih =>
    obtain ⟨s, h1, h2, h3⟩ := ih
    obtain ⟨s', k1, k2, k3, k4⟩ := split_all hB h1 s.cells (fun _ h => h)
    refine ⟨s', k1, fun c hc => k2 c (h2 c hc), fun f hf p hp => ?_⟩
    cases p with
    | nil => exact ((k1.inv hB).mem _).2 hf
    | cons k p =>
      have := h3 f hf p (by simpa using hp)
      exact ((k1.inv hB).mem (f, k :: p)).2 (k4 _ this)

/-- **C79** (meshes exist).  Every mesh can be refined and balanced so that all leaves have level at least `R`. -/
theorem fine_mesh (hB : B.WF) {s₀ : St ℝ} (h₀ : MReach B s₀) (R : Nat) : ∃ s, MReach B s ∧ isBalanced false s = true ∧
    (∀ c ∈ s₀.cells, c ∈ s.cells) ∧ (∀ f < B.n, ∀ p, p.length ≤ R → (f, p) ∈ s.cells) ∧ ∀ c ∈ leaves false s, R ≤ level c := by
  obtain ⟨s, h1, h2, h3⟩ := deep_mesh hB h₀ R
  obtain ⟨s', hr⟩ := C27_run_exists hB h1 false (.inl rfl)
  obtain ⟨k1, -, k3, k4, -⟩ := C27_result hB h1 false (.inl rfl) hr
  have k5 : ∀ f < B.n, ∀ p, p.length ≤ R → (f, p) ∈ s'.cells := fun f hf p hp => k4 _ (h3 f hf p hp)
  refine ⟨s', k1, k3, fun c hc => k4 c (h2 c hc), k5, ?_⟩
  rintro ⟨f, p⟩ hc
  by_contra hlt
  have hi := k1.inv hB
  simp only [leaves, List.mem_filter] at hc
  have hf := CEx_root hi p f ((hi.mem _).1 hc.1)
  have : s'.kids (f, p) = true := (hi.mem (f, (0 : Fin 4) :: p)).1 (k5 f hf _ (by simpa [level] using hlt))
  simp [hasCh, this] at hc

/-- **C79** (the method can be run).  On a mesh of at least one cell, for all polynomials of moderate degree (such that the rule with 25 points is
exact), every refinement of it can be refined further such that all leaves have level at least `R`, and the program computes a solution. -/
theorem C79_exists (hB : B.WF) (hP : Plain B) (hc : Fn.Convex B) (hn : 0 < B.n) (e : ET) (he : torn e = false) {κ f : Poly}
    (hκ : κ.totalDegree + 2 * deg e < 10) (hf : f.totalDegree + deg e < 10) (hk : ∀ p ∈ Dom B, 0 < ev κ p) (g : Pt ℝ → ℝ) {s₀ : St ℝ} (h₀ : MReach B s₀)
    (R : Nat) : ∃ s w, MReach B s ∧ (∀ c ∈ s₀.cells, c ∈ s.cells) ∧ (∀ c ∈ leaves false s, R ≤ level c) ∧ Computed B e κ f g false s w := by
  obtain ⟨s, h1, h2, h3, h4, h5⟩ := fine_mesh hB h₀ (R + 1)
  refine ⟨s, ?_⟩
  obtain ⟨rc, hrc⟩ := (C32_orders (5 ^ 2)).2.2 ⟨5, by norm_num, by norm_num, rfl⟩
  obtain ⟨re, hre⟩ := (C32_orders 1).1.2 (by norm_num)
  have hp : Problem e 5 1 0 rc re (kernelOf κ) (kernelOf f) κ f := ⟨hrc, by norm_num, hre, hκ, hf, kernel_poly _ _, kernel_poly _ _⟩
  obtain ⟨D, V, _, hD, hV, _, _⟩ := Fn.C67_setup hB hP h1 h2 e (fun _ _ => true) (n := 4 * s.cells.length) le_rfl
  have h : Setting (fun _ _ => true) B e false s D V (fun _ => false) :=
    ⟨hB, hP, hc, fun _ _ h => absurd h (by simp), he, hV, fun _ _ => .inl rfl, .inl rfl⟩
  obtain ⟨⟨H, C⟩, hh⟩ := C62_succeeds (F := ℝ) hB hV.ready (.inl rfl) []
  have hi := h1.inv hB
  have h0 := h4 0 hn [] (by simp)
  have hI : Inner B false s e D H := (C69_inner h hh).2 (0, []) h0 (.inl rfl) (by
    have : s.kids (0, []) = true := (hi.mem (0, (0 : Fin 4) :: [])).1 (h4 0 hn _ (by simp))
    simp [hasCh, this])
  obtain ⟨d, hdd⟩ := dict_exists h g
  obtain ⟨S, hS, hk'⟩ := hp.diff
  obtain ⟨a1, _⟩ := C69_one_answer h hrc hre (by cases e <;> simp [deg]) hS (fun x hx => by rw [hk']; exact hk _ hx) hh hdd true (kernelOf f)
    sortedSet_spec.1 sortedSet_spec.2
  obtain ⟨fuel, y, u, hr⟩ := a1.1 hI
  obtain ⟨w, hw⟩ := fn_exists h (fun a => u.getD a 0)
  exact ⟨w, h1, h3, fun c hc => (Nat.le_succ R).trans (h5 c hc), _, D, V, _, _, _, _, rc, re, _, _, H, C, d, _, fuel, _, y, u, h, hp, hh, hdd,
    sortedSet_spec.1, sortedSet_spec.2, hr, hw⟩

/-- **C79** (the whole statement).  For a problem with smooth solution `u` there is a constant `K` such that for every `R`, every refinement of the
initial mesh can be refined further to a mesh on which the program computes a solution with energy error at most `K 2^(−kR)`. -/
theorem C79_limit (hB : B.WF) (hP : Plain B) (hc : Fn.Convex B) (hA : Par B) (hn : 0 < B.n) (e : ET) (he : torn e = false) {κ f : Poly}
    (hκ : κ.totalDegree + 2 * deg e < 10) (hf : f.totalDegree + deg e < 10) (hk : ∀ p ∈ Dom B, 0 < ev κ p) {u : ℝ × ℝ → ℝ}
    (hu : ContDiff ℝ (deg e + 1 : ℕ) u) (hcl : Classical κ f u (Dom B)) : ∃ K, 0 ≤ K ∧ ∀ s₀, MReach B s₀ → ∀ R, ∃ s w, MReach B s ∧
      (∀ c ∈ s₀.cells, c ∈ s.cells) ∧ Computed B e κ f (fun x => u (x.x, x.y)) false s w ∧
      Real.sqrt (errE κ false s u w) ≤ K * ((1 / 2 : ℝ) ^ R) ^ deg e := by
  obtain ⟨K, hK, h⟩ := C79_rate hc hA e hk hu
  refine ⟨K, hK, fun s₀ h₀ R => ?_⟩
  obtain ⟨s, w, h1, h2, h3, h4⟩ := C79_exists hB hP hc hn e he hκ hf hk (fun x => u (x.x, x.y)) h₀ R
  exact ⟨s, w, h1, h2, h4, h f false s w R hcl h4 h3⟩

end

/-- The hypotheses. -/
example : twoR.WF ∧ Plain twoR ∧ Fn.Convex twoR ∧ 0 < twoR.n ∧ torn .Q3 = false ∧ (1 : Poly).totalDegree + 2 * deg .Q3 < 10 ∧
    (0 : Poly).totalDegree + deg .Q3 < 10 ∧ (∀ p ∈ Dom twoR, 0 < ev 1 p) ∧ MReach twoR witR :=
  ⟨twoR_wf, twoR_plain, twoR_convex, by decide, rfl, by simp; decide, by simp; decide, fun p _ => by simp [ev], witR_reach⟩

end Verif.Cea
