import Verif.Super.Core

/-!
# C102: superposition, and what the answer does not depend on

`assembler.py` 2340-2440, 3711-3776 (assemble, solve) over `mesh.py` (refinement) and `fem.py` (dofs).
-/

namespace Verif.Super
open Verif.Mesh Verif.Dof Verif.Quad Verif.Fem Verif.Form Verif.Asm Verif.Phys Verif.Bnd Verif.Reg Verif.Dir Verif.Gauss Verif.Gal Verif.Cea

/-! ## Specification -/

/-- `u` is an answer of the program for `−div(κ∇u) = f` with the values of `g` at the boundary nodes, on the mesh `s` with dofs `D`: the mesh has been made
by any calls, the dofs numbered in any way, then hanging nodes, boundary values, assembly and `solve`. -/
def Answer (B : Base ℝ) (rect : Nat → Bool) (e : ET) (rc : List ((ℝ × ℝ) × ℝ)) (re : List (ℝ × ℝ)) (κ f g : Pt ℝ → ℝ) (sf : Bool) (s : St ℝ) (D : DH)
    (u : List ℝ) : Prop :=
  ∃ close V, ∃ k kf : Kernel (Pt ℝ), ∃ j S Sf, ∃ H C : List (Linsys.Con ℝ), ∃ d keep fuel ord y,
    Setting close B e sf s D V rect ∧ sampleSize k = .ok S ∧ sampleSize kf = .ok Sf ∧
    (∀ x : Pt ℝ, (x.x, x.y) ∈ Dom B → k.eval S x j = κ x) ∧ (∀ x : Pt ℝ, (x.x, x.y) ∈ Dom B → kf.eval Sf x j = f x) ∧
    setHanging sf s e D [] = some (H, C) ∧ BndDict B sf s e D g d ∧ SetOrder ord ∧ Ascending ord ∧
    Solved e k kf rc re j rect sf s D H d keep fuel ord y u

/-- The finite element function of an answer, at the point `z` of the reference square of the cell `c`. -/
noncomputable def fn (e : ET) (D : DH) (u : List ℝ) (c : CN) (z : ℝ × ℝ) : ℝ := feFn e D (fun a => u.getD a 0) c z

section
variable {close close' : Pt ℝ → Pt ℝ → Bool} {B : Base ℝ} {e : ET} {sf sf' sf₁ sf₂ sf₃ : Bool} {s s' s₁ s₂ s₃ : St ℝ} {D D' D₁ D₂ D₃ : DH} {V V' : DV ℝ}
variable {rect : Nat → Bool} {n n1 j : Nat} {rc : List ((ℝ × ℝ) × ℝ)} {re : List (ℝ × ℝ)} {k kf : Kernel (Pt ℝ)} {κ κ' f f' g g' f₁ f₂ f₃ g₁ g₂ g₃ : Pt ℝ → ℝ}
variable {u u₁ u₂ u₃ : List ℝ} {α β : ℝ}

theorem fe_add (D : DH) (α β : ℝ) (U W : Nat → ℝ) (c : CN) (z : ℝ × ℝ) :
    feFn e D (fun a => α * U a + β * W a) c z = α * feFn e D U c z + β * feFn e D W c z := by
  rw [show feFn e D (fun a => α * U a + β * W a) c z = interp2 e (fun a => α * U (dofAt D c a) + β * W (dofAt D c a)) z from rfl,
    show feFn e D U c z = interp2 e (fun a => U (dofAt D c a)) z from rfl, show feFn e D W c z = interp2 e (fun a => W (dofAt D c a)) z from rfl,
    interp_sum, interp_sum, interp_sum, Finset.mul_sum, Finset.mul_sum, ← Finset.sum_add_distrib]
  exact Finset.sum_congr rfl (fun a _ => by ring)

theorem list_lin {ι : Type} (l : List ι) (α β : ℝ) (F G : ι → ℝ) :
    (l.map fun i => α * F i + β * G i).sum = α * (l.map F).sum + β * (l.map G).sum := by
  induction l with
  | nil => simp
  | cons a l ih => simp only [List.map_cons, List.sum_cons, ih]; ring

theorem bq_add (c : CN) (v x y : Nat → ℝ) : bq B rect e rc re κ c v (fun a => α * x a + β * y a) =
    α * bq B rect e rc re κ c v x + β * bq B rect e rc re κ c v y := by
  unfold bq
  rw [← list_lin]
  refine congrArg List.sum (List.map_congr_left (fun p _ => ?_))
  rw [field_add, field_add]
  ring

theorem bq_congr (h : Setting close B e sf s D V rect) (hrc : Gauss.rule2 (n ^ 2) = .ok rc) (hre : Gauss.rule1 n1 = .ok re)
    (hk : ∀ x : Pt ℝ, (x.x, x.y) ∈ Dom B → κ x = κ' x) {c : CN} (hc : c ∈ leaves sf s) (v x : Nat → ℝ) :
    bq B rect e rc re κ c v x = bq B rect e rc re κ' c v x := by
  unfold bq
  refine congrArg List.sum (List.map_congr_left (fun p hp => ?_))
  rw [hk _ (point_dom h hrc hre hc hp)]

theorem lq_congr (h : Setting close B e sf s D V rect) (hrc : Gauss.rule2 (n ^ 2) = .ok rc) (hre : Gauss.rule1 n1 = .ok re)
    (hk : ∀ x : Pt ℝ, (x.x, x.y) ∈ Dom B → f x = f' x) {c : CN} (hc : c ∈ leaves sf s) (v : Nat → ℝ) :
    lq B rect e rc re f c v = lq B rect e rc re f' c v := by
  unfold lq
  refine congrArg List.sum (List.map_congr_left (fun p hp => ?_))
  rw [hk _ (point_dom h hrc hre hc hp)]

theorem lq_add (c : CN) (v : Nat → ℝ) : lq B rect e rc re (fun x => α * f₁ x + β * f₂ x) c v =
    α * lq B rect e rc re f₁ c v + β * lq B rect e rc re f₂ c v := by
  unfold lq
  rw [← list_lin]
  refine congrArg List.sum (List.map_congr_left (fun p _ => ?_))
  ring

theorem Solves.congr (h : Setting close B e sf s D V rect) (hrc : Gauss.rule2 (n ^ 2) = .ok rc) (hre : Gauss.rule1 n1 = .ok re) {W : Nat → ℝ}
    (hW : Solves B rect e rc re κ f g sf s D W) (hk : ∀ x : Pt ℝ, (x.x, x.y) ∈ Dom B → κ x = κ' x) (hf : ∀ x : Pt ℝ, (x.x, x.y) ∈ Dom B → f x = f' x)
    (hg : ∀ x : Pt ℝ, (x.x, x.y) ∈ Dom B → g x = g' x) : Solves B rect e rc re κ' f' g' sf s D W := by
  refine ⟨⟨hW.adm.single, fun c hc a ha hb => ?_⟩, fun v hv hz => ?_⟩
  · rw [hW.adm.bnd c hc a ha hb, hg _ (place_dom h hc ha)]
  · have := hW.eqn v hv hz
    rwa [List.map_congr_left (fun c hc => bq_congr h hrc hre hk hc _ _), List.map_congr_left (fun c hc => lq_congr h hrc hre hf hc _)] at this

/-- A combination of solutions is a solution. -/
theorem Solves.add {W₁ W₂ : Nat → ℝ} (h1 : Solves B rect e rc re κ f₁ g₁ sf s D W₁)
    (h2 : Solves B rect e rc re κ f₂ g₂ sf s D W₂) (α β : ℝ) :
    Solves B rect e rc re κ (fun x => α * f₁ x + β * f₂ x) (fun x => α * g₁ x + β * g₂ x) sf s D (fun a => α * W₁ a + β * W₂ a) := by
  refine ⟨⟨?_, fun c hc a ha hb => ?_⟩, fun v hv hz => ?_⟩
  · intro c hc c' hc' z z' hz hz' hs
    rw [fe_add, fe_add, h1.adm.single c hc c' hc' z z' hz hz' hs, h2.adm.single c hc c' hc' z z' hz hz' hs]
  · rw [h1.adm.bnd c hc a ha hb, h2.adm.bnd c hc a ha hb]
  · have e1 := h1.eqn v hv hz
    have e2 := h2.eqn v hv hz
    rw [List.map_congr_left (fun c _ => bq_add c _ (fun a => W₁ (dofAt D c a)) (fun a => W₂ (dofAt D c a))), list_lin, e1, e2, ← list_lin]
    exact congrArg List.sum (List.map_congr_left (fun c _ => (lq_add c _).symm))

/-- Solutions are unique. -/
theorem Solves.unique (h : Setting close B e sf s D V rect) (hrc : Gauss.rule2 (n ^ 2) = .ok rc) (hre : Gauss.rule1 n1 = .ok re) (hn : deg e < n)
    {S : Nat} (hS : sampleSize k = .ok S) (hk : ∀ x : Pt ℝ, (x.x, x.y) ∈ Dom B → k.eval S x j = κ x) (hpos : ∀ x : Pt ℝ, (x.x, x.y) ∈ Dom B → 0 < κ x)
    {W₁ W₂ : Nat → ℝ} (h1 : Solves B rect e rc re κ f g sf s D W₁) (h2 : Solves B rect e rc re κ f g sf s D W₂) :
    ∀ c ∈ leaves sf s, ∀ a < nd2 e, W₁ (dofAt D c a) = W₂ (dofAt D c a) := by
  have h3 := Solves.add h1 h2 1 (-1)
  set X : Nat → ℝ := fun a => 1 * W₁ a + -1 * W₂ a with hX
  have hz : ZeroBnd B sf s e D X := fun c hc a ha hb => by
    have := h3.adm.bnd c hc a ha hb
    rw [this]
    ring
  have h0 := h3.eqn X h3.adm.single hz
  have hl : ((leaves sf s).map (fun c => lq B rect e rc re (fun x => 1 * f x + -1 * f x) c (fun a => X (dofAt D c a)))).sum = 0 := by
    rw [List.map_congr_left (fun c _ => lq_add (α := 1) (β := -1) (f₁ := f) (f₂ := f) c _), list_lin]
    ring
  rw [hl, List.map_congr_left (fun c hc => (bq_congr h hrc hre hk hc _ _).symm), ← total2_q h hrc hre hS] at h0
  intro c hc a ha
  have := definite h hrc hre hn hS (fun x hx => by rw [hk x hx]; exact hpos x hx) h3.adm.single hz h0 c hc a ha
  simp only [hX] at this
  linarith

/-- An answer is a solution of the discrete problem. -/
theorem Answer.solves (hrc : Gauss.rule2 (n ^ 2) = .ok rc) (hre : Gauss.rule1 n1 = .ok re) (ha : Answer B rect e rc re κ f g sf s D u) :
    Solves B rect e rc re κ f g sf s D (fun a => u.getD a 0) := by
  obtain ⟨close, V, k, kf, j, S, Sf, H, C, d, keep, fuel, ord, y, h, hS, hSf, hk, hf, hh, hd, ho, has, hr⟩ := ha
  exact (Super.solves h hrc hre hS hSf hh hd ho has hr).congr h hrc hre hk hf (fun _ _ => rfl)

theorem Answer.setting (ha : Answer B rect e rc re κ f g sf s D u) : ∃ close V, Setting close B e sf s D V rect := by
  obtain ⟨close, V, _, _, _, _, _, _, _, _, _, _, _, _, h, _⟩ := ha
  exact ⟨close, V, h⟩

/-- **C102** (superposition).  Three runs on meshes with the same leaves, however they were made and numbered: if the third load and the third boundary values are
the combination `α·(first) + β·(second)` on the domain, the third answer is that combination, at every point of every cell. -/
theorem C102_superposition (hrc : Gauss.rule2 (n ^ 2) = .ok rc) (hre : Gauss.rule1 n1 = .ok re) (hn : deg e < n)
    (hpos : ∀ x : Pt ℝ, (x.x, x.y) ∈ Dom B → 0 < κ x)
    (h1 : Answer B rect e rc re κ f₁ g₁ sf₁ s₁ D₁ u₁) (h2 : Answer B rect e rc re κ f₂ g₂ sf₂ s₂ D₂ u₂) (h3 : Answer B rect e rc re κ f₃ g₃ sf₃ s₃ D₃ u₃)
    (hl1 : SameLeaves sf₁ s₁ sf₃ s₃) (hl2 : SameLeaves sf₂ s₂ sf₃ s₃)
    (hf : ∀ x : Pt ℝ, (x.x, x.y) ∈ Dom B → f₃ x = α * f₁ x + β * f₂ x) (hg : ∀ x : Pt ℝ, (x.x, x.y) ∈ Dom B → g₃ x = α * g₁ x + β * g₂ x)
    {c : CN} (hc : c ∈ leaves sf₃ s₃) (z : ℝ × ℝ) : fn e D₃ u₃ c z = α * fn e D₁ u₁ c z + β * fn e D₂ u₂ c z := by
  obtain ⟨c1, V1, t1⟩ := h1.setting
  obtain ⟨c2, V2, t2⟩ := h2.setting
  obtain ⟨W₁, w1, r1⟩ := Solves.carry t1 (h3.setting.choose_spec.choose_spec) hl1 (h1.solves hrc hre)
  obtain ⟨W₂, w2, r2⟩ := Solves.carry t2 (h3.setting.choose_spec.choose_spec) hl2 (h2.solves hrc hre)
  have r3 := h3.solves hrc hre
  obtain ⟨close, V, k, kf, j, S, Sf, H, C, d, keep, fuel, ord, y, h, hS, hSf, hk, _⟩ := h3
  have r3 := r3.congr h hrc hre (fun _ _ => rfl) hf hg
  have hu := Solves.unique h hrc hre hn hS hk hpos r3 (Solves.add r1 r2 α β)
  unfold fn
  rw [fe_congr (D' := D₃) (W := fun a => α * W₁ a + β * W₂ a) (fun a ha => hu c hc a ha), fe_add,
    fe_congr (W := fun a => u₁.getD a 0) (w1 c ((hl1 c).2 hc)), fe_congr (W := fun a => u₂.getD a 0) (w2 c ((hl2 c).2 hc))]

/-- **C102** (history).  Two runs for the same problem on meshes with the same leaves have the same answer at every point, whatever the order of refinement and
coarsening, the numbering of dofs, the representation of the kernels, and the options of the solver. -/
theorem C102_history (hrc : Gauss.rule2 (n ^ 2) = .ok rc) (hre : Gauss.rule1 n1 = .ok re) (hn : deg e < n)
    (hpos : ∀ x : Pt ℝ, (x.x, x.y) ∈ Dom B → 0 < κ x)
    (h1 : Answer B rect e rc re κ f g sf₁ s₁ D₁ u₁) (h2 : Answer B rect e rc re κ f g sf₂ s₂ D₂ u₂) (hl : SameLeaves sf₁ s₁ sf₂ s₂)
    {c : CN} (hc : c ∈ leaves sf₂ s₂) (z : ℝ × ℝ) : fn e D₂ u₂ c z = fn e D₁ u₁ c z := by
  have := C102_superposition (α := 1) (β := 0) hrc hre hn hpos h1 h1 h2 hl hl (fun x _ => by ring) (fun x _ => by ring) hc z
  rw [this]
  ring

/-- **C102** (locality of the data).  Loads, coefficients and boundary values outside the domain do not matter. -/
theorem C102_domain (hrc : Gauss.rule2 (n ^ 2) = .ok rc) (hre : Gauss.rule1 n1 = .ok re) (hn : deg e < n) (hpos : ∀ x : Pt ℝ, (x.x, x.y) ∈ Dom B → 0 < κ x)
    (h1 : Answer B rect e rc re κ f g sf₁ s₁ D₁ u₁) (h2 : Answer B rect e rc re κ' f' g' sf₂ s₂ D₂ u₂) (hl : SameLeaves sf₁ s₁ sf₂ s₂)
    (hk : ∀ x : Pt ℝ, (x.x, x.y) ∈ Dom B → κ' x = κ x) (hf : ∀ x : Pt ℝ, (x.x, x.y) ∈ Dom B → f' x = f x) (hg : ∀ x : Pt ℝ, (x.x, x.y) ∈ Dom B → g' x = g x)
    {c : CN} (hc : c ∈ leaves sf₂ s₂) (z : ℝ × ℝ) : fn e D₂ u₂ c z = fn e D₁ u₁ c z := by
  have h2' : Answer B rect e rc re κ f' g' sf₂ s₂ D₂ u₂ := by
    obtain ⟨close, V, k, kf, j, S, Sf, H, C, d, keep, fuel, ord, y, h, hS, hSf, hk', hr⟩ := h2
    exact ⟨close, V, k, kf, j, S, Sf, H, C, d, keep, fuel, ord, y, h, hS, hSf, fun x hx => (hk' x hx).trans (hk x hx), hr⟩
  have := C102_superposition (α := 1) (β := 0) hrc hre hn hpos h1 h1 h2' hl hl (fun x hx => by rw [hf x hx]; ring) (fun x hx => by rw [hg x hx]; ring) hc z
  rw [this]
  ring

theorem Solves.scale (t : ℝ) {W : Nat → ℝ} (hW : Solves B rect e rc re κ f g sf s D W) :
    Solves B rect e rc re (fun x => t * κ x) (fun x => t * f x) g sf s D W := by
  refine ⟨hW.adm, fun v hv hz => ?_⟩
  have e1 := hW.eqn v hv hz
  have b : ∀ c, bq B rect e rc re (fun x => t * κ x) c (fun a => v (dofAt D c a)) (fun a => W (dofAt D c a)) =
      t * bq B rect e rc re κ c (fun a => v (dofAt D c a)) (fun a => W (dofAt D c a)) := by
    intro c
    unfold bq
    rw [← List.sum_map_mul_left]
    exact congrArg List.sum (List.map_congr_left (fun p _ => by ring))
  have l : ∀ c, lq B rect e rc re (fun x => t * f x) c (fun a => v (dofAt D c a)) = t * lq B rect e rc re f c (fun a => v (dofAt D c a)) := by
    intro c
    unfold lq
    rw [← List.sum_map_mul_left]
    exact congrArg List.sum (List.map_congr_left (fun p _ => by ring))
  rw [List.map_congr_left (fun c _ => b c), List.map_congr_left (fun c _ => l c), List.sum_map_mul_left, List.sum_map_mul_left, e1]

/-- **C102** (units).  Coefficient and load multiplied by the same positive number: the same answer. -/
theorem C102_units (hrc : Gauss.rule2 (n ^ 2) = .ok rc) (hre : Gauss.rule1 n1 = .ok re) (hn : deg e < n) (hpos : ∀ x : Pt ℝ, (x.x, x.y) ∈ Dom B → 0 < κ x)
    {t : ℝ} (ht : 0 < t) (h1 : Answer B rect e rc re κ f g sf₁ s₁ D₁ u₁)
    (h2 : Answer B rect e rc re (fun x => t * κ x) (fun x => t * f x) g sf₂ s₂ D₂ u₂) (hl : SameLeaves sf₁ s₁ sf₂ s₂)
    {c : CN} (hc : c ∈ leaves sf₂ s₂) (z : ℝ × ℝ) : fn e D₂ u₂ c z = fn e D₁ u₁ c z := by
  obtain ⟨c1, V1, t1⟩ := h1.setting
  obtain ⟨W₁, w1, r1⟩ := Solves.carry t1 (h2.setting.choose_spec.choose_spec) hl (h1.solves hrc hre)
  have r2 := h2.solves hrc hre
  obtain ⟨close, V, k, kf, j, S, Sf, H, C, d, keep, fuel, ord, y, h, hS, hSf, hk, _⟩ := h2
  have hu := Solves.unique h hrc hre hn hS hk (fun x hx => mul_pos ht (hpos x hx)) r2 (r1.scale t)
  unfold fn
  rw [fe_congr (D' := D₂) (W := W₁) (fun a ha => hu c hc a ha), fe_congr (W := fun a => u₁.getD a 0) (w1 c ((hl c).2 hc))]

/-- **C102** (existence).  There is an answer for every right-hand side and all boundary values, on a balanced mesh with dofs and an inner dof. -/
theorem C102_exists (h : Setting close B e sf s D V rect) (hrc : Gauss.rule2 (n ^ 2) = .ok rc) (hre : Gauss.rule1 n1 = .ok re) (hn : deg e < n)
    {S Sf : Nat} (hS : sampleSize k = .ok S) (hSf : sampleSize kf = .ok Sf) (hk : ∀ x : Pt ℝ, (x.x, x.y) ∈ Dom B → 0 < k.eval S x j) (g : Pt ℝ → ℝ)
    {H C : List (Linsys.Con ℝ)} (hh : setHanging sf s e D [] = some (H, C)) (hI : Inner B sf s e D H) :
    ∃ u, Answer B rect e rc re (fun x => k.eval S x j) (fun x => kf.eval Sf x j) g sf s D u := by
  obtain ⟨d, hd⟩ := dict_exists h g
  obtain ⟨fuel, y, u, hr⟩ := (C69_one_answer h hrc hre hn hS hk hh hd true kf sortedSet_spec.1 sortedSet_spec.2).1.1 hI
  exact ⟨u, close, V, k, kf, j, S, Sf, H, C, d, true, fuel, sortedSet, y, h, hS, hSf, fun _ _ => rfl, fun _ _ => rfl, hh, hd, sortedSet_spec.1, sortedSet_spec.2, hr⟩

end
end Verif.Super
