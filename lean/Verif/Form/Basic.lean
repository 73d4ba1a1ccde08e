import Verif.Form.Model

/-!
# C56: what `Form.eval` computes on a cell -- algebraic part
-/

namespace Verif.Form

open Verif.Quad Verif.Fem Verif.Gauss

/-! ## Sums that may raise -/

theorem foldlM_ok {α : Type} (l : List α) (f : α → Except Fem.Err ℝ) (g : α → ℝ)
    (h : ∀ x ∈ l, f x = .ok (g x)) (a : ℝ) :
    l.foldlM (fun acc x => do
      let y ← f x
      pure (acc + y)) a = (.ok (a + (l.map g).sum) : Except Fem.Err ℝ) := by
  induction l generalizing a with
  | nil => simp [pure, Except.pure]
  | cons x l ih =>
    simp only [List.foldlM_cons, h x (by simp), bind, Except.bind, pure, Except.pure] at ih ⊢
    rw [ih (fun y hy => h y (by simp [hy]))]
    simp [add_assoc]

theorem sumE_ok {α : Type} (l : List α) (f : α → Except Fem.Err ℝ) (g : α → ℝ)
    (h : ∀ x ∈ l, f x = .ok (g x)) : sumE l f = .ok (l.map g).sum := by
  have := foldlM_ok l f g h 0
  rw [zero_add] at this
  exact this

/-! ## Specification: valid derivatives, points of the reference square -/

/-- The derivatives `f`, `fx`, `fy`, `fxx`, ... as parsed by `parse_derivative_info`. -/
def ValidDer (l : List Nat) : Prop :=
  l = [0] ∨ (∃ v < 2, l = [1, v]) ∨ ∃ v < 2, ∃ w < 2, l = [2, v, w]

/-- A point of the closed unit square. -/
def InSq (r : ℝ × ℝ) : Prop := 0 ≤ r.1 ∧ r.1 ≤ 1 ∧ 0 ≤ r.2 ∧ r.2 ≤ 1

theorem ent_ok (J : (ℝ × ℝ) × (ℝ × ℝ)) {v w : Nat} (hv : v < 2) (hw : w < 2) : ∃ y, ent J v w = .ok y := by
  interval_cases v <;> interval_cases w <;> exact ⟨_, rfl⟩

theorem hent_ok (H : (ℝ × ℝ × ℝ) × (ℝ × ℝ × ℝ)) {v w k : Nat} (hv : v < 2) (hw : w < 2) (hk : k < 2) :
    ∃ y, hent H v w k = .ok y := by
  interval_cases v <;> interval_cases w <;> interval_cases k <;> exact ⟨_, rfl⟩

/-- `phi[region][basis]` has an entry for every local dof. -/
theorem shapeAt_ok (c : QCell) (b : Basis) (hb : ValidDer b.der) (r : ℝ × ℝ) (hr : InSq r) (n : Nat)
    (hn : n < nd2 b.e) : shapeAt c b r n = .ok (val (shapeAt c b r n)) := by
  have key : ∃ y, shapeAt c b r n = .ok y := by
    obtain ⟨h0, h1, h2, h3⟩ := hr
    have c1 : ¬ ¬ (0 ≤ r.1 ∧ 0 ≤ r.2) := by tauto
    have c2 : ¬ ¬ (r.1 ≤ 1 ∧ r.2 ≤ 1) := by tauto
    obtain ⟨e0, e1⟩ := dphi_ok b.e n hn r
    have e : ∀ v < 2, ∃ y, dphi2 b.e n r v = .ok y := by
      intro v hv; interval_cases v
      · exact ⟨_, e0⟩
      · exact ⟨_, e1⟩
    have e2 : ∀ v < 2, ∀ w < 2, ∃ y, d2phi2 b.e n r v w = .ok y := fun v hv w hw =>
      ⟨_, d2phi_ok b.e n hn r v w hv hw⟩
    obtain ⟨e', der⟩ := b
    simp only at hb hn e0 e1 e e2
    rcases hb with rfl | ⟨v, hv, rfl⟩ | ⟨v, hv, w, hw, rfl⟩
    · simp only [shapeAt, shape2]
      rw [if_neg c1, if_neg c2]
      exact ⟨_, phi2_tb e' n hn r⟩
    · simp only [shapeAt, shape2]
      rw [if_neg c1, if_neg c2]
      set J := jacP2R c.q ⟨r.1, r.2⟩
      obtain ⟨a, ha⟩ := ent_ok J hv hv
      obtain ⟨a0, ha0⟩ := ent_ok J (show 0 < 2 by omega) hv
      obtain ⟨a1, ha1⟩ := ent_ok J (show 1 < 2 by omega) hv
      obtain ⟨d, hd⟩ := e v hv
      cases c.rect
      · simp [ha0, ha1, e0, e1, bind, Except.bind, pure, Except.pure]
      · simp [ha, hd, bind, Except.bind, pure, Except.pure]
    · simp only [shapeAt, shape2]
      rw [if_neg c1, if_neg c2]
      set J := jacP2R c.q ⟨r.1, r.2⟩
      obtain ⟨a, ha⟩ := ent_ok J hv hv
      obtain ⟨b, hb⟩ := ent_ok J hw hw
      obtain ⟨a0, ha0⟩ := ent_ok J (show 0 < 2 by omega) hv
      obtain ⟨a1, ha1⟩ := ent_ok J (show 1 < 2 by omega) hv
      obtain ⟨b0, hb0⟩ := ent_ok J (show 0 < 2 by omega) hw
      obtain ⟨b1, hb1⟩ := ent_ok J (show 1 < 2 by omega) hw
      obtain ⟨g0, hg0⟩ := hent_ok (refHess c.rect c.q ⟨r.1, r.2⟩) hv hw (show 0 < 2 by omega)
      obtain ⟨g1, hg1⟩ := hent_ok (refHess c.rect c.q ⟨r.1, r.2⟩) hv hw (show 1 < 2 by omega)
      obtain ⟨d, hd⟩ := e2 v hv w hw
      obtain ⟨d00, hd00⟩ := e2 0 (by omega) 0 (by omega)
      obtain ⟨d01, hd01⟩ := e2 0 (by omega) 1 (by omega)
      obtain ⟨d11, hd11⟩ := e2 1 (by omega) 1 (by omega)
      generalize refHess c.rect c.q ⟨r.1, r.2⟩ = H at *
      cases c.rect
      · simp [ha0, ha1, hb0, hb1, hg0, hg1, e0, e1, hd00, hd01, hd11, bind, Except.bind, pure, Except.pure]
      · simp [ha, hb, hd, bind, Except.bind, pure, Except.pure]
  obtain ⟨y, hy⟩ := key
  rw [hy]; rfl

/-! ## Quadrature points of a region -/

theorem edgeRef_inSq (i : Fin 4) (r : ℝ) (h0 : 0 ≤ r) (h1 : r ≤ 1) : InSq (edgeRef i r) := by
  fin_cases i <;> simp [edgeRef, corner, InSq, h0, h1]

theorem points_inSq {n1 n2 : Nat} {rc : List ((ℝ × ℝ) × ℝ)} {re : List (ℝ × ℝ)} (hrc : rule2 n2 = .ok rc)
    (hre : rule1 n1 = .ok re) (c : QCell) (r : Region) : ∀ p ∈ points rc re c r, InSq p.ref := by
  intro p hp
  cases r with
  | cell =>
    simp only [points, List.mem_map] at hp
    obtain ⟨q, hq, rfl⟩ := hp
    obtain ⟨-, a, b, c, d⟩ := (C32_weights2 n2 rc hrc).2 q hq
    exact ⟨a.le, b.le, c.le, d.le⟩
  | edge i =>
    simp only [points, List.mem_map] at hp
    obtain ⟨q, hq, rfl⟩ := hp
    obtain ⟨-, a, b⟩ := (C32_weights1 n1 re hre).2 q hq
    exact edgeRef_inSq i q.1 a.le b.le
  | vertex i =>
    simp only [points, List.mem_singleton] at hp
    subst hp
    fin_cases i <;> simp [corner, InSq]

theorem points_weight {n1 n2 : Nat} {rc : List ((ℝ × ℝ) × ℝ)} {re : List (ℝ × ℝ)} (hrc : rule2 n2 = .ok rc)
    (hre : rule1 n1 = .ok re) (c : QCell) (hc : ConvexCCW c.q) (r : Region) :
    ∀ p ∈ points rc re c r, 0 ≤ p.w := by
  intro p hp
  cases r with
  | cell =>
    simp only [points, List.mem_map] at hp
    obtain ⟨q, hq, rfl⟩ := hp
    obtain ⟨w, a, b, d, e⟩ := (C32_weights2 n2 rc hrc).2 q hq
    exact mul_nonneg w.le (C21_det_pos c.q hc ⟨q.1.1, q.1.2⟩ a.le b.le d.le e.le).le
  | edge i =>
    simp only [points, List.mem_map] at hp
    obtain ⟨q, hq, rfl⟩ := hp
    obtain ⟨w, a, b⟩ := (C32_weights1 n1 re hre).2 q hq
    exact mul_nonneg w.le (Real.sqrt_nonneg _)
  | vertex i =>
    simp only [points, List.mem_singleton] at hp
    subst hp
    exact zero_le_one

/-- The quadrature points of a form on a cell. -/
noncomputable def qps (dmu : Dmu) (flag : Option Nat) (rc : List ((ℝ × ℝ) × ℝ)) (re : List (ℝ × ℝ))
    (c : QCell) : List QP := (regions dmu flag c).flatMap (points rc re c)

theorem sum_flatMap {α β : Type} (l : List α) (p : α → List β) (g : β → ℝ) :
    (l.map (fun r => ((p r).map g).sum)).sum = ((l.flatMap p).map g).sum := by
  induction l with
  | nil => simp
  | cons a l ih => simp [List.flatMap_cons, ih]

section
variable {n1 n2 : Nat} {rc : List ((ℝ × ℝ) × ℝ)} {re : List (ℝ × ℝ)}

/-- The entry computed, as one sum. -/
theorem evalBil_eq (hrc : rule2 n2 = .ok rc) (hre : rule1 n1 = .ok re) {k : Kernel (Pt ℝ)} {S : Nat}
    (hS : sampleSize k = .ok S) {t u : Basis} (ht : ValidDer t.der) (hu : ValidDer u.der) (dmu : Dmu)
    (flag : Option Nat) (c : QCell) {a i : Nat} (ha : a < nd2 t.e) (hi : i < nd2 u.e) (s : Nat) :
    evalBil k t u dmu flag rc re c a i s = .ok ((qps dmu flag rc re c).map (fun p =>
      val (shapeAt c t p.ref a) * (val (shapeAt c u p.ref i) * (p.w * k.eval S p.x s)))).sum := by
  unfold evalBil
  rw [hS]
  simp only [bind, Except.bind]
  rw [qps, ← sum_flatMap]
  refine sumE_ok _ _ _ (fun r _ => sumE_ok _ _ _ (fun p hp => ?_))
  have := points_inSq hrc hre c r p hp
  rw [shapeAt_ok c t ht p.ref this a ha, shapeAt_ok c u hu p.ref this i hi]
  rfl

theorem evalLin_eq (hrc : rule2 n2 = .ok rc) (hre : rule1 n1 = .ok re) {k : Kernel (Pt ℝ)} {S : Nat}
    (hS : sampleSize k = .ok S) {t : Basis} (ht : ValidDer t.der) (dmu : Dmu)
    (flag : Option Nat) (c : QCell) {a : Nat} (ha : a < nd2 t.e) (s : Nat) :
    evalLin k t dmu flag rc re c a s = .ok ((qps dmu flag rc re c).map (fun p =>
      val (shapeAt c t p.ref a) * (p.w * k.eval S p.x s))).sum := by
  unfold evalLin
  rw [hS]
  simp only [bind, Except.bind]
  rw [qps, ← sum_flatMap]
  refine sumE_ok _ _ _ (fun r _ => sumE_ok _ _ _ (fun p hp => ?_))
  rw [shapeAt_ok c t ht p.ref (points_inSq hrc hre c r p hp) a ha]
  rfl

theorem evalConst_eq {k : Kernel (Pt ℝ)} {S : Nat} (hS : sampleSize k = .ok S) {dmu : Dmu}
    (hd : dmu ≠ .dv) (flag : Option Nat) (c : QCell) (s : Nat) :
    evalConst k dmu flag rc re c s = .ok ((qps dmu flag rc re c).map (fun p => p.w * k.eval S p.x s)).sum := by
  unfold evalConst
  rw [hS]
  simp only [bind, Except.bind]
  rw [qps, ← sum_flatMap]
  refine sumE_ok _ _ _ (fun r hr => ?_)
  have : ∀ i, r ≠ .vertex i := by
    rintro i rfl
    unfold regions at hr
    split at hr
    · split at hr <;> simp at hr
    · simp at hr
    · exact hd rfl
  cases r with
  | cell => exact sumE_ok _ _ _ (fun p _ => rfl)
  | edge i => exact sumE_ok _ _ _ (fun p _ => rfl)
  | vertex i => exact absurd rfl (this i)

theorem mem_qps_inSq (hrc : rule2 n2 = .ok rc) (hre : rule1 n1 = .ok re) {dmu : Dmu} {flag : Option Nat}
    {c : QCell} {p : QP} (hp : p ∈ qps dmu flag rc re c) : InSq p.ref := by
  simp only [qps, List.mem_flatMap] at hp
  obtain ⟨r, _, hp⟩ := hp
  exact points_inSq hrc hre c r p hp

/-- Quadrature points are points of the cell. -/
theorem points_region (hrc : rule2 n2 = .ok rc) (hre : rule1 n1 = .ok re) {c : QCell} (hc : ConvexCCW c.q) {r : Region} {p : QP}
    (hp : p ∈ points rc re c r) : (p.x.x, p.x.y) ∈ Quad.region c.q := by
  have hsq := points_inSq hrc hre c r p hp
  have hx : p.x = toPhys c.q ⟨p.ref.1, p.ref.2⟩ := by
    cases r with
    | cell =>
      simp only [points, List.mem_map] at hp
      obtain ⟨q, hq, rfl⟩ := hp
      rfl
    | edge i =>
      simp only [points, List.mem_map] at hp
      obtain ⟨q, hq, rfl⟩ := hp
      rfl
    | vertex i =>
      simp only [points, List.mem_singleton] at hp
      subst hp
      rfl
  rw [hx, ← image_F c.q hc]
  exact ⟨p.ref, ⟨⟨hsq.1, hsq.2.1⟩, hsq.2.2.1, hsq.2.2.2⟩, rfl⟩

theorem mem_qps_region (hrc : rule2 n2 = .ok rc) (hre : rule1 n1 = .ok re) {dmu : Dmu} {flag : Option Nat}
    {c : QCell} (hc : ConvexCCW c.q) {p : QP} (hp : p ∈ qps dmu flag rc re c) : (p.x.x, p.x.y) ∈ Quad.region c.q := by
  simp only [qps, List.mem_flatMap] at hp
  obtain ⟨r, _, hp⟩ := hp
  exact points_region hrc hre hc hp

theorem mem_qps_weight (hrc : rule2 n2 = .ok rc) (hre : rule1 n1 = .ok re) {dmu : Dmu} {flag : Option Nat}
    {c : QCell} (hc : ConvexCCW c.q) {p : QP} (hp : p ∈ qps dmu flag rc re c) : 0 ≤ p.w := by
  simp only [qps, List.mem_flatMap] at hp
  obtain ⟨r, _, hp⟩ := hp
  exact points_weight hrc hre c hc r p hp

end

theorem sum_finset_list {ι α : Type} (s : Finset ι) (l : List α) (f : ι → α → ℝ) :
    ∑ i ∈ s, (l.map (f i)).sum = (l.map (fun x => ∑ i ∈ s, f i x)).sum := by
  induction l with
  | nil => simp
  | cons a l ih => simp [Finset.sum_add_distrib, ih]

theorem list_sum_mul (l : List α) (f : α → ℝ) (x : ℝ) : x * (l.map f).sum = (l.map (fun y => x * f y)).sum := by
  induction l with
  | nil => simp
  | cons a l ih => simp [mul_add, ih]

end Verif.Form
