import Verif.Cea.Best
import Verif.Cea.Geo
import Verif.Fn.Interp

/-!
# Integrals over a finer mesh
-/

namespace Verif.Cea
open Verif.Mesh Verif.Dof Verif.Quad Verif.Fem Verif.Form Verif.Asm Verif.Phys Verif.Bnd Verif.Reg Verif.Dir Verif.Gauss Verif.Gal Verif.Fn MeasureTheory

theorem sq_iter {f : ℝ × ℝ → ℝ} (hf : Continuous f) : ∫ p in Gauss.sq, f p = ∫ x in (0 : ℝ)..1, ∫ y in (0 : ℝ)..1, f (x, y) := by
  unfold Gauss.sq
  rw [Measure.volume_eq_prod, setIntegral_prod _ (by rw [← Measure.volume_eq_prod]; exact cont_int hf)]
  rw [intervalIntegral.integral_of_le zero_le_one, integral_Icc_eq_integral_Ioc]
  refine setIntegral_congr_fun measurableSet_Ioc (fun x _ => ?_)
  rw [intervalIntegral.integral_of_le zero_le_one, integral_Icc_eq_integral_Ioc]

theorem halves {h : ℝ → ℝ} (hh : Continuous h) : ∫ x in (0 : ℝ)..1, h x = 1 / 2 * ((∫ x in (0 : ℝ)..1, h (1 / 2 * x)) + ∫ x in (0 : ℝ)..1, h (1 / 2 + 1 / 2 * x)) := by
  have e1 : ∫ x in (0 : ℝ)..1, h (1 / 2 * x) = 2 * ∫ x in (0 : ℝ)..1 / 2, h x := by
    rw [intervalIntegral.integral_comp_mul_left (f := h) (c := 1 / 2) (by norm_num)]
    norm_num
  have e2 : ∫ x in (0 : ℝ)..1, h (1 / 2 + 1 / 2 * x) = 2 * ∫ x in (1 / 2 : ℝ)..1, h x := by
    rw [intervalIntegral.integral_comp_add_mul (f := h) (c := 1 / 2) (by norm_num)]
    norm_num
  rw [e1, e2, ← intervalIntegral.integral_add_adjacent_intervals (hh.intervalIntegrable 0 (1 / 2)) (hh.intervalIntegrable (1 / 2) 1)]
  ring

theorem emb_cases (p : ℝ × ℝ) : emb 0 p = (1 / 2 * p.1, 1 / 2 * p.2) ∧ emb 1 p = (1 / 2 + 1 / 2 * p.1, 1 / 2 * p.2) ∧
    emb 2 p = (1 / 2 + 1 / 2 * p.1, 1 / 2 + 1 / 2 * p.2) ∧ emb 3 p = (1 / 2 * p.1, 1 / 2 + 1 / 2 * p.2) := by
  refine ⟨?_, ?_, ?_, ?_⟩ <;> simp [emb] <;> ring_nf <;> simp

theorem cont_emb (k : Fin 4) : Continuous (emb k : ℝ × ℝ → ℝ × ℝ) := by
  match k with
  | 0 => rw [show (emb 0 : ℝ × ℝ → ℝ × ℝ) = _ from funext (fun p => (emb_cases p).1)]; fun_prop
  | 1 => rw [show (emb 1 : ℝ × ℝ → ℝ × ℝ) = _ from funext (fun p => (emb_cases p).2.1)]; fun_prop
  | 2 => rw [show (emb 2 : ℝ × ℝ → ℝ × ℝ) = _ from funext (fun p => (emb_cases p).2.2.1)]; fun_prop
  | 3 => rw [show (emb 3 : ℝ × ℝ → ℝ × ℝ) = _ from funext (fun p => (emb_cases p).2.2.2)]; fun_prop

/-- Splitting the square into its four quarters. -/
theorem sq_quarters {f : ℝ × ℝ → ℝ} (hf : Continuous f) : ∫ p in Gauss.sq, f p = 1 / 4 * ∑ k : Fin 4, ∫ p in Gauss.sq, f (emb k p) := by
  have hc : ∀ k : Fin 4, Continuous (fun p : ℝ × ℝ => f (emb k p)) := fun k => hf.comp (cont_emb k)
  have ci : ∀ g : ℝ × ℝ → ℝ, Continuous g → Continuous (fun x => ∫ y in (0 : ℝ)..1, g (x, y)) := fun g hg =>
    intervalIntegral.continuous_parametric_intervalIntegral_of_continuous' (f := fun x y => g (x, y)) hg 0 1
  have h1 : ∀ x, ∫ y in (0 : ℝ)..1, f (x, y) = 1 / 2 * ((∫ y in (0 : ℝ)..1, f (x, 1 / 2 * y)) + ∫ y in (0 : ℝ)..1, f (x, 1 / 2 + 1 / 2 * y)) :=
    fun x => halves (h := fun y => f (x, y)) (by fun_prop)
  have e0 := ci (fun p => f (p.1, 1 / 2 * p.2)) (by fun_prop)
  have e1 := ci (fun p => f (p.1, 1 / 2 + 1 / 2 * p.2)) (by fun_prop)
  rw [sq_iter hf]
  simp only [h1]
  rw [intervalIntegral.integral_const_mul, intervalIntegral.integral_add (e0.intervalIntegrable _ _) (e1.intervalIntegrable _ _), halves e0, halves e1,
    Fin.sum_univ_four, sq_iter (hc 0), sq_iter (hc 1), sq_iter (hc 2), sq_iter (hc 3)]
  simp only [(emb_cases _).1, (emb_cases _).2.1, (emb_cases _).2.2.1, (emb_cases _).2.2.2]
  ring

theorem below_parts {c d : CN} (h : Below c d) : d.2 = d.2.take (d.2.length - c.2.length) ++ c.2 := by
  obtain ⟨q, hq⟩ := h.2
  rw [← hq]
  simp

theorem below_len {c d : CN} (h : Below c d) : c.2.length ≤ d.2.length := h.2.length_le

theorem below_antisymm {c d : CN} (h : Below c d) (h' : Below d c) : c = d :=
  Prod.ext h'.1 (h.2.eq_of_length (le_antisymm (below_len h) (below_len h')))

theorem below_child (c : CN) (k : Fin 4) : Below c (child c k) := ⟨rfl, List.suffix_cons k c.2⟩

theorem below_trans {a b c : CN} (h : Below a b) (h' : Below b c) : Below a c := ⟨h'.1.trans h.1, h.2.trans h'.2⟩

/-- A proper ancestor has one child that is an ancestor. -/
theorem below_step {c d : CN} (h : Below d c) (hne : ¬ Below c d) : ∃ k, Below (child d k) c := by
  obtain ⟨q, hq⟩ := h.2
  rcases List.eq_nil_or_concat q with rfl | ⟨q', k, rfl⟩
  · exact absurd ⟨h.1.symm, by rw [← hq]; simp⟩ hne
  · exact ⟨k, h.1, q', by rw [← hq]; simp [child]⟩

theorem below_up {c d : CN} {k : Fin 4} (h : Below c (child d k)) (hne : ¬ Below c d) : c = child d k := by
  obtain ⟨h1, h2⟩ := h
  rcases List.suffix_cons_iff.1 h2 with h2 | h2
  · exact Prod.ext h1.symm h2
  · exact absurd ⟨h1, h2⟩ hne

instance (c d : CN) : Decidable (Below c d) := inferInstanceAs (Decidable (_ ∧ _))

/-- A quantity that is, for the descendants of the cell `c`, the sum over the children, sums over the leaves below `c` to its value at `c`. -/
theorem sum_below {K : Type} [Field K] {B : Base K} (hB : B.WF) {s' : St K} (h : MReach B s') {sf' : Bool} (hr : RootsIn B sf' s')
    (hf : sf' = false ∨ (RootedFlag B s' ∧ FullFlag s')) {c : CN} (hc : c.1 < B.n) (hno : ∀ c' ∈ leaves sf' s', Below c' c → Below c c')
    (Ψ : List (Fin 4) → ℝ) (hΨ : ∀ q, Ψ q = ∑ k : Fin 4, Ψ (k :: q)) :
    ((leaves sf' s').map (fun d => if Below c d then Ψ (d.2.take (d.2.length - c.2.length)) else 0)).sum = Ψ [] := by
  set Φ : CN → ℝ := fun d => if Below c d then Ψ (d.2.take (d.2.length - c.2.length)) else if Below d c then Ψ [] else 0 with hΦ
  have e1 : (leaves sf' s').map (fun d => if Below c d then Ψ (d.2.take (d.2.length - c.2.length)) else 0) = (leaves sf' s').map Φ := by
    refine List.map_congr_left (fun d hd => ?_)
    by_cases h1 : Below c d
    · simp only [hΦ, if_pos h1]
    · simp only [hΦ, if_neg h1, if_neg (fun h2 => h1 (hno d hd h2))]
  have hself : Φ c = Ψ [] := by
    simp only [hΦ, if_pos (show Below c c from ⟨rfl, List.suffix_refl _⟩)]
    simp
  rw [e1, sum_leaves hB h hr hf Φ]
  · rw [Finset.sum_eq_single c.1]
    · by_cases h1 : Below c (c.1, [])
      · have : c = (c.1, []) := below_antisymm h1 ⟨rfl, List.nil_suffix⟩
        rw [← this]
        exact hself
      · simp only [hΦ, if_neg h1, if_pos (show Below (c.1, []) c from ⟨rfl, List.nil_suffix⟩)]
    · intro f _ hne
      simp only [hΦ]
      rw [if_neg (fun h1 => hne h1.1), if_neg (fun h1 => hne h1.1.symm)]
    · intro hn
      exact absurd (Finset.mem_range.2 hc) hn
  · intro d _ _ _
    by_cases h1 : Below c d
    · have hk : ∀ k, Φ (child d k) = Ψ (k :: d.2.take (d.2.length - c.2.length)) := by
        intro k
        simp only [hΦ, if_pos (below_trans h1 (below_child d k))]
        have := below_len h1
        simp only [child, List.length_cons]
        rw [show d.2.length + 1 - c.2.length = (d.2.length - c.2.length) + 1 by omega, List.take_succ_cons]
      simp only [hk, ← hΨ]
      simp only [hΦ, if_pos h1]
    · by_cases h2 : Below d c
      · obtain ⟨k, hk⟩ := below_step h2 h1
        rw [Finset.sum_eq_single k]
        · simp only [hΦ, if_neg h1, if_pos h2]
          by_cases h3 : Below c (child d k)
          · rw [← below_antisymm h3 hk]
            exact hself.symm
          · simp only [if_neg h3, if_pos hk]
        · intro k' _ hne
          have h4 : ¬ Below (child d k') c := fun h4 => hne (below_inj h4 hk)
          have h3 : ¬ Below c (child d k') := fun h3 => h4 (by rw [← below_up h3 h1]; exact ⟨rfl, List.suffix_refl _⟩)
          simp only [hΦ, if_neg h3, if_neg h4]
        · intro hn
          exact absurd (Finset.mem_univ k) hn
      · have : ∀ k, Φ (child d k) = 0 := by
          intro k
          have h4 : ¬ Below (child d k) c := fun h4 => h2 h4.child
          have h3 : ¬ Below c (child d k) := fun h3 => h4 (by rw [← below_up h3 h1]; exact ⟨rfl, List.suffix_refl _⟩)
          simp only [hΦ, if_neg h3, if_neg h4]
        simp only [this, Finset.sum_const_zero]
        simp only [hΦ, if_neg h1, if_neg h2]

/-! ### Cells -/

theorem det_child_at (q : QD ℝ) (k : Fin 4) (r : ℝ × ℝ) : det (q.child ∅ k) ⟨r.1, r.2⟩ = 1 / 4 * det q ⟨(emb k r).1, (emb k r).2⟩ := by
  obtain ⟨e0, e1, e2, e3⟩ := emb_cases r
  fin_cases k
  · show det (q.child ∅ 0) _ = 1 / 4 * det q ⟨(emb 0 r).1, (emb 0 r).2⟩
    rw [e0]
    simp only [Quad.det, jxs, jys, jxt, jyt, child_0, mid, QD.center]
    ring
  · show det (q.child ∅ 1) _ = 1 / 4 * det q ⟨(emb 1 r).1, (emb 1 r).2⟩
    rw [e1]
    simp only [Quad.det, jxs, jys, jxt, jyt, child_1, mid, QD.center]
    ring
  · show det (q.child ∅ 2) _ = 1 / 4 * det q ⟨(emb 2 r).1, (emb 2 r).2⟩
    rw [e2]
    simp only [Quad.det, jxs, jys, jxt, jyt, child_2, mid, QD.center]
    ring
  · show det (q.child ∅ 3) _ = 1 / 4 * det q ⟨(emb 3 r).1, (emb 3 r).2⟩
    rw [e3]
    simp only [Quad.det, jxs, jys, jxt, jyt, child_3, mid, QD.center]
    ring

theorem det_same {a b : QD ℝ} (h : SameVerts a b) (r : Pt ℝ) : det a r = det b r := by
  obtain ⟨a1, a2, a3, a4⟩ := jac_same h r
  unfold Quad.det
  rw [a1, a2, a3, a4]

theorem det_path (B : Base ℝ) (f : Nat) (p q : List (Fin 4)) (r : ℝ × ℝ) :
    det (quadAt B f (q ++ p)) ⟨r.1, r.2⟩ = (1 / 4) ^ q.length * det (quadAt B f p) ⟨(climb q r).1, (climb q r).2⟩ := by
  induction q generalizing r with
  | nil => simp [climb]
  | cons k q ih =>
    have : det (quadAt B f (k :: q ++ p)) ⟨r.1, r.2⟩ = 1 / 4 * det (quadAt B f (q ++ p)) ⟨(emb k r).1, (emb k r).2⟩ := det_child_at _ k r
    rw [this, ih (emb k r)]
    simp only [climb, List.length_cons]
    ring

theorem open_climb (q : List (Fin 4)) {r : ℝ × ℝ} (h : InOpen r) : InOpen (climb q r) := by
  induction q generalizing r with
  | nil => exact h
  | cons k q ih =>
    refine ih ?_
    obtain ⟨h1, h2, h3, h4⟩ := h
    match k with
    | 0 => rw [(emb_cases r).1]; exact ⟨by simp only; linarith, by simp only; linarith, by simp only; linarith, by simp only; linarith⟩
    | 1 => rw [(emb_cases r).2.1]; exact ⟨by simp only; linarith, by simp only; linarith, by simp only; linarith, by simp only; linarith⟩
    | 2 => rw [(emb_cases r).2.2.1]; exact ⟨by simp only; linarith, by simp only; linarith, by simp only; linarith, by simp only; linarith⟩
    | 3 => rw [(emb_cases r).2.2.2]; exact ⟨by simp only; linarith, by simp only; linarith, by simp only; linarith, by simp only; linarith⟩

theorem cont_climb (q : List (Fin 4)) : Continuous (climb q : ℝ × ℝ → ℝ × ℝ) := by
  induction q with
  | nil => exact continuous_id
  | cons k q ih => exact ih.comp (cont_emb k)

section
variable {close close' : Pt ℝ → Pt ℝ → Bool} {B : Base ℝ} {e e' : ET} {sf sf' : Bool} {s s' : St ℝ} {D D' : DH} {V V' : DV ℝ} {rect rect' : Nat → Bool}

/-- The place of a point of a finer leaf in the coarser leaf. -/
theorem F_below (h : Setting close B e sf s D V rect) (h' : Setting close' B e' sf' s' D' V' rect') {c c' : CN} (hc : c ∈ leaves sf s)
    (hc' : c' ∈ leaves sf' s') {q : List (Fin 4)} (h1 : c'.1 = c.1) (h2 : c'.2 = q ++ c.2) (r : ℝ × ℝ) :
    F (cellQ s' c') r = F (cellQ s c) (climb q r) ∧
    det (cellQ s' c') ⟨r.1, r.2⟩ = (1 / 4) ^ q.length * det (cellQ s c) ⟨(climb q r).1, (climb q r).2⟩ := by
  have hs := h.ready.ready.uses.uses.reach
  have hs' := h'.ready.ready.uses.uses.reach
  constructor
  · rw [F_phys, F_phys, phys_cell two_ne_zero h.wf hs c (leaf_mem h hc), phys_cell two_ne_zero h.wf hs' c' (leaf_mem h' hc'), h1, h2, Fn.climb_append]
  · rw [det_same (cellQ_eq h.wf hs c (leaf_mem h hc)), det_same (cellQ_eq h.wf hs' c' (leaf_mem h' hc')), h1, h2, det_path]

/-- Leaves are not below each other. -/
theorem leaf_below (h : Setting close B e sf s D V rect) {c d : CN} (hc : c ∈ leaves sf s) (hd : d ∈ leaves sf s) (hb : Below c d) : c = d := by
  by_contra hne
  have hi := h.ready.ready.uses.uses.reach.inv h.wf
  obtain ⟨d1, d2, _⟩ := (Dof.mem_leaves hi d).1 hd
  obtain ⟨c1, c2, c3⟩ := (Dof.mem_leaves hi c).1 hc
  have up : ∀ (q : List (Fin 4)) (a : CN), CEx B.n s.kids (a.1, q ++ a.2) → Dof.Sub sf s (a.1, q ++ a.2) → CEx B.n s.kids a ∧ Dof.Sub sf s a := by
    intro q a
    induction q with
    | nil => exact fun h1 h2 => ⟨h1, h2⟩
    | cons k q ih =>
      intro h1 h2
      refine ih (hi.pref (a.1, q ++ a.2) h1) ?_
      rcases h2 with h2 | h2
      · exact .inl h2
      · rcases h.full with hf | ⟨hf, _⟩
        · exact .inl hf
        · exact .inr (hf (a.1, q ++ a.2) k h1 h2)
  obtain ⟨k, hk⟩ := below_step hb (fun hb' => hne (below_antisymm hb hb'))
  obtain ⟨q, hq⟩ := hk.2
  have hd' : d = ((child c k).1, q ++ (child c k).2) := Prod.ext hk.1 hq.symm
  rw [hd'] at d1 d2
  obtain ⟨a1, a2⟩ := up q (child c k) d1 d2
  have : hasCh sf s c = true := by
    unfold hasCh
    rw [Bool.and_eq_true]
    refine ⟨a1, ?_⟩
    rcases a2 with a2 | a2
    · simp [a2]
    · rw [Bool.or_eq_true]
      exact .inr (List.any_eq_true.2 ⟨k, by fin_cases k <;> simp [four], a2⟩)
  rw [c3] at this
  cases this

/-- An integral over the leaves, computed on a finer mesh. -/
theorem sum_finer (h : Setting close B e sf s D V rect) (h' : Setting close' B e' sf' s' D' V' rect') (hfin : Finer sf s sf' s')
    {g g' G : CN → ℝ × ℝ → ℝ} (hG : ∀ c ∈ leaves sf s, Continuous (G c))
    (hg : ∀ c ∈ leaves sf s, ∀ r, InOpen r → det (cellQ s c) ⟨r.1, r.2⟩ * g c (F (cellQ s c) r) = G c r)
    (hg' : ∀ c' ∈ leaves sf' s', ∀ c ∈ leaves sf s, Below c c' → ∀ r, InOpen r → g' c' (F (cellQ s' c') r) = g c (F (cellQ s' c') r)) :
    ((leaves sf s).map (fun c => ∫ p in Quad.region (cellQ s c), g c p)).sum =
      ((leaves sf' s').map (fun c => ∫ p in Quad.region (cellQ s' c), g' c p)).sum := by
  have hs := h.ready.ready.uses.uses.reach
  have hs' := h'.ready.ready.uses.uses.reach
  set Ψ : CN → List (Fin 4) → ℝ := fun c q => ∫ r in Gauss.sq, (1 / 4) ^ q.length * G c (climb q r) with hΨ
  have add : ∀ c ∈ leaves sf s, ∀ q, Ψ c q = ∑ k : Fin 4, Ψ c (k :: q) := by
    intro c hc q
    simp only [hΨ, int_mul]
    rw [sq_quarters (f := fun r => G c (climb q r)) ((hG c hc).comp (cont_climb q)), ← mul_assoc, Finset.mul_sum]
    refine Finset.sum_congr rfl (fun k _ => ?_)
    rw [List.length_cons, pow_succ]
    rfl
  have e1 : (leaves sf s).map (fun c => ∫ p in Quad.region (cellQ s c), g c p) = (leaves sf s).map (fun c =>
      ((leaves sf' s').map (fun d => if Below c d then Ψ c (d.2.take (d.2.length - c.2.length)) else 0)).sum) := by
    refine List.map_congr_left (fun c hc => ?_)
    rw [sum_below h.wf hs' h'.roots h'.full (leaf_root h hc) ?_ (Ψ c) (add c hc), cell_integral (leaf_convex h hc) (g c) (G c) (hg c hc)]
    · simp [hΨ, climb]
    · intro c' hc' hb
      obtain ⟨d, hd, hb'⟩ := hfin c' hc'
      have := leaf_below h hd hc (below_trans hb' hb)
      rw [← this]
      exact hb'
  have swap : ∀ (l l' : List CN) (T : CN → CN → ℝ), (l.map (fun c => (l'.map (fun d => T c d)).sum)).sum = (l'.map (fun d => (l.map (fun c => T c d)).sum)).sum := by
    intro l l' T
    induction l with
    | nil => simp
    | cons a l ih =>
      simp only [List.map_cons, List.sum_cons, ih]
      rw [lsum_add]
  rw [e1, swap]
  congr 1
  refine List.map_congr_left (fun c' hc' => ?_)
  obtain ⟨c, hc, hb⟩ := hfin c' hc'
  have hnd := leaves_nodup h.wf hs sf
  rw [← List.sum_toFinset _ hnd, Finset.sum_eq_single c]
  · rw [if_pos hb]
    refine (cell_integral (leaf_convex h' hc') _ _ (fun r hr => ?_)).symm
    obtain ⟨f1, f2⟩ := F_below h h' hc hc' hb.1 (below_parts hb) r
    rw [hg' c' hc' c hc hb r hr, f1, f2, mul_assoc, hg c hc _ (open_climb _ hr)]
  · intro d hd hne
    rw [if_neg]
    intro hb'
    refine hne ?_
    have hd := List.mem_toFinset.1 hd
    rcases le_total d.2.length c.2.length with hl | hl
    · exact leaf_below h hd hc ⟨hb.1.symm.trans hb'.1, List.suffix_of_suffix_length_le hb'.2 hb.2 hl⟩
    · exact (leaf_below h hc hd ⟨hb'.1.symm.trans hb.1, List.suffix_of_suffix_length_le hb.2 hb'.2 hl⟩).symm
  · intro hn
    exact absurd (List.mem_toFinset.2 hc) hn

end
end Verif.Cea
