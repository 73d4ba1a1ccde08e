import Verif.Gal.Flux
import Verif.Fn.Poly

/-!
# The fluxes through the sides of the leaves add up to zero

for a function that is single-valued on the (sub)mesh and vanishes on the boundary.
-/

namespace Verif.Gal
open Verif.Mesh Verif.Dof Verif.Bnd Verif.Quad Verif.Fem Verif.Gauss MeasureTheory Verif.Phys

/-- Induction from the leaves to the initial cells. -/
theorem tree_ind {K : Type} [Field K] {B : Base K} (hB : B.WF) {s : St K} (h : MReach B s) {sf : Bool}
    (hf : sf = false ∨ (RootedFlag B s ∧ FullFlag s)) (P : CN → Prop) (h0 : ∀ c ∈ leaves sf s, P c)
    (h1 : ∀ c, CEx B.n s.kids c → Dof.Sub sf s c → hasCh sf s c = true → (∀ k, CEx B.n s.kids (child c k) ∧ Dof.Sub sf s (child c k) ∧ P (child c k)) → P c) :
    ∀ c, CEx B.n s.kids c → Dof.Sub sf s c → P c := by
  have hi := h.inv hB
  obtain ⟨N, hN⟩ := level_bound s.cells
  have key : ∀ (n : Nat) (c : CN), N - level c ≤ n → CEx B.n s.kids c → Dof.Sub sf s c → P c := by
    intro n
    induction n with
    | zero =>
      intro c hn hc hs
      cases hk : hasCh sf s c
      · exact h0 c ((Dof.mem_leaves hi c).2 ⟨hc, hs, hk⟩)
      · exfalso
        have := hN (child c 0) ((hi.mem _).2 (hasCh_kids hk))
        rw [level_child] at this
        omega
    | succ n ih =>
      intro c hn hc hs
      cases hk : hasCh sf s c
      · exact h0 c ((Dof.mem_leaves hi c).2 ⟨hc, hs, hk⟩)
      · refine h1 c hc hs hk (fun k => ?_)
        have hx : CEx B.n s.kids (child c k) := hasCh_kids hk
        have hs' : Dof.Sub sf s (child c k) := by
          rcases hf with h9 | ⟨_, h9⟩
          · exact .inl h9
          · cases sf
            · exact .inl rfl
            · exact .inr (h9 c hk k)
        exact ⟨hx, hs', ih _ (by rw [level_child]; omega) hx hs'⟩
  exact fun c => key _ c le_rfl

/-- Every point of the unit square is in a quarter. -/
theorem emb_cover {R : Type} [Field R] [LinearOrder R] [IsStrictOrderedRing R] (z : R × R) (hz : Dof.InSq z) :
    ∃ (k : Fin 4) (w : R × R), Dof.InSq w ∧ emb k w = z := by
  obtain ⟨a, b, c, d⟩ := hz
  rcases le_total z.1 (1 / 2) with hx | hx <;> rcases le_total z.2 (1 / 2) with hy | hy
  · exact ⟨0, (2 * z.1, 2 * z.2), ⟨by simp only; linarith, by simp only; linarith, by simp only; linarith, by simp only; linarith⟩,
      by ext <;> simp [emb]⟩
  · exact ⟨3, (2 * z.1, 2 * z.2 - 1), ⟨by simp only; linarith, by simp only; linarith, by simp only; linarith, by simp only; linarith⟩,
      by ext <;> simp [emb]⟩
  · exact ⟨1, (2 * z.1 - 1, 2 * z.2), ⟨by simp only; linarith, by simp only; linarith, by simp only; linarith, by simp only; linarith⟩,
      by ext <;> simp [emb]⟩
  · exact ⟨2, (2 * z.1 - 1, 2 * z.2 - 1), ⟨by simp only; linarith, by simp only; linarith, by simp only; linarith, by simp only; linarith⟩,
      by ext <;> simp [emb]⟩

section
variable {B : Base ℝ} {s : St ℝ} {sf : Bool} {e : ET} {D : DH}

/-- Every point of a cell of the (sub)mesh is in a leaf. -/
theorem leaf_cover (hB : B.WF) (h : MReach B s) (hf : sf = false ∨ (RootedFlag B s ∧ FullFlag s)) :
    ∀ c, CEx B.n s.kids c → Dof.Sub sf s c → ∀ z : ℝ × ℝ, Dof.InSq z → ∃ c' ∈ leaves sf s, ∃ z', Dof.InSq z' ∧ rootPt c' z' = rootPt c z := by
  refine tree_ind hB h hf _ (fun c hc z hz => ⟨c, hc, z, hz, rfl⟩) (fun c _ _ _ ih z hz => ?_)
  obtain ⟨k, w, hw, rfl⟩ := emb_cover z hz
  exact (ih k).2.2 w hw

open Classical in
/-- The finite element function as a function of the points of the initial cells. -/
noncomputable def glob (sf : Bool) (s : St ℝ) (e : ET) (D : DH) (v : Nat → ℝ) (x : Nat × (ℝ × ℝ)) : ℝ :=
  if h : ∃ y : CN × (ℝ × ℝ), y.1 ∈ leaves sf s ∧ Dof.InSq y.2 ∧ rootPt y.1 y.2 = x then feFn e D v h.choose.1 h.choose.2 else 0

theorem glob_leaf {v : Nat → ℝ} (hS : Single B sf s e D v) {c : CN} (hc : c ∈ leaves sf s) {z : ℝ × ℝ} (hz : Dof.InSq z) :
    glob sf s e D v (rootPt c z) = feFn e D v c z := by
  have h : ∃ y : CN × (ℝ × ℝ), y.1 ∈ leaves sf s ∧ Dof.InSq y.2 ∧ rootPt y.1 y.2 = rootPt c z := ⟨(c, z), hc, hz, rfl⟩
  unfold glob
  rw [dif_pos h]
  obtain ⟨h1, h2, h3⟩ := h.choose_spec
  exact hS _ h1 _ hc _ _ h2 hz (by rw [h3]; exact .refl _)

theorem glob_same (hB : B.WF) (h : MReach B s) (hr : RootsIn B sf s) (hf : sf = false ∨ (RootedFlag B s ∧ FullFlag s)) {v : Nat → ℝ}
    (hS : Single B sf s e D v) {f g : Nat} (hfn : f < B.n) (hgn : g < B.n) {z w : ℝ × ℝ} (hz : Dof.InSq z) (hw : Dof.InSq w)
    (hs : SamePt B (f, z) (g, w)) : glob sf s e D v (f, z) = glob sf s e D v (g, w) := by
  obtain ⟨c, hc, z', hz', e1⟩ := leaf_cover hB h hf (f, []) hfn (hr f hfn) z hz
  obtain ⟨c', hc', w', hw', e2⟩ := leaf_cover hB h hf (g, []) hgn (hr g hgn) w hw
  change rootPt c z' = (f, z) at e1
  change rootPt c' w' = (g, w) at e2
  rw [← e1, ← e2, glob_leaf hS hc hz', glob_leaf hS hc' hw']
  exact hS c hc c' hc' z' w' hz' hw' (by rw [e1, e2]; exact hs)

/-! ### One cell and its children -/

theorem F_phys (q : QD ℝ) (z : ℝ × ℝ) : F q z = ((phys q z).x, (phys q z).y) := rfl

theorem F_child (q : QD ℝ) (k : Fin 4) (z : ℝ × ℝ) : F (q.child ∅ k) z = F q (emb k z) := by
  rw [F_phys, F_phys, phys_child (by norm_num)]

theorem corner_F (q : QD ℝ) (i : Fin 4) : corner q i = phys q (E i 0) ∧ corner q (i + 1) = phys q (E i 1) := by
  rw [phys_E, phys_E]
  constructor <;> apply Geom_pt_ext <;> simp
where
  Geom_pt_ext {a b : Pt ℝ} (h1 : a.x = b.x) (h2 : a.y = b.y) : a = b := by
    cases a; cases b; simp only at h1 h2; subst h1; subst h2; rfl

/-- The integrand on a side. -/
noncomputable def integrand (q : QD ℝ) (P Q V : ℝ × ℝ → ℝ) (i : Fin 4) (t : ℝ) : ℝ :=
  (P (F q (E i t)) * ((F q (E i 1)).2 - (F q (E i 0)).2) - Q (F q (E i t)) * ((F q (E i 1)).1 - (F q (E i 0)).1)) * V (E i t)

theorem sideFlux_eq (q : QD ℝ) (P Q V : ℝ × ℝ → ℝ) (i : Fin 4) : sideFlux q P Q V i = ∫ t in (0 : ℝ)..1, integrand q P Q V i t := by
  unfold sideFlux integrand
  rw [(corner_F q i).1, (corner_F q i).2]
  rfl

theorem F_line (q : QD ℝ) (i : Fin 4) (r : ℝ) : F q (E i r) = ((1 - r) * (F q (E i 0)).1 + r * (F q (E i 1)).1,
    (1 - r) * (F q (E i 0)).2 + r * (F q (E i 1)).2) := by
  simp only [F_phys, phys_E]
  ext <;> simp

variable (P Q : ℝ × ℝ → ℝ)

/-- The first half of side `i` belongs to child `i`. -/
theorem integrand_first (q : QD ℝ) (V : ℝ × ℝ → ℝ) (i : Fin 4) (t : ℝ) :
    integrand (q.child ∅ i) P Q (fun z => V (emb i z)) i t = 1 / 2 * integrand q P Q V i (1 / 2 * t) := by
  unfold integrand
  simp only [F_child, emb_k]
  have e1 := F_line q i ((1 : ℝ) / 2)
  have e0 : F q (E i ((0 : ℝ) / 2)) = F q (E i 0) := by norm_num
  rw [e0, show t / 2 = 1 / 2 * t by ring]
  have h1 : (F q (E i ((1 : ℝ) / 2))).2 - (F q (E i 0)).2 = 1 / 2 * ((F q (E i 1)).2 - (F q (E i 0)).2) := by rw [e1]; ring
  have h2 : (F q (E i ((1 : ℝ) / 2))).1 - (F q (E i 0)).1 = 1 / 2 * ((F q (E i 1)).1 - (F q (E i 0)).1) := by rw [e1]; ring
  rw [h1, h2]
  ring

/-- The second half of side `i` belongs to child `i+1`. -/
theorem integrand_second (q : QD ℝ) (V : ℝ × ℝ → ℝ) (i : Fin 4) (t : ℝ) :
    integrand (q.child ∅ (i + 1 : Fin 4)) P Q (fun z => V (emb (i + 1) z)) i t = 1 / 2 * integrand q P Q V i (1 / 2 * t + 1 / 2) := by
  unfold integrand
  simp only [F_child, emb_k3]
  have e1 := F_line q i (((1 : ℝ) + 0) / 2)
  have e0 : F q (E i (((1 : ℝ) + 1) / 2)) = F q (E i 1) := by norm_num
  rw [e0, show (1 + t) / 2 = 1 / 2 * t + 1 / 2 by ring]
  have h1 : (F q (E i 1)).2 - (F q (E i (((1 : ℝ) + 0) / 2))).2 = 1 / 2 * ((F q (E i 1)).2 - (F q (E i 0)).2) := by rw [e1]; ring
  have h2 : (F q (E i 1)).1 - (F q (E i (((1 : ℝ) + 0) / 2))).1 = 1 / 2 * ((F q (E i 1)).1 - (F q (E i 0)).1) := by rw [e1]; ring
  rw [h1, h2]
  ring

/-- The inner side between children `k` and `k+1`. -/
theorem integrand_inner (q : QD ℝ) (V : ℝ × ℝ → ℝ) (k : Fin 4) (t : ℝ) :
    integrand (q.child ∅ k) P Q (fun z => V (emb k z)) (k + 1) t =
      - integrand (q.child ∅ (k + 1 : Fin 4)) P Q (fun z => V (emb (k + 1) z)) (k + 3) (1 - t) := by
  unfold integrand
  simp only [F_child, emb_inner]
  norm_num
  ring

theorem int_congr (f g : ℝ → ℝ) (h : ∀ t, f t = g t) : ∫ t in (0 : ℝ)..1, f t = ∫ t in (0 : ℝ)..1, g t := by
  rw [show f = g from funext h]

theorem inner_cancel (q : QD ℝ) (V : ℝ × ℝ → ℝ) (k : Fin 4) :
    sideFlux (q.child ∅ k) P Q (fun z => V (emb k z)) (k + 1) + sideFlux (q.child ∅ (k + 1 : Fin 4)) P Q (fun z => V (emb (k + 1) z)) (k + 3) = 0 := by
  rw [sideFlux_eq, sideFlux_eq, int_congr _ _ (integrand_inner P Q q V k), intervalIntegral.integral_neg,
    intervalIntegral.integral_comp_sub_left (f := fun t => integrand (q.child ∅ (k + 1 : Fin 4)) P Q (fun z => V (emb (k + 1) z)) (k + 3) t)]
  simp

theorem outer_int (q : QD ℝ) (V : ℝ × ℝ → ℝ) (i : Fin 4)
    (h1 : IntervalIntegrable (integrand (q.child ∅ i) P Q (fun z => V (emb i z)) i) volume 0 1)
    (h2 : IntervalIntegrable (integrand (q.child ∅ (i + 1 : Fin 4)) P Q (fun z => V (emb (i + 1) z)) i) volume 0 1) :
    IntervalIntegrable (integrand q P Q V i) volume 0 1 ∧
      sideFlux (q.child ∅ i) P Q (fun z => V (emb i z)) i + sideFlux (q.child ∅ (i + 1 : Fin 4)) P Q (fun z => V (emb (i + 1) z)) i =
        sideFlux q P Q V i := by
  have a1 : IntervalIntegrable (integrand q P Q V i) volume 0 (1 / 2) := by
    have := (h1.const_mul 2).comp_mul_left (c := 2)
    simp only [integrand_first] at this
    norm_num at this
    refine (this.congr ?_)
    intro t _
    simp only
    ring_nf
  have a2 : IntervalIntegrable (integrand q P Q V i) volume (1 / 2) 1 := by
    have := ((h2.const_mul 2).comp_sub_right 1).comp_mul_left (c := 2)
    simp only [integrand_second] at this
    norm_num at this
    refine (this.congr ?_)
    intro t _
    simp only
    ring_nf
  refine ⟨a1.trans a2, ?_⟩
  rw [sideFlux_eq, sideFlux_eq, sideFlux_eq, int_congr _ _ (integrand_first P Q q V i), int_congr _ _ (integrand_second P Q q V i),
    intervalIntegral.integral_const_mul, intervalIntegral.integral_const_mul,
    intervalIntegral.integral_comp_mul_left (fun t => integrand q P Q V i t) (by norm_num),
    intervalIntegral.integral_comp_mul_add (fun t => integrand q P Q V i t) (by norm_num), ← intervalIntegral.integral_add_adjacent_intervals a1 a2]
  norm_num
  ring

/-! ### The mesh -/

/-- The quadrilateral of a cell. -/
noncomputable def quadOf (B : Base ℝ) (c : CN) : QD ℝ := quadAt B c.1 c.2

theorem F_cell (B : Base ℝ) (c : CN) (z : ℝ × ℝ) : F (quadOf B c) z = F (rootQ B c.1) (rootPt c z).2 := by
  rw [F_phys, F_phys]
  unfold quadOf
  rw [phys_quadAt (by norm_num)]
  rfl

theorem fe_cont (e : ET) (D : DH) (v : Nat → ℝ) (c : CN) : Continuous (feFn e D v c) := by
  have : feFn e D v c = fun z => ((List.range (nd2 e)).map (fun n => v (dofAt D c n) * val (phi2 e n z))).sum := rfl
  rw [this]
  refine continuous_list_sum _ (fun n hn => ?_)
  exact continuous_const.mul (W_cont (Form.phi_mem e n (List.mem_range.1 hn)))

theorem integrand_cont {q : QD ℝ} {P Q V : ℝ × ℝ → ℝ} (hP : Continuous P) (hQ : Continuous Q) (hV : Continuous V) (i : Fin 4) :
    Continuous (integrand q P Q V i) := by
  have hE : Continuous (fun t : ℝ => (E i t : ℝ × ℝ)) := by
    fin_cases i <;> simp only [E] <;> fun_prop
  have hF := (cont_F q).comp hE
  unfold integrand
  exact (((hP.comp hF).mul continuous_const).sub ((hQ.comp hF).mul continuous_const)).mul (hV.comp hE)

theorem integrand_congr {q : QD ℝ} {P Q V V' : ℝ × ℝ → ℝ} (h : ∀ z, Dof.InSq z → V z = V' z) (i : Fin 4) {t : ℝ} (h0 : 0 ≤ t) (h1 : t ≤ 1) :
    integrand q P Q V i t = integrand q P Q V' i t := by
  unfold integrand
  rw [h _ (E_insq i h0 h1)]

theorem flux_congr {q : QD ℝ} {P Q V V' : ℝ × ℝ → ℝ} (h : ∀ z, Dof.InSq z → V z = V' z) (i : Fin 4) :
    sideFlux q P Q V i = sideFlux q P Q V' i := by
  rw [sideFlux_eq, sideFlux_eq]
  refine intervalIntegral.integral_congr (fun t ht => ?_)
  rw [Set.uIcc_of_le zero_le_one] at ht
  exact integrand_congr h i ht.1 ht.2

variable {P Q}

theorem flux_int (hB : B.WF) (h : MReach B s) (hf : sf = false ∨ (RootedFlag B s ∧ FullFlag s)) {v : Nat → ℝ} (hS : Single B sf s e D v)
    (hP : Continuous P) (hQ : Continuous Q) : ∀ c, CEx B.n s.kids c → Dof.Sub sf s c → ∀ i : Fin 4,
      IntervalIntegrable (integrand (quadOf B c) P Q (fun z => glob sf s e D v (rootPt c z)) i) volume 0 1 := by
  refine tree_ind hB h hf _ (fun c hc i => ?_) (fun c _ _ _ ih i => ?_)
  · refine IntervalIntegrable.congr (f := integrand (quadOf B c) P Q (feFn e D v c) i) ?_ ?_
    · intro t ht
      rw [Set.uIoc_of_le zero_le_one] at ht
      exact integrand_congr (fun z hz => (glob_leaf hS hc hz).symm) i ht.1.le ht.2
    · exact (integrand_cont hP hQ (fe_cont e D v c) i).intervalIntegrable _ _
  · exact (outer_int P Q (quadOf B c) (fun z => glob sf s e D v (rootPt c z)) i ((ih i).2.2 i) ((ih (i + 1)).2.2 i)).1

theorem flux_child (hB : B.WF) (h : MReach B s) (hf : sf = false ∨ (RootedFlag B s ∧ FullFlag s)) {v : Nat → ℝ} (hS : Single B sf s e D v)
    (hP : Continuous P) (hQ : Continuous Q) (c : CN) (hs : Dof.Sub sf s c) (hk : hasCh sf s c = true) :
    ∑ i : Fin 4, sideFlux (quadOf B c) P Q (fun z => glob sf s e D v (rootPt c z)) i =
      ∑ k : Fin 4, ∑ i : Fin 4, sideFlux (quadOf B (child c k)) P Q (fun z => glob sf s e D v (rootPt (child c k) z)) i := by
  set V : ℝ × ℝ → ℝ := fun z => glob sf s e D v (rootPt c z) with hV
  have hsub : ∀ k, Dof.Sub sf s (child c k) := by
    intro k
    rcases hf with h9 | ⟨_, h9⟩
    · exact .inl h9
    · cases sf
      · exact .inl rfl
      · exact .inr (h9 c hk k)
  have hint : ∀ k i, IntervalIntegrable (integrand ((quadOf B c).child ∅ (k : Fin 4)) P Q (fun z => V (emb k z)) i) volume 0 1 := fun k i =>
    flux_int hB h hf hS hP hQ (child c k) (hasCh_kids hk) (hsub k) i
  have out := fun i => (outer_int P Q (quadOf B c) V i (hint i i) (hint (i + 1) i)).2
  have inn := fun k => inner_cancel P Q (quadOf B c) V k
  have e1 : ∀ k i, sideFlux (quadOf B (child c k)) P Q (fun z => glob sf s e D v (rootPt (child c k) z)) i =
      sideFlux ((quadOf B c).child ∅ (k : Fin 4)) P Q (fun z => V (emb k z)) i := fun _ _ => rfl
  simp only [e1]
  have o0 := out 0
  have o1 := out 1
  have o2 := out 2
  have o3 := out 3
  have i0 := inn 0
  have i1 := inn 1
  have i2 := inn 2
  have i3 := inn 3
  simp only [show (0 + 1 : Fin 4) = 1 from rfl, show (1 + 1 : Fin 4) = 2 from rfl, show (2 + 1 : Fin 4) = 3 from rfl, show (3 + 1 : Fin 4) = 0 from rfl,
    show (0 + 3 : Fin 4) = 3 from rfl, show (1 + 3 : Fin 4) = 0 from rfl, show (2 + 3 : Fin 4) = 1 from rfl, show (3 + 3 : Fin 4) = 2 from rfl] at o0 o1 o2 o3 i0 i1 i2 i3
  simp only [Fin.sum_univ_four]
  linarith

end
end Verif.Gal
