import Verif.Neu.Core

/-!
# The mixed problem: definiteness, the assembled system
-/

namespace Verif.Neu
open Verif.Mesh Verif.Dof Verif.Quad Verif.Fem Verif.Form Verif.Asm Verif.Phys Verif.Gal Verif.Bnd Verif.Reg Verif.Dir Verif.Gauss

section
variable {close : Pt ℝ → Pt ℝ → Bool} {B : Base ℝ} {e : ET} {sf : Bool} {s : St ℝ} {D : DH} {V : DV ℝ} {rect : Nat → Bool}
variable {n n1 j : Nat} {rc : List ((ℝ × ℝ) × ℝ)} {re : List (ℝ × ℝ)} {k kf : Kernel (Pt ℝ)} {κ p : Poly}
variable {em : CN → Fin 4 → Finset Nat} {d : List (Nat × ℝ)} {rob neu : List (Kernel (Pt ℝ) × Nat)}

/-- A single-valued function that is constant on every leaf is constant. -/
theorem const_all (hB : B.WF) (hs : MReach B s) (hr : RootsIn B sf s) (hf : sf = false ∨ (RootedFlag B s ∧ FullFlag s)) (hcon : Connected B)
    {w : Nat → ℝ} (hS : Single B sf s e D w) (hc : ∀ c ∈ leaves sf s, ∀ a < nd2 e, ∀ i < nd2 e, w (dofAt D c a) = w (dofAt D c i)) :
    ∀ c ∈ leaves sf s, ∀ c' ∈ leaves sf s, ∀ a < nd2 e, ∀ i < nd2 e, w (dofAt D c a) = w (dofAt D c' i) := by
  have hi := hs.inv hB
  have hfn : ∀ c ∈ leaves sf s, ∀ a < nd2 e, ∀ z, feFn e D w c z = w (dofAt D c a) := by
    intro c hcl a ha z
    exact fe_const e _ _ (fun b hb => hc c hcl b hb a ha) z
  have tree : ∀ c, CEx B.n s.kids c → Dof.Sub sf s c → ∀ z z' : ℝ × ℝ, Dof.InSq z → Dof.InSq z' →
      glob sf s e D w (rootPt c z) = glob sf s e D w (rootPt c z') := by
    refine tree_ind hB hs hf _ (fun c hcl z z' hz hz' => ?_) (fun c _ _ _ ih z z' hz hz' => ?_)
    · rw [glob_leaf hS hcl hz, glob_leaf hS hcl hz', hfn c hcl 0 (Phys.nd2_pos e), hfn c hcl 0 (Phys.nd2_pos e)]
    · have mid : ∀ z : ℝ × ℝ, Dof.InSq z → glob sf s e D w (rootPt c z) = glob sf s e D w (rootPt c ((1 / 2, 1 / 2) : ℝ × ℝ)) := by
        intro z hz
        obtain ⟨k, z1, h1, h2⟩ := emb_cover z hz
        have h3 : (emb k (E (k + 2) 0) : ℝ × ℝ) = (1 / 2, 1 / 2) := by
          fin_cases k <;> simp [emb, E]
        have := (ih k).2.2 z1 (E (k + 2) 0) h1 (E_insq _ (by norm_num) (by norm_num))
        have g1 : rootPt (child c k) z1 = rootPt c z := by rw [← h2]; rfl
        have g2 : rootPt (child c k) (E (k + 2) 0 : ℝ × ℝ) = rootPt c (1 / 2, 1 / 2) := by rw [← h3]; rfl
        rw [g1, g2] at this
        exact this
      rw [mid z hz, mid z' hz']
  have root : ∀ c ∈ leaves sf s, ∀ a < nd2 e, w (dofAt D c a) = glob sf s e D w (c.1, ((1 / 2, 1 / 2) : ℝ × ℝ)) := by
    intro c hcl a ha
    have hroot := CEx_root hi c.2 c.1 ((Dof.mem_leaves hi c).1 hcl).1
    have hz : Dof.InSq ((1 / 2, 1 / 2) : ℝ × ℝ) := ⟨by norm_num, by norm_num, by norm_num, by norm_num⟩
    rw [← hfn c hcl a ha (1 / 2, 1 / 2), ← glob_leaf hS hcl hz]
    exact tree (c.1, []) hroot (hr c.1 hroot) (climb c.2 (1 / 2, 1 / 2)) (1 / 2, 1 / 2) (climb_insq c.2 hz) hz
  have conn : ∀ f < B.n, ∀ g, Relation.ReflTransGen (fun f g => ∃ i j : Fin 4, B.T (4 * f + i) = some (4 * g + j)) f g →
      g < B.n ∧ glob sf s e D w (f, ((1 / 2, 1 / 2) : ℝ × ℝ)) = glob sf s e D w (g, ((1 / 2, 1 / 2) : ℝ × ℝ)) := by
    intro f hfn' g hrt
    induction hrt with
    | refl => exact ⟨hfn', rfl⟩
    | @tail g1 g2 _ hst ih =>
      obtain ⟨ih1, ih2⟩ := ih
      obtain ⟨i, l, ht⟩ := hst
      have hlt := hB.lt _ _ ht
      have hg2 : g2 < B.n := by omega
      refine ⟨hg2, ih2.trans ?_⟩
      have hz : Dof.InSq ((1 / 2, 1 / 2) : ℝ × ℝ) := ⟨by norm_num, by norm_num, by norm_num, by norm_num⟩
      have i1 : Dof.InSq (E i 0 : ℝ × ℝ) := E_insq _ (by norm_num) (by norm_num)
      have i2 : Dof.InSq (E l (1 - 0) : ℝ × ℝ) := E_insq _ (by norm_num) (by norm_num)
      have h1 := tree (g1, []) ih1 (hr g1 ih1) (1 / 2, 1 / 2) (E i 0) hz i1
      have h2 := tree (g2, []) hg2 (hr g2 hg2) (E l (1 - 0)) (1 / 2, 1 / 2) i2 hz
      have h3 := glob_same hB hs hr hf hS ih1 hg2 i1 i2 (.rel _ _ ⟨i, l, 0, le_rfl, zero_le_one, ih1, hg2, ht, rfl, rfl⟩)
      exact h1.trans (h3.trans h2)
  intro c hcl c' hcl' a ha i hi'
  have r1 := CEx_root hi c.2 c.1 ((Dof.mem_leaves hi c).1 hcl).1
  have r2 := CEx_root hi c'.2 c'.1 ((Dof.mem_leaves hi c').1 hcl').1
  rw [root c hcl a ha, root c' hcl' i hi']
  exact (conn c.1 r1 c'.1 (hcon _ r1 _ r2)).2

/-- A dof with a Dirichlet value is a dof of a leaf. -/
theorem held_leaf {g : Pt ℝ → ℝ} (hD : Holds B sf s e D g d) {a : Nat} (ha : (Dir.look d a).isSome) :
    ∃ c ∈ leaves sf s, ∃ i < nd2 e, Dof.val D c i = some a ∧ dofAt D c i = a ∧ BndPt B (rootPt c (node e i)) := by
  obtain ⟨v, hv⟩ := Option.isSome_iff_exists.1 ha
  obtain ⟨c, hc, i, hi, h1, h2, _⟩ := hD.2 a v hv
  refine ⟨c, hc, i, hi, h1, ?_, h2⟩
  unfold dofAt
  rw [h1]
  rfl

/-- Constant on every leaf, and zero at a dof with a Dirichlet value: zero. -/
theorem const_zero (h : Setting close B e sf s D V rect) (hcon : Connected B) {g : Pt ℝ → ℝ} (hD : Holds B sf s e D g d) (hne : d ≠ [])
    {w : Nat → ℝ} (hS : Single B sf s e D w) (hw : ZeroAt d w)
    (hc : ∀ c ∈ leaves sf s, ∀ a < nd2 e, ∀ i < nd2 e, w (dofAt D c a) = w (dofAt D c i)) :
    ∀ c ∈ leaves sf s, ∀ a < nd2 e, w (dofAt D c a) = 0 := by
  obtain ⟨y, hy⟩ := List.exists_mem_of_ne_nil _ hne
  have hk : (Dir.look d y.1).isSome := (look_mem y.1).1 (List.mem_map.2 ⟨y, hy, rfl⟩)
  obtain ⟨c0, hc0, i0, hi0, _, h1, _⟩ := held_leaf hD hk
  intro c hcl a ha
  rw [const_all h.wf h.ready.ready.uses.uses.reach h.roots h.full hcon hS hc c hcl c0 hc0 a ha i0 hi0, h1]
  exact hw _ hk

/-- A function of zero energy that is single-valued and zero at the dofs with Dirichlet values is zero. -/
theorem definite (h : Setting close B e sf s D V rect) (hcon : Connected B) {g : Pt ℝ → ℝ} (hD : Holds B sf s e D g d) (hne : d ≠ [])
    (hrc : Gauss.rule2 (n ^ 2) = .ok rc) (hre : Gauss.rule1 n1 = .ok re) (hn : deg e < n)
    {S : Nat} (hS : sampleSize k = .ok S) (hk : ∀ x : Pt ℝ, (x.x, x.y) ∈ Dom B → 0 < k.eval S x j)
    (hrob : ∀ y ∈ rob, ∃ S, sampleSize y.1 = .ok S ∧ ∀ x : Pt ℝ, (x.x, x.y) ∈ Dom B → 0 ≤ y.1.eval S x j)
    {w : Nat → ℝ} (hw : Single B sf s e D w) (hz : ZeroAt d w)
    (h0 : total2 (contribs e (mixedBil k rob) rc re j (meshCellsM em rect sf s D)) w w = 0) :
    ∀ c ∈ leaves sf s, ∀ a < nd2 e, w (dofAt D c a) = 0 := by
  have hs := h.ready.ready.uses.uses.reach
  have hi := hs.inv h.wf
  rw [total2_mixed h.wf h.plain h.ready.ready] at h0
  have hcx : ∀ c ∈ leaves sf s, ConvexCCW (cellQ s c) := fun c hc =>
    Fn.cell_convex h.wf h.convex hs ((hi.mem c).2 ((Dof.mem_leaves hi c).1 hc).1)
  have hreg : ∀ c ∈ leaves sf s, ∀ x : Pt ℝ, (x.x, x.y) ∈ Quad.region (cellQ s c) → (x.x, x.y) ∈ Dom B := fun c hc x hx => leaf_region h hc hx
  have n1' : ∀ c ∈ leaves sf s, 0 ≤ bilC e k rc re j (qcellM em rect s c) (fun a => w (dofAt D c a)) (fun a => w (dofAt D c a)) := by
    intro c hc
    refine add_nonneg ?_ ?_
    · exact C56_psd hrc hre k S hS ⟨e, [1, 0]⟩ (Or.inr (Or.inl ⟨0, by omega, rfl⟩)) .dx none (qcellM em rect s c) (hcx c hc) j (fun x hx => (hk x (hreg c hc x hx)).le) _
    · exact C56_psd hrc hre k S hS ⟨e, [1, 1]⟩ (Or.inr (Or.inl ⟨1, by omega, rfl⟩)) .dx none (qcellM em rect s c) (hcx c hc) j (fun x hx => (hk x (hreg c hc x hx)).le) _
  have n2' : ∀ c ∈ leaves sf s, 0 ≤ (rob.map (edgeB e rc re j (qcellM em rect s c) (fun a => w (dofAt D c a)) (fun a => w (dofAt D c a)))).sum := by
    intro c hc
    refine List.sum_nonneg ?_
    simp only [List.mem_map]
    rintro _ ⟨y, hy, rfl⟩
    obtain ⟨S', h1, h2⟩ := hrob y hy
    exact C56_psd hrc hre y.1 S' h1 ⟨e, [0]⟩ (Or.inl rfl) .ds (some y.2) (qcellM em rect s c) (hcx c hc) j (fun x hx => h2 x (hreg c hc x hx)) _
  have key := sum_zero (leaves sf s) _ (fun c hc => add_nonneg (n1' c hc) (n2' c hc)) h0
  refine const_zero h hcon hD hne hw hz (fun c hc => ?_)
  have hcm := (hi.mem c).2 ((Dof.mem_leaves hi c).1 hc).1
  refine (C56_stiffness_kernel hrc hre e hn k S hS none (qcellM em rect s c) rfl (hcx c hc) (upright_cell h.wf h.rect hs hcm) j (fun x hx => hk x (hreg c hc x hx))
    (fun a => w (dofAt D c a))).1 ?_
  have : bilC e k rc re j (qcellM em rect s c) (fun a => w (dofAt D c a)) (fun a => w (dofAt D c a)) = 0 := by
    have := key c hc
    have h1 := n1' c hc
    have h2 := n2' c hc
    linarith
  rw [bilC, ← Finset.sum_add_distrib] at this
  rw [← this]
  refine Finset.sum_congr rfl (fun a _ => ?_)
  rw [← Finset.sum_add_distrib]
  refine Finset.sum_congr rfl (fun i _ => ?_)
  ring

theorem edgeB_sub (e : ET) (y : Kernel (Pt ℝ) × Nat) (q : QCell) (v x z : Nat → ℝ) :
    edgeB e rc re j q v (fun a => x a - z a) y = edgeB e rc re j q v x y - edgeB e rc re j q v z y := by
  unfold edgeB
  simp only [mul_sub, Finset.sum_sub_distrib]

theorem total2_sub (h : Setting close B e sf s D V rect) (v x y : Nat → ℝ) :
    total2 (contribs e (mixedBil k rob) rc re j (meshCellsM em rect sf s D)) v (fun a => x a - y a) =
      total2 (contribs e (mixedBil k rob) rc re j (meshCellsM em rect sf s D)) v x - total2 (contribs e (mixedBil k rob) rc re j (meshCellsM em rect sf s D)) v y := by
  rw [total2_mixed h.wf h.plain h.ready.ready, total2_mixed h.wf h.plain h.ready.ready, total2_mixed h.wf h.plain h.ready.ready, ← Gal.map_sub]
  congr 1
  refine List.map_congr_left (fun c _ => ?_)
  rw [bilC_sub]
  have : (rob.map (edgeB e rc re j (qcellM em rect s c) (fun a => v (dofAt D c a)) (fun a => x (dofAt D c a) - y (dofAt D c a)))).sum =
      (rob.map (edgeB e rc re j (qcellM em rect s c) (fun a => v (dofAt D c a)) (fun a => x (dofAt D c a)))).sum -
      (rob.map (edgeB e rc re j (qcellM em rect s c) (fun a => v (dofAt D c a)) (fun a => y (dofAt D c a)))).sum := by
    rw [← Gal.map_sub]
    congr 1
    exact List.map_congr_left (fun z _ => edgeB_sub e z _ _ _ _)
  rw [this]
  ring

/-- The kernels of the boundary terms are not negative. -/
theorem rob_pos (hd : Mixed B sf s e D em d n n1 j rc re k kf rob neu κ p) :
    ∀ y ∈ rob, ∃ S, sampleSize y.1 = .ok S ∧ ∀ x : Pt ℝ, (x.x, x.y) ∈ Dom B → 0 ≤ y.1.eval S x j := by
  intro y hy
  obtain ⟨α, ⟨S, h1, h2⟩, _, h3⟩ := hd.robs y hy
  exact ⟨S, h1, fun x hx => by rw [h2]; exact h3 _ hx⟩

/-- **The discrete solution is the polynomial.** -/
theorem reproduces (h : Setting close B e sf s D V rect) (hcon : Connected B) (hd : Mixed B sf s e D em d n n1 j rc re k kf rob neu κ p)
    (hD : Holds B sf s e D (fun x => ev p (x.x, x.y)) d) (hne : d ≠ []) {u : Nat → ℝ} (hu : Single B sf s e D u)
    (hb : ∀ a v, Dir.look d a = some v → u a = v)
    (hsol : ∀ v, Single B sf s e D v → ZeroAt d v → total2 (contribs e (mixedBil k rob) rc re j (meshCellsM em rect sf s D)) v u =
      total1 (loads e (mixedLin kf neu) rc re j (meshCellsM em rect sf s D)) v) :
    ∀ c ∈ leaves sf s, (∀ a < nd2 e, u (dofAt D c a) = ev p ((place s e c a).x, (place s e c a).y)) ∧
      ∀ z, feFn e D u c z = ev p (F (cellQ s c) z) := by
  have hU := coeffs_single h hd.data.degp
  have hpl : ∀ c ∈ leaves sf s, ∀ a < nd2 e, coeffs V p (dofAt D c a) = ev p ((place s e c a).x, (place s e c a).y) := by
    intro c hc a ha
    rw [coeffs_at h hc ha]
    unfold nodal place
    rw [F_phys, Fn.nodes_cast e a ha]
  set w : Nat → ℝ := fun a => u a - coeffs V p a with hw
  have hwS : Single B sf s e D w := by
    intro c hc c' hc' z z' hz hz' hsame
    rw [hw, fe_sub, fe_sub, hu c hc c' hc' z z' hz hz' hsame, hU c hc c' hc' z z' hz hz' hsame]
  have hwZ : ZeroAt d w := by
    intro a ha
    obtain ⟨v, hv⟩ := Option.isSome_iff_exists.1 ha
    obtain ⟨c, hc, i, hi, h1, _, h3⟩ := hD.2 a v hv
    have e1 : dofAt D c i = a := by
      unfold dofAt
      rw [h1]
      rfl
    rw [hw]
    simp only
    rw [hb a v hv, ← e1, hpl c hc i hi, h3, sub_self]
  obtain ⟨S, hSz, hk⟩ := hd.data.diff
  have hw0 := definite h hcon hD hne hd.data.rule2 hd.data.rule1 hd.data.order hSz (fun x hx => by rw [hk]; exact hd.data.pos _ hx) (rob_pos hd) hwS hwZ (by
    rw [total2_sub h, hsol w hwS hwZ, consistent h hd hwS hwZ, sub_self])
  have hua : ∀ c ∈ leaves sf s, ∀ a < nd2 e, u (dofAt D c a) = coeffs V p (dofAt D c a) := by
    intro c hc a ha
    have := hw0 c hc a ha
    rw [hw] at this
    exact sub_eq_zero.1 this
  intro c hc
  refine ⟨fun a ha => by rw [hua c hc a ha, hpl c hc a ha], fun z => ?_⟩
  rw [← coeffs_fn h hd.data.degp hc]
  show interp2 e _ z = interp2 e _ z
  unfold interp2
  congr 1
  refine List.map_congr_left (fun a ha => ?_)
  simp only
  rw [hua c hc a (List.mem_range.1 ha)]

/-- A dof with a Dirichlet value does not hang. -/
theorem held_free (h : Setting close B e sf s D V rect) {g : Pt ℝ → ℝ} (hD : Holds B sf s e D g d) {H C : List (Linsys.Con ℝ)}
    (hh : setHanging sf s e D [] = some (H, C)) {a : Nat} (ha : (Dir.look d a).isSome) : (consOf H d).hng a = none := by
  obtain ⟨c, hc, i, hi, hv, _, hb⟩ := held_leaf hD ha
  show Option.map _ _ = none
  rw [Option.map_eq_none_iff, List.find?_eq_none]
  intro x hx
  have := C66_not_hanging h.wf h.plain h.cont h.ready.ready hh c i _ hi hv hb x hx
  simpa using this

theorem test_iff (h : Setting close B e sf s D V rect) {g : Pt ℝ → ℝ} {H C : List (Linsys.Con ℝ)}
    (hh : setHanging sf s e D [] = some (H, C)) (hD : Holds B sf s e D g d) (v : Nat → ℝ) :
    Asm.Test (consOf H d).hng (consOf H d).dir v ↔ Single B sf s e D v ∧ ZeroAt d v := by
  have hR := h.ready.ready
  have hfull : sf = false ∨ FullFlag s := h.full.imp id (fun x => x.2)
  have hcont := C62_continuous h.wf h.plain h.cont hR hfull hh v
  obtain ⟨_, hnd, h5⟩ := setHanging_spec h.wf h.plain h.cont hR hh
  constructor
  · rintro ⟨h1, h2⟩
    refine ⟨hcont.1 (conforms_iff H d hnd (aff_zero h hh) v h1), fun a ha => ?_⟩
    obtain ⟨y, hy⟩ := Option.isSome_iff_exists.1 ha
    rw [h2 _ y (held_free h hD hh ha) hy, zero_mul]
  · rintro ⟨h1, h2⟩
    refine ⟨conforms_of H d (aff_zero h hh) v (hcont.2 h1), fun a y _ hy => ?_⟩
    rw [zero_mul]
    exact h2 a (Option.isSome_iff_exists.2 ⟨y, hy⟩)

theorem dict_level (h : Setting close B e sf s D V rect) {g : Pt ℝ → ℝ} {H C : List (Linsys.Con ℝ)}
    (hh : setHanging sf s e D [] = some (H, C)) (hD : Holds B sf s e D g d) :
    Asm.OneLevel (consOf H d).hng (consOf H d).dir D.count (H.map (·.dof)) (d.map (·.1)) := by
  refine C66_one_level h.wf h.plain h.cont h.ready.ready hh d hD.1 (fun a ha => ?_)
  obtain ⟨c, _, i, hi, hv, _, hb⟩ := held_leaf hD ((look_mem a).1 ha)
  exact ⟨c, i, hi, hv, hb⟩

theorem uses2_iff (h : Setting close B e sf s D V rect) (k : Kernel (Pt ℝ)) (rob : List (Kernel (Pt ℝ) × Nat)) (r : Nat) :
    Uses2 (contribs e (mixedBil k rob) rc re j (meshCellsM em rect sf s D)) r ↔ ∃ c ∈ leaves sf s, ∃ i < nd2 e, dofAt D c i = r := by
  unfold Uses2 contribs meshCellsM
  constructor
  · rintro ⟨x, hx, l, hl, hr⟩
    simp only [List.map_map, List.mem_map, Function.comp] at hx
    obtain ⟨c, hc, rfl⟩ := hx
    simp only [List.mem_map] at hl
    obtain ⟨t, _, rfl⟩ := hl
    exact ⟨c, hc, (row_mem h hc r).1 hr⟩
  · rintro ⟨c, hc, hr⟩
    refine ⟨_, List.mem_map.2 ⟨_, List.mem_map.2 ⟨c, hc, rfl⟩, rfl⟩, _, List.mem_map.2 ⟨⟨k, [1, 0], .dx, none⟩, ?_, rfl⟩, (row_mem h hc r).2 hr⟩
    exact List.mem_cons_self

theorem uses1_iff (h : Setting close B e sf s D V rect) (kf : Kernel (Pt ℝ)) (neu : List (Kernel (Pt ℝ) × Nat)) (r : Nat) :
    Uses1 (loads e (mixedLin kf neu) rc re j (meshCellsM em rect sf s D)) r ↔ ∃ c ∈ leaves sf s, ∃ i < nd2 e, dofAt D c i = r := by
  unfold Uses1 loads meshCellsM
  constructor
  · rintro ⟨x, hx, l, hl, hr⟩
    simp only [List.map_map, List.mem_map, Function.comp] at hx
    obtain ⟨c, hc, rfl⟩ := hx
    simp only [List.mem_map] at hl
    obtain ⟨t, _, rfl⟩ := hl
    exact ⟨c, hc, (row_mem h hc r).1 hr⟩
  · rintro ⟨c, hc, hr⟩
    refine ⟨_, List.mem_map.2 ⟨_, List.mem_map.2 ⟨c, hc, rfl⟩, rfl⟩, _, List.mem_map.2 ⟨⟨kf, [0], .dx, none⟩, ?_, rfl⟩, (row_mem h hc r).2 hr⟩
    exact List.mem_cons_self

/-- **Assembled and solved.**  Whatever `solve` returns is the polynomial. -/
theorem assembled (h : Setting close B e sf s D V rect) (hcon : Connected B) (hd : Mixed B sf s e D em d n n1 j rc re k kf rob neu κ p)
    (hD : Holds B sf s e D (fun x => ev p (x.x, x.y)) d) (hne : d ≠ []) {H C : List (Linsys.Con ℝ)} (hh : setHanging sf s e D [] = some (H, C))
    {keep fuel fuel'} {af2 : AF2 CN ℝ} {af1 : AF1 CN ℝ}
    (h2 : assemble2 (consOf H d) keep fuel (contribs e (mixedBil k rob) rc re j (meshCellsM em rect sf s D)) = .ok af2)
    (h1 : assemble1 (consOf H d) keep fuel' (loads e (mixedLin kf neu) rc re j (meshCellsM em rect sf s D)) = .ok af1)
    {ord : List ℕ → List ℕ} (ho : SetOrder ord) (ha : Ascending ord)
    {A : Sys2 ℝ} {ub : List ℕ} {b : List ℝ} (hs2 : af2.consolidate ord = .ok A)
    (hs1 : af1.consolidate ord = .ok (ub, b)) {y u : List ℝ} (hy : ∀ x0, A.x0 = some x0 → Asm.Solves A b x0 y)
    (hu : Asm.finish (consOf H d) D.count (H.map (·.dof)) (d.map (·.1)) A b y = .ok u) :
    ∀ c ∈ leaves sf s, (∀ a < nd2 e, u.getD (dofAt D c a) 0 = ev p ((place s e c a).x, (place s e c a).y)) ∧
      ∀ z, feFn e D (fun a => u.getD a 0) c z = ev p (F (cellQ s c) z) := by
  have hO := dict_level h hh hD
  obtain ⟨_, ⟨hC, hDir⟩, hsol⟩ := C54_solve_partial hO (contribs_same _ _ _ _ _ _)
    (fun r => (uses2_iff h k rob r).trans (uses1_iff h kf neu r).symm) h2 h1 ho ha hs2 hs1 hy hu
  obtain ⟨_, hnd, _⟩ := setHanging_spec h.wf h.plain h.cont h.ready.ready hh
  refine reproduces (rc := rc) (re := re) (rect := rect) h hcon hd hD hne (u := fun a => u.getD a 0) ?_ ?_ ?_
  · exact C62_implies_continuous h.wf h.plain h.cont h.ready.ready hh _ (conforms_iff H d hnd (aff_zero h hh) _ hC)
  · intro a v hl
    have := hDir a v (held_free h hD hh (Option.isSome_iff_exists.2 ⟨v, hl⟩)) hl
    simpa using this
  · intro v hv hz
    exact hsol v ((test_iff h hh hD v).2 ⟨hv, hz⟩)

/-- A node of a leaf that neither hangs nor has a Dirichlet value. -/
def FreeNode (sf : Bool) (s : St ℝ) (e : ET) (D : DH) (H : List (Linsys.Con ℝ)) (d : List (Nat × ℝ)) : Prop :=
  ∃ c ∈ leaves sf s, ∃ i < nd2 e, Dir.look d (dofAt D c i) = none ∧ ∀ x ∈ H, x.dof ≠ dofAt D c i

theorem free_of {H : List (Linsys.Con ℝ)} {a : Nat} (h1 : Dir.look d a = none) (h2 : ∀ x ∈ H, x.dof ≠ a) :
    Asm.Free (consOf H d).hng (consOf H d).dir a := by
  refine ⟨?_, h1⟩
  show Option.map _ _ = none
  rw [Option.map_eq_none_iff, List.find?_eq_none]
  intro x hx
  simpa using h2 x hx

/-- Some leaf couples a free dof with a Dirichlet dof. -/
theorem mixes (h : Setting close B e sf s D V rect) (hcon : Connected B) {g : Pt ℝ → ℝ} {H C : List (Linsys.Con ℝ)}
    (hh : setHanging sf s e D [] = some (H, C)) (hD : Holds B sf s e D g d) (hne : d ≠ []) (hI : FreeNode sf s e D H d) :
    ∃ c ∈ leaves sf s, ∃ i < nd2 e, ∃ i' < nd2 e, ∃ f t, Asm.Free (consOf H d).hng (consOf H d).dir f ∧
      Asm.Reach (consOf H d).hng (dofAt D c i) f ∧ (consOf H d).hng t = none ∧ ((consOf H d).dir t).isSome ∧
      Asm.Reach (consOf H d).hng (dofAt D c i') t := by
  by_contra hno
  have hO := dict_level h hh hD
  have hlen : ∀ a S, (consOf H d).hng a = some S → S.1.length = S.2.length := by
    intro a S hS
    obtain ⟨x, hx, rfl⟩ := Option.map_eq_some_iff.1 hS
    simp
  obtain ⟨v, v1, v2, v3⟩ := exists_conforming (dir := (consOf H d).dir) hO.acyclic (fun _ => (1 : ℝ)) 0
  obtain ⟨hS, hZ⟩ := (test_iff h hh hD v).1 ⟨v1, v2⟩
  have hcell : ∀ c ∈ leaves sf s, (∀ i < nd2 e, v (dofAt D c i) = 0) ∨ ∀ i < nd2 e, v (dofAt D c i) = 1 := by
    intro c hc
    by_cases hD' : ∃ i' < nd2 e, ∃ t, (consOf H d).hng t = none ∧ ((consOf H d).dir t).isSome ∧ Asm.Reach (consOf H d).hng (dofAt D c i') t
    · obtain ⟨i', hi', t, ht1, ht2, ht3⟩ := hD'
      left
      have hnf : ∀ i < nd2 e, ∀ f, Asm.Reach (consOf H d).hng (dofAt D c i) f → (consOf H d).hng f = none → v f = 0 := by
        intro i hi f hr hn
        cases hf : (consOf H d).dir f with
        | none => exact absurd ⟨c, hc, i, hi, i', hi', f, t, ⟨hn, hf⟩, hr, ht1, ht2, ht3⟩ hno
        | some y => rw [v2 f y hn hf, zero_mul]
      intro i hi
      cases hn : (consOf H d).hng (dofAt D c i) with
      | none => exact hnf i hi _ .refl hn
      | some S =>
        rw [v1 _ S hn, combo_congr S v (fun _ => 0) (fun a ha => hnf i hi a (supp_reach hn (hlen _ S hn) ha) (hO.chain _ S hn a ha))]
        simp [combo]
    · right
      have hnd : ∀ i < nd2 e, ∀ f, Asm.Reach (consOf H d).hng (dofAt D c i) f → (consOf H d).hng f = none → v f = 1 := by
        intro i hi f hr hn
        cases hf : (consOf H d).dir f with
        | none => exact v3 f ⟨hn, hf⟩
        | some y => exact absurd ⟨i, hi, f, hn, by rw [hf]; rfl, hr⟩ hD'
      intro i hi
      cases hn : (consOf H d).hng (dofAt D c i) with
      | none => exact hnd i hi _ .refl hn
      | some S =>
        rw [v1 _ S hn, combo_congr S v (fun _ => 1) (fun a ha => hnd i hi a (supp_reach hn (hlen _ S hn) ha) (hO.chain _ S hn a ha))]
        exact hang_one h hh hn
  have hv0 := const_zero h hcon hD hne hS hZ (fun c hc a ha i hi => by
    rcases hcell c hc with h0 | h0 <;> rw [h0 a ha, h0 i hi])
  obtain ⟨c, hc, i, hi, hb, hn⟩ := hI
  have := v3 _ (free_of hb hn)
  rw [hv0 c hc i hi] at this
  exact zero_ne_one this

/-- **`solve` returns exactly one answer** on every mesh with a free node. -/
theorem total (h : Setting close B e sf s D V rect) (hcon : Connected B) (hrc : Gauss.rule2 (n ^ 2) = .ok rc) (hre : Gauss.rule1 n1 = .ok re) (hn : deg e < n)
    {S : Nat} (hS : sampleSize k = .ok S) (hk : ∀ x : Pt ℝ, (x.x, x.y) ∈ Dom B → 0 < k.eval S x j)
    (hrob : ∀ y ∈ rob, ∃ S, sampleSize y.1 = .ok S ∧ ∀ x : Pt ℝ, (x.x, x.y) ∈ Dom B → 0 ≤ y.1.eval S x j) {g : Pt ℝ → ℝ} {H C : List (Linsys.Con ℝ)}
    (hh : setHanging sf s e D [] = some (H, C)) (hD : Holds B sf s e D g d) (hne : d ≠ []) (hI : FreeNode sf s e D H d) (keep : Bool)
    (kf : Kernel (Pt ℝ)) (neu : List (Kernel (Pt ℝ) × Nat)) {ord : List ℕ → List ℕ} (ho : SetOrder ord) (hasc : Ascending ord) :
    ∃ N, ∀ fuel ≥ N, (∃ y u, Run (consOf H d) D.count (H.map (·.dof)) (d.map (·.1)) keep fuel
        (contribs e (mixedBil k rob) rc re j (meshCellsM em rect sf s D)) (loads e (mixedLin kf neu) rc re j (meshCellsM em rect sf s D)) ord y u) ∧
      ∀ y u y' u', Run (consOf H d) D.count (H.map (·.dof)) (d.map (·.1)) keep fuel
        (contribs e (mixedBil k rob) rc re j (meshCellsM em rect sf s D)) (loads e (mixedLin kf neu) rc re j (meshCellsM em rect sf s D)) ord y u →
        Run (consOf H d) D.count (H.map (·.dof)) (d.map (·.1)) keep fuel
        (contribs e (mixedBil k rob) rc re j (meshCellsM em rect sf s D)) (loads e (mixedLin kf neu) rc re j (meshCellsM em rect sf s D)) ord y' u' →
        y = y' ∧ u = u' := by
  refine C54_total (dict_level h hh hD) keep (contribs_same _ _ _ _ _ _) (fun r => (uses2_iff h k rob r).trans (uses1_iff h kf neu r).symm)
    ?_ ?_ ?_ ?_ ?_ ?_ ho hasc
  · intro c hc
    simp only [contribs, List.mem_map] at hc
    obtain ⟨_, _, rfl⟩ := hc
    simp [mixedBil, laplace]
  · intro c hc
    simp only [loads, List.mem_map] at hc
    obtain ⟨_, _, rfl⟩ := hc
    simp [mixedLin, source]
  · intro r hr
    obtain ⟨c, hc, i, hi, rfl⟩ := (uses2_iff h k rob r).1 hr
    exact dof_lt h hc hi
  · intro a ha
    obtain ⟨c, hc, i, hi, _, h1, _⟩ := held_leaf hD ((look_mem a).1 ha)
    rw [← h1]
    exact dof_lt h hc hi
  · intro v hv h0 f r _ hr hrf
    obtain ⟨h1, h2⟩ := (test_iff h hh hD v).1 hv
    obtain ⟨c, hc, i, hi, rfl⟩ := reach_leaf h hh hrf ((uses2_iff h k rob r).1 hr)
    exact definite h hcon hD hne hrc hre hn hS hk hrob h1 h2 h0 c hc i hi
  · obtain ⟨c, hc, i, hi, i', hi', f, t, h1, h2, h3, h4, h5⟩ := mixes h hcon hh hD hne hI
    refine ⟨_, List.mem_map.2 ⟨_, List.mem_map.2 ⟨c, hc, rfl⟩, rfl⟩, _, List.mem_map.2 ⟨⟨k, [1, 0], .dx, none⟩, List.mem_cons_self, rfl⟩,
      dofAt D c i, (row_mem h hc _).2 ⟨i, hi, rfl⟩, dofAt D c i', (row_mem h hc _).2 ⟨i', hi', rfl⟩, f, t, h1, h2, h3, h4, h5⟩

end
end Verif.Neu
