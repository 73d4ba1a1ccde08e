import Verif.Gal.Core

/-!
# From the assembled system to the polynomial
-/

namespace Verif.Gal
open Verif.Mesh Verif.Dof Verif.Quad Verif.Fem Verif.Form Verif.Asm Verif.Phys Verif.Bnd Verif.Reg Verif.Dir Verif.Gauss

/-- The dictionary of Dirichlet values holds the value of `g` at the node for every dof at a boundary node, and nothing else. -/
def BndDict (B : Base ℝ) (sf : Bool) (s : St ℝ) (e : ET) (D : DH) (g : Pt ℝ → ℝ) (d : List (Nat × ℝ)) : Prop :=
  (d.map (·.1)).Nodup ∧ ∀ a v, look d a = some v ↔
    ∃ c ∈ leaves sf s, ∃ i < nd2 e, Dof.val D c i = some a ∧ BndPt B (rootPt c (node e i)) ∧ v = g (place s e c i)

section
variable {close : Pt ℝ → Pt ℝ → Bool} {B : Base ℝ} {e : ET} {sf : Bool} {s : St ℝ} {D : DH} {V : DV ℝ} {rect : Nat → Bool}
variable {n n1 j : Nat} {rc : List ((ℝ × ℝ) × ℝ)} {re : List (ℝ × ℝ)} {k kf : Kernel (Pt ℝ)} {κ p : Poly}

theorem conforms_of (H : List (Linsys.Con ℝ)) (d : List (Nat × ℝ)) (h0 : ∀ x ∈ H, x.aff = 0) (U : Nat → ℝ)
    (h : Linsys.Feasible H U) : Asm.Conforms (consOf H d).hng U := by
  intro a S hS
  obtain ⟨x, hx, rfl⟩ := Option.map_eq_some_iff.1 hS
  have hm := List.mem_of_find?_eq_some hx
  have hd : x.dof = a := by simpa using List.find?_some hx
  have := h x hm
  rw [← hd, this, h0 x hm]
  unfold Asm.combo
  rw [List.zip_map', List.map_map]
  simp only [add_zero]
  rfl

theorem aff_zero (h : Setting close B e sf s D V rect) {H C : List (Linsys.Con ℝ)} (hh : setHanging sf s e D [] = some (H, C)) :
    ∀ x ∈ H, x.aff = 0 := by
  intro x hx
  obtain ⟨c, i, P, j, b, m, a, g, rfl⟩ := ((setHanging_spec h.wf h.plain h.cont h.ready.ready hh).2.2 x).1 hx
  rfl

/-- The admissible test functions are the single-valued functions that vanish on the boundary. -/
theorem test_iff (h : Setting close B e sf s D V rect) {g : Pt ℝ → ℝ} {H C : List (Linsys.Con ℝ)}
    (hh : setHanging sf s e D [] = some (H, C)) {d : List (Nat × ℝ)} (hd : BndDict B sf s e D g d) (v : Nat → ℝ) :
    Asm.Test (consOf H d).hng (consOf H d).dir v ↔ Single B sf s e D v ∧ ZeroBnd B sf s e D v := by
  have hR := h.ready.ready
  have hfull : sf = false ∨ FullFlag s := h.full.imp id (fun x => x.2)
  have hcont := C62_continuous h.wf h.plain h.cont hR hfull hh v
  obtain ⟨_, hnd, h5⟩ := setHanging_spec h.wf h.plain h.cont hR hh
  constructor
  · rintro ⟨h1, h2⟩
    refine ⟨hcont.1 (conforms_iff H d hnd (aff_zero h hh) v h1), fun c hc i hi hb => ?_⟩
    have hv := (row_leaf h.wf h.plain hR hc).2.2 i hi
    have hl : (consOf H d).dir (dofAt D c i) = some (g (place s e c i)) := (hd.2 _ _).2 ⟨c, hc, i, hi, hv, hb, rfl⟩
    have hng : (consOf H d).hng (dofAt D c i) = none := by
      show Option.map _ _ = none
      rw [Option.map_eq_none_iff, List.find?_eq_none]
      intro x hx
      have := C66_not_hanging h.wf h.plain h.cont hR hh c i _ hi hv hb x hx
      simpa using this
    rw [h2 _ _ hng hl, zero_mul]
  · rintro ⟨h1, h2⟩
    refine ⟨conforms_of H d (aff_zero h hh) v (hcont.2 h1), fun a y _ hy => ?_⟩
    obtain ⟨c, hc, i, hi, hv, hb, _⟩ := (hd.2 a y).1 hy
    have := h2 c hc i hi hb
    rw [zero_mul, ← this]
    unfold dofAt
    rw [hv]
    rfl

theorem dict_level (h : Setting close B e sf s D V rect) {g : Pt ℝ → ℝ} {H C : List (Linsys.Con ℝ)}
    (hh : setHanging sf s e D [] = some (H, C)) {d : List (Nat × ℝ)} (hd : BndDict B sf s e D g d) :
    Asm.OneLevel (consOf H d).hng (consOf H d).dir D.count (H.map (·.dof)) (d.map (·.1)) := by
  refine C66_one_level h.wf h.plain h.cont h.ready.ready hh d hd.1 (fun a ha => ?_)
  obtain ⟨v, hv⟩ := Option.isSome_iff_exists.1 ((look_mem a).1 ha)
  obtain ⟨c, _, i, hi, hv, hb, _⟩ := (hd.2 a v).1 hv
  exact ⟨c, i, hi, hv, hb⟩

/-- The dofs that occur in the forms are those of the leaves. -/
theorem row_mem (h : Setting close B e sf s D V rect) {c : CN} (hc : c ∈ leaves sf s) (r : Nat) :
    r ∈ (rowOf D c).getD [] ↔ ∃ i < nd2 e, dofAt D c i = r := by
  obtain ⟨h1, h2, _⟩ := row_leaf h.wf h.plain h.ready.ready hc
  constructor
  · intro hr
    obtain ⟨i, hi, rfl⟩ := List.mem_iff_getElem.1 hr
    refine ⟨i, h1 ▸ hi, ?_⟩
    rw [← h2 i (h1 ▸ hi), List.getD_eq_getElem?_getD, List.getElem?_eq_getElem hi]
    rfl
  · rintro ⟨i, hi, rfl⟩
    rw [← h2 i hi, List.getD_eq_getElem?_getD, List.getElem?_eq_getElem (h1.symm ▸ hi)]
    exact List.getElem_mem _

theorem uses2_iff (h : Setting close B e sf s D V rect) (k : Kernel (Pt ℝ)) (r : Nat) :
    Uses2 (contribs e (laplace k) rc re j (meshCells rect sf s D)) r ↔ ∃ c ∈ leaves sf s, ∃ i < nd2 e, dofAt D c i = r := by
  unfold Uses2 contribs meshCells
  constructor
  · rintro ⟨x, hx, l, hl, hr⟩
    simp only [List.map_map, List.mem_map, Function.comp] at hx
    obtain ⟨c, hc, rfl⟩ := hx
    simp only [List.mem_map] at hl
    obtain ⟨t, _, rfl⟩ := hl
    exact ⟨c, hc, (row_mem h hc r).1 hr⟩
  · rintro ⟨c, hc, hr⟩
    refine ⟨_, List.mem_map.2 ⟨_, List.mem_map.2 ⟨c, hc, rfl⟩, rfl⟩, _, List.mem_map.2 ⟨⟨k, [1, 0], .dx, none⟩, ?_, rfl⟩, (row_mem h hc r).2 hr⟩
    exact List.mem_cons_self

theorem uses1_iff (h : Setting close B e sf s D V rect) (kf : Kernel (Pt ℝ)) (r : Nat) :
    Uses1 (loads e (source kf) rc re j (meshCells rect sf s D)) r ↔ ∃ c ∈ leaves sf s, ∃ i < nd2 e, dofAt D c i = r := by
  unfold Uses1 loads meshCells
  constructor
  · rintro ⟨x, hx, l, hl, hr⟩
    simp only [List.map_map, List.mem_map, Function.comp] at hx
    obtain ⟨c, hc, rfl⟩ := hx
    simp only [List.mem_map] at hl
    obtain ⟨t, _, rfl⟩ := hl
    exact ⟨c, hc, (row_mem h hc r).1 hr⟩
  · rintro ⟨c, hc, hr⟩
    refine ⟨_, List.mem_map.2 ⟨_, List.mem_map.2 ⟨c, hc, rfl⟩, rfl⟩, _, List.mem_map.2 ⟨⟨kf, [0], .dx, none⟩, ?_, rfl⟩, (row_mem h hc r).2 hr⟩
    exact List.mem_cons_self

/-- The dofs a hanging node depends on are dofs of the leaf on the coarse side. -/
theorem hang_supp (h : Setting close B e sf s D V rect) {c P : CN} {i l : Fin 4} {b : Bool} {m a : Nat}
    (g : Hangs B e sf s D c i P l b m a) (t : Nat) (ht : t ∈ sideDofs e l) : ∃ q < nd2 e, dofAt D c q = dofAt D P t := by
  have hR := h.ready.ready
  have hi := hR.uses.uses.reach.inv h.wf
  have hG := Dof.geo h.wf h.plain hR.uses.uses.reach
  obtain ⟨hx, hsub, _⟩ := (Dof.mem_leaves hi c).1 g.side.leaf
  obtain ⟨m', hm', rfl⟩ := List.mem_iff_getElem.1 ht
  have hm2 : m' < dpe2 e + 2 := by rwa [sideDofs_len] at hm'
  have hgd : (sideDofs e l).getD m' 0 = (sideDofs e l)[m'] := by
    rw [List.getD_eq_getElem?_getD, List.getElem?_eq_getElem hm']
    rfl
  obtain ⟨n1, n2⟩ := side_node e h.cont l m' hm2
  rw [hgd] at n1 n2
  obtain ⟨q, hq⟩ := flip_node e l i ⟨_, n1⟩ _ n2
  have hr01 : 0 ≤ 1 - (sideT e : List ℚ).getD m' 0 ∧ 1 - (sideT e : List ℚ).getD m' 0 ≤ 1 := by
    have h1 := node_insq e q
    rw [hq] at h1
    have h2 : ∀ (i : Fin 4) (r : ℚ), Dof.InSq (E i r) → 0 ≤ r ∧ r ≤ 1 := by
      intro i r h
      obtain ⟨a1, a2, a3, a4⟩ := h
      fin_cases i <;> simp only [E] at a1 a2 a3 a4 <;> constructor <;> linarith
    exact h2 i _ h1
  have hS1 : SamePt B (rootPt c (node e q)) (rootPt P (node e (sideDofs e l)[m'])) :=
    PGlue.same _ _ _ _ _ _ (hG.root _ hx) (hG.root _ g.side.ex) ⟨i, l, 1 - (sideT e : List ℚ).getD m' 0, hr01.1, hr01.2, g.side.face, hq, by
      rw [n2]; exact congrArg (E l) (by ring)⟩
  obtain ⟨x, hxv⟩ := Option.ne_none_iff_exists'.1 (hR.val h.wf hx hsub q q.2)
  obtain ⟨y, hyv⟩ := Option.ne_none_iff_exists'.1 (hR.val h.wf g.side.ex g.side.sub _ n1)
  have := (C34_shared h.wf h.plain h.cont hR.uses _ _ _ _ x y q.2 n1 hxv hyv).2 hS1
  refine ⟨q, q.2, ?_⟩
  unfold dofAt
  rw [hxv, hyv, this]

theorem reach_leaf (h : Setting close B e sf s D V rect) {H C : List (Linsys.Con ℝ)} (hh : setHanging sf s e D [] = some (H, C))
    {d : List (Nat × ℝ)} {r f : Nat} (hr : Asm.Reach (consOf H d).hng r f) (hl : ∃ c ∈ leaves sf s, ∃ i < nd2 e, dofAt D c i = r) :
    ∃ c ∈ leaves sf s, ∃ i < nd2 e, dofAt D c i = f := by
  induction hr with
  | refl => exact hl
  | tail _ hst ih =>
    obtain ⟨S, hS, hf⟩ := hst
    obtain ⟨x, hx, rfl⟩ := Option.map_eq_some_iff.1 hS
    have hm := List.mem_of_find?_eq_some hx
    obtain ⟨c, i, P, l, b, m, a, g, rfl⟩ := ((setHanging_spec h.wf h.plain h.cont h.ready.ready hh).2.2 x).1 hm
    obtain ⟨w, hw⟩ := hf
    obtain ⟨y, hy, rfl⟩ := List.mem_map.1 (List.of_mem_zip hw).1
    obtain ⟨t, ht, rfl⟩ := List.mem_map.1 hy
    obtain ⟨q, hq, e1⟩ := hang_supp h g t ht
    exact ⟨c, g.side.leaf, q, hq, e1⟩

theorem level_acyclic {hng : ℕ → Option (List ℕ × List ℝ)} {dir : ℕ → Option ℝ} {n : Nat} {hd dd : List Nat}
    (h : Asm.OneLevel hng dir n hd dd) : Asm.Acyclic hng := by
  refine ⟨fun a => if (hng a).isSome then 1 else 0, fun a S hS t ht => ?_⟩
  simp [hS, h.chain a S hS t ht]

/-- **The assembled matrix is invertible** on every mesh: Dirichlet values on the whole boundary, a positive kernel and enough
quadrature points. -/
theorem solvable (h : Setting close B e sf s D V rect) (hrc : Gauss.rule2 (n ^ 2) = .ok rc) (hre : Gauss.rule1 n1 = .ok re) (hn : deg e < n)
    {S : Nat} (hS : sampleSize k = .ok S) (hk : ∀ x : Pt ℝ, (x.x, x.y) ∈ Dom B → 0 < k.eval S x j) {g : Pt ℝ → ℝ} {H C : List (Linsys.Con ℝ)}
    (hh : setHanging sf s e D [] = some (H, C)) {d : List (Nat × ℝ)} (hd : BndDict B sf s e D g d) {keep fuel} {af : AF2 CN ℝ}
    (ha : assemble2 (consOf H d) keep fuel (contribs e (laplace k) rc re j (meshCells rect sf s D)) = .ok af)
    {ord : List ℕ → List ℕ} (ho : SetOrder ord) (hasc : Ascending ord) {A : Sys2 ℝ} (hA : af.consolidate ord = .ok A) :
    A.ucol = A.urow ∧ IsUnit A.mat := by
  refine C54_solvable (level_acyclic (dict_level h hh hd)) (contribs_same _ _ _ _ _ _) ha ho hasc hA (fun v hv h0 f r _ hr hrf => ?_)
  obtain ⟨h1, h2⟩ := (test_iff h hh hd v).1 hv
  obtain ⟨c, hc, i, hi, rfl⟩ := reach_leaf h hh hrf ((uses2_iff h k r).1 hr)
  exact definite h hrc hre hn hS hk h1 h2 h0 c hc i hi

/-- **Assembled and solved.**  Whatever `solve` returns is the polynomial. -/
theorem assembled (h : Setting close B e sf s D V rect) (hd : Data B e n n1 j rc re k kf κ p) {H C : List (Linsys.Con ℝ)}
    (hh : setHanging sf s e D [] = some (H, C)) {d : List (Nat × ℝ)} (hD : BndDict B sf s e D (fun x => ev p (x.x, x.y)) d)
    {keep fuel fuel'} {af2 : AF2 CN ℝ} {af1 : AF1 CN ℝ}
    (h2 : assemble2 (consOf H d) keep fuel (contribs e (laplace k) rc re j (meshCells rect sf s D)) = .ok af2)
    (h1 : assemble1 (consOf H d) keep fuel' (loads e (source kf) rc re j (meshCells rect sf s D)) = .ok af1)
    {ord : List ℕ → List ℕ} (ho : SetOrder ord) (ha : Ascending ord)
    {A : Sys2 ℝ} {ub : List ℕ} {b : List ℝ} (hs2 : af2.consolidate ord = .ok A)
    (hs1 : af1.consolidate ord = .ok (ub, b)) {y u : List ℝ} (hy : ∀ x0, A.x0 = some x0 → Asm.Solves A b x0 y)
    (hu : Asm.finish (consOf H d) D.count (H.map (·.dof)) (d.map (·.1)) A b y = .ok u) :
    ∀ c ∈ leaves sf s, (∀ a < nd2 e, u.getD (dofAt D c a) 0 = ev p ((place s e c a).x, (place s e c a).y)) ∧
      ∀ z, feFn e D (fun a => u.getD a 0) c z = ev p (F (cellQ s c) z) := by
  have hO := dict_level h hh hD
  obtain ⟨_, ⟨hC, hDir⟩, hsol⟩ := C54_solve_partial hO (contribs_same _ _ _ _ _ _) (fun r => (uses2_iff h k r).trans (uses1_iff h kf r).symm)
    h2 h1 ho ha hs2 hs1 hy hu
  obtain ⟨_, hnd, _⟩ := setHanging_spec h.wf h.plain h.cont h.ready.ready hh
  refine reproduces (rc := rc) (re := re) (rect := rect) h hd (u := fun a => u.getD a 0) ?_ ?_ ?_
  · exact C62_implies_continuous h.wf h.plain h.cont h.ready.ready hh _ (conforms_iff H d hnd (aff_zero h hh) _ hC)
  · intro c hc a ha hb
    have hv := (row_leaf h.wf h.plain h.ready.ready hc).2.2 a ha
    have hl : (consOf H d).dir (dofAt D c a) = some (ev p ((place s e c a).x, (place s e c a).y)) := (hD.2 _ _).2 ⟨c, hc, a, ha, hv, hb, rfl⟩
    have hng : (consOf H d).hng (dofAt D c a) = none := by
      show Option.map _ _ = none
      rw [Option.map_eq_none_iff, List.find?_eq_none]
      intro x hx
      have := C66_not_hanging h.wf h.plain h.cont h.ready.ready hh c a _ ha hv hb x hx
      simpa using this
    have := hDir _ _ hng hl
    simpa using this
  · intro v hv hz
    exact hsol v ((test_iff h hh hD v).2 ⟨hv, hz⟩)

/-- For bilinear elements `Assembler.add_dirichlet` without marker fills the dictionary with the values at the boundary nodes. -/
theorem dict_Q1 (hB : B.WF) (hP : Plain B) (hV : ReadyV close B .Q1 sf s D V) (hr : RootsIn B sf s)
    (hf : sf = false ∨ (RootedFlag B s ∧ FullFlag s)) {m : Nat} (hm : 4 * s.cells.length ≤ m) (h1 : OneBoundary B) (g : Pt ℝ → ℝ)
    {d : List (Nat × ℝ)} (h : addDirichletA none true sf B.n s m .Q1 D V g [] = some d) : BndDict B sf s .Q1 D g d := by
  obtain ⟨d1, k1, k2, k3⟩ := C66_assembler_partial hB hP rfl hV hr hf hm h1 none g [] (by simp)
  rw [h] at k1
  cases k1
  refine ⟨k2, fun a v => ⟨fun hl => ?_, ?_⟩⟩
  · rcases (k3 a v).1 hl with ⟨c, i, hm', hval, rfl⟩ | ⟨_, h0⟩
    · exact ⟨c, hm'.1, i, hm'.2.1, hval, hm'.bnd hB hV.ready.uses.uses.reach, rfl⟩
    · simp [Dir.look] at h0
  · rintro ⟨c, hc, i, hi, hval, hb, rfl⟩
    exact C66_assembler_Q1 hB hP hV hr hf hm h1 g [] (by simp) h c hc i hi hb a hval

end
end Verif.Gal
