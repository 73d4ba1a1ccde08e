import Verif.Coef.Model
import Verif.Gal.Ex
import Verif.Max2.Core
import Verif.Cea.Ex
import Verif.Cea.Props

/-!
# C104: finite element functions as coefficients
-/

namespace Verif.Coef
open Verif.Mesh Verif.Dof Verif.Quad Verif.Fem Verif.Form Verif.Phys Verif.Fn Verif.Gal Verif.Cea

/-! ## Specification -/

/-- The subforest flag of a basis. -/
def flagOf (sf : Bool) (s : St ℝ) : Option (CN → Bool) := if sf then some s.mkd else none

/-- `f` is a finite element function on the leaves of the (sub)mesh: all dofs assigned, in its basis, one row of data each. -/
structure Space (B : Base ℝ) (rect : Nat → Bool) (sf : Bool) (s : St ℝ) (f : Nod) : Prop where
  wf : B.WF
  plain : Plain B
  convex : Fn.Convex B
  rect : RectOk rect B
  ready : Ready B f.e sf s f.D
  flag : f.flag = flagOf sf s
  basis : BasisOf sf s f.e f.D f.L
  data : f.data.length = f.L.length

/-- The derivatives `f`, `fx`, `fy`. -/
def First (der : List Nat) : Prop := der = [0] ∨ der = [1, 0] ∨ der = [1, 1]

/-- The derivative of `w` that the list stands for. -/
noncomputable def part (der : List Nat) (w : ℝ × ℝ → ℝ) (p : ℝ × ℝ) : ℝ := if der = [0] then w p else if der = [1, 0] then px w p else py w p

/-- The function `g` is what a factor of a kernel stands for inside the leaf `c`: a map is itself; a finite element function is the function, or the derivative of its
basis. -/
def Means (B : Base ℝ) (rect : Nat → Bool) (sf : Bool) (s : St ℝ) (c : CN) : Fac → Form.Fn (Pt ℝ) → Prop
  | .map ns f, g => g = ⟨ns, f⟩
  | .nodal f dfdx, g => Space B rect sf s f ∧ First f.der ∧ (dfdx = none ∨ dfdx = some f.der) ∧ g.ns = f.m ∧
      ∃ w : Nat → CN → ℝ × ℝ → ℝ, (∀ j, IsFn sf s f.e f.D (dofVal f.L f.data j) (w j)) ∧
        ∀ z, InOpen z → ∀ x : Pt ℝ, (x.x, x.y) = F (cellQ s c) z → ∀ j, g.f x j = part f.der (w j c) (x.x, x.y)

/-! ## Proofs -/

section
variable {B : Base ℝ} {s : St ℝ} {sf : Bool} {rect : Nat → Bool} {f : Nod}

theorem First.valid {der : List Nat} (h : First der) : ValidDer der := by
  rcases h with rfl | rfl | rfl
  · exact .inl rfl
  · exact .inr (.inl ⟨0, by omega, rfl⟩)
  · exact .inr (.inl ⟨1, by omega, rfl⟩)

/-- What the code computes: `c` is the cell that is assembled, `c'` the cell with the dofs. -/
theorem fac_eq {c c' : CN} (hn : nearest f.flag c = some c') {row : List Nat} (hr : rowOf f.D c' = some row) (hl : row.length = nd2 f.e)
    (hm : ∀ a ∈ row, a ∈ f.L) (hL : ∀ m, f.L.getLast? = some m → ∀ a ∈ f.L, a ≤ m) (hd : f.data.length = f.L.length) (hv : ValidDer f.der) {p : QP}
    (hp : Form.InSq p.ref) (j : Nat) (dfdx : Option (List Nat)) :
    facAt rect s c p j (.nodal f dfdx) = some (fieldAt (qcell rect s c) ⟨f.e, f.der⟩ (fun a => dofVal f.L f.data j (dofAt f.D c' a)) p.ref) := by
  have h1 : localDofs f c = some row := by
    unfold localDofs
    rw [hn]
    exact hr
  have h2 : localPhi rect s f c p.ref = some ((List.range (nd2 f.e)).map fun n => val (Form.shapeAt (qcell rect s c) ⟨f.e, f.der⟩ p.ref n)) := by
    refine allSome_map _ _ _ (fun n hn' => ?_)
    rw [Form.shapeAt_ok (qcell rect s c) ⟨f.e, f.der⟩ hv p.ref hp n (List.mem_range.1 hn')]
    rfl
  have h3 : allSome (row.map (Fn.rowAt f.L f.data)) = some (row.map fun a => f.data.getD ((f.L.idxOf? a).getD 0) []) := by
    refine allSome_map _ _ _ (fun a ha => ?_)
    obtain ⟨k, hk, h⟩ := rowAt_ok hL hd (hm a ha)
    rw [h, hk]
    rfl
  simp only [facAt, h1, h2, Option.bind_some, evalPhi, h3]
  rw [if_pos (by simp [hl])]
  congr 1
  have hrow : row = (List.range (nd2 f.e)).map fun a => dofAt f.D c' a := by
    refine List.ext_getElem (by simp [hl]) (fun i h _ => ?_)
    have := (rowOf_val hr i row[i]).1 (List.getElem?_eq_getElem h)
    simp [dofAt, this]
  unfold fieldAt
  rw [hrow, List.map_map, List.zip_map', List.map_map, ← List.sum_toFinset _ List.nodup_range, List.toFinset_range]
  refine Finset.sum_congr rfl (fun a ha => ?_)
  have ha' : dofAt f.D c' a ∈ f.L := hm _ (by rw [hrow]; exact List.mem_map.2 ⟨a, List.mem_range.2 (Finset.mem_range.1 ha), rfl⟩)
  obtain ⟨k, hk, _⟩ := rowAt_ok hL hd ha'
  simp only [Function.comp_apply, dofVal, hk, Option.getD_some]
  ring

theorem near_leaf (hB : B.WF) (hs : MReach B s) {c : CN} (hc : c ∈ leaves sf s) : nearest (flagOf sf s) c = some c := by
  unfold flagOf
  cases sf
  · rfl
  · have hm : s.mkd c = true := by
      rcases ((Dof.mem_leaves (hs.inv hB) c).1 hc).2.1 with h | h
      · cases h
      · exact h
    obtain ⟨g, p⟩ := c
    rw [if_pos rfl]
    unfold nearest
    cases p <;> simp [nearestP, hm]

theorem leaf_fac (h : Space B rect sf s f) (hv : ValidDer f.der) {c : CN} (hc : c ∈ leaves sf s) {p : QP} (hp : Form.InSq p.ref) (j : Nat) (dfdx : Option (List Nat)) :
    facAt rect s c p j (.nodal f dfdx) = some (fieldAt (qcell rect s c) ⟨f.e, f.der⟩ (fun a => dofVal f.L f.data j (dofAt f.D c a)) p.ref) := by
  have hs := h.ready.uses.uses.reach
  have hi := hs.inv h.wf
  obtain ⟨h1, h2, _⟩ := (Dof.mem_leaves hi c).1 hc
  have hl := (h.ready.uses.uses.snd h.wf h.plain).1
  obtain ⟨row, hrow⟩ := rowOf_ex hl (Phys.nd2_pos f.e) (h.ready.val h.wf h1 h2)
  have hlen := rowOf_len hl hrow
  refine fac_eq (by rw [h.flag]; exact near_leaf h.wf hs hc) hrow hlen (fun a ha => ?_) h.basis.last h.data hv hp j dfdx
  obtain ⟨i, hi', rfl⟩ := List.mem_iff_getElem.1 ha
  exact (h.basis.mem _).2 ⟨c, hc, i, by omega, (rowOf_val hrow i _).1 (List.getElem?_eq_getElem hi')⟩

variable {n2 n1 : Nat} {rc : List ((ℝ × ℝ) × ℝ)} {re : List (ℝ × ℝ)}

theorem rc_open2 (hrc : Gauss.rule2 n2 = .ok rc) {p : (ℝ × ℝ) × ℝ} (hp : p ∈ rc) : InOpen p.1 := by
  obtain ⟨_, a, b, c, d⟩ := (Gauss.C32_weights2 _ _ hrc).2 p hp
  exact ⟨a, b, c, d⟩

theorem qp_open (hrc : Gauss.rule2 n2 = .ok rc) {q : QCell} {p : QP} (hp : p ∈ qps .dx none rc re q) :
    InOpen p.ref ∧ (p.x.x, p.x.y) = F q.q p.ref := by
  have : qps .dx none rc re q = points rc re q .cell := by simp [qps, regions, marked]
  rw [this] at hp
  obtain ⟨y, hy, rfl⟩ := List.mem_map.1 hp
  exact ⟨rc_open2 hrc hy, rfl⟩

/-- **C104** (values and derivatives): the factor at a quadrature point of a leaf of the function's own (sub)mesh is the value there of the finite element function, or
of the derivative of its basis — whatever derivative the kernel asks for, see `C104_requested_violated`.  All elements, all cells, all samples. -/
theorem C104_value (h : Space B rect sf s f) (hv : First f.der) (hrc : Gauss.rule2 n2 = .ok rc) {c : CN} (hc : c ∈ leaves sf s) {j : Nat}
    {w : CN → ℝ × ℝ → ℝ} (hw : IsFn sf s f.e f.D (dofVal f.L f.data j) w) {p : QP} (hp : p ∈ qps .dx none rc re (qcell rect s c)) (dfdx : Option (List Nat)) :
    facAt rect s c p j (.nodal f dfdx) = some (part f.der (w c) (p.x.x, p.x.y)) := by
  obtain ⟨ho, hx⟩ := qp_open hrc hp
  have hs := h.ready.uses.uses.reach
  have hi := hs.inv h.wf
  have hm := (hi.mem c).2 ((Dof.mem_leaves hi c).1 hc).1
  have hcv : ConvexCCW (cellQ s c) := Fn.cell_convex h.wf h.convex hs hm
  rw [leaf_fac h hv.valid hc ⟨ho.1.le, ho.2.1.le, ho.2.2.1.le, ho.2.2.2.le⟩ j dfdx, hx]
  have hw' : ∀ z, InOpen z → w c (F (cellQ s c) z) = interp2 f.e (fun a => dofVal f.L f.data j (dofAt f.D c a)) z := fun z hz => hw c hc z hz
  obtain ⟨g1, g2⟩ := fn_grad hcv hw' ho
  obtain ⟨k1, k2⟩ := field_gx (qcell rect s c) hcv (fun hr => upright_cell h.wf h.rect hs hm hr) f.e (fun a => dofVal f.L f.data j (dofAt f.D c a)) ho
  congr 1
  unfold part
  rcases hv with hd | hd | hd <;> rw [hd]
  · rw [if_pos rfl, field_val _ _ _ ho]
    exact (hw' _ ho).symm
  · rw [if_neg (by decide), if_pos rfl]
    exact k1.trans g1.symm
  · rw [if_neg (by decide), if_neg (by decide)]
    exact k2.trans g2.symm

theorem size_eq {c : CN} {fs : List Fac} {gs : List (Form.Fn (Pt ℝ))} (h : List.Forall₂ (Means B rect sf s c) fs gs) :
    size fs = gs.foldlM (fun n g => sizeStep n g.ns) 1 := by
  unfold size
  generalize (1 : Nat) = n
  induction h generalizing n with
  | nil => rfl
  | @cons f g fs gs h _ ih =>
    have : f.ns = g.ns := by
      cases f with
      | map ns f => cases h; rfl
      | nodal f d => exact h.2.2.2.1.symm
    rw [List.foldlM_cons, List.foldlM_cons, this]
    cases hn : sizeStep n g.ns with
    | error e => rfl
    | ok m => exact ih m

/-- The kernel at a quadrature point. -/
theorem kernel_eq (hrc : Gauss.rule2 n2 = .ok rc) {c : CN} (hc : c ∈ leaves sf s) {fs : List Fac} {gs : List (Form.Fn (Pt ℝ))}
    (h : List.Forall₂ (Means B rect sf s c) fs gs) (Φ : List ℝ → ℝ) (S j : Nat) {p : QP} (hp : p ∈ qps .dx none rc re (qcell rect s c)) :
    evalK rect s fs Φ S c p j = some (Kernel.eval ⟨gs, Φ⟩ S p.x j) := by
  unfold evalK Kernel.eval
  have : allSome (fs.map fun f => facAt rect s c p (if S > 1 ∧ f.ns = 1 then 0 else j) f) =
      some (gs.map fun g => if S > 1 ∧ g.ns = 1 then g.f p.x 0 else g.f p.x j) := by
    induction h with
    | nil => rfl
    | @cons f g fs gs hfg _ ih =>
      have hone : facAt rect s c p (if S > 1 ∧ f.ns = 1 then 0 else j) f = some (if S > 1 ∧ g.ns = 1 then g.f p.x 0 else g.f p.x j) := by
        cases f with
        | map ns f =>
          cases hfg
          show some (f p.x (if S > 1 ∧ ns = 1 then 0 else j)) = _
          by_cases hh : S > 1 ∧ ns = 1 <;> simp [hh]
        | nodal f d =>
          obtain ⟨hsp, hv, _, hns, w, hw, hg⟩ := hfg
          have hg := hg p.ref (qp_open hrc hp).1 p.x (qp_open hrc hp).2
          rw [C104_value hsp hv hrc hc (hw _) hp d]
          show some (part f.der (w (if S > 1 ∧ f.m = 1 then 0 else j) c) (p.x.x, p.x.y)) = _
          rw [hns]
          by_cases hh : S > 1 ∧ f.m = 1 <;> simp [hh, hg]
      rw [List.map_cons, List.map_cons, hone]
      simp only [allSome, ih, Option.map_some]
  rw [this]
  rfl

theorem qp_sq (hrc : Gauss.rule2 n2 = .ok rc) {q : QCell} {p : QP} (hp : p ∈ qps .dx none rc re q) : Form.InSq p.ref := by
  obtain ⟨ho, _⟩ := qp_open hrc hp
  exact ⟨ho.1.le, ho.2.1.le, ho.2.2.1.le, ho.2.2.2.le⟩

/-- A sum that may raise. -/
theorem sum_opt {α : Type} (l : List α) (f : α → Except Fem.Err ℝ) : (sumE l f).toOption = (allSome (l.map fun x => (f x).toOption)).map List.sum := by
  unfold sumE
  have key : ∀ a, (l.foldlM (fun acc x => do
      let y ← f x
      pure (acc + y)) a : Except Fem.Err ℝ).toOption = (allSome (l.map fun x => (f x).toOption)).map fun t => a + t.sum := by
    induction l with
    | nil => intro a; simp [allSome, Except.toOption, pure, Except.pure]
    | cons x l ih =>
      intro a
      rw [List.foldlM_cons, List.map_cons]
      cases hx : f x with
      | error e => rfl
      | ok y =>
        show (List.foldlM _ (a + y) l : Except Fem.Err ℝ).toOption = _
        rw [ih (a + y)]
        show _ = ((allSome (l.map fun x => (f x).toOption)).map (y :: ·)).map _
        rw [Option.map_map]
        congr 1
        funext t
        simp [add_assoc]
  rw [key 0]
  congr 1
  funext t
  exact zero_add _

theorem one_region (q : QCell) (f : QP → Except Fem.Err ℝ) :
    (sumE (regions .dx none q) (fun r => sumE (points rc re q r) f)).toOption = (allSome ((qps .dx none rc re q).map fun p => (f p).toOption)).map List.sum := by
  have h1 : regions .dx none q = [.cell] := by simp [regions, marked]
  have h2 : qps .dx none rc re q = points rc re q .cell := by simp [qps, h1]
  rw [h1, h2, ← sum_opt, sum_opt]
  show (allSome [(sumE (points rc re q .cell) f).toOption]).map List.sum = _
  cases (sumE (points rc re q .cell) f).toOption with
  | none => rfl
  | some y => simp [allSome]

theorem one_region_c (q : QCell) (f : QP → Except Fem.Err ℝ) :
    (sumE (regions .dx none q) (fun r => match r with
      | .vertex _ => .error .index
      | r => sumE (points rc re q r) f)).toOption = (allSome ((qps .dx none rc re q).map fun p => (f p).toOption)).map List.sum := by
  rw [← one_region]
  have h1 : regions .dx none q = [.cell] := by simp [regions, marked]
  rw [h1]
  rfl

/-- **C104**: a form with finite element functions in its kernel is the form with the functions themselves, on each leaf of the mesh, for each entry and each sample,
also with derivatives of the basis, maps and functions mixed, and one function tiled to the number of samples of another; it raises where that one does.  Everything
proved about forms with maps (C56, C61) holds for it. -/
theorem C104_form (hrc : Gauss.rule2 n2 = .ok rc) {c : CN} (hc : c ∈ leaves sf s) {fs : List Fac} {gs : List (Form.Fn (Pt ℝ))}
    (h : List.Forall₂ (Means B rect sf s c) fs gs) (Φ : List ℝ → ℝ) (tst trl : Basis) (a i j : Nat) :
    evalLinK rect s fs Φ tst rc re c a j = (evalLin ⟨gs, Φ⟩ tst .dx none rc re (qcell rect s c) a j).toOption ∧
    evalBilK rect s fs Φ tst trl rc re c a i j = (evalBil ⟨gs, Φ⟩ tst trl .dx none rc re (qcell rect s c) a i j).toOption ∧
    evalConstK rect s fs Φ rc re c j = (evalConst ⟨gs, Φ⟩ .dx none rc re (qcell rect s c) j).toOption := by
  unfold evalLinK evalBilK evalConstK
  have hsz : size fs = sampleSize (⟨gs, Φ⟩ : Kernel (Pt ℝ)) := size_eq h
  rw [hsz]
  unfold evalLin evalBil evalConst
  cases hS : sampleSize (⟨gs, Φ⟩ : Kernel (Pt ℝ)) with
  | error e => exact ⟨rfl, rfl, rfl⟩
  | ok S =>
    refine ⟨?_, ?_, ?_⟩
    · refine Eq.trans ?_ (one_region (qcell rect s c) _).symm
      show (allSome _).map List.sum = _
      congr 2
      refine List.map_congr_left fun p hp => ?_
      rw [kernel_eq hrc hc h Φ S j hp]
      cases Form.shapeAt (qcell rect s c) tst p.ref a <;> rfl
    · refine Eq.trans ?_ (one_region (qcell rect s c) _).symm
      show (allSome _).map List.sum = _
      congr 2
      refine List.map_congr_left fun p hp => ?_
      rw [kernel_eq hrc hc h Φ S j hp]
      cases Form.shapeAt (qcell rect s c) tst p.ref a <;> cases Form.shapeAt (qcell rect s c) trl p.ref i <;> rfl
    · refine Eq.trans ?_ (one_region_c (qcell rect s c) _).symm
      show (allSome _).map List.sum = _
      congr 2
      refine List.map_congr_left fun p hp => ?_
      rw [kernel_eq hrc hc h Φ S j hp]
      rfl

end

/-! ## Violations -/

theorem twoR_space (e : ET) (close : Pt ℝ → Pt ℝ → Bool) (v : Nat → List ℝ) (m : Nat) (der : List Nat) : ∃ D L,
    Space twoR (fun _ => true) false witR ⟨e, D, der, none, L, L.map v, m⟩ := by
  obtain ⟨D, V, L, _, hV, hL, _⟩ := Fn.C67_setup twoR_wf twoR_plain witR_reach witR_bal e close (n := 24) (by rw [witR_len])
  exact ⟨D, L, twoR_wf, twoR_plain, twoR_convex, twoR_rect, hV.ready, rfl, hL, by simp⟩

theorem const_fn {B : Base ℝ} {rect : Nat → Bool} {sf : Bool} {s : St ℝ} {e : ET} {D : DH} {der : List Nat} {fl : Option (CN → Bool)} {L : List Nat} {k : ℝ} {m : Nat}
    (h : Space B rect sf s ⟨e, D, der, fl, L, L.map (fun _ => [k]), m⟩) : IsFn sf s e D (dofVal L (L.map (fun _ => [k])) 0) (fun _ _ => k) := by
  intro c hc z hz
  refine (fe_const e k _ (fun a ha => ?_) z).symm
  have hm : dofAt D c a ∈ L := (h.basis.mem _).2 ⟨c, hc, a, ha, (row_leaf h.wf h.plain h.ready hc).2.2 a ha⟩
  obtain ⟨i, hi, h2⟩ := rowAt_ok h.basis.last h.data hm
  have hlt : i < L.length := (List.getElem?_eq_some_iff.1 (Verif.Fn.idxOf?_some hi)).1
  simp only [dofVal, hi]
  rw [List.getD_eq_getElem?_getD (l := L.map fun _ => [k]), List.getElem?_map, List.getElem?_eq_getElem hlt]
  rfl

/-- **C104**: the derivative that a kernel asks for (`Kernel(f, derivatives=...)`, assembler.py 790-810) is ignored in forms: with the constant function 1 and
`derivatives=['fx']` the factor is 1, not 0. -/
theorem C104_requested_violated (close : Pt ℝ → Pt ℝ → Bool) : ∃ (f : Nod) (w : CN → ℝ × ℝ → ℝ), Space twoR (fun _ => true) false witR f ∧ f.der = [0] ∧
    IsFn false witR f.e f.D (dofVal f.L f.data 0) w ∧ ∀ (n2 : Nat) (rc : List ((ℝ × ℝ) × ℝ)) (re : List (ℝ × ℝ)), Gauss.rule2 n2 = .ok rc → ∀ c ∈ leaves false witR,
      ∀ p ∈ qps .dx none rc re (qcell (fun _ => true) witR c), part [1, 0] (w c) (p.x.x, p.x.y) = 0 ∧
        facAt (fun _ => true) witR c p 0 (.nodal f (some [1, 0])) = some 1 := by
  obtain ⟨D, L, h⟩ := twoR_space .Q1 close (fun _ => [1]) 1 [0]
  refine ⟨_, fun _ _ => 1, h, rfl, const_fn h, fun n2 rc re hrc c hc p hp => ⟨?_, ?_⟩⟩
  · simp [part, px]
  · rw [C104_value h (.inl rfl) hrc hc (const_fn h) hp]
    simp [part]

/-- The function `x` on the initial mesh, as a function on the marked initial cells of the mesh with the second cell refined. -/
noncomputable def coarseX : Nod := ⟨.Q1, (distributeDofs false 2 witR .Q1 40 DH.new).getD DH.new, [0], some (fun c => c.2.isEmpty), List.range 6,
  [[0], [1], [1], [0], [2], [2]], 1⟩

theorem q1_form (v : Nat → ℝ) (z : ℝ × ℝ) :
    interp2 .Q1 v z = v 0 * ((1 - z.1) * (1 - z.2)) + v 1 * (z.1 * (1 - z.2)) + v 2 * (z.1 * z.2) + v 3 * ((1 - z.1) * z.2) := Max2.fe_q1 v z

theorem coarse_rows : rowOf coarseX.D (0, []) = some [0, 1, 2, 3] ∧ rowOf coarseX.D (1, []) = some [1, 4, 5, 2] := by decide +kernel

/-- **C104**: a function on a coarser submesh has wrong values in a form on the fine mesh.  The dofs are those of the flagged ancestor, the shape functions those of
the fine cell: for the function `x` the factor at reference point `r` of the cell `[1, 3/2] × [0, 1/2]` is `1 + r.1`, and the point has `x = 1 + r.1 / 2`. -/
theorem C104_submesh_violated : (∀ c ∈ [((0, []) : CN), (1, [])], ∀ z : ℝ × ℝ,
      interp2 .Q1 (fun a => dofVal coarseX.L coarseX.data 0 (dofAt coarseX.D c a)) z = (F (cellQ witR c) z).1) ∧
    ((1, [0]) : CN) ∈ leaves false witR ∧ ∀ (n2 : Nat) (rc : List ((ℝ × ℝ) × ℝ)) (re : List (ℝ × ℝ)), Gauss.rule2 n2 = .ok rc →
      ∀ p ∈ qps .dx none rc re (qcell (fun _ => true) witR (1, [0])), ∃ y, facAt (fun _ => true) witR (1, [0]) p 0 (.nodal coarseX none) = some y ∧
        y = 1 + p.ref.1 ∧ p.x.x = 1 + p.ref.1 / 2 ∧ y ≠ p.x.x := by
  have hv : ∀ (c : CN) (row : List Nat), rowOf coarseX.D c = some row → ∀ i a, row[i]? = some a → dofAt coarseX.D c i = a := by
    intro c row hr i a hi
    simp [dofAt, (rowOf_val hr i a).1 hi]
  obtain ⟨r0, r1⟩ := coarse_rows
  have hval : dofVal coarseX.L coarseX.data 0 0 = 0 ∧ dofVal coarseX.L coarseX.data 0 1 = 1 ∧ dofVal coarseX.L coarseX.data 0 2 = 1 ∧
      dofVal coarseX.L coarseX.data 0 3 = 0 ∧ dofVal coarseX.L coarseX.data 0 4 = 2 ∧ dofVal coarseX.L coarseX.data 0 5 = 2 := by
    refine ⟨?_, ?_, ?_, ?_, ?_, ?_⟩ <;> rfl
  obtain ⟨v0, v1, v2, v3, v4, v5⟩ := hval
  have i1 : ∀ z : ℝ × ℝ, interp2 .Q1 (fun a => dofVal coarseX.L coarseX.data 0 (dofAt coarseX.D (1, []) a)) z = 1 + z.1 := by
    intro z
    rw [q1_form]
    simp only [hv _ _ r1 0 1 rfl, hv _ _ r1 1 4 rfl, hv _ _ r1 2 5 rfl, hv _ _ r1 3 2 rfl, v1, v2, v4, v5]
    ring
  refine ⟨fun c hc z => ?_, by decide +kernel, fun n2 rc re hrc p hp => ?_⟩
  · have hx : ∀ f < 2, (F (cellQ witR (f, [])) z).1 = f + z.1 := by
      intro f hf
      rw [F_same (cellQ_eq twoR_wf witR_reach (f, []) (by interval_cases f <;> decide +kernel))]
      show (toPhys (rootQ twoR f) ⟨z.1, z.2⟩).x = _
      rw [two_quad f hf]
      simp only [toPhys]
      ring
    rcases List.mem_cons.1 hc with rfl | hc
    · rw [hx 0 (by omega), q1_form]
      simp only [hv _ _ r0 0 0 rfl, hv _ _ r0 1 1 rfl, hv _ _ r0 2 2 rfl, hv _ _ r0 3 3 rfl, v0, v1, v2, v3]
      push_cast
      ring
    · rcases List.mem_cons.1 hc with rfl | hc
      · rw [hx 1 (by omega), i1]
        push_cast
        rfl
      · cases hc
  · obtain ⟨ho, hx⟩ := qp_open hrc hp
    have h0 := ho.1
    have hxx : p.x.x = 1 + p.ref.1 / 2 := by
      refine (congrArg Prod.fst hx).trans ?_
      show (F (cellQ witR (1, [0])) p.ref).1 = _
      rw [F_same (cellQ_eq twoR_wf witR_reach (1, [0]) (by decide +kernel))]
      show (toPhys ((rootQ twoR 1).child ∅ 0) ⟨p.ref.1, p.ref.2⟩).x = _
      rw [two_quad 1 (by decide), child_0]
      simp only [toPhys, mid, QD.center]
      push_cast
      ring
    refine ⟨1 + p.ref.1, ?_, rfl, hxx, by rw [hxx]; intro h; linarith⟩
    rw [fac_eq (f := coarseX) (c' := (1, [])) (by decide +kernel) r1 rfl (by decide +kernel) (by decide +kernel) rfl (.inl rfl)
      ⟨ho.1.le, ho.2.1.le, ho.2.2.1.le, ho.2.2.2.le⟩ 0 none]
    congr 1
    show fieldAt _ ⟨.Q1, [0]⟩ _ _ = _
    rw [field_val _ _ _ ho]
    exact i1 p.ref

/-- Non-vacuity of C104_value and C104_form: a mesh with hanging nodes, a function that is not constant (dof `a` has the values `a` and `a²`), its derivative, and a
map with one sample. -/
example (close : Pt ℝ → Pt ℝ → Bool) : ∃ (f : Nod) (g : Form.Fn (Pt ℝ)), f.e = .Q2 ∧ f.der = [1, 0] ∧ f.m = 2 ∧ Space twoR (fun _ => true) false witR f ∧
    List.Forall₂ (Means twoR (fun _ => true) false witR (1, [0])) [.nodal f none, .map 1 fun x _ => x.x] [g, ⟨1, fun x _ => x.x⟩] ∧
    sampleSize (⟨[g, ⟨1, fun x _ => x.x⟩], fun l => l.prod⟩ : Kernel (Pt ℝ)) = .ok 2 := by
  obtain ⟨D, V, L, _, hV, hL, _⟩ := Fn.C67_setup twoR_wf twoR_plain witR_reach witR_bal .Q2 close (n := 24) (by rw [witR_len])
  have h : Space twoR (fun _ => true) false witR ⟨.Q2, D, [1, 0], none, L, L.map (fun a => [(a : ℝ), (a : ℝ) ^ 2]), 2⟩ :=
    ⟨twoR_wf, twoR_plain, twoR_convex, twoR_rect, hV.ready, rfl, hL, by simp⟩
  have hset : Setting close twoR .Q2 false witR D V (fun _ => true) :=
    ⟨twoR_wf, twoR_plain, twoR_convex, twoR_rect, rfl, hV, fun _ _ => .inl rfl, .inl rfl⟩
  choose w hw using fun j => fn_exists hset (dofVal L (L.map (fun a => [(a : ℝ), (a : ℝ) ^ 2])) j)
  exact ⟨_, ⟨2, fun x j => part [1, 0] (w j (1, [0])) (x.x, x.y)⟩, rfl, rfl, rfl, h,
    .cons ⟨h, .inr (.inl rfl), .inl rfl, rfl, w, hw, fun _ _ _ _ _ => rfl⟩ (.cons rfl .nil), rfl⟩

end Verif.Coef
