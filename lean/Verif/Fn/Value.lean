import Verif.Fn.Eval

/-! # C67: the values of `Nodal.eval` -/

namespace Verif.Fn
open Verif.Mesh Verif.Dof Verif.Fem Verif.Quad Verif.Phys Verif.Reg Verif.Bnd

section
set_option linter.unusedSectionVars false
variable {K : Type} [Field K] [LinearOrder K] [IsStrictOrderedRing K] {B : Base K} {s : St K} {sf : Bool} {tol : K} {e : ET} {D : DH}

/-! ### The reference map -/

/-- A rectangle starting with a horizontal edge, or a parallelogram that is not called a rectangle. -/
def AffQ (b : Bool) (q : QD K) : Prop :=
  (b = true ∧ q.v0.y = q.v1.y ∧ q.v1.x = q.v2.x ∧ q.v2.y = q.v3.y ∧ q.v3.x = q.v0.x) ∨ (b = false ∧ hDx q = 0 ∧ hDy q = 0)

theorem AffQ.par {b : Bool} {q : QD K} (h : AffQ b q) : hDx q = 0 ∧ hDy q = 0 := by
  rcases h with ⟨_, h1, h2, h3, h4⟩ | ⟨_, h1, h2⟩
  · unfold hDx hDy
    constructor <;> linarith
  · exact ⟨h1, h2⟩

theorem AffQ.child {b : Bool} {q : QD K} (h : AffQ b q) (fl : Finset Nat) (k : Fin 4) : AffQ b (q.child fl k) := by
  rcases h with ⟨hb, h1, h2, h3, h4⟩ | ⟨hb, h1, h2⟩
  · refine .inl ⟨hb, ?_⟩
    fin_cases k <;> simp only [child_0, child_1, child_2, child_3, mid, QD.center] <;> refine ⟨?_, ?_, ?_, ?_⟩ <;> linarith
  · refine .inr ⟨hb, ?_⟩
    unfold hDx hDy at *
    fin_cases k <;> simp only [child_0, child_1, child_2, child_3, mid, QD.center] <;> constructor <;> linarith

theorem AffQ.same {b : Bool} {q q' : QD K} (hs : SameVerts q q') (h : AffQ b q') : AffQ b q := by
  obtain ⟨h0, h1, h2, h3⟩ := hs
  unfold AffQ hDx hDy at *
  rw [h0, h1, h2, h3]
  exact h

theorem cell_aff (hB : B.WF) {rect : Nat → Bool} (hA : Affine rect B) (hs : MReach B s) {c : CN} (hc : c ∈ s.cells) :
    AffQ (rect c.1) (cellQ s c) := by
  have hi := hs.inv hB
  have hf := CEx_root hi c.2 c.1 ((hi.mem c).1 hc)
  refine AffQ.same (cellQ_eq hB hs c hc) ?_
  have : ∀ p : List (Fin 4), AffQ (rect c.1) (quadAt B c.1 p) := by
    intro p
    induction p with
    | nil => exact hA c.1 hf
    | cons k p ih => exact ih.child ∅ k
  exact this c.2

theorem par_surj {q : QD K} (hx : hDx q = 0) (hy : hDy q = 0) (hc : ConvexCCW q) {p : Pt K} (h : contains 0 q p = true) :
    ∃ r, InSquare r ∧ toPhys q r = p := by
  rw [contains_iff] at h
  simp only [left_tri, neg_zero] at h
  obtain ⟨h1, h2, h3, h4⟩ := h
  obtain ⟨c1, -, -, -⟩ := hc
  have e2x : q.v2.x = q.v1.x + q.v3.x - q.v0.x := by unfold hDx at hx; linarith
  have e2y : q.v2.y = q.v1.y + q.v3.y - q.v0.y := by unfold hDy at hy; linarith
  have hT : tri q.v0 q.v1 q.v2 = tri q.v0 q.v1 q.v3 := by simp only [tri, e2x, e2y]; ring
  rw [hT] at c1
  have hne := c1.ne'
  refine ⟨⟨tri q.v3 q.v0 p / tri q.v0 q.v1 q.v3, tri q.v0 q.v1 p / tri q.v0 q.v1 q.v3⟩,
    ⟨div_nonneg h4 c1.le, ?_, div_nonneg h1 c1.le, ?_⟩, ?_⟩
  · rw [div_le_one c1]
    have : tri q.v1 q.v2 p = tri q.v0 q.v1 q.v3 - tri q.v3 q.v0 p := by simp only [tri, e2x, e2y]; ring
    linarith
  · rw [div_le_one c1]
    have : tri q.v2 q.v3 p = tri q.v0 q.v1 q.v3 - tri q.v0 q.v1 p := by simp only [tri, e2x, e2y]; ring
    linarith
  · have ex : ∀ a b : K, toPhys q ⟨a, b⟩ = ⟨q.v0.x + a * (q.v1.x - q.v0.x) + b * (q.v3.x - q.v0.x),
        q.v0.y + a * (q.v1.y - q.v0.y) + b * (q.v3.y - q.v0.y)⟩ := by
      intro a b
      simp only [toPhys, e2x, e2y, Pt.mk.injEq]
      constructor <;> ring
    rw [ex]
    have hp : p = ⟨p.x, p.y⟩ := rfl
    rw [hp, Pt.mk.injEq]
    generalize hTT : tri q.v0 q.v1 q.v3 = T at *
    constructor
    · field_simp
      rw [← hTT]
      simp only [tri]
      ring
    · field_simp
      rw [← hTT]
      simp only [tri]
      ring

theorem rect_ref {q : QD K} (h : q.v0.y = q.v1.y ∧ q.v1.x = q.v2.x ∧ q.v2.y = q.v3.y ∧ q.v3.x = q.v0.x) (hc : ConvexCCW q) (r : Pt K) :
    rectToRef q (toPhys q r) = .ok r := by
  obtain ⟨⟨x0, y0⟩, ⟨x1, y1⟩, ⟨x2, y2⟩, ⟨x3, y3⟩, fl⟩ := q
  simp only at h
  obtain ⟨rfl, rfl, rfl, rfl⟩ := h
  have h1 := hc.1
  simp only [tri] at h1
  exact (C21_rectangle x3 x1 y0 y2 fl (by rintro rfl; simp at h1) (by rintro rfl; simp at h1) r).2

theorem ref_aff {b : Bool} {q : QD K} (hA : AffQ b q) (hc : ConvexCCW q) {p : Pt K} (h : contains 0 q p = true) :
    ∃ r, InSquare r ∧ toPhys q r = p ∧ (if b then (rectToRef q p).toOption else some (newtonToRef q p)) = some r := by
  obtain ⟨r, h1, h2⟩ := par_surj hA.par.1 hA.par.2 hc h
  refine ⟨r, h1, h2, ?_⟩
  subst h2
  rcases hA with ⟨rfl, h3⟩ | ⟨rfl, h3, h4⟩
  · rw [if_pos rfl, rect_ref h3 hc]
    rfl
  · rw [if_neg (by simp), C21_newton_parallelogram q h3 h4 hc r h1.1 h1.2.1 h1.2.2.1 h1.2.2.2]

/-- The reference coordinates are computed exactly in the leaves that contain the point within the tolerance.  Newton's method (five
steps) gives that in parallelograms, see `C67_affine`. -/
def Exact (tol : K) (rect : Nat → Bool) (sf : Bool) (s : St K) (x : Pt K) : Prop :=
  ∀ c ∈ leaves sf s, contains tol (cellQ s c) x = true → ∃ r, refMap rect s c x = some r ∧ At s c (r.x, r.y) x

/-- The point is not outside of a leaf and within the tolerance.  No condition for tolerance 0. -/
def Clear (tol : K) (sf : Bool) (s : St K) (x : Pt K) : Prop :=
  ∀ c ∈ leaves sf s, contains tol (cellQ s c) x = true → contains 0 (cellQ s c) x = true

/-- **C67** (reference coordinates): on meshes of rectangles and parallelograms, reference coordinates are exact. -/
theorem C67_affine (hB : B.WF) (hC : Convex B) {rect : Nat → Bool} (hA : Affine rect B) (hs : MReach B s) {x : Pt K}
    (hx : Clear tol sf s x) : Exact tol rect sf s x := by
  intro c hc hcx
  have hi := hs.inv hB
  have hm := (hi.mem c).2 ((Dof.mem_leaves hi c).1 hc).1
  obtain ⟨r, h1, h2, h3⟩ := ref_aff (cell_aff hB hA hs hm) (cell_convex hB hC hs hm) (hx c hc hcx)
  exact ⟨r, h3, h1, h2⟩

theorem phi2_some (e : ET) {p : Nat} (hp : p < nd2 e) (x : K × K) : phi2 e p x = .ok (Fem.val (phi2 e p x)) := by
  rw [phi2_tb e p hp]
  rfl

theorem shape_value {rect : Nat → Bool} {c : CN} {r : Pt K} (hr : InSq (r.x, r.y)) {p : Nat} (hp : p < nd2 e) :
    shapeAt rect s e [0] c r p = some (Fem.val (phi2 e p (r.x, r.y))) := by
  obtain ⟨h0, h1, h2, h3⟩ := hr
  unfold shapeAt shape2
  rw [if_neg (by simpa using ⟨h0, h2⟩), if_neg (by simpa using ⟨h1, h3⟩)]
  simp only
  rw [phi2_some e hp]
  rfl

theorem Exact.computable {rect : Nat → Bool} {x : Pt K} (h : Exact tol rect sf s x) : Computable tol rect sf s e [0] x := by
  intro c hc hcx
  obtain ⟨r, h1, h2⟩ := h c hc hcx
  exact ⟨r, h1, fun p hp => ⟨_, shape_value h2.1 hp⟩⟩

/-- **C67** (values): for points in the domain, `eval` returns at each point, for each sample, the value of the finite element function
with the values `data` at the dofs, computed in a leaf that contains the point. -/
theorem C67_value (ht : 0 ≤ tol) (hB : B.WF) (hP : Plain B) (hC : Convex B) (hR : Ready B e sf s D) (hr : RootsIn B sf s)
    (hf : sf = false ∨ FullFlag s) {n : Nat} (hn : Deep s n) {L : List Nat} (hL : BasisOf sf s e D L) {data : List (List K)}
    (hd : data.length = L.length) (m : Nat) (rect : Nat → Bool) (xs : List (Pt K))
    (hin : ∀ x ∈ xs, ∃ f < B.n, contains tol (rootQ B f) x = true) (hx : ∀ x ∈ xs, Exact tol rect sf s x) :
    ∃ fx, evalN tol rect sf B.n s n e D L data m [0] xs = some fx ∧ fx.length = xs.length ∧ ∀ (i : Nat) x, xs[i]? = some x →
      ∃ row : List K, fx[i]? = some row ∧ row.length = m ∧ ∃ c ∈ leaves sf s, ∃ r, At s c r x ∧
        ∀ j < m, row[j]? = some (feFn e D (dofVal L data j) c r) := by
  obtain ⟨fx, e1, e2, e3⟩ := C67_eval ht hB hP hC hR hr hf hn hL hd m rect [0] xs hin (fun x h => (hx x h).computable)
  refine ⟨fx, e1, e2, fun i x hix => ?_⟩
  obtain ⟨row, h1, h2, c, h3, h4, r, h5, h6⟩ := e3 i x hix
  obtain ⟨r', g1, g2⟩ := hx x (List.mem_of_getElem? hix) c h3 h4
  rw [h5] at g1
  cases g1
  refine ⟨row, h1, h2, c, h3, _, g2, fun j hj => ?_⟩
  rw [h6 j hj]
  congr 1
  unfold feFn cellFn interp2
  apply congrArg
  apply List.map_congr_left
  intro p hp
  rw [shape_value g2.1 (List.mem_range.1 hp), mul_comm]
  rfl

theorem at_same (hB : B.WF) (hE : Embedded B) (hs : MReach B s) {c c' : CN} (hc : c ∈ leaves sf s) (hc' : c' ∈ leaves sf s) {r r' : K × K}
    {x : Pt K} (h : At s c r x) (h' : At s c' r' x) : SamePt B (rootPt c r) (rootPt c' r') := by
  have hi := hs.inv hB
  have h1 := ((Dof.mem_leaves hi c).1 hc).1
  have h1' := ((Dof.mem_leaves hi c').1 hc').1
  refine hE c.1 c'.1 (CEx_root hi _ _ h1) (CEx_root hi _ _ h1') _ _ (climb_insq c.2 h.1) (climb_insq c'.2 h'.1) ?_
  rw [← phys_cell two_ne_zero hB hs c ((hi.mem c).2 h1), ← phys_cell two_ne_zero hB hs c' ((hi.mem c').2 h1'), h.2, h'.2]

/-- **C67** (functions): if the dof values satisfy the hanging node conditions (C62: the finite element function is single-valued) and
the initial cells do not overlap, `eval` returns at each point of the domain THE value of the finite element function there: the value
computed in any leaf that contains the point. -/
theorem C67_point (ht : 0 ≤ tol) (hB : B.WF) (hP : Plain B) (hE : Embedded B) (hC : Convex B) (hR : Ready B e sf s D) (hr : RootsIn B sf s)
    (hf : sf = false ∨ FullFlag s) {n : Nat} (hn : Deep s n) {L : List Nat} (hL : BasisOf sf s e D L) {data : List (List K)}
    (hd : data.length = L.length) (m : Nat) (hS : ∀ j < m, Single B sf s e D (dofVal L data j)) (rect : Nat → Bool) (xs : List (Pt K))
    (hin : ∀ x ∈ xs, ∃ f < B.n, contains tol (rootQ B f) x = true) (hx : ∀ x ∈ xs, Exact tol rect sf s x) :
    ∃ fx, evalN tol rect sf B.n s n e D L data m [0] xs = some fx ∧ fx.length = xs.length ∧ ∀ (i : Nat) x, xs[i]? = some x →
      ∃ row : List K, fx[i]? = some row ∧ row.length = m ∧ ∀ c ∈ leaves sf s, ∀ r, At s c r x →
        ∀ j < m, row[j]? = some (feFn e D (dofVal L data j) c r) := by
  obtain ⟨fx, e1, e2, e3⟩ := C67_value ht hB hP hC hR hr hf hn hL hd m rect xs hin hx
  refine ⟨fx, e1, e2, fun i x hix => ?_⟩
  obtain ⟨row, h1, h2, c, h3, r, h4, h5⟩ := e3 i x hix
  refine ⟨row, h1, h2, fun c' hc' r' hr' j hj => ?_⟩
  rw [h5 j hj, hS j hj c h3 c' hc' r r' h4.1 hr'.1 (at_same hB hE hR.uses.uses.reach h3 hc' h4 hr')]

/-- **C67** (nodes): if the dof values satisfy the hanging node conditions, `eval` at the vertices of the dofs returns the data. -/
theorem C67_nodes (ht : 0 ≤ tol) (hB : B.WF) (hP : Plain B) (hE : Embedded B) (hC : Convex B) (hR : Ready B e sf s D) (hr : RootsIn B sf s)
    (hf : sf = false ∨ FullFlag s) {n : Nat} (hn : Deep s n) {L : List Nat} (hL : BasisOf sf s e D L) {data : List (List K)}
    (m : Nat) (hd : data.length = L.length) (hm : ∀ row ∈ data, row.length = m) (hS : ∀ j < m, Single B sf s e D (dofVal L data j)) (rect : Nat → Bool)
    {close : Pt K → Pt K → Bool} {V : DV K} (hV : UsesV close B e s D V) {xs : List (Pt K)} (hxs : getVerts V L = some xs)
    (hx : ∀ x ∈ xs, Exact tol rect sf s x) :
    evalN tol rect sf B.n s n e D L data m [0] xs = some data := by
  have hs := hR.uses.uses.reach
  have hi := hs.inv hB
  have hxs' := (allSome_some _ _).1 hxs
  have hlen : xs.length = L.length := by simpa using (congrArg List.length hxs').symm
  have hpt : ∀ (i : Nat) x, xs[i]? = some x → ∃ a, L[i]? = some a ∧ ∃ c ∈ leaves sf s, ∃ p < nd2 e, Dof.val D c p = some a ∧
      At s c (castPt K (node e p)) x := by
    intro i x hix
    have h1 : (L.map (getVert V))[i]? = some (some x) := by rw [hxs', List.getElem?_map, hix]; rfl
    rw [List.getElem?_map] at h1
    obtain ⟨a, h2, h3⟩ := Option.map_eq_some_iff.1 h1
    obtain ⟨c, hc, p, hp, hv⟩ := (hL.mem a).1 (List.mem_of_getElem? h2)
    have hcm := (hi.mem c).2 ((Dof.mem_leaves hi c).1 hc).1
    exact ⟨a, h2, c, hc, p, hp, hv, insq_cast (node_insq e ⟨p, hp⟩), (C63_vertex hB hP hV a x h3 c hcm p hp hv).symm⟩
  obtain ⟨fx, e1, e2, e3⟩ := C67_point ht hB hP hE hC hR hr hf hn hL hd m hS rect xs (by
    intro x hxx
    obtain ⟨i, hi'⟩ := List.mem_iff_getElem?.1 hxx
    obtain ⟨a, h2, c, hc, p, hp, hv, hat⟩ := hpt i x hi'
    have hcx := ((Dof.mem_leaves hi c).1 hc).1
    have hf' := CEx_root hi c.2 c.1 hcx
    refine ⟨c.1, hf', ?_⟩
    have h4 := climb_insq c.2 hat.1
    have := C22_map_inside (rootQ B c.1) (hC c.1 hf') tol ht ⟨_, _⟩ h4.1 h4.2.1 h4.2.2.1 h4.2.2.2
    rw [← hat.2, phys_cell two_ne_zero hB hs c ((hi.mem c).2 hcx)]
    exact this) hx
  rw [e1]
  congr 1
  apply List.ext_getElem?
  intro i
  by_cases hil : i < xs.length
  · have hix := List.getElem?_eq_getElem hil
    obtain ⟨row, h1, h2, h3⟩ := e3 i _ hix
    obtain ⟨a, h4, c, hc, p, hp, hv, hat⟩ := hpt i _ hix
    have hid : i < data.length := by omega
    rw [h1, List.getElem?_eq_getElem hid]
    congr 1
    apply List.ext_getElem?
    intro j
    have hlr := hm _ (List.getElem_mem hid)
    by_cases hj : j < m
    · rw [h3 c hc _ hat j hj]
      unfold feFn
      rw [cellFn_node _ p hp]
      have hk : L.idxOf? a = some i := by
        obtain ⟨k, hk⟩ := idxOf?_ex (List.mem_of_getElem? h4)
        have hk' := idxOf?_some hk
        have hnd : L.Nodup := hL.nodup
        have : k = i := by
          have h5 := List.getElem?_eq_some_iff.1 hk'
          have h6 := List.getElem?_eq_some_iff.1 h4
          obtain ⟨a1, a2⟩ := h5
          obtain ⟨b1, b2⟩ := h6
          exact (List.Nodup.getElem_inj_iff hnd).1 (a2.trans b2.symm)
        rw [hk, this]
      have : dofAt D c p = a := by unfold dofAt; rw [hv]; rfl
      have hdi : data.getD i [] = data[i] := by
        rw [List.getD_eq_getElem?_getD, List.getElem?_eq_getElem hid]
        rfl
      rw [this, dofVal_eq hk, hdi, List.getD_eq_getElem?_getD, List.getElem?_eq_getElem (by omega)]
      rfl
    · rw [List.getElem?_eq_none (by omega), List.getElem?_eq_none (by omega)]
  · rw [List.getElem?_eq_none (by omega), List.getElem?_eq_none (by omega)]

end
end Verif.Fn
