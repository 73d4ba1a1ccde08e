import Verif.Fn.Poly
import Verif.Dir.Model

/-! # C68: interpolation onto a finer mesh -/

namespace Verif.Fn
open Verif.Mesh Verif.Dof Verif.Fem Verif.Quad Verif.Phys Verif.Reg Verif.Bnd Verif.Dir

section model
variable {K : Type} [Field K]

/-- `f.interpolant(dofhandler, subforest_flag)` (function.py 313-348), after `distribute_dofs`, for a dofhandler with the vertices `V` and
the dofs `L` of the (sub)mesh: the data of the new `Nodal` function are the values of `f` at the vertices.  `f` is given by its `eval`. -/
def interpolant (V : DV K) (L : List Nat) (f : List (Pt K) → Option (List (List K))) : Option (List (List K)) := (getVerts V L).bind f

end model

/-! ### Specification -/

/-- Each leaf of the second (sub)mesh lies in a leaf of the first. -/
def Finer {K : Type} (sf : Bool) (s : St K) (sf' : Bool) (s' : St K) : Prop := ∀ c' ∈ leaves sf' s', ∃ c ∈ leaves sf s, Below c c'

section
variable {K : Type} [Field K]

theorem W_aff {M N : Nat} {f : K × K → K} (hf : f ∈ W K M N) (a b c d : K) : (fun p => f (a * p.1 + b, c * p.2 + d)) ∈ W K M N := by
  refine Submodule.span_induction (p := fun f _ => (fun p : K × K => f (a * p.1 + b, c * p.2 + d)) ∈ W K M N) ?_ ?_ ?_ ?_ hf
  · rintro f ⟨i, j, hi, hj, rfl⟩
    have h1 : (fun p : K × K => a * p.1 + b) ∈ W K 1 0 := by
      have := Submodule.add_mem _ (Submodule.smul_mem _ a (mono_mem (K := K) 1 0 1 0 (by omega) (by omega))) (W_const 1 0 b)
      convert this using 1
      funext p
      simp
    have h2 : (fun p : K × K => c * p.2 + d) ∈ W K 0 1 := by
      have := Submodule.add_mem _ (Submodule.smul_mem _ c (mono_mem (K := K) 0 1 0 1 (by omega) (by omega))) (W_const 0 1 d)
      convert this using 1
      funext p
      simp
    exact W_mono (by omega) (by omega) (W_mul (W_pow h1 i) (W_pow h2 j))
  · exact Submodule.zero_mem _
  · intro f g _ _ h1 h2
    exact Submodule.add_mem _ h1 h2
  · intro t f _ h
    exact Submodule.smul_mem _ t h

theorem W_emb {M N : Nat} {f : K × K → K} (hf : f ∈ W K M N) (k : Fin 4) : (fun p => f (emb k p)) ∈ W K M N := by
  have h := fun b d => W_aff hf (1 / 2) b (1 / 2) d
  match k with
  | 0 => convert h 0 0 using 4 <;> simp [emb] <;> ring
  | 1 => convert h (1 / 2) 0 using 4 <;> simp [emb] <;> ring
  | 2 => convert h (1 / 2) (1 / 2) using 4 <;> simp [emb] <;> ring
  | 3 => convert h 0 (1 / 2) using 4 <;> simp [emb] <;> ring

theorem W_climb {M N : Nat} {f : K × K → K} (hf : f ∈ W K M N) (p : List (Fin 4)) : (fun z => f (climb p z)) ∈ W K M N := by
  induction p generalizing f with
  | nil => exact hf
  | cons k p ih => exact W_emb (ih hf) k

theorem climb_append (q p : List (Fin 4)) (z : K × K) : climb (q ++ p) z = climb p (climb q z) := by
  induction q generalizing z with
  | nil => rfl
  | cons k q ih => exact ih _

/-- The coefficients of the polynomials on the unit interval. -/
def pcK (K : Type) [Field K] : ET → List (List K)
  | .DQ0 => [[1]]
  | .Q1 | .DQ1 => [[1, -1], [0, 1]]
  | .Q2 | .DQ2 => [[1, -3, 2], [0, -1, 2], [0, 4, -4]]
  | .Q3 | .DQ3 => [[1, -(11 / 2), 9, -(9 / 2)], [0, 1, -(9 / 2), 9 / 2], [0, 9, -(45 / 2), 27 / 2], [0, -(9 / 2), 18, -(27 / 2)]]

theorem tb_pc [CharZero K] (e : ET) (i : Nat) (hi : i < np e) (x : K) :
    tb (pTab e) i x = ∑ k ∈ Finset.range (deg e + 1), ((pcK K e).getD i []).getD k 0 * x ^ k := by
  cases e <;> simp only [np, deg] at hi <;> interval_cases i <;> simp [tb, pTab, pcK, deg, Finset.sum_range_succ] <;> ring

theorem phi_W [CharZero K] (e : ET) (n : Nat) (hn : n < nd2 e) : (fun p : K × K => Fem.val (phi2 e n p)) ∈ W K (deg e) (deg e) := by
  obtain ⟨h1, h2⟩ := bix_lt e n hn
  simp only [phi2_tb e n hn, Fem.val, tb_pc e _ h1, tb_pc e _ h2]
  have f1 : ∀ c : Nat → K, (fun p : K × K => ∑ k ∈ Finset.range (deg e + 1), c k * p.1 ^ k) ∈ W K (deg e) 0 := by
    intro c
    have := Submodule.sum_mem (W K (deg e) 0) (t := Finset.range (deg e + 1)) (f := fun k p => c k * (p.1 ^ k * p.2 ^ 0)) (fun k hk =>
      Submodule.smul_mem _ (c k) (mono_mem (deg e) 0 k 0 (by have := Finset.mem_range.1 hk; omega) le_rfl))
    convert this using 1
    funext p
    simp
  have f2 : ∀ c : Nat → K, (fun p : K × K => ∑ k ∈ Finset.range (deg e + 1), c k * p.2 ^ k) ∈ W K 0 (deg e) := by
    intro c
    have := Submodule.sum_mem (W K 0 (deg e)) (t := Finset.range (deg e + 1)) (f := fun k p => c k * (p.1 ^ 0 * p.2 ^ k)) (fun k hk =>
      Submodule.smul_mem _ (c k) (mono_mem 0 (deg e) 0 k le_rfl (by have := Finset.mem_range.1 hk; omega)))
    convert this using 1
    funext p
    simp
  have := W_mul (f1 (fun k => ((pcK K e).getD (bix e n).1 []).getD k 0)) (f2 (fun k => ((pcK K e).getD (bix e n).2 []).getD k 0))
  simpa using this

theorem cellFn_W [CharZero K] (e : ET) (U : Nat → K) : cellFn e U ∈ W K (deg e) (deg e) := by
  have : cellFn e U = ∑ n ∈ Finset.range (nd2 e), U n • (fun p : K × K => Fem.val (phi2 e n p)) := by
    funext z
    unfold cellFn interp2
    rw [Finset.sum_apply, ← List.sum_toFinset _ List.nodup_range]
    simp [List.toFinset_range]
  rw [this]
  exact Submodule.sum_mem _ (fun n hn => Submodule.smul_mem _ _ (phi_W e n (Finset.mem_range.1 hn)))

end

section
variable {K : Type} [Field K] [LinearOrder K] [IsStrictOrderedRing K] {B : Base K} {s s' : St K} {sf sf' : Bool} {tol tol' : K} {e e' : ET}
  {D D' : DH}

/-- A leaf that lies in a coarser leaf: the same function if its dofs have the values of the coarser function at the nodes. -/
theorem interp_leaf (hdeg : deg e ≤ deg e') {U U' : Nat → K} {c' : CN} {q : List (Fin 4)}
    (h : ∀ p < nd2 e', U' (dofAt D' c' p) = cellFn e U (climb q (castPt K (node e' p)))) (z : K × K) :
    feFn e' D' U' c' z = cellFn e U (climb q z) := by
  have hg := W_mono hdeg hdeg (W_climb (cellFn_W e U) q)
  have := interp_W e' hg z
  rw [← this]
  unfold feFn
  rw [show cellFn e' (fun p => U' (dofAt D' c' p)) z = interp2 e' (fun p => U' (dofAt D' c' p)) z from rfl]
  unfold interp2
  apply congrArg
  apply List.map_congr_left
  intro p hp
  have hp' := List.mem_range.1 hp
  simp only
  rw [h p hp', nodes_cast e' p hp']

/-- The vertices of the dofs of a basis are known. -/
theorem verts_some (hB : B.WF) {close : Pt K → Pt K → Bool} {V : DV K} (hR : ReadyV close B e sf s D V) {L : List Nat}
    (hL : BasisOf sf s e D L) : ∃ xs, getVerts V L = some xs := by
  have hi := hR.uses.uses.reach.inv hB
  obtain ⟨r, h, _⟩ := allSome_all (l := L.map (getVert V)) (fun o ho => by
    obtain ⟨a, ha, rfl⟩ := List.mem_map.1 ho
    obtain ⟨c, hc, p, hp, hv⟩ := (hL.mem a).1 ha
    obtain ⟨h1, h2, _⟩ := (Dof.mem_leaves hi c).1 hc
    exact hR.placed c ((hi.mem c).2 h1) h2 p hp a hv)
  exact ⟨r, h⟩

/-- A point of a leaf of the finer mesh, in the coarser leaf. -/
theorem at_below (hB : B.WF) (hs : MReach B s) (hs' : MReach B s') {c c' : CN} (hc : c ∈ s.cells) (hc' : c' ∈ s'.cells)
    {q : List (Fin 4)} (h1 : c'.1 = c.1) (h2 : c'.2 = q ++ c.2) {z : K × K} {x : Pt K} (h : At s' c' z x) : At s c (climb q z) x := by
  refine ⟨climb_insq q h.1, ?_⟩
  rw [← h.2, phys_cell two_ne_zero hB hs c hc, phys_cell two_ne_zero hB hs' c' hc', h1, h2, climb_append]

theorem at_contains (hB : B.WF) (ht : 0 ≤ tol) (hC : Convex B) (hs : MReach B s) {c : CN} (hc : c ∈ leaves sf s) {r : K × K} {x : Pt K}
    (h : At s c r x) : ∃ f < B.n, contains tol (rootQ B f) x = true := by
  have hi := hs.inv hB
  have hcx := ((Dof.mem_leaves hi c).1 hc).1
  have hf' := CEx_root hi c.2 c.1 hcx
  refine ⟨c.1, hf', ?_⟩
  have h4 := climb_insq c.2 h.1
  have := C22_map_inside (rootQ B c.1) (hC c.1 hf') tol ht ⟨_, _⟩ h4.1 h4.2.1 h4.2.2.1 h4.2.2.2
  rw [← h.2, phys_cell two_ne_zero hB hs c ((hi.mem c).2 hcx)]
  exact this

/-- **C68**: the interpolant of a continuous finite element function on a finer (sub)mesh, with elements of at least the same degree, is
the same function: wherever a leaf of the one and a leaf of the other contain a point, both give the same value. -/
theorem C68_interpolant (ht : 0 ≤ tol) (hB : B.WF) (hP : Plain B) (hE : Embedded B) (hC : Convex B)
    (hR : Ready B e sf s D) (hr : RootsIn B sf s) (hf : sf = false ∨ FullFlag s) {n : Nat} (hn : Deep s n) {L : List Nat}
    (hL : BasisOf sf s e D L) {data : List (List K)} (hd : data.length = L.length) (m : Nat)
    (hS : ∀ j < m, Single B sf s e D (dofVal L data j)) (rect : Nat → Bool)
    {close : Pt K → Pt K → Bool} {V' : DV K} (hR' : ReadyV close B e' sf' s' D' V') {L' : List Nat} (hL' : BasisOf sf' s' e' D' L')
    (hfin : Finer sf s sf' s') (hdeg : deg e ≤ deg e') (hx : ∀ xs, getVerts V' L' = some xs → ∀ x ∈ xs, Exact tol rect sf s x) :
    ∃ data', interpolant V' L' (evalN tol rect sf B.n s n e D L data m [0]) = some data' ∧ data'.length = L'.length ∧
      (∀ row ∈ data', row.length = m) ∧ ∀ j < m, ∀ c' ∈ leaves sf' s', ∀ c ∈ leaves sf s, ∀ z r x, At s' c' z x → At s c r x →
        feFn e' D' (dofVal L' data' j) c' z = feFn e D (dofVal L data j) c r := by
  have hs := hR.uses.uses.reach
  have hi := hs.inv hB
  have hs' := hR'.uses.uses.reach
  have hi' := hs'.inv hB
  obtain ⟨xs, hxs⟩ := verts_some hB hR' hL'
  have hxs' := (allSome_some _ _).1 hxs
  have hlen : xs.length = L'.length := by simpa using (congrArg List.length hxs').symm
  have hpt : ∀ (i : Nat) x, xs[i]? = some x → ∃ a, L'[i]? = some a ∧ getVert V' a = some x := by
    intro i x hix
    have h1 : (L'.map (getVert V'))[i]? = some (some x) := by rw [hxs', List.getElem?_map, hix]; rfl
    rw [List.getElem?_map] at h1
    exact Option.map_eq_some_iff.1 h1
  have hat : ∀ (i : Nat) x a, xs[i]? = some x → L'[i]? = some a → ∀ c' ∈ leaves sf' s', ∀ p < nd2 e', Dof.val D' c' p = some a →
      At s' c' (castPt K (node e' p)) x := by
    intro i x a hix ha c' hc' p hp hv
    obtain ⟨a', h1, h2⟩ := hpt i x hix
    rw [ha] at h1
    cases h1
    have hcm := (hi'.mem c').2 ((Dof.mem_leaves hi' c').1 hc').1
    exact ⟨insq_cast (node_insq e' ⟨p, hp⟩), (C63_vertex hB hP hR'.uses a x h2 c' hcm p hp hv).symm⟩
  obtain ⟨fx, e1, e2, e3⟩ := C67_point ht hB hP hE hC hR hr hf hn hL hd m hS rect xs (by
    intro x hxx
    obtain ⟨i, hi''⟩ := List.mem_iff_getElem?.1 hxx
    obtain ⟨a, h2, _⟩ := hpt i x hi''
    obtain ⟨c', hc', p, hp, hv⟩ := (hL'.mem a).1 (List.mem_of_getElem? h2)
    exact at_contains hB ht hC hs' hc' (hat i x a hi'' h2 c' hc' p hp hv)) (hx xs hxs)
  refine ⟨fx, by unfold interpolant; rw [hxs]; exact e1, by omega, ?_, ?_⟩
  · intro row hrow
    obtain ⟨i, hi''⟩ := List.mem_iff_getElem?.1 hrow
    have hil : i < xs.length := by rw [← e2]; exact (List.getElem?_eq_some_iff.1 hi'').1
    obtain ⟨row', h1, h2, _⟩ := e3 i _ (List.getElem?_eq_getElem hil)
    rw [hi''] at h1
    cases h1
    exact h2
  intro j hj c' hc' c hc z r x hz hrx
  obtain ⟨d, hdl, hb1, q, hb2⟩ := hfin c' hc'
  have hcm' := (hi'.mem c').2 ((Dof.mem_leaves hi' c').1 hc').1
  have hdm := (hi.mem d).2 ((Dof.mem_leaves hi d).1 hdl).1
  have key : feFn e' D' (dofVal L' fx j) c' z = feFn e D (dofVal L data j) d (climb q z) := by
    refine interp_leaf hdeg (U := fun p => dofVal L data j (dofAt D d p)) (fun p hp => ?_) z
    obtain ⟨h1, h2, _⟩ := (Dof.mem_leaves hi' c').1 hc'
    obtain ⟨a, ha⟩ := Option.ne_none_iff_exists'.1 (hR'.ready.val hB h1 h2 p hp)
    have hda : dofAt D' c' p = a := by unfold dofAt; rw [ha]; rfl
    obtain ⟨k, hk⟩ := idxOf?_ex ((hL'.mem a).2 ⟨c', hc', p, hp, ha⟩)
    have hk' := idxOf?_some hk
    have hkl : k < xs.length := by rw [hlen]; exact (List.getElem?_eq_some_iff.1 hk').1
    have hxk := List.getElem?_eq_getElem hkl
    obtain ⟨row, g1, g2, g3⟩ := e3 k _ hxk
    have hA := at_below hB hs hs' hdm hcm' hb1 hb2.symm (hat k _ a hxk hk' c' hc' p hp ha)
    have := g3 d hdl _ hA j hj
    have hrow : fx.getD k [] = row := by rw [List.getD_eq_getElem?_getD, g1]; rfl
    rw [hda, dofVal_eq hk, hrow, List.getD_eq_getElem?_getD, this]
    rfl
  rw [key]
  have hA := at_below hB hs hs' hdm hcm' hb1 hb2.symm hz
  exact hS j hj d hdl c hc _ _ hA.1 hrx.1 (at_same hB hE hs hdl hc hA hrx)

/-- **C68** (continuity): the interpolant satisfies the conditions at the hanging nodes of the finer mesh. -/
theorem C68_continuous (hB : B.WF) (hs : MReach B s) (hs' : MReach B s') (hfin : Finer sf s sf' s') {U U' : Nat → K} (hS : Single B sf s e D U)
    (h : ∀ c' ∈ leaves sf' s', ∀ c ∈ leaves sf s, ∀ z r x, At s' c' z x → At s c r x → feFn e' D' U' c' z = feFn e D U c r) :
    Single B sf' s' e' D' U' := by
  have hi := hs.inv hB
  have hi' := hs'.inv hB
  intro c hc c' hc' z z' hz hz' hsame
  obtain ⟨d, hdl, hb1, q, hb2⟩ := hfin c hc
  obtain ⟨d', hdl', hb1', q', hb2'⟩ := hfin c' hc'
  have hcm := (hi'.mem c).2 ((Dof.mem_leaves hi' c).1 hc).1
  have hcm' := (hi'.mem c').2 ((Dof.mem_leaves hi' c').1 hc').1
  have hdm := (hi.mem d).2 ((Dof.mem_leaves hi d).1 hdl).1
  have hdm' := (hi.mem d').2 ((Dof.mem_leaves hi d').1 hdl').1
  have hA : At s' c z (phys (cellQ s' c) z) := ⟨hz, rfl⟩
  have hA' : At s' c' z' (phys (cellQ s' c') z') := ⟨hz', rfl⟩
  have g := at_below hB hs hs' hdm hcm hb1 hb2.symm hA
  have g' := at_below hB hs hs' hdm' hcm' hb1' hb2'.symm hA'
  rw [h c hc d hdl _ _ _ hA g, h c' hc' d' hdl' _ _ _ hA' g']
  refine hS d hdl d' hdl' _ _ g.1 g'.1 ?_
  unfold rootPt at hsame ⊢
  rw [← climb_append, ← climb_append, hb2, hb2', ← hb1, ← hb1']
  exact hsame

/-- **C68** (values): `f.interpolant(dofhandler).eval(y)` and `f.eval(y)` are the same for all points `y` of the domain. -/
theorem C68_eval (ht : 0 ≤ tol) (ht' : 0 ≤ tol') (hB : B.WF) (hP : Plain B) (hE : Embedded B) (hC : Convex B)
    (hR : Ready B e sf s D) (hr : RootsIn B sf s) (hf : sf = false ∨ FullFlag s) {n : Nat} (hn : Deep s n) {L : List Nat}
    (hL : BasisOf sf s e D L) {data : List (List K)} (hd : data.length = L.length) (m : Nat)
    (hS : ∀ j < m, Single B sf s e D (dofVal L data j)) (rect : Nat → Bool)
    {close : Pt K → Pt K → Bool} {V' : DV K} (hR' : ReadyV close B e' sf' s' D' V') (hr' : RootsIn B sf' s') (hf' : sf' = false ∨ FullFlag s')
    {n' : Nat} (hn' : Deep s' n') {L' : List Nat} (hL' : BasisOf sf' s' e' D' L')
    (hfin : Finer sf s sf' s') (hdeg : deg e ≤ deg e') (hx : ∀ xs, getVerts V' L' = some xs → ∀ x ∈ xs, Exact tol rect sf s x)
    {data' : List (List K)} (hd' : interpolant V' L' (evalN tol rect sf B.n s n e D L data m [0]) = some data') (ys : List (Pt K))
    (hin : ∀ y ∈ ys, ∃ f < B.n, contains tol (rootQ B f) y = true) (hin' : ∀ y ∈ ys, ∃ f < B.n, contains tol' (rootQ B f) y = true)
    (hy : ∀ y ∈ ys, Exact tol rect sf s y) (hy' : ∀ y ∈ ys, Exact tol' rect sf' s' y) :
    evalN tol' rect sf' B.n s' n' e' D' L' data' m [0] ys = evalN tol rect sf B.n s n e D L data m [0] ys := by
  have hs := hR.uses.uses.reach
  have hs' := hR'.uses.uses.reach
  obtain ⟨data'', e1, e2, e3, e4⟩ := C68_interpolant ht hB hP hE hC hR hr hf hn hL hd m hS rect hR' hL' hfin hdeg hx
  rw [hd'] at e1
  cases e1
  obtain ⟨fx, a1, a2, a3⟩ := C67_value ht hB hP hC hR hr hf hn hL hd m rect ys hin hy
  obtain ⟨fx', b1, b2, b3⟩ := C67_value ht' hB hP hC hR'.ready hr' hf' hn' hL' e2 m rect ys hin' hy'
  rw [a1, b1]
  congr 1
  apply List.ext_getElem?
  intro i
  by_cases hil : i < ys.length
  · have hyi := List.getElem?_eq_getElem hil
    obtain ⟨row, c1, c2, c, hc, r, hA, c3⟩ := a3 i _ hyi
    obtain ⟨row', c1', c2', c', hc', r', hA', c3'⟩ := b3 i _ hyi
    rw [c1, c1']
    congr 1
    apply List.ext_getElem?
    intro j
    by_cases hj : j < m
    · rw [c3 j hj, c3' j hj, e4 j hj c' hc' c hc r' r _ hA' hA]
    · rw [List.getElem?_eq_none (by omega), List.getElem?_eq_none (by omega)]
  · rw [List.getElem?_eq_none (by omega), List.getElem?_eq_none (by omega)]

/-- **C68** (nodes): on a mesh without hanging nodes, the interpolant of any function has the values of the function at the dof vertices. -/
theorem C68_interpolates (ht : 0 ≤ tol) (hB : B.WF) (hP : Plain B) (hE : Embedded B) (hC : Convex B) (he : torn e = false) {V : DV K}
    {close : Pt K → Pt K → Bool} (hR : ReadyV close B e sf s D V) (hr : RootsIn B sf s) (hf : sf = false ∨ FullFlag s) {n : Nat} (hn : Deep s n)
    {L : List Nat} (hL : BasisOf sf s e D L) {C : List (Linsys.Con K)} (hh : setHanging sf s e D [] = some ([], C)) {m : Nat}
    {f : List (Pt K) → Option (List (List K))} (hfl : ∀ xs fx, f xs = some fx → fx.length = xs.length ∧ ∀ row ∈ fx, row.length = m)
    {data : List (List K)} (hd : interpolant V L f = some data) (rect : Nat → Bool) (hx : ∀ xs, getVerts V L = some xs → ∀ x ∈ xs, Exact tol rect sf s x) :
    ∃ xs, getVerts V L = some xs ∧ evalN tol rect sf B.n s n e D L data m [0] xs = f xs := by
  obtain ⟨xs, h1, h2⟩ := Option.bind_eq_some_iff.1 hd
  have hlen : xs.length = L.length := by simpa using (congrArg List.length ((allSome_some _ _).1 h1)).symm
  refine ⟨xs, h1, ?_⟩
  rw [h2]
  refine C67_nodes ht hB hP hE hC hR.ready hr hf hn hL m (by rw [(hfl xs data h2).1, hlen]) (hfl xs data h2).2 (fun j _ => ?_) rect hR.uses h1
    (hx xs h1)
  exact C62_implies_continuous hB hP he hR.ready hh _ (fun c hc => by cases hc)

/-- **C68** (finer meshes): a mesh that has been refined further is finer; so is a larger submesh. -/
theorem C68_finer (hB : B.WF) (hs : MReach B s) (hs' : MReach B s') (hr : RootsIn B sf s) (hf : sf = false ∨ FullFlag s)
    (hf' : sf' = false ∨ RootedFlag B s') (hsub : ∀ c ∈ s.cells, Dof.Sub sf s c → c ∈ s'.cells ∧ Dof.Sub sf' s' c) : Finer sf s sf' s' := by
  have hi := hs.inv hB
  have hi' := hs'.inv hB
  have hany : ∀ c k, CEx B.n s.kids (child c k) → Dof.Sub sf s (child c k) → hasCh sf s c = true := by
    intro c k h1 h2
    unfold hasCh
    rw [Bool.and_eq_true]
    refine ⟨h1, ?_⟩
    rcases h2 with h2 | h2
    · simp [h2]
    · rw [Bool.or_eq_true]
      exact .inr (List.any_eq_true.2 ⟨k, by fin_cases k <;> simp [four], h2⟩)
  have hall : ∀ c k, hasCh sf s c = true → Dof.Sub sf s (child c k) := by
    intro c k h
    rcases hf with hf | hf
    · exact .inl hf
    · cases sf
      · exact .inl rfl
      · exact .inr (hf c h k)
  have key : ∀ (p : List (Fin 4)) (f : Nat), CEx B.n s'.kids (f, p) → Dof.Sub sf' s' (f, p) →
      (∃ d ∈ leaves sf s, Below d (f, p)) ∨ (CEx B.n s.kids (f, p) ∧ Dof.Sub sf s (f, p)) := by
    intro p
    induction p with
    | nil => exact fun f h _ => .inr ⟨h, hr f h⟩
    | cons k p ih =>
      intro f h hm
      have hp : CEx B.n s'.kids (f, p) := hi'.pref (f, p) h
      have hpm : Dof.Sub sf' s' (f, p) := by
        rcases hf' with hf' | hf'
        · exact .inl hf'
        · rcases hm with hm | hm
          · exact .inl hm
          · exact .inr (hf' (f, p) k h hm)
      rcases ih f hp hpm with ⟨d, hd, hb⟩ | ⟨h1, h2⟩
      · exact .inl ⟨d, hd, hb.1, hb.2.trans (List.suffix_cons k p)⟩
      · rcases hch : hasCh sf s (f, p) with _ | _
        · exact .inl ⟨(f, p), (Dof.mem_leaves hi _).2 ⟨h1, h2, hch⟩, rfl, List.suffix_cons k p⟩
        · exact .inr ⟨hasCh_kids hch, hall (f, p) k hch⟩
  intro c' hc'
  obtain ⟨h1, h2, h3⟩ := (Dof.mem_leaves hi' c').1 hc'
  rcases key c'.2 c'.1 h1 h2 with h | ⟨g1, g2⟩
  · exact h
  · refine ⟨c', (Dof.mem_leaves hi c').2 ⟨g1, g2, ?_⟩, rfl, List.suffix_refl _⟩
    rw [Bool.eq_false_iff]
    intro hch
    obtain ⟨a1, a2⟩ := hsub (child c' 0) ((hi.mem _).2 (hasCh_kids hch)) (hall c' 0 hch)
    have : hasCh sf' s' c' = true := by
      unfold hasCh
      rw [Bool.and_eq_true]
      refine ⟨(hi'.mem _).1 a1, ?_⟩
      rcases a2 with a2 | a2
      · simp [a2]
      · rw [Bool.or_eq_true]
        exact .inr (List.any_eq_true.2 ⟨0, by simp [four], a2⟩)
    rw [h3] at this
    cases this

end
end Verif.Fn
