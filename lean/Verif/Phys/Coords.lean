import Verif.Dof.Meet
import Verif.Quad.Maps

/-!
# Coordinates of the vertices of a refined mesh

`Verif.Mesh` has the half-edges, twins and vertices as objects, `Verif.Quad` the geometry of a single cell and its
children.  Here: the vertices of every cell of every refined mesh have the coordinates that the geometry says.
-/

namespace Verif.Phys
open Verif.Geom Verif.Quad Verif.Mesh Verif.Dof

section
set_option linter.unusedSectionVars false
variable {K : Type} [Field K]

/-- `cell.get_vertices()` (mesh.py 3404-3413): the base vertices of the half-edges.  A missing half-edge gives the
origin (does not happen, see `side_ex`). -/
def baseXY (s : St K) (h : HN) : Pt K :=
  match s.he h with
  | some r => s.vx r.base
  | none => ⟨0, 0⟩

/-- The quadrilateral of a cell of the mesh: the coordinates of `cell.get_vertices()` (mesh.py 3404-3413). -/
def cellQ (s : St K) (c : CN) : QD K :=
  ⟨baseXY s (s.sides c 0), baseXY s (s.sides c 1), baseXY s (s.sides c 2), baseXY s (s.sides c 3), ∅⟩

theorem centerPt_eq (s : St K) (c : CN) : centerPt s c = (cellQ s c).center := rfl

/-- An initial cell (mesh.py 7059-7081). -/
def rootQ (B : Base K) (f : Nat) : QD K :=
  ⟨B.xy (B.b (4 * f)), B.xy (B.b (4 * f + 1)), B.xy (B.b (4 * f + 2)), B.xy (B.b (4 * f + 3)), ∅⟩

/-- Specification: child `k` of child `k'` ... of an initial cell. -/
def quadAt (B : Base K) (f : Nat) : List (Fin 4) → QD K
  | [] => rootQ B f
  | k :: p => (quadAt B f p).child ∅ k

/-! ### The invariant -/

/-- The coordinates of the vertices. -/
structure XInv (B : Base K) (s : St K) : Prop where
  v : VInv s
  cfresh : ∀ x q c, s.he x = some q → q.base = .center c ∨ q.head = .center c → s.kids c = true
  cen : ∀ c i r, s.he (.inner c i false) = some r → r.head = .center c
  cpt : ∀ c, s.kids c = true → s.vx (.center c) = centerPt s c
  root : ∀ k, s.vx (.root k) = B.xy k

theorem init_xinv (B : Base K) : XInv B (init B) := by
  refine ⟨init_vinv B, ?_, ?_, ?_, fun _ => rfl⟩
  · intro x q c hq h
    cases x with
    | root k =>
      rw [init_he] at hq
      split_ifs at hq
      cases hq
      simp at h
    | kid h b => cases hq
    | inner c i d => cases hq
  · intro c i r h; cases h
  · intro c h; cases h

theorem heSplit_vx {s s' : St K} {h : HN} (hs : heSplit s h = .ok s') (v : VN) (hv : v ≠ .mid h) : s'.vx v = s.vx v := by
  unfold heSplit at hs
  rcases hr : s.he h with _ | r
  · rw [hr] at hs; cases hs
  rw [hr] at hs
  simp only at hs
  rcases htk : twinKids s r with _ | ⟨t, t0, t1⟩
  · rw [htk] at hs
    simp only at hs
    cases hs
    simp [Function.update_of_ne hv]
  · rw [htk] at hs
    simp only at hs
    split_ifs at hs with hp hass hass
    · cases hs
      simp [Function.update_of_ne hv]
    · cases hs
      rfl


/-- The vertices of the half-edges after `split()` are old, or the new midpoint. -/
theorem heSplit_verts {s s' : St K} {h : HN} (hs : heSplit s h = .ok s') (x : HN) (q : HERec) (hq : s'.he x = some q)
    (v : VN) (hv : v ≠ .mid h) (hqv : q.base = v ∨ q.head = v) : ∃ y q0, s.he y = some q0 ∧ (q0.base = v ∨ q0.head = v) := by
  unfold heSplit at hs
  rcases hr : s.he h with _ | r
  · rw [hr] at hs; cases hs
  rw [hr] at hs
  simp only at hs
  rcases htk : twinKids s r with _ | ⟨t, t0, t1⟩
  · rw [htk] at hs
    simp only at hs
    cases hs
    simp only at hq
    split_ifs at hq with h1 h2 h3
    · cases hq; exact ⟨h, r, hr, hqv⟩
    · cases hq
      rcases hqv with e | e
      · exact ⟨h, r, hr, .inl e⟩
      · exact absurd e.symm hv
    · cases hq
      rcases hqv with e | e
      · exact absurd e.symm hv
      · exact ⟨h, r, hr, .inr e⟩
    · exact ⟨x, q, hq, hqv⟩
  · have ht : s.he (.kid t false) = some t0 ∧ s.he (.kid t true) = some t1 := by
      unfold twinKids at htk
      split at htk
      · cases htk
      · split at htk
        · rename_i h1 h2 h3
          split_ifs at htk
          simp only [Option.some.injEq, Prod.mk.injEq] at htk
          obtain ⟨rfl, rfl, rfl⟩ := htk
          exact ⟨h2, h3⟩
        · cases htk
    rw [htk] at hs
    simp only at hs
    have fin : ∀ vx vm, (vm = .mid h ∨ vm = t0.head) → s' = { s with
          vx := vx
          he := fun x =>
            if x = h then some { r with kids := true }
            else if x = .kid h false then some ⟨r.base, vm, some (.kid t true), none, false, r.per⟩
            else if x = .kid h true then some ⟨vm, r.head, some (.kid t false), none, false, r.per⟩
            else if x = .kid t false then some { t0 with twin := some (.kid h true) }
            else if x = .kid t true then some { t1 with twin := some (.kid h false) }
            else s.he x } → ∃ y q0, s.he y = some q0 ∧ (q0.base = v ∨ q0.head = v) := by
      intro vx vm hvm e
      rw [e] at hq
      simp only at hq
      have hvm' : vm = v → ∃ y q0, s.he y = some q0 ∧ (q0.base = v ∨ q0.head = v) := by
        intro e
        rcases hvm with h1 | h1
        · exact absurd (e.symm.trans h1) hv
        · exact ⟨_, t0, ht.1, .inr (h1 ▸ e)⟩
      split_ifs at hq with h1 h2 h3 h4 h5
      · cases hq; exact ⟨h, r, hr, hqv⟩
      · cases hq
        rcases hqv with e | e
        · exact ⟨h, r, hr, .inl e⟩
        · exact hvm' e
      · cases hq
        rcases hqv with e | e
        · exact hvm' e
        · exact ⟨h, r, hr, .inr e⟩
      · cases hq; exact ⟨_, t0, ht.1, hqv⟩
      · cases hq; exact ⟨_, t1, ht.2, hqv⟩
      · exact ⟨x, q, hq, hqv⟩
    split_ifs at hs with hp hass hass
    · cases hs
      exact fin _ _ (.inl rfl) rfl
    · cases hs
      exact fin _ _ (.inr rfl) rfl

theorem addInner_vinv {T} {s : St K} (hi : HInv T s) (hv : VInv s) (c : CN) (i : Fin 4) (x : HN) (a : HERec) (ha : s.he x = some a)
    (hn : ∀ d, s.he (.inner c i d) = none) : VInv (addInner s c i a.head) := by
  have hold : ∀ x, (∀ d, x ≠ .inner c i d) → (addInner s c i a.head).he x = s.he x := by
    intro x hx
    simp [addInner, hx]
  have hcase : ∀ x q, (addInner s c i a.head).he x = some q → s.he x = some q ∨
      (∃ d, x = .inner c i d) ∧ (q.base = a.head ∧ q.head = .center c ∨ q.base = .center c ∧ q.head = a.head) := by
    intro x q hq
    simp only [addInner] at hq
    split_ifs at hq with h1 h2
    · cases hq; exact .inr ⟨⟨_, h1⟩, .inl ⟨rfl, rfl⟩⟩
    · cases hq; exact .inr ⟨⟨_, h2⟩, .inr ⟨rfl, rfl⟩⟩
    · exact .inl hq
  refine ⟨?_, ?_⟩
  · intro y q g hq hg
    rw [hold _ (fun d hd => by cases hd)]
    rcases hcase y q hq with h | ⟨_, ⟨h1, h2⟩ | ⟨h1, h2⟩⟩
    · exact hv.fresh y q g h hg
    · rw [h1, h2] at hg
      rcases hg with hg | hg
      · exact hv.fresh x a g ha (.inr hg)
      · cases hg
    · rw [h1, h2] at hg
      rcases hg with hg | hg
      · cases hg
      · exact hv.fresh x a g ha (.inr hg)
  · intro y q b hq hb
    rw [hold _ (fun d hd => by cases hd)] at hb
    rcases hcase y q hq with h | ⟨⟨d, rfl⟩, _⟩
    · exact hv.midp y q b h hb
    · have := hi.par (.inner c i d) false (by simp [hb])
      rw [hn] at this
      simp at this

/-- Part of the first loop of `cell.split` done. -/
structure Loop (B : Base K) (s s0 s1 : St K) (c : CN) (D : List (Fin 4)) : Prop where
  e : Eff1 B.T s s1 c D
  v : VInv s1
  cf : ∀ x q c', s1.he x = some q → (q.base = .center c' ∨ q.head = .center c') → c' = c ∨ s.kids c' = true
  vx : ∀ v, (∀ i, v ≠ .mid (side c i)) → s1.vx v = s0.vx v

theorem splitSide_loop {B : Base K} (hB : B.WF) {s s0 : St K} (hi : CInv B s) {c : CN} (hc : CEx B.n s.kids c)
    (hk : s.kids c = false) {s1 s2 : St K} {D : List (Fin 4)} (h1 : Loop B s s0 s1 c D) {i : Fin 4} (hiD : i ∉ D)
    (hs : splitSide c s1 i = .ok s2) : Loop B s s0 s2 c (i :: D) := by
  obtain ⟨s2', hs', e⟩ := splitSide_eff hB hi hc hk h1.e hiD
  rw [hs] at hs'
  cases hs'
  have hsd : s1.sides c i = side c i := by rw [h1.e.same.2.1, hi.sides c hc]
  unfold splitSide at hs
  rw [hsd] at hs
  rcases hr : s1.he (side c i) with _ | r
  · rw [hr] at hs; cases hs
  rw [hr] at hs
  simp only at hs
  have hnin : ∀ d, s1.he (.inner c i d) = none := by
    intro d
    by_contra hne
    rcases (h1.e.iff _).1 (Option.isSome_iff_ne_none.2 hne) with h2 | ⟨j, hj, b', h2⟩ | ⟨j, hj, d', h2⟩
    · rw [hi.ex] at h2
      have : (owner (.inner c i d)).1 = child c i ∨ (owner (.inner c i d)).1 = child c (i + 1) := by
        cases d <;> simp [owner]
      rcases this with h3 | h3 <;> rw [h3, CEx_child, hk] at h2 <;> cases h2
    · cases h2
    · injection h2 with _ h3 _
      exact hiD (h3 ▸ hj)
  have hstep : ∀ a1, (if r.kids then .ok s1 else heSplit s1 (side c i)) = Except.ok a1 →
      HInv B.T a1 ∧ VInv a1 ∧ (∀ d, a1.he (.inner c i d) = none) ∧ (∀ v, (∀ i, v ≠ .mid (side c i)) → a1.vx v = s0.vx v) ∧
      (∀ x q c', a1.he x = some q → (q.base = .center c' ∨ q.head = .center c') → c' = c ∨ s.kids c' = true) := by
    intro a1 h
    split_ifs at h with hrk
    · cases h
      exact ⟨h1.e.hinv, h1.v, hnin, h1.vx, h1.cf⟩
    · have hrk' : r.kids = false := by simpa using hrk
      obtain ⟨a2, ha2, ee, hh⟩ := heSplit_spec hB.twf h1.e.hinv hr hrk'
      rw [h] at ha2
      cases ha2
      refine ⟨hh, heSplit_vinv hB.twf h1.e.hinv h1.v hr hrk' h, ?_, ?_, ?_⟩
      · intro d
        by_contra hne
        rcases (ee.some_iff hr _).1 (Option.isSome_iff_ne_none.2 hne) with h2 | ⟨b, h2⟩
        · rw [hnin] at h2; simp at h2
        · cases h2
      · intro v hv
        rw [heSplit_vx h v (hv i), h1.vx v hv]
      · intro x q c' hq hc'
        obtain ⟨y, q0, g1, g2⟩ := heSplit_verts h x q hq (.center c') (by simp) hc'
        exact h1.cf y q0 c' g1 g2
  rcases h3 : (if r.kids then .ok s1 else heSplit s1 (side c i)) with _ | a1
  · rw [h3] at hs; cases hs
  rw [h3] at hs
  simp only at hs
  obtain ⟨j1, j2, j3, j4, j5⟩ := hstep a1 h3
  rcases h4 : a1.he (.kid (side c i) false) with _ | a
  · rw [h4] at hs; cases hs
  rw [h4] at hs
  simp only [Except.ok.injEq] at hs
  subst hs
  refine ⟨e, addInner_vinv j1 j2 c i _ a h4 j3, ?_, j4⟩
  intro x q c' hq hc'
  simp only [addInner] at hq
  split_ifs at hq with g1 g2
  · cases hq
    rcases hc' with h | h
    · exact j5 _ a c' h4 (.inr h)
    · injection h with h; exact .inl h.symm
  · cases hq
    rcases hc' with h | h
    · injection h with h; exact .inl h.symm
    · exact j5 _ a c' h4 (.inr h)
  · exact j5 x q c' hq hc'

theorem splitSides_loop {B : Base K} (hB : B.WF) {s s0 : St K} (hi : CInv B s) {c : CN} (hc : CEx B.n s.kids c)
    (hk : s.kids c = false) : ∀ (l : List (Fin 4)) {s1 s2 : St K} {D : List (Fin 4)}, Loop B s s0 s1 c D → (∀ i ∈ l, i ∉ D) → l.Nodup →
      forEach (splitSide c) l s1 = .ok s2 → ∃ D', Loop B s s0 s2 c D' := by
  intro l
  induction l with
  | nil => intro s1 s2 D h _ _ hs; cases hs; exact ⟨D, h⟩
  | cons i l ih =>
    intro s1 s2 D h hl hn hs
    unfold forEach at hs
    rcases h1 : splitSide c s1 i with _ | s1'
    · rw [h1] at hs; cases hs
    rw [h1] at hs
    refine ih (splitSide_loop hB hi hc hk h (hl i (by simp)) h1) ?_ (List.nodup_cons.1 hn).2 hs
    intro j hj hj'
    rcases List.mem_cons.1 hj' with rfl | hj'
    · exact (List.nodup_cons.1 hn).1 hj
    · exact hl j (by simp [hj]) hj'

/-- Base and head of every half-edge are the same. -/
def SameVs (s s' : St K) : Prop :=
  s'.vx = s.vx ∧ ∀ x, (s'.he x).map (fun r => (r.base, r.head)) = (s.he x).map (fun r => (r.base, r.head))

theorem SameVs.bwd {s s' : St K} (h : SameVs s s') {x : HN} {q : HERec} (hq : s'.he x = some q) :
    ∃ q0, s.he x = some q0 ∧ q.base = q0.base ∧ q.head = q0.head := by
  have := h.2 x
  rw [hq] at this
  simp only [Option.map_some] at this
  obtain ⟨q0, h0, e⟩ := Option.map_eq_some_iff.1 this.symm
  simp only [Prod.mk.injEq] at e
  exact ⟨q0, h0, e.1.symm, e.2.symm⟩

theorem SameVs.some_iff {s s' : St K} (h : SameVs s s') (x : HN) : (s'.he x).isSome = (s.he x).isSome := by
  have := congrArg Option.isSome (h.2 x)
  simpa using this

theorem newCell_same {s s' : St K} {c : CN} {hes : Fin 4 → HN} (h : newCell s c hes = .ok s') : SameVs s s' := by
  unfold newCell at h
  split at h
  · split_ifs at h
    cases h
    refine ⟨rfl, fun x => ?_⟩
    simp only
    split_ifs with hx
    · rcases s.he x with _ | r <;> rfl
    · rfl
  · cases h

theorem SameVs.trans {s s' s'' : St K} (h : SameVs s s') (h' : SameVs s' s'') : SameVs s s'' :=
  ⟨h'.1.trans h.1, fun x => (h'.2 x).trans (h.2 x)⟩

/-- `cell.split` keeps the invariant. -/
theorem cellSplit_xinv {B : Base K} (hB : B.WF) {s s' : St K} (hi : CInv B s) (hx : XInv B s) {c : CN}
    (hc : CEx B.n s.kids c) (hk : s.kids c = false) {sf : Bool} (hs : cellSplit sf s c = .ok s') : XInv B s' := by
  obtain ⟨s'', hs'', hi', hkids, -⟩ := cellSplit_spec hB hi hc hk sf
  rw [hs] at hs''
  cases hs''
  unfold cellSplit at hs
  rw [hk] at hs
  simp only [Bool.false_eq_true, if_false] at hs
  generalize hs0 : ({ s with vx := Function.update s.vx (.center c) (centerPt s c) } : St K) = s0 at hs
  rcases h1 : forEach (splitSide c) four s0 with _ | s1
  · rw [h1] at hs; cases hs
  rw [h1] at hs
  simp only at hs
  rcases h2 : forEach (fun s2 k => newCell s2 (child c k) (childSides s2 c k)) four s1 with _ | s2
  · rw [h2] at hs; cases hs
  rw [h2] at hs
  simp only [Except.ok.injEq] at hs
  -- the center is new
  have hcn : ∀ x q, s.he x = some q → q.base ≠ .center c ∧ q.head ≠ .center c := by
    intro x q hq
    constructor <;> intro e
    · have := hx.cfresh x q c hq (.inl e); rw [hk] at this; cases this
    · have := hx.cfresh x q c hq (.inr e); rw [hk] at this; cases this
  have hmn : ∀ x q, s.he x = some q → ∀ i, q.base ≠ .mid (side c i) ∧ q.head ≠ .mid (side c i) := by
    have hnk : ∀ i, (s.he (.kid (side c i) false)).isSome → False := by
      intro i h
      rw [kids_owner_kid hi, owner_side, hk] at h
      cases h
    intro x q hq i
    exact ⟨fun e => hnk i (hx.v.fresh x q _ hq (.inl e)), fun e => hnk i (hx.v.fresh x q _ hq (.inr e))⟩
  have hvx0 : ∀ v, v ≠ .center c → s0.vx v = s.vx v := by
    intro v hv; rw [← hs0]; exact Function.update_of_ne hv _ _
  have hhe0 : s0.he = s.he := by rw [← hs0]
  have l0 : Loop B s s0 s0 c [] := by
    refine ⟨?_, ⟨?_, ?_⟩, ?_, fun _ _ => rfl⟩
    · refine ⟨?_, by rw [← hs0]; exact ⟨rfl, rfl, rfl, rfl⟩, ?_, ?_, ?_⟩
      · have : SameUpToCell s.he s0.he := by
          intro x
          rw [hhe0]
          refine ⟨fun q => q.cell, ?_⟩
          cases s.he x <;> rfl
        exact this.hinv hi.hinv
      · intro x; rw [hhe0]; simp only [List.not_mem_nil, false_and, exists_false, or_false]
      · intro x q' hq' q hq
        rw [hhe0, hq] at hq'
        cases hq'
        simp
      · intro i hi; cases hi
    · intro x q g hq hg
      rw [hhe0] at hq ⊢
      exact hx.v.fresh x q g hq hg
    · intro x q a hq ha
      rw [hhe0] at hq ha
      rw [hvx0 _ (hcn _ _ ha).2, hvx0 _ (hcn _ _ hq).1, hvx0 _ (hcn _ _ hq).2]
      exact hx.v.midp x q a hq ha
    · intro x q c' hq hc'
      rw [hhe0] at hq
      exact .inr (hx.cfresh x q c' hq hc')
  obtain ⟨D, l1⟩ := splitSides_loop hB hi hc hk four l0 (by simp) (by decide) h1
  have hsame : SameVs s1 s2 := by
    refine forEach_inv (I := fun x => SameVs s1 x) ?_ _ _ _ ⟨rfl, fun _ => rfl⟩ h2
    intro a b k ha hab
    exact ha.trans (newCell_same hab)
  have hS : SameVs s1 s' := by
    rw [← hs]; exact hsame
  -- vertices of half-edges of `s` keep their coordinates
  have hold : ∀ x q, s.he x = some q → s'.vx q.base = s.vx q.base ∧ s'.vx q.head = s.vx q.head := by
    intro x q hq
    rw [hS.1]
    rw [l1.vx _ (fun i => (hmn x q hq i).1), l1.vx _ (fun i => (hmn x q hq i).2), hvx0 _ (hcn x q hq).1, hvx0 _ (hcn x q hq).2]
    exact ⟨rfl, rfl⟩
  have hcp : ∀ c', CEx B.n s.kids c' → centerPt s' c' = centerPt s c' := by
    intro c' hc'
    have hx' : CEx B.n s'.kids c' := by
      rcases c' with ⟨f, _ | ⟨k, p⟩⟩
      · exact hc'
      · show s'.kids (f, p) = true
        rw [hkids]
        by_cases e : ((f, p) : CN) = c
        · rw [e]; simp
        · rw [Function.update_of_ne e]; exact hc'
    have key : ∀ i, baseXY s' (s'.sides c' i) = baseXY s (s.sides c' i) := by
      intro i
      unfold baseXY
      rw [hi.sides c' hc', hi'.sides c' hx']
      obtain ⟨r, hr⟩ := side_ex hi hc' i
      obtain ⟨r', hr'⟩ := side_ex hi' hx' i
      rw [hr, hr']
      simp only
      obtain ⟨r1, g1, g2, _⟩ := hS.bwd hr'
      rw [g2, (l1.e.rcd _ r1 g1 r hr).1]
      exact (hold _ r hr).1
    rw [centerPt_eq, centerPt_eq]
    unfold cellQ
    simp only [key]
  refine ⟨⟨?_, ?_⟩, ?_, ?_, ?_, ?_⟩
  · intro x q g hq hg
    obtain ⟨q0, g0, e1, e2⟩ := hS.bwd hq
    rw [e1, e2] at hg
    rw [hS.some_iff]
    exact l1.v.fresh x q0 g g0 hg
  · intro x q a hq ha
    obtain ⟨q0, g0, e1, e2⟩ := hS.bwd hq
    obtain ⟨a0, f0, e3, e4⟩ := hS.bwd ha
    rw [e1, e2, e4, hS.1]
    exact l1.v.midp x q0 a0 g0 f0
  · intro x q c' hq hc'
    obtain ⟨q0, g0, e1, e2⟩ := hS.bwd hq
    rw [e1, e2] at hc'
    rw [hkids]
    rcases l1.cf x q0 c' g0 hc' with h | h
    · rw [h]; simp
    · by_cases e : c' = c
      · rw [e]; simp
      · rw [Function.update_of_ne e]; exact h
  · intro c' i q hq
    obtain ⟨q0, g0, e1, e2⟩ := hS.bwd hq
    rw [e2]
    rcases (l1.e.iff _).1 (by rw [g0]; rfl) with h | ⟨_, _, _, h⟩ | ⟨j, hj, d, h⟩
    · obtain ⟨q1, hq1⟩ := Option.isSome_iff_exists.1 h
      rw [(l1.e.rcd _ q0 g0 q1 hq1).2.1]
      exact hx.cen c' i q1 hq1
    · cases h
    · injection h with k1 k2 k3
      subst k1 k2 k3
      obtain ⟨a, u, d, _, e5, _, _, e6, _⟩ := l1.e.inn i hj
      rw [g0] at e5
      cases e5
      exact e6
  · intro c' hc'
    have hv : s'.vx (.center c') = s0.vx (.center c') := by rw [hS.1]; exact l1.vx _ (fun i => by simp)
    rw [hv]
    by_cases e : c' = c
    · subst e
      rw [hcp c' hc, ← hs0]
      simp
    · rw [hkids, Function.update_of_ne e] at hc'
      rw [hvx0 _ (by simp [e]), hcp c' (hi.pref c' hc'), hx.cpt c' hc']
  · intro k
    rw [hS.1, l1.vx _ (fun i => by simp), hvx0 _ (by simp), hx.root]

theorem reach_xinv {B : Base K} (hB : B.WF) {s : St K} (h : MReach B s) : XInv B s := by
  induction h with
  | init => exact init_xinv B
  | split s s' c sf hr hc hk hs ih =>
    have hi := hr.inv hB
    exact cellSplit_xinv hB hi ih ((hi.mem c).1 hc) hk hs
  | mark s m _ ih => exact ⟨⟨ih.v.fresh, ih.v.midp⟩, ih.cfresh, ih.cen, ih.cpt, ih.root⟩

/-! ### The vertices of a cell -/

theorem mid_midpt (p q : Pt K) : midpt p q = mid p q := by
  simp only [midpt, mid, Pt.mk.injEq]
  constructor <;> ring

theorem mid_comm (p q : Pt K) : mid p q = mid q p := by
  simp only [mid, Pt.mk.injEq]
  constructor <;> ring

/-- The base of side `i` of the cell. -/
def corner (q : QD K) (i : Fin 4) : Pt K :=
  match i with
  | 0 => q.v0
  | 1 => q.v1
  | 2 => q.v2
  | 3 => q.v3

theorem corner_child (q : QD K) (fl : Finset Nat) (k : Fin 4) : corner (q.child fl k) k = corner q k ∧
    corner (q.child fl k) (k + 1) = mid (corner q k) (corner q (k + 1)) ∧ corner (q.child fl k) (k + 2) = q.center ∧
    corner (q.child fl k) (k + 3) = mid (corner q (k + 3)) (corner q k) := by
  fin_cases k <;> exact ⟨rfl, rfl, rfl, rfl⟩

theorem base_quadAt {B : Base K} (hB : B.WF) {s : St K} (h : MReach B s) : ∀ (p : List (Fin 4)) (f : Nat),
    CEx B.n s.kids (f, p) → ∀ i r, s.he (side (f, p) i) = some r → s.vx r.base = corner (quadAt B f p) i := by
  have hi := h.inv hB
  have hX := reach_xinv hB h
  intro p
  induction p with
  | nil =>
    intro f hf i r hr
    rw [(root_verts hB h _ r hr).1, hX.root]
    fin_cases i <;> rfl
  | cons k p ih =>
    intro f hf
    have hk : s.kids (f, p) = true := hf
    have hPx : CEx B.n s.kids (f, p) := hi.pref _ hk
    have hch : ((f, k :: p) : CN) = child (f, p) k := rfl
    have ihP := ih f hPx
    rw [hch]
    rw [hch] at hf
    show ∀ (i : Fin 4) (r : HERec), _ → s.vx r.base = corner ((quadAt B f p).child ∅ k) i
    generalize hQ : quadAt B f p = Q at *
    generalize hPP : ((f, p) : CN) = P at *
    obtain ⟨c0, c1, c2, c3⟩ := corner_child Q ∅ k
    obtain ⟨rk, hrk⟩ := side_ex hi hPx k
    obtain ⟨rk', hrk'⟩ := side_ex hi hPx (k - 1)
    obtain ⟨rn, hrn⟩ := side_ex hi hPx (k + 1)
    obtain ⟨a0, ha0⟩ := side_ex hi hf k
    obtain ⟨a1, ha1⟩ := side_ex hi hf (k + 1)
    obtain ⟨a2, ha2⟩ := side_ex hi hf (k + 2)
    obtain ⟨a3, ha3⟩ := side_ex hi hf (k + 3)
    have c01 := hi.chain _ k a0 a1 ha0 ha1
    have c12 := hi.chain _ (k + 1) a1 a2 ha1 (by
      have : k + 1 + 1 = k + 2 := fin4_d k
      rw [this]; exact ha2)
    have cP := hi.chain P k rk rn hrk hrn
    have cP' := hi.chain P (k - 1) rk' rk hrk' (by rw [fin4_a]; exact hrk)
    rw [side_k] at ha0
    rw [side_k1] at ha1
    rw [side_k3] at ha3
    have hkidex : ∀ j b, ∃ a, s.he (.kid (side P j) b) = some a := fun j b =>
      Option.isSome_iff_exists.1 (by rw [kids_owner_kid hi, owner_side]; exact hk)
    obtain ⟨b0, hb0⟩ := hkidex k true
    obtain ⟨b3, hb3⟩ := hkidex (k - 1) false
    have en0 := hi.hinv.ends _ rk a0 b0 hrk ha0 hb0
    have en3 := hi.hinv.ends _ rk' b3 a3 hrk' hb3 ha3
    have v0 : s.vx a0.base = corner Q k := by rw [en0.1]; exact ihP k rk hrk
    have v1 : s.vx a1.base = mid (corner Q k) (corner Q (k + 1)) := by
      rw [← c01, hX.v.midp _ rk a0 hrk ha0, mid_midpt, cP, ihP k rk hrk, ihP (k + 1) rn hrn]
    have v3 : s.vx a3.base = mid (corner Q (k + 3)) (corner Q k) := by
      rw [← en3.2.1, hX.v.midp _ rk' b3 hrk' hb3, mid_midpt, cP', ihP k rk hrk, ihP (k - 1) rk' hrk', fin4_c]
    have v2 : s.vx a2.base = Q.center := by
      rw [← c12, hX.cen P k a1 ha1, hX.cpt P hk]
      have key : ∀ i, baseXY s (s.sides P i) = corner Q i := by
        intro i
        unfold baseXY
        rw [hi.sides P hPx]
        obtain ⟨r, hr⟩ := side_ex hi hPx i
        rw [hr]
        exact ihP i r hr
      rw [centerPt_eq]
      unfold cellQ
      simp only [key]
      rfl
    intro i r hr
    rcases fin4_cases k i with e | e | e | e <;> rw [e] at hr ⊢
    · rw [side_k, ha0] at hr; cases hr; rw [v0, c0]
    · rw [side_k1, ha1] at hr; cases hr; rw [v1, c1]
    · rw [ha2] at hr; cases hr; rw [v2, c2]
    · rw [side_k3, ha3] at hr; cases hr; rw [v3, c3]

/-- The vertices of every cell of every refined mesh (periodic or not). -/
theorem cellQ_eq {B : Base K} (hB : B.WF) {s : St K} (h : MReach B s) (c : CN) (hc : c ∈ s.cells) :
    SameVerts (cellQ s c) (quadAt B c.1 c.2) := by
  have hi := h.inv hB
  have hx := (hi.mem c).1 hc
  have key : ∀ i, baseXY s (s.sides c i) = corner (quadAt B c.1 c.2) i := by
    intro i
    obtain ⟨r, hr⟩ := side_ex hi hx i
    unfold baseXY
    rw [hi.sides c hx, hr]
    exact base_quadAt hB h c.2 c.1 hx i r hr
  exact ⟨key 0, key 1, key 2, key 3⟩

end
end Verif.Phys
