import Verif.Phys.Coords
import Verif.Dof.Props

/-!
# C92: `QuadCell.split` interrupted

`QuadCell.split` (mesh.py 3664-3733) first splits the four half-edges of the cell and then makes the four
children.  As long as no child exists the half-edges from the midpoints to the center are known to a local list
only (`interior_half_edges`), so that an exception leaves the half-edges that were already split, and nothing else.
-/

namespace Verif.Mesh
open Verif.Geom Verif.Quad Verif.Dof

section
set_option linter.unusedSectionVars false
set_option linter.unusedSimpArgs false
variable {K : Type} [Field K]

/-- `if not half_edge.has_children(): half_edge.split()` (mesh.py 3683-3684) for side `i` of cell `c`. -/
def sideSplit (c : CN) (s : St K) (i : Fin 4) : Except Err (St K) :=
  match s.he (s.sides c i) with
  | none => .error .attribute
  | some r => if r.kids then .ok s else heSplit s (s.sides c i)

/-- The half-edge `t` has the children `t0` and `t1`, and these are given the twins `o0` and `o1`. -/
def relink (s : St K) (t : HN) (t0 t1 : HERec) (o0 o1 : Option HN) : St K :=
  { s with he := fun x => if x = .kid t false then some { t0 with twin := o0 }
      else if x = .kid t true then some { t1 with twin := o1 } else s.he x }

/-- `half_edge.split()` was left between `t0.assign_twin(c1)` and `self._children[0] = c0` (mesh.py 2322-2329): the
children `t0` and `t1` of the twin point to half-edges nobody else knows (`o0`, `o1`: the new twin, or still the
old one). -/
inductive HalfLinked (s : St K) (h : HN) : St K → Prop
  | mk (r t0 t1 : HERec) (t : HN) (o0 o1 : Option HN) (hr : s.he h = some r) (ht : twinKids s r = some (t, t0, t1))
      (g0 : o0 = t0.twin ∨ o0 = some (.kid h true)) (g1 : o1 = t1.twin ∨ o1 = some (.kid h false)) :
      HalfLinked s h (relink s t t0 t1 o0 o1)

/-- `cell.split()` was called in the state `s` and left by an exception before the constructor of the first child was
called, in the state `s'` (mesh.py 3668-3709): the first `n` half-edges are split, the next one perhaps partly. -/
inductive CellCrash (c : CN) (s : St K) : St K → Prop
  | sides (n : Nat) (s' : St K) (h : forEach (sideSplit c) (four.take n) s = .ok s') : CellCrash c s s'
  | linked (n : Fin 4) (u s' : St K) (h : forEach (sideSplit c) (four.take n) s = .ok u)
      (hk : ∀ r, u.he (u.sides c n) = some r → r.kids = false) (hl : HalfLinked u (u.sides c n) s') : CellCrash c s s'

/-- Any number of interrupted calls in a row. -/
def CellCrashes (c : CN) : St K → St K → Prop := Relation.ReflTransGen (CellCrash c)

/-! ### Splitting a half-edge does not depend on the interior half-edges -/

/-- The state with a new center of `c`. -/
def setC (s : St K) (c : CN) (z : Pt K) : St K := { s with vx := Function.update s.vx (.center c) z }

lemma addInner_he (s : St K) (c : CN) (i : Fin 4) (v : VN) (x : HN) (hx : ∀ d, x ≠ .inner c i d) :
    (addInner s c i v).he x = s.he x := by simp [addInner, hx]

lemma twinKids_congr {s s' : St K} {r : HERec} (h : ∀ t, r.twin = some t → s'.he t = s.he t ∧
    ∀ b, s'.he (.kid t b) = s.he (.kid t b)) : twinKids s' r = twinKids s r := by
  unfold twinKids
  cases ht : r.twin with
  | none => rfl
  | some t => simp only [(h t ht).1, (h t ht).2]

lemma heSplit_addInner {u : St K} {h : HN} {c : CN} {i : Fin 4} {v : VN} (hne : ∀ d, h ≠ .inner c i d)
    (htw : ∀ r, u.he h = some r → ∀ d, r.twin ≠ some (.inner c i d)) {u' : St K} (hs : heSplit u h = .ok u') :
    heSplit (addInner u c i v) h = .ok (addInner u' c i v) := by
  unfold heSplit at hs ⊢
  rw [addInner_he _ _ _ _ _ hne]
  rcases hr : u.he h with _ | r
  · rw [hr] at hs; cases hs
  rw [hr] at hs
  simp only at hs ⊢
  rw [twinKids_congr (s := u) fun t ht => ⟨addInner_he _ _ _ _ _ fun d hd => htw r hr d (hd ▸ ht), fun b =>
    addInner_he _ _ _ _ _ fun d hd => by cases hd⟩]
  have hvx : (addInner u c i v).vx = u.vx := rfl
  rcases htk : twinKids u r with _ | ⟨t, t0, t1⟩
  · rw [htk] at hs
    simp only at hs ⊢
    cases hs
    rw [hvx]
    simp only [addInner, Except.ok.injEq, St.mk.injEq, true_and, and_true]
    funext x
    by_cases h1 : ∃ d, x = .inner c i d
    · obtain ⟨d, rfl⟩ := h1
      cases d <;> simp [(hne _).symm]
    · have h2 : ∀ d, x ≠ .inner c i d := fun d hd => h1 ⟨d, hd⟩
      simp [h2]
  · rw [htk] at hs
    simp only at hs ⊢
    rw [hvx]
    split_ifs at hs ⊢ <;> cases hs <;>
    · simp only [addInner, Except.ok.injEq, St.mk.injEq, true_and, and_true]
      funext x
      by_cases h1 : ∃ d, x = .inner c i d
      · obtain ⟨d, rfl⟩ := h1
        cases d <;> simp [(hne _).symm]
      · have h2 : ∀ d, x ≠ .inner c i d := fun d hd => h1 ⟨d, hd⟩
        simp [h2]

lemma heSplit_setC {u : St K} {h : HN} {c : CN} {z : Pt K} (hn : ∀ r, u.he h = some r → r.base ≠ .center c ∧ r.head ≠ .center c)
    {u' : St K} (hs : heSplit u h = .ok u') : heSplit (setC u c z) h = .ok (setC u' c z) := by
  unfold heSplit at hs ⊢
  have hh : (setC u c z).he = u.he := rfl
  rw [hh]
  rcases hr : u.he h with _ | r
  · rw [hr] at hs; cases hs
  rw [hr] at hs
  simp only at hs ⊢
  obtain ⟨n1, n2⟩ := hn r hr
  have ek : twinKids (setC u c z) r = twinKids u r := rfl
  rw [ek]
  have hb : (setC u c z).vx r.base = u.vx r.base := by simp [setC, Function.update_of_ne n1]
  have hd : (setC u c z).vx r.head = u.vx r.head := by simp [setC, Function.update_of_ne n2]
  have hm : (VN.center c) ≠ .mid h := by simp
  rcases htk : twinKids u r with _ | ⟨t, t0, t1⟩
  · rw [htk] at hs
    simp only at hs ⊢
    cases hs
    rw [hb, hd]
    simp only [setC, Except.ok.injEq, St.mk.injEq, true_and, and_true]
    exact Function.update_comm hm _ _ _
  · rw [htk] at hs
    simp only at hs ⊢
    rw [hb, hd]
    split_ifs at hs ⊢ <;> cases hs
    · simp only [setC, Except.ok.injEq, St.mk.injEq, true_and, and_true]
      exact Function.update_comm hm _ _ _
    · rfl

/-! ### One round -/

/-- What the first loop of `split` needs. -/
structure GInv (T : Nat → Option Nat) (c : CN) (w : St K) : Prop where
  hinv : HInv T w
  sides : w.sides c = side c
  ex : ∀ i, (w.he (side c i)).isSome

/-- Half-edges keep their vertices and their children. -/
def Keep (w u : St K) : Prop :=
  ∀ x r, w.he x = some r → ∃ r', u.he x = some r' ∧ r'.base = r.base ∧ r'.head = r.head ∧ (r.kids = true → r'.kids = true)

lemma Keep.refl (w : St K) : Keep w w := fun _ r h => ⟨r, h, rfl, rfl, id⟩

lemma Keep.trans {w u v : St K} (h : Keep w u) (h' : Keep u v) : Keep w v := by
  intro x r hr
  obtain ⟨r1, a1, a2, a3, a4⟩ := h x r hr
  obtain ⟨r2, b1, b2, b3, b4⟩ := h' x r1 a1
  exact ⟨r2, b1, b2.trans a2, b3.trans a3, fun h => b4 (a4 h)⟩

lemma sideSplit_ok {T : Nat → Option Nat} (hT : TWF T) {c : CN} {w : St K} (g : GInv T c w) (i : Fin 4) :
    ∃ w', sideSplit c w i = .ok w' ∧ GInv T c w' ∧ Keep w w' ∧ (∃ r, w'.he (side c i) = some r ∧ r.kids = true) ∧
      (w'.cells = w.cells ∧ w'.sides = w.sides ∧ w'.kids = w.kids ∧ w'.mkd = w.mkd) := by
  obtain ⟨r, hr⟩ := Option.isSome_iff_exists.1 (g.ex i)
  unfold sideSplit
  rw [g.sides, hr]
  simp only
  split_ifs with hk
  · exact ⟨w, rfl, g, .refl w, ⟨r, hr, hk⟩, rfl, rfl, rfl, rfl⟩
  · have hk : r.kids = false := by simpa using hk
    obtain ⟨w', h1, e, h2⟩ := heSplit_spec hT g.hinv hr hk
    have hnk : ∀ b, w.he (.kid (side c i) b) = none := by
      intro b
      have := g.hinv.kids _ r hr b
      rw [hk] at this
      simpa using this
    have hkeep : Keep w w' := by
      intro x q hq
      obtain ⟨q', hq'⟩ := Option.isSome_iff_exists.1 ((e.some_iff hr x).2 (.inl (by simp [hq])))
      have hxk : ∀ b, x ≠ .kid (side c i) b := by
        rintro b rfl; rw [hnk] at hq; cases hq
      by_cases hx : x = side c i
      · subst hx
        rw [hr] at hq
        cases hq
        exact ⟨_, e.own, rfl, rfl, fun _ => rfl⟩
      · obtain ⟨q0, h3, h4, h5, h6, _⟩ := e.rec_of hx hxk hq'
        rw [hq] at h3
        cases h3
        exact ⟨q', hq', h4, h5, fun h => h6.trans h⟩
    refine ⟨w', h1, ⟨h2, by rw [e.same.2.1]; exact g.sides, fun j => ?_⟩, hkeep, ⟨_, e.own, rfl⟩, e.same⟩
    exact (e.some_iff hr _).2 (.inl (g.ex j))

lemma forEach_append {σ α : Type} (f : σ → α → Except Err σ) : ∀ (l m : List α) (s : σ),
    forEach f (l ++ m) s = match forEach f l s with
      | .error e => .error e
      | .ok s' => forEach f m s' := by
  intro l m
  induction l with
  | nil => intro s; rfl
  | cons a l ih =>
    intro s
    rw [List.cons_append, forEach, forEach]
    cases f s a with
    | error e => rfl
    | ok s' => exact ih s'

lemma sideSplits_ok {T : Nat → Option Nat} (hT : TWF T) {c : CN} : ∀ (l : List (Fin 4)) {w : St K}, GInv T c w →
    ∃ u, forEach (sideSplit c) l w = .ok u ∧ GInv T c u ∧ Keep w u ∧
      (∀ i ∈ l, ∃ r, u.he (side c i) = some r ∧ r.kids = true) ∧
      (u.cells = w.cells ∧ u.sides = w.sides ∧ u.kids = w.kids ∧ u.mkd = w.mkd) := by
  intro l
  induction l with
  | nil => exact fun {w} g => ⟨w, rfl, g, .refl w, by simp, rfl, rfl, rfl, rfl⟩
  | cons i l ih =>
    intro w g
    obtain ⟨w1, h1, g1, k1, ⟨r, r1, r2⟩, e1, e2, e3, e4⟩ := sideSplit_ok hT g i
    obtain ⟨u, h2, g2, k2, r3, f1, f2, f3, f4⟩ := ih g1
    refine ⟨u, by rw [forEach_cons _ _ _ h1, h2], g2, k1.trans k2, ?_, f1.trans e1, f2.trans e2, f3.trans e3, f4.trans e4⟩
    intro j hj
    rcases List.mem_cons.1 hj with rfl | hj
    · obtain ⟨r', a1, _, _, a4⟩ := k2 _ r r1
      exact ⟨r', a1, a4 r2⟩
    · exact r3 j hj

/-- The half-edges to the center of the cell (the second part of `splitSide`). -/
def innerStep (c : CN) (s : St K) (i : Fin 4) : Except Err (St K) :=
  match s.he (.kid (s.sides c i) false) with
  | none => .error .attribute
  | some a => .ok (addInner s c i a.head)

lemma splitSide_eq {c : CN} {s s1 : St K} {i : Fin 4} (h : sideSplit c s i = .ok s1) (hs : s1.sides = s.sides) :
    splitSide c s i = innerStep c s1 i := by
  unfold sideSplit at h
  unfold splitSide innerStep
  cases hr : s.he (s.sides c i) with
  | none => rw [hr] at h; cases h
  | some r =>
    rw [hr] at h
    simp only at h ⊢
    rw [h, hs]
    rfl

lemma sideSplit_noop {T : Nat → Option Nat} {c : CN} {u : St K} (g : GInv T c u) {i : Fin 4} {r : HERec}
    (hr : u.he (side c i) = some r) (hk : r.kids = true) : sideSplit c u i = .ok u := by
  unfold sideSplit
  rw [g.sides, hr]
  simp [hk]

lemma side_ne_inner (c : CN) (j i : Fin 4) (d : Bool) : side c j ≠ .inner c i d := by
  intro h
  have h2 := congrArg owner h
  rw [owner_side] at h2
  cases d
  · exact child_ne c i (congrArg Prod.fst h2).symm
  · exact child_ne c (i + 1) (congrArg Prod.fst h2).symm

lemma twin_ne_inner {T : Nat → Option Nat} (hT : TWF T) {c : CN} {u : St K} (hi : HInv T u) {j i : Fin 4} {r : HERec}
    (hr : u.he (side c j) = some r) (d : Bool) : r.twin ≠ some (.inner c i d) := by
  intro h
  have h1 := vt_inv hT.inv _ _ ((hi.tw _ r hr _).1 h).1
  simp only [vt, Option.some.injEq] at h1
  exact side_ne_inner c j i _ h1.symm

lemma commute1 {T : Nat → Option Nat} (hT : TWF T) {c : CN} {w w' w2 : St K} (g : GInv T c w) {i j : Fin 4}
    (h1 : sideSplit c w j = .ok w') (h2 : innerStep c w i = .ok w2) :
    ∃ w2', innerStep c w' i = .ok w2' ∧ sideSplit c w2 j = .ok w2' := by
  obtain ⟨w'', h1', g', keep, -, -, es, -, -⟩ := sideSplit_ok hT g j
  rw [h1] at h1'
  cases h1'
  unfold innerStep at h2 ⊢
  rw [es]
  cases ha : w.he (.kid (w.sides c i) false) with
  | none => rw [ha] at h2; cases h2
  | some a =>
    rw [ha] at h2
    simp only at h2
    obtain ⟨a', ha', -, e, -⟩ := keep _ a ha
    rw [ha']
    refine ⟨_, rfl, ?_⟩
    rw [e]
    cases h2
    unfold sideSplit at h1 ⊢
    have hs : (addInner w c i a.head).sides = w.sides := rfl
    rw [hs, g.sides, addInner_he _ _ _ _ _ (side_ne_inner c j i)]
    rw [g.sides] at h1
    cases hr : w.he (side c j) with
    | none => rw [hr] at h1; cases h1
    | some r =>
      rw [hr] at h1
      simp only at h1 ⊢
      split_ifs at h1 ⊢ with hk
      · cases h1; rfl
      · refine heSplit_addInner (side_ne_inner c j i) (fun r' hr' d => ?_) h1
        exact twin_ne_inner hT g.hinv hr' d

lemma commuteL {T : Nat → Option Nat} (hT : TWF T) {c : CN} {i : Fin 4} : ∀ (l : List (Fin 4)) {w u w2 : St K}, GInv T c w →
    forEach (sideSplit c) l w = .ok u → innerStep c w i = .ok w2 →
    ∃ u2, innerStep c u i = .ok u2 ∧ forEach (sideSplit c) l w2 = .ok u2 := by
  intro l
  induction l with
  | nil => intro w u w2 _ h1 h2; cases h1; exact ⟨w2, h2, rfl⟩
  | cons j l ih =>
    intro w u w2 g h1 h2
    obtain ⟨w', a1, g', -⟩ := sideSplit_ok hT g j
    rw [forEach_cons _ _ _ a1] at h1
    obtain ⟨w2', b1, b2⟩ := commute1 hT g a1 h2
    obtain ⟨u2, c1, c2⟩ := ih g' h1 b1
    exact ⟨u2, c1, by rw [forEach_cons _ _ _ b2, c2]⟩

/-! ### Repeating the first loop -/

lemma Eff1.ginv {B : Base K} {s w : St K} (hi : CInv B s) {c : CN} (hc : CEx B.n s.kids c) {D : List (Fin 4)}
    (e : Eff1 B.T s w c D) : GInv B.T c w :=
  ⟨e.hinv, by rw [e.same.2.1, hi.sides c hc], fun i => (e.iff _).2 (.inl (by rw [hi.ex, owner_side]; exact hc))⟩

lemma retry {B : Base K} (hB : B.WF) {s : St K} (hi : CInv B s) {c : CN} (hc : CEx B.n s.kids c)
    (hk : s.kids c = false) : ∀ (l l2 D : List (Fin 4)) {w u : St K}, Eff1 B.T s w c D → l.Nodup → (∀ i ∈ l, i ∉ D) →
    forEach (sideSplit c) l w = .ok u →
    forEach (splitSide c) (l ++ l2) u = forEach (splitSide c) (l ++ l2) w := by
  intro l l2
  induction l with
  | nil => intro D w u _ _ _ h; cases h; rfl
  | cons i l ih =>
    intro D w u e hn hD h
    have g := e.ginv hi hc
    obtain ⟨w1, a1, g1, -, ⟨r, r1, r2⟩, -, es, -, -⟩ := sideSplit_ok hB.twf g i
    rw [forEach_cons _ _ _ a1] at h
    obtain ⟨w2, b1, e2⟩ := splitSide_eff hB hi hc hk e (hD i (by simp))
    have b2 := b1
    rw [splitSide_eq a1 es] at b2
    obtain ⟨u2, c1, c2⟩ := commuteL hB.twf l g1 h b2
    obtain ⟨u', d1, gu, d2, -⟩ := sideSplits_ok hB.twf l g1
    rw [h] at d1
    cases d1
    obtain ⟨r', r3, -, -, r4⟩ := d2 _ r r1
    have c3 : splitSide c u i = .ok u2 := by
      rw [splitSide_eq (sideSplit_noop gu r3 (r4 r2)) rfl, c1]
    rw [List.cons_append, forEach_cons _ _ _ c3, forEach_cons _ _ _ b1]
    refine ih (i :: D) e2 (List.nodup_cons.1 hn).2 ?_ c2
    intro j hj
    rw [List.mem_cons, not_or]
    exact ⟨fun hji => (List.nodup_cons.1 hn).1 (hji ▸ hj), hD j (by simp [hj])⟩

/-! ### The center -/

/-- No half-edge begins or ends at the center of `c`. -/
def NoCenter (c : CN) (w : St K) : Prop := ∀ x q, w.he x = some q → q.base ≠ .center c ∧ q.head ≠ .center c

lemma sideSplits_setC {T : Nat → Option Nat} (hT : TWF T) {c : CN} {z : Pt K} : ∀ (l : List (Fin 4)) {w u : St K}, GInv T c w →
    NoCenter c w → forEach (sideSplit c) l w = .ok u → forEach (sideSplit c) l (setC w c z) = .ok (setC u c z) := by
  intro l
  induction l with
  | nil => intro w u _ _ h; cases h; rfl
  | cons i l ih =>
    intro w u g hn h
    obtain ⟨w1, a1, g1, -⟩ := sideSplit_ok hT g i
    rw [forEach_cons _ _ _ a1] at h
    have hn1 : NoCenter c w1 := by
      unfold sideSplit at a1
      cases hr : w.he (w.sides c i) with
      | none => rw [hr] at a1; cases a1
      | some r =>
        rw [hr] at a1
        simp only at a1
        split_ifs at a1 with hk
        · cases a1; exact hn
        · intro x q hq
          constructor
          · intro hb
            obtain ⟨y, q0, h1, h2⟩ := Phys.heSplit_verts a1 x q hq (.center c) (by simp) (.inl hb)
            rcases h2 with h2 | h2
            · exact (hn y q0 h1).1 h2
            · exact (hn y q0 h1).2 h2
          · intro hb
            obtain ⟨y, q0, h1, h2⟩ := Phys.heSplit_verts a1 x q hq (.center c) (by simp) (.inr hb)
            rcases h2 with h2 | h2
            · exact (hn y q0 h1).1 h2
            · exact (hn y q0 h1).2 h2
    have b1 : sideSplit c (setC w c z) i = .ok (setC w1 c z) := by
      unfold sideSplit at a1 ⊢
      have e1 : (setC w c z).he = w.he := rfl
      have e2 : (setC w c z).sides = w.sides := rfl
      rw [e1, e2]
      cases hr : w.he (w.sides c i) with
      | none => rw [hr] at a1; cases a1
      | some r =>
        rw [hr] at a1
        simp only at a1 ⊢
        split_ifs at a1 ⊢ with hk
        · cases a1; rfl
        · exact heSplit_setC (fun r' hr' => hn _ r' hr') a1
    rw [forEach_cons _ _ _ b1]
    exact ih g1 hn1 h

lemma sideSplits_vx {T : Nat → Option Nat} (hT : TWF T) {c : CN} : ∀ (l : List (Fin 4)) {w u : St K}, GInv T c w →
    forEach (sideSplit c) l w = .ok u → ∀ v, (∀ i, v ≠ .mid (side c i)) → u.vx v = w.vx v := by
  intro l
  induction l with
  | nil => intro w u _ h; cases h; exact fun _ _ => rfl
  | cons i l ih =>
    intro w u g h v hv
    obtain ⟨w1, a1, g1, -⟩ := sideSplit_ok hT g i
    rw [forEach_cons _ _ _ a1] at h
    rw [ih g1 h v hv]
    unfold sideSplit at a1
    rw [g.sides] at a1
    cases hr : w.he (side c i) with
    | none => rw [hr] at a1; cases a1
    | some r =>
      rw [hr] at a1
      simp only at a1
      split_ifs at a1 with hk
      · cases a1; rfl
      · exact Phys.heSplit_vx a1 v (hv i)

/-! ### The half-edge that was split partly -/

/-- The twin `t` of side `n` has the children `t0`, `t1`; the side itself has no children. -/
structure Twin01 (c : CN) (n : Fin 4) (u : St K) (t : HN) (t0 t1 : HERec) : Prop where
  sides : u.sides c = side c
  own : ∃ r, u.he (side c n) = some r ∧ r.kids = false ∧ r.twin = some t
  tw : ∃ rt, u.he t = some rt ∧ rt.kids = true
  k0 : u.he (.kid t false) = some t0
  k1 : u.he (.kid t true) = some t1
  ne : ∀ b, side c n ≠ .kid t b
  nin : ∀ i d, t ≠ .inner c i d

lemma twin01 {T : Nat → Option Nat} (hT : TWF T) {c : CN} {n : Fin 4} {u : St K} (g : GInv T c u) {r t0 t1 : HERec} {t : HN}
    (hr : u.he (side c n) = some r) (hk : r.kids = false) (h : twinKids u r = some (t, t0, t1)) : Twin01 c n u t t0 t1 := by
  unfold twinKids at h
  split at h
  · cases h
  · rename_i t' ht'
    split at h
    · rename_i rt a0 a1 h1 h2 h3
      split_ifs at h with hrt
      simp only [Option.some.injEq, Prod.mk.injEq] at h
      obtain ⟨rfl, rfl, rfl⟩ := h
      have hv := ((g.hinv.tw _ r hr _).1 ht').1
      refine ⟨g.sides, ⟨r, hr, hk, ht'⟩, ⟨rt, h1, hrt⟩, h2, h3, ?_, ?_⟩
      · intro b hb
        have h4 := vt_level (side c n) _ hv
        rw [hb, level_kid] at h4
        omega
      · rintro i d rfl
        exact twin_ne_inner hT g.hinv hr d ht'
    · cases h

lemma relink_he {u : St K} {t : HN} {t0 t1 : HERec} {o0 o1 : Option HN} {x : HN} (hx : ∀ b, x ≠ .kid t b) :
    (relink u t t0 t1 o0 o1).he x = u.he x := by
  simp [relink, hx]

lemma relink_get {u : St K} {t : HN} {t0 t1 : HERec} {o0 o1 : Option HN} (h0 : u.he (.kid t false) = some t0)
    (h1 : u.he (.kid t true) = some t1) {x : HN} {q : HERec} (hq : u.he x = some q) :
    ∃ tw, (relink u t t0 t1 o0 o1).he x = some { q with twin := tw } := by
  by_cases hx : ∃ b, x = .kid t b
  · obtain ⟨b, rfl⟩ := hx
    cases b
    · rw [h0] at hq; cases hq
      exact ⟨o0, by simp [relink]⟩
    · rw [h1] at hq; cases hq
      exact ⟨o1, by simp [relink]⟩
  · rw [relink_he fun b hb => hx ⟨b, hb⟩]
    exact ⟨q.twin, hq⟩

lemma relink_addInner {u : St K} {t : HN} {t0 t1 : HERec} {o0 o1 : Option HN} {c : CN} {i : Fin 4} {v : VN} :
    addInner (relink u t t0 t1 o0 o1) c i v = relink (addInner u c i v) t t0 t1 o0 o1 := by
  simp only [addInner, relink, St.mk.injEq, true_and, and_true]
  funext x
  by_cases h1 : ∃ d, x = .inner c i d
  · obtain ⟨d, rfl⟩ := h1
    cases d <;> simp
  · have h2 : ∀ d, x ≠ .inner c i d := fun d hd => h1 ⟨d, hd⟩
    simp [h2]

lemma Twin01.addInner {c : CN} {n : Fin 4} {u : St K} {t : HN} {t0 t1 : HERec} (h : Twin01 c n u t t0 t1) (i : Fin 4) (v : VN) :
    Twin01 c n (Mesh.addInner u c i v) t t0 t1 := by
  obtain ⟨h0, h1, h2, h3, h4, h5, h6⟩ := h
  have hk : ∀ b, (Mesh.addInner u c i v).he (.kid t b) = u.he (.kid t b) := fun b => addInner_he _ _ _ _ _ fun d hd => by cases hd
  refine ⟨h0, ?_, ?_, by rw [hk]; exact h3, by rw [hk]; exact h4, h5, h6⟩
  · rw [addInner_he _ _ _ _ _ (side_ne_inner c n i)]; exact h1
  · rw [addInner_he _ _ _ _ _ (h6 i)]; exact h2

lemma heSplit_relink {c : CN} {n : Fin 4} {u : St K} {t : HN} {t0 t1 : HERec} (h : Twin01 c n u t t0 t1) (o0 o1 : Option HN) :
    heSplit (relink u t t0 t1 o0 o1) (side c n) = heSplit u (side c n) := by
  obtain ⟨-, ⟨r, hr, hk, ht⟩, ⟨rt, hrt, hrk⟩, k0, k1, hne, -⟩ := h
  have htt : ∀ b, t ≠ .kid t b := fun b h => by
    have := congrArg sizeOfDepth h
    simp [sizeOfDepth] at this
  have e1 : twinKids u r = some (t, t0, t1) := by
    unfold twinKids
    simp [ht, hrt, k0, k1, hrk]
  have e2 : twinKids (relink u t t0 t1 o0 o1) r = some (t, { t0 with twin := o0 }, { t1 with twin := o1 }) := by
    unfold twinKids
    simp only [ht, relink_he htt, hrt]
    simp [relink, hrk]
  unfold heSplit
  rw [relink_he hne, hr]
  simp only [e1, e2]
  have hx : (relink u t t0 t1 o0 o1).vx = u.vx := rfl
  rw [hx]
  have hf : ∀ A B C D E : Option HERec, (fun x => if x = side c n then A else if x = (side c n).kid false then B
      else if x = (side c n).kid true then C else if x = t.kid false then D else if x = t.kid true then E
      else (relink u t t0 t1 o0 o1).he x) = fun x => if x = side c n then A else if x = (side c n).kid false then B
      else if x = (side c n).kid true then C else if x = t.kid false then D else if x = t.kid true then E
      else u.he x := by
    intro A B C D E
    funext x
    by_cases g1 : x = t.kid false
    · simp [g1]
    by_cases g2 : x = t.kid true
    · simp [g2]
    have : (relink u t t0 t1 o0 o1).he x = u.he x := by simp [relink, g1, g2]
    rw [this]
  simp only [hf]
  rfl

lemma retry_linked {c : CN} {n : Fin 4} {t : HN} {t0 t1 : HERec} {o0 o1 : Option HN} : ∀ (l l2 : List (Fin 4)) {u : St K},
    Twin01 c n u t t0 t1 → (∀ i ∈ l, ∃ r, u.he (side c i) = some r ∧ r.kids = true) →
    forEach (splitSide c) (l ++ n :: l2) (relink u t t0 t1 o0 o1) = forEach (splitSide c) (l ++ n :: l2) u := by
  intro l l2
  induction l with
  | nil =>
    intro u h _
    rw [List.nil_append, forEach, forEach]
    have : splitSide c (relink u t t0 t1 o0 o1) n = splitSide c u n := by
      unfold splitSide
      have hs : (relink u t t0 t1 o0 o1).sides = u.sides := rfl
      obtain ⟨r, hr, hk, ht⟩ := h.own
      rw [hs, h.sides, relink_he h.ne, hr, heSplit_relink h]
      simp [hk]
    rw [this]
  | cons i l ih =>
    intro u h hl
    rw [List.cons_append, forEach, forEach]
    have hs : (relink u t t0 t1 o0 o1).sides = u.sides := rfl
    obtain ⟨r, hr, hk⟩ := hl i (by simp)
    obtain ⟨tw, hr'⟩ := relink_get (o0 := o0) (o1 := o1) h.k0 h.k1 hr
    unfold splitSide
    rw [hs, h.sides, hr, hr']
    simp only [hk, if_true]
    cases ha : u.he (.kid (side c i) false) with
    | none =>
      have : ∀ b, HN.kid (side c i) false ≠ .kid t b := by
        intro b hb
        rw [hb] at ha
        cases b
        · rw [h.k0] at ha; cases ha
        · rw [h.k1] at ha; cases ha
      rw [relink_he this, ha]
    | some a =>
      obtain ⟨tw, ha'⟩ := relink_get (o0 := o0) (o1 := o1) h.k0 h.k1 ha
      rw [ha']
      simp only
      rw [relink_addInner]
      refine ih (h.addInner i _) fun j hj => ?_
      rw [addInner_he _ _ _ _ _ (side_ne_inner c j i)]
      exact hl j (by simp [hj])

/-! ### `split` called again -/

lemma centerPt_congr {s u : St K} {c : CN} (hs : u.sides c = s.sides c) (h : ∀ i, ∃ r r', s.he (s.sides c i) = some r ∧
    u.he (s.sides c i) = some r' ∧ r'.base = r.base ∧ u.vx r.base = s.vx r.base) : centerPt u c = centerPt s c := by
  obtain ⟨a, a', a1, a2, a3, a4⟩ := h 0
  obtain ⟨b, b', b1, b2, b3, b4⟩ := h 1
  obtain ⟨d, d', d1, d2, d3, d4⟩ := h 2
  obtain ⟨e, e', e1, e2, e3, e4⟩ := h 3
  simp only [centerPt, hs, a1, a2, a3, a4, b1, b2, b3, b4, d1, d2, d3, d4, e1, e2, e3, e4]

lemma setC_eff {B : Base K} {s : St K} (hi : CInv B s) (c : CN) (z : Pt K) : Eff1 B.T s (setC s c z) c [] := by
  refine ⟨?_, ⟨rfl, rfl, rfl, rfl⟩, ?_, ?_, ?_⟩
  · have : SameUpToCell s.he (setC s c z).he := by
      intro x
      refine ⟨fun q => q.cell, ?_⟩
      have : (setC s c z).he = s.he := rfl
      rw [this]
      cases s.he x <;> rfl
    exact this.hinv hi.hinv
  · intro x
    have : (setC s c z).he = s.he := rfl
    rw [this]; simp
  · intro x q' hq' q hq
    have : (setC s c z).he = s.he := rfl
    rw [this, hq] at hq'
    cases hq'
    simp
  · intro i hi; cases hi

/-- What is left of an interrupted `split`: half-edges with new children, nothing else. -/
structure Halves {B : Base K} (hB : B.WF) (c : CN) (s s' : St K) : Prop where
  same : s'.cells = s.cells ∧ s'.sides = s.sides ∧ s'.kids = s.kids ∧ s'.mkd = s.mkd
  center : centerPt s' c = centerPt s c
  loop : ∀ z, forEach (splitSide c) four (setC s' c z) = forEach (splitSide c) four (setC s c z)
  keep : Keep s s'
  vx : ∀ x r, s.he x = some r → s'.vx r.base = s.vx r.base ∧ s'.vx r.head = s.vx r.head

lemma cellCrash_halves {B : Base K} (hB : B.WF) {s s' : St K} (hs : MReach B s) {c : CN} (hc : c ∈ s.cells)
    (hk : s.kids c = false) (h : CellCrash c s s') : Halves hB c s s' := by
  have hi := hs.inv hB
  have hx := Phys.reach_xinv hB hs
  have hce := (hi.mem c).1 hc
  have e0 := setC_eff hi c
  have g : GInv B.T c s := ⟨hi.hinv, hi.sides c hce, fun i => by rw [hi.ex, owner_side]; exact hce⟩
  have hn : NoCenter c s := by
    intro x q hq
    have hf : ∀ {P : Prop}, s.kids c = true → P := by
      intro P h
      rw [hk] at h
      cases h
    exact ⟨fun h => hf (hx.cfresh x q c hq (.inl h)), fun h => hf (hx.cfresh x q c hq (.inr h))⟩
  have hnk : ∀ i b, s.he (.kid (side c i) b) = none := by
    intro i b
    obtain ⟨r0, hr0⟩ := Option.isSome_iff_exists.1 (g.ex i)
    have h2 := hi.hinv.kids _ r0 hr0 b
    have h3 := hi.kids_iff hr0
    rw [owner_side] at h3
    simp only [hk] at h3
    rw [h3] at h2
    simpa using h2
  have hmid : ∀ x r, s.he x = some r → ∀ i, r.base ≠ .mid (side c i) ∧ r.head ≠ .mid (side c i) := by
    intro x r hr i
    have hf : ∀ {P : Prop}, (s.he (.kid (side c i) false)).isSome → P := by
      intro P h
      rw [hnk] at h
      cases h
    exact ⟨fun he => hf (hx.v.fresh x r _ hr (.inl he)), fun he => hf (hx.v.fresh x r _ hr (.inr he))⟩
  -- after the first `n` sides
  have main : ∀ n : Nat, ∀ u, forEach (sideSplit c) (four.take n) s = .ok u → GInv B.T c u ∧ Keep s u ∧
      (∀ i ∈ four.take n, ∃ r, u.he (side c i) = some r ∧ r.kids = true) ∧
      (u.cells = s.cells ∧ u.sides = s.sides ∧ u.kids = s.kids ∧ u.mkd = s.mkd) ∧
      (∀ v, (∀ i, v ≠ .mid (side c i)) → u.vx v = s.vx v) ∧
      ∀ z, forEach (splitSide c) four (setC u c z) = forEach (splitSide c) four (setC s c z) := by
    intro n u hu
    obtain ⟨u', h1, h2, h3, h4, h5⟩ := sideSplits_ok hB.twf (four.take n) g
    rw [hu] at h1
    cases h1
    refine ⟨h2, h3, h4, h5, sideSplits_vx hB.twf _ g hu, fun z => ?_⟩
    have h6 := sideSplits_setC (z := z) hB.twf (four.take n) g hn hu
    have h7 := retry hB hi hce hk (four.take n) (four.drop n) [] (e0 z) (List.Nodup.sublist (List.take_sublist _ _) (by decide)) (by simp) h6
    rwa [List.take_append_drop] at h7
  cases h with
  | sides n _ h =>
    obtain ⟨-, h3, -, h5, h6, h7⟩ := main n s' h
    have hv : ∀ x r, s.he x = some r → s'.vx r.base = s.vx r.base ∧ s'.vx r.head = s.vx r.head := fun x r hr =>
      ⟨h6 _ fun i => (hmid x r hr i).1, h6 _ fun i => (hmid x r hr i).2⟩
    refine ⟨h5, centerPt_congr (by rw [h5.2.1]) fun i => ?_, h7, h3, hv⟩
    rw [g.sides]
    obtain ⟨r, hr⟩ := Option.isSome_iff_exists.1 (g.ex i)
    obtain ⟨r', a1, a2, -⟩ := h3 _ r hr
    exact ⟨r, r', hr, a1, a2, (hv _ r hr).1⟩
  | linked n u _ h hku hl =>
    obtain ⟨gu, h3, h4, h5, h6, h7⟩ := main n u h
    rw [gu.sides] at hku hl
    obtain ⟨r, t0, t1, t, o0, o1, hr, ht, -, -⟩ := hl
    have htw := twin01 hB.twf gu hr (hku r hr) ht
    have hv : ∀ x r, s.he x = some r → u.vx r.base = s.vx r.base ∧ u.vx r.head = s.vx r.head := fun x r hr =>
      ⟨h6 _ fun i => (hmid x r hr i).1, h6 _ fun i => (hmid x r hr i).2⟩
    have hk2 : Keep s (relink u t t0 t1 o0 o1) := by
      intro x q hq
      obtain ⟨q', a1, a2, a3, a4⟩ := h3 x q hq
      obtain ⟨tw, b⟩ := relink_get (o0 := o0) (o1 := o1) htw.k0 htw.k1 a1
      exact ⟨_, b, a2, a3, a4⟩
    refine ⟨h5, centerPt_congr (by
        have : (relink u t t0 t1 o0 o1).sides = u.sides := rfl
        rw [this, h5.2.1]) fun i => ?_, fun z => ?_, hk2, hv⟩
    · rw [g.sides]
      obtain ⟨r, hr⟩ := Option.isSome_iff_exists.1 (g.ex i)
      obtain ⟨r', a1, a2, -⟩ := hk2 _ r hr
      exact ⟨r, r', hr, a1, a2, (hv _ r hr).1⟩
    · rw [← h7 z]
      have e : setC (relink u t t0 t1 o0 o1) c z = relink (setC u c z) t t0 t1 o0 o1 := rfl
      rw [e]
      have ht' : Twin01 c n (setC u c z) t t0 t1 := ⟨htw.sides, htw.own, htw.tw, htw.k0, htw.k1, htw.ne, htw.nin⟩
      have h8 : ∀ n : Fin 4, four = four.take n ++ n :: four.drop (n + 1) := by decide
      rw [h8 n]
      exact retry_linked _ _ ht' fun i hi => h4 i hi

/-- **C92** (`split` of a cell called again).  Let `cell.split(flag)` be left by an exception in any mesh that
splitting cells can give, after any of its steps before the first child was made.  The cells, their half-edges, their
children and flags are unchanged, no vertex has moved, and `cell.split(flag)` called again gives the same mesh as
the undisturbed call: the same half-edges, twins, vertices, coordinates and cells. -/
theorem C92_split_again {B : Base K} (hB : B.WF) {s s' : St K} (hs : MReach B s) (c : CN) (hc : c ∈ s.cells)
    (hk : s.kids c = false) (h : CellCrash c s s') : (∀ sf, cellSplit sf s' c = cellSplit sf s c) ∧
      s'.cells = s.cells ∧ s'.sides = s.sides ∧ s'.kids = s.kids ∧ s'.mkd = s.mkd ∧
      ∀ x r, s.he x = some r → ∃ r', s'.he x = some r' ∧ r'.base = r.base ∧ r'.head = r.head ∧
        s'.vx r.base = s.vx r.base ∧ s'.vx r.head = s.vx r.head := by
  have H := cellCrash_halves hB hs hc hk h
  obtain ⟨e1, e2, e3, e4⟩ := H.same
  refine ⟨fun sf => ?_, e1, e2, e3, e4, fun x r hr => ?_⟩
  · unfold cellSplit
    rw [e3, H.center]
    have h1 := H.loop (centerPt s c)
    unfold setC at h1
    rw [e3] at h1
    rw [h1]
  · obtain ⟨r', a1, a2, a3, -⟩ := H.keep x r hr
    exact ⟨r', a1, a2, a3, H.vx x r hr⟩

/-! ### Any number of interruptions -/

lemma sideSplits_noop {T : Nat → Option Nat} {c : CN} {u : St K} (g : GInv T c u) : ∀ (l : List (Fin 4)),
    (∀ i ∈ l, ∃ r, u.he (side c i) = some r ∧ r.kids = true) → forEach (sideSplit c) l u = .ok u := by
  intro l
  induction l with
  | nil => intro _; rfl
  | cons i l ih =>
    intro h
    obtain ⟨r, h1, h2⟩ := h i (by simp)
    rw [forEach_cons _ _ _ (sideSplit_noop g h1 h2)]
    exact ih fun j hj => h j (by simp [hj])

/-- Splitting the first `m` sides after the first `n` sides. -/
lemma sides_sides {T : Nat → Option Nat} (hT : TWF T) {c : CN} {s u : St K} (g : GInv T c s) {n m : Nat}
    (h : forEach (sideSplit c) (four.take n) s = .ok u) :
    forEach (sideSplit c) (four.take m) u = if m ≤ n then .ok u else forEach (sideSplit c) (four.take m) s := by
  obtain ⟨u', h1, g1, -, h3, -⟩ := sideSplits_ok hT (four.take n) g
  rw [h] at h1
  cases h1
  split_ifs with hm
  · refine sideSplits_noop g1 _ fun i hi => h3 i ?_
    exact (List.take_sublist_take_left hm).mem hi
  · have e : four.take m = four.take n ++ (four.take m).drop n := by
      conv_lhs => rw [← List.take_append_drop n (four.take m)]
      rw [List.take_take, min_eq_left (by omega)]
    rw [e, forEach_append, forEach_append, h, sideSplits_noop g1 _ h3]

lemma four_mem {n : Fin 4} {m : Nat} (h : (n : Nat) < m) : n ∈ four.take m := by
  have h1 : ∀ n : Fin 4, n ∈ four.take (n + 1) := by decide
  exact (List.take_sublist_take_left (by omega)).mem (h1 n)

lemma relink_relink {u : St K} {t : HN} {t0 t1 : HERec} {o0 o1 p0 p1 : Option HN} :
    relink (relink u t t0 t1 o0 o1) t { t0 with twin := o0 } { t1 with twin := o1 } p0 p1 = relink u t t0 t1 p0 p1 := by
  simp only [relink, St.mk.injEq, true_and, and_true]
  funext x
  split_ifs <;> rfl

lemma cellCrash_trans {T : Nat → Option Nat} (hT : TWF T) {c : CN} {s s1 s2 : St K} (g : GInv T c s)
    (h1 : CellCrash c s s1) (h2 : CellCrash c s1 s2) : CellCrash c s s2 := by
  -- the sides that are split already
  have done : ∀ (n : Nat) (u : St K), forEach (sideSplit c) (four.take n) s = .ok u → GInv T c u ∧
      ∀ i ∈ four.take n, ∃ r, u.he (side c i) = some r ∧ r.kids = true := by
    intro n u h
    obtain ⟨u', e1, e2, -, e3, -⟩ := sideSplits_ok hT (four.take n) g
    rw [h] at e1
    cases e1
    exact ⟨e2, e3⟩
  cases h1 with
  | sides n _ h1 =>
    obtain ⟨g1, d1⟩ := done n s1 h1
    cases h2 with
    | sides m _ h2 =>
      rw [sides_sides hT g h1] at h2
      split_ifs at h2
      · cases h2; exact .sides n _ h1
      · exact .sides m _ h2
    | linked m u _ h2 hk hl =>
      rw [sides_sides hT g h1] at h2
      split_ifs at h2 with hm
      · cases h2
        by_cases hmn : (m : Nat) = n
        · subst hmn
          exact .linked m _ _ h1 hk hl
        · obtain ⟨r, e1, e2⟩ := d1 m (four_mem (by omega))
          rw [g1.sides] at hk
          rw [hk r e1] at e2
          cases e2
      · exact .linked m u _ h2 hk hl
  | linked n u _ h1 hku hl =>
    obtain ⟨gu, du⟩ := done n u h1
    have hku' := hku
    have hl0 := hl
    rw [gu.sides] at hku' hl
    obtain ⟨r, t0, t1, t, o0, o1, hr, ht, g0, g1⟩ := hl
    have htw := twin01 hT gu hr (hku' r hr) ht
    have hs : (relink u t t0 t1 o0 o1).sides = u.sides := rfl
    -- the first `m` sides once more
    have again : ∀ m : Nat, forEach (sideSplit c) (four.take m) (relink u t t0 t1 o0 o1) =
        if m ≤ n then .ok (relink u t t0 t1 o0 o1) else forEach (sideSplit c) (four.take m) s := by
      intro m
      have hno : ∀ l : List (Fin 4), (∀ i ∈ l, ∃ r, u.he (side c i) = some r ∧ r.kids = true) →
          forEach (sideSplit c) l (relink u t t0 t1 o0 o1) = .ok (relink u t t0 t1 o0 o1) := by
        intro l
        induction l with
        | nil => intro _; rfl
        | cons i l ih =>
          intro h
          obtain ⟨q, e1, e2⟩ := h i (by simp)
          obtain ⟨tw, e3⟩ := relink_get (o0 := o0) (o1 := o1) htw.k0 htw.k1 e1
          have : sideSplit c (relink u t t0 t1 o0 o1) i = .ok (relink u t t0 t1 o0 o1) := by
            unfold sideSplit
            rw [hs, gu.sides, e3]
            simp [e2]
          rw [forEach_cons _ _ _ this]
          exact ih fun j hj => h j (by simp [hj])
      split_ifs with hm
      · exact hno _ fun i hi => du i ((List.take_sublist_take_left hm).mem hi)
      · have h8 : ∀ n : Fin 4, four = four.take n ++ n :: four.drop (n + 1) := by decide
        have e : four.take m = four.take n ++ n :: (four.take m).drop (n + 1) := by
          have h9 : ∀ n : Fin 4, ∀ k : Nat, k < 5 → (n : Nat) < k → four.take k = four.take n ++ n :: (four.take k).drop (n + 1) := by
            decide
          by_cases h5 : m < 5
          · exact h9 n m h5 (by omega)
          · have : four.take m = four.take 4 := by
              rw [List.take_of_length_le (by simp [four]; omega)]; rfl
            rw [this]
            exact h9 n 4 (by omega) n.isLt
        have e2 : sideSplit c (relink u t t0 t1 o0 o1) n = sideSplit c u n := by
          unfold sideSplit
          rw [hs, gu.sides, relink_he htw.ne, hr, heSplit_relink htw]
          simp [hku' r hr]
        rw [e, forEach_append, forEach_append, h1, hno _ du]
        simp only [forEach, e2]
    cases h2 with
    | sides m _ h2 =>
      rw [again] at h2
      split_ifs at h2 with hm
      · cases h2
        exact .linked n u _ h1 hku hl0
      · exact .sides m _ h2
    | linked m u2 _ h2 hk hl2 =>
      rw [again] at h2
      split_ifs at h2 with hm
      · cases h2
        by_cases hmn : m = n
        · subst hmn
          rw [hs, gu.sides] at hl2
          obtain ⟨r', t0', t1', t', p0, p1, hr', ht', q0, q1⟩ := hl2
          have e1 : (relink u t t0 t1 o0 o1).he (side c m) = some r := by rw [relink_he htw.ne, hr]
          rw [e1] at hr'
          cases hr'
          have e2 : twinKids (relink u t t0 t1 o0 o1) r = some (t, { t0 with twin := o0 }, { t1 with twin := o1 }) := by
            obtain ⟨-, ⟨r0, hr0, -, htr⟩, ⟨rt, hrt, hrk⟩, k0, k1, -, -⟩ := htw
            rw [hr] at hr0
            cases hr0
            have htt : ∀ b, t ≠ .kid t b := fun b h => by
              have := congrArg sizeOfDepth h
              simp [sizeOfDepth] at this
            unfold twinKids
            simp only [htr, relink_he htt, hrt]
            simp [relink, hrk]
          rw [e2] at ht'
          cases ht'
          rw [relink_relink]
          refine .linked m u _ h1 hku ?_
          rw [gu.sides]
          refine ⟨r, t0, t1, t, p0, p1, hr, ht, ?_, ?_⟩
          · rcases q0 with q0 | q0
            · rw [q0]; exact g0
            · exact .inr q0
          · rcases q1 with q1 | q1
            · rw [q1]; exact g1
            · exact .inr q1
        · have hlt : (m : Nat) < n := by
            have : (m : Nat) ≠ n := fun h => hmn (Fin.ext h)
            omega
          obtain ⟨q, e1, e2⟩ := du m (four_mem hlt)
          obtain ⟨tw, e3⟩ := relink_get (o0 := o0) (o1 := o1) htw.k0 htw.k1 e1
          rw [hs, gu.sides] at hk
          have := hk _ e3
          simp only at this
          rw [this] at e2
          cases e2
      · exact .linked m u2 _ h2 hk hl2

/-- **C92** (`split` of a cell, any number of interruptions). -/
theorem C92_split_again_any {B : Base K} (hB : B.WF) {s s' : St K} (hs : MReach B s) (c : CN) (hc : c ∈ s.cells)
    (hk : s.kids c = false) (h : CellCrashes c s s') : (∀ sf, cellSplit sf s' c = cellSplit sf s c) ∧
      s'.cells = s.cells ∧ s'.sides = s.sides ∧ s'.kids = s.kids ∧ s'.mkd = s.mkd := by
  have hi := hs.inv hB
  have hce := (hi.mem c).1 hc
  have g : GInv B.T c s := ⟨hi.hinv, hi.sides c hce, fun i => by rw [hi.ex, owner_side]; exact hce⟩
  have key : s' = s ∨ CellCrash c s s' := by
    induction h with
    | refl => exact .inl rfl
    | tail _ h2 ih =>
      rcases ih with rfl | ih
      · exact .inr h2
      · exact .inr (cellCrash_trans hB.twf g ih h2)
  rcases key with rfl | h
  · exact ⟨fun _ => rfl, rfl, rfl, rfl, rfl⟩
  · obtain ⟨a, b1, b2, b3, b4, -⟩ := C92_split_again hB hs c hc hk h
    exact ⟨a, b1, b2, b3, b4⟩

/-! ### What goes wrong later -/

/-- `cell.split()` was left by an exception after `k` children were made, before the next one (mesh.py 3695-3715). -/
def ChildCrash (c : CN) (k : Nat) (s s' : St K) : Prop :=
  ∃ s1 s2, forEach (splitSide c) four (setC s c (centerPt s c)) = .ok s1 ∧
    forEach (fun s2 k => newCell s2 (child c k) (childSides s2 c k)) (four.take k) s1 = .ok s2 ∧
    s' = { s2 with kids := Function.update s2.kids c true }

lemma newCells_cells (c : CN) : ∀ (l : List (Fin 4)) {s u : St K},
    forEach (fun s2 k => newCell s2 (child c k) (childSides s2 c k)) l s = .ok u →
    u.cells = s.cells ++ l.map (child c) ∧ u.kids = s.kids := by
  intro l
  induction l with
  | nil => intro s u h; cases h; simp
  | cons k l ih =>
    intro s u h
    unfold forEach at h
    cases h1 : newCell s (child c k) (childSides s c k) with
    | error e => rw [h1] at h; cases h
    | ok s1 =>
      rw [h1] at h
      obtain ⟨e1, e2⟩ := ih h
      unfold newCell at h1
      split at h1
      · split_ifs at h1
        cases h1
        exact ⟨by rw [e1]; simp, e2⟩
      · cases h1

/-- **C92** is violated in every mesh as soon as the first child was made: left by an exception after one, two or
three children, a cell lacks the last child for ever, because `split` refuses a cell that has any child. -/
theorem C92_split_children_violated {B : Base K} (hB : B.WF) {s : St K} (hs : MReach B s) (c : CN) (hc : c ∈ s.cells)
    (hk : s.kids c = false) (k : Nat) (_h1 : 1 ≤ k) (h3 : k ≤ 3) : ∃ s', ChildCrash c k s s' ∧
      (∀ sf, cellSplit sf s' c = .error .assertion) ∧ child c 3 ∉ s'.cells ∧
      ∀ sf, ∃ R, cellSplit sf s c = .ok R ∧ child c 3 ∈ R.cells := by
  have hi := hs.inv hB
  obtain ⟨R, hR, -⟩ := C52_split_ok hB hs c hc hk false
  have hR' := hR
  unfold cellSplit at hR'
  rw [hk] at hR'
  simp only [Bool.false_eq_true, if_false] at hR'
  split at hR'
  · cases hR'
  rename_i s1 e1
  split at hR'
  · cases hR'
  rename_i s2 e2
  have e3 : four = four.take k ++ four.drop k := (List.take_append_drop k four).symm
  rw [e3, forEach_append] at e2
  split at e2
  · cases e2
  rename_i s3 e4
  refine ⟨_, ⟨s1, s3, e1, e4, rfl⟩, fun sf => ?_, ?_, fun sf => ?_⟩
  · unfold cellSplit
    simp
  · obtain ⟨f1, -⟩ := newCells_cells c _ e4
    have f2 : s1.cells = s.cells := by
      obtain ⟨s4, r4, q4⟩ : ∃ s4, forEach (splitSide c) four (setC s c (centerPt s c)) = .ok s4 ∧ s4.cells = s.cells := by
        have hce := (hi.mem c).1 hc
        obtain ⟨a1, r1, e1⟩ := splitSide_eff hB hi hce hk (setC_eff hi c (centerPt s c)) (i := 0) (by simp)
        obtain ⟨a2, r2, e2⟩ := splitSide_eff hB hi hce hk e1 (i := 1) (by decide)
        obtain ⟨a3, r3, e3⟩ := splitSide_eff hB hi hce hk e2 (i := 2) (by decide)
        obtain ⟨a4, r4, e4⟩ := splitSide_eff hB hi hce hk e3 (i := 3) (by decide)
        refine ⟨a4, ?_, e4.same.1⟩
        rw [four, forEach_cons _ _ _ r1, forEach_cons _ _ _ r2, forEach_cons _ _ _ r3, forEach_cons _ _ _ r4]
        rfl
      have e1' : forEach (splitSide c) four (setC s c (centerPt s c)) = .ok s1 := e1
      rw [r4] at e1'
      cases e1'
      exact q4
    simp only [f1, f2, List.mem_append, not_or]
    constructor
    · intro h
      have := (hi.mem _).1 h
      rw [CEx_child, hk] at this
      cases this
    · have hn : ∀ k : Nat, k < 4 → (3 : Fin 4) ∉ four.take k := by decide
      intro h
      obtain ⟨j, hj, he⟩ := List.mem_map.1 h
      exact hn k (by omega) ((child_inj he).2 ▸ hj)
  · obtain ⟨R, h1, -, h2, -⟩ := C52_split_ok hB hs c hc hk sf
    exact ⟨R, h1, (h2 _).2 (.inr ⟨3, rfl⟩)⟩

end

/-! ### Examples -/

/-- The state of a concrete run (the given state if the run fails). -/
def ranTo {K : Type} (s : St K) : Except Err (St K) → St K
  | .ok u => u
  | .error _ => s

def crashS : St ℚ := ranTo (init twoB) (forEach (sideSplit (0, [])) (four.take 2) (init twoB))

lemma crashS_eq : forEach (sideSplit (0, [])) (four.take 2) (init twoB) = .ok crashS := by
  have h : (match forEach (sideSplit (0, [])) (four.take 2) (init twoB) with | .ok _ => true | .error _ => false) = true := by
    decide +kernel
  unfold crashS
  cases hh : forEach (sideSplit (0, [])) (four.take 2) (init twoB) with
  | ok u => rfl
  | error e => rw [hh] at h; cases h

/-- The hypotheses of `C92_split_again` hold for a cell of a mesh of two cells; the state after the interruption
differs from the one before. -/
example : MReach twoB (init twoB) ∧ ((0, []) : CN) ∈ (init twoB).cells ∧ CellCrash (0, []) (init twoB) crashS ∧
    (crashS.he (.kid (.root 0) true)).isSome = true ∧ ((init twoB).he (.kid (.root 0) true)).isSome = false :=
  ⟨.init, by decide +kernel, .sides 2 _ crashS_eq, by decide +kernel, by decide +kernel⟩

/-- `half_edge.split()` was left between `self._children[0] = c0` and `self._children[1] = c1` (mesh.py 2329-2330): the
half-edge has one child. -/
def oneKid : St ℚ := { crashS with he := Function.update crashS.he (.kid (.root 1) true) none }

/-- **C92** is violated for a half-edge that was left with one child: `split` of the cell takes the half-edge for
split, and fails. -/
theorem C92_split_half_violated : MReach twoB (init twoB) ∧ ((0, []) : CN) ∈ (init twoB).cells ∧
    (∃ R, cellSplit false (init twoB) (0, []) = .ok R) ∧
    (match cellSplit false oneKid (0, []) with | .ok _ => false | .error _ => true) = true := by
  refine ⟨.init, by decide +kernel, ?_, by decide +kernel⟩
  obtain ⟨R, h, -⟩ := C52_split_ok twoB_wf .init (0, []) (by decide +kernel) rfl false
  exact ⟨R, h⟩

end Verif.Mesh
