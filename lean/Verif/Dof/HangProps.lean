import Verif.Dof.Continuity
import Verif.Linsys.Props

/-!
# C62: theorems about `set_hanging_nodes`
-/

namespace Verif.Dof
open Verif.Fem Verif.Mesh
open Verif.Linsys (Feasible WellFormed)

/-! ### The dictionary and the list of constraints -/

section
variable {F : Type} [Field F]

theorem dset_cadd {L H : List (Linsys.Con F)} (hL : ∀ x ∈ L, ∀ y ∈ L, x.dof = y.dof → x = y) (hH : ∀ x ∈ H, x ∈ L) {c : Linsys.Con F}
    (hc : c ∈ L) : dset H c = cadd H c := by
  unfold dset cadd
  split_ifs with h
  · conv_rhs => rw [← List.map_id H]
    refine List.map_congr_left (fun x hx => ?_)
    split_ifs with hd
    · exact (hL x (hH x hx) c hc hd).symm
    · rfl
  · rfl

theorem foldl_dset {L : List (Linsys.Con F)} (hL : ∀ x ∈ L, ∀ y ∈ L, x.dof = y.dof → x = y) : ∀ (l H : List (Linsys.Con F)),
    (∀ x ∈ l, x ∈ L) → (∀ x ∈ H, x ∈ L) → (H.map (·.dof)).Nodup →
    l.foldl dset H = l.foldl cadd H ∧ (∀ x, x ∈ l.foldl cadd H ↔ x ∈ H ∨ x ∈ l) ∧ ((l.foldl cadd H).map (·.dof)).Nodup := by
  intro l
  induction l with
  | nil => intro H _ _ hn; exact ⟨rfl, by simp, hn⟩
  | cons c l ih =>
    intro H hl hH hn
    have hc := hl c (by simp)
    simp only [List.foldl_cons]
    rw [dset_cadd hL hH hc]
    have hmem : ∀ x, x ∈ cadd H c ↔ x ∈ H ∨ x = c := by
      intro x
      unfold cadd
      split_ifs with h
      · obtain ⟨y, hy, hd⟩ := List.mem_map.1 h
        have := hL y (hH y hy) c hc hd
        subst this
        constructor
        · exact .inl
        · rintro (h | rfl)
          · exact h
          · exact hy
      · simp
    have hnd : ((cadd H c).map (·.dof)).Nodup := by
      unfold cadd
      split_ifs with h
      · exact hn
      · rw [List.map_append, List.nodup_append]
        refine ⟨hn, by simp, ?_⟩
        intro a ha b hb
        simp only [List.map_cons, List.map_nil, List.mem_singleton] at hb
        subst hb
        intro hab
        exact h (hab ▸ ha)
    obtain ⟨h1, h2, h3⟩ := ih (cadd H c) (fun x hx => hl x (by simp [hx])) (fun x hx => by
      rcases (hmem x).1 hx with h | rfl
      · exact hH x h
      · exact hc) hnd
    refine ⟨h1, fun x => ?_, h3⟩
    rw [h2, hmem, List.mem_cons]
    tauto

end

section
variable {K F : Type} [Field K] [Field F] [LinearOrder F] [IsStrictOrderedRing F] {B : Base K} {e : ET} {sf : Bool} {s : St K} {D : DH}

/-- What `set_hanging_nodes` returns for a new dof handler. -/
theorem setHanging_rdy (hB : B.WF) (he : torn e = false) (hR : Rdy B e sf s D) {H C : List (Linsys.Con F)}
    (h : setHanging sf s e D [] = some (H, C)) : H = C ∧ (H.map (·.dof)).Nodup ∧
      ∀ x, x ∈ H ↔ ∃ c i P j b m a, Hangs B e sf s D c i P j b m a ∧ x = conOf F e D P j (halfT e b m) a := by
  unfold setHanging at h
  rw [he] at h
  simp only [Bool.false_eq_true, if_false, Option.map_eq_some_iff, Prod.mk.injEq] at h
  obtain ⟨l, hl, h1, h2⟩ := h
  have hL : ∀ x ∈ l, ∀ y ∈ l, x.dof = y.dof → x = y := by
    intro x hx y hy hxy
    obtain ⟨c, i, P, j, b, m, a, g, rfl⟩ := (allCons_iff hB he hR.toRdyF hl x).1 hx
    obtain ⟨c', i', P', j', b', m', a', g', rfl⟩ := (allCons_iff hB he hR.toRdyF hl y).1 hy
    have : a = a' := hxy
    subst this
    obtain ⟨rfl, rfl, h3⟩ := g.uniq g' hB he hR
    rw [h3]
  obtain ⟨h3, h4, h5⟩ := foldl_dset hL l [] (fun _ h => h) (by simp) (by simp)
  rw [h3] at h1
  subst h1 h2
  refine ⟨rfl, h5, fun x => ?_⟩
  rw [h4, ← allCons_iff hB he hR.toRdyF hl x]
  simp

theorem feas_iff (hB : B.WF) (he : torn e = false) (hR : Rdy B e sf s D) {H C : List (Linsys.Con F)}
    (h : setHanging sf s e D [] = some (H, C)) (U : Nat → F) : Feasible H U ↔
      ∀ c i P j b m a, Hangs B e sf s D c i P j b m a → U a = feFn e D U c (castPt F (E i (1 - halfT e b m))) := by
  obtain ⟨_, _, h3⟩ := setHanging_rdy hB he hR h
  constructor
  · intro hf c i P j b m a g
    have := hf _ ((h3 _).2 ⟨c, i, P, j, b, m, a, g, rfl⟩)
    rw [g.value hB he hR U] at this
    simpa [conOf] using this
  · intro hf x hx
    obtain ⟨c, i, P, j, b, m, a, g, rfl⟩ := (h3 x).1 hx
    rw [g.value hB he hR U]
    have := hf c i P j b m a g
    simpa [conOf] using this

/-- The child at a half side of the neighbour of a leaf: a leaf, if it belongs to the (sub)mesh. -/
theorem Hangs.leaf (h : Hangs B e sf s D c i P j b m a) (hB : B.WF) (hR : RdyF B e sf s D)
    (hs : Sub sf s (child P (halfCell j b))) : child P (halfCell j b) ∈ leaves sf s := by
  have hi := hR.inv
  exact (mem_leaves hi _).2 ⟨hasCh_kids h.side.kids, hs, h.side.bal hi hR.bal b⟩

/-- All four children of a refined cell belong to the submesh. -/
def FullFlag (s : St K) : Prop := ∀ c, hasCh true s c = true → ∀ k, s.mkd (child c k) = true

/-- (General form.) no failure: `set_hanging_nodes` returns. -/
theorem RdyF.succeeds (hB : B.WF) (hR : RdyF B e sf s D) (hf : sf = false ∨ FullFlag s)
    (old : List (Linsys.Con F)) : ∃ r, setHanging sf s e D old = some r := by
  unfold setHanging
  by_cases he : torn e = true
  · rw [if_pos he]; exact ⟨_, rfl⟩
  · rw [if_neg he]
    have he' : torn e = false := by simpa using he
    have hi := hR.inv
    have key : ∀ x ∈ (leaves sf s).flatMap (fun c => four.flatMap (sideCons (F := F) sf s e D c)), ∃ y, x = some y := by
      intro x hx
      simp only [List.mem_flatMap] at hx
      obtain ⟨c, hc, i, -, h⟩ := hx
      obtain ⟨P, j, b, m, hco, hm, hnew, row, hrow, rfl⟩ := (sideCons_iff hB he' hR hc i _).1 h
      have hs : Sub sf s (child P (halfCell j b)) := by
        rcases hf with h0 | h0
        · exact .inl h0
        · cases sf
          · exact .inl rfl
          · exact .inr (h0 P hco.kids _)
      obtain ⟨a, ha⟩ := Option.ne_none_iff_exists'.1 (hR.val (c := child P (halfCell j b)) (hasCh_kids hco.kids) hs _
        (side_node e he' j m hm).1)
      exact ⟨_, (conAt_iff hB he' hR hco hrow b m hm _).2 ⟨a, ha, rfl⟩⟩
    have : ∃ l, allCons (F := F) sf s e D = some l := by
      unfold allCons
      generalize (leaves sf s).flatMap (fun c => four.flatMap (sideCons (F := F) sf s e D c)) = L at key
      induction L with
      | nil => exact ⟨[], rfl⟩
      | cons x L ih =>
        obtain ⟨y, rfl⟩ := key x (by simp)
        obtain ⟨l, hl⟩ := ih (fun x hx => key x (by simp [hx]))
        exact ⟨y :: l, by simp [allSome, hl]⟩
    obtain ⟨l, hl⟩ := this
    exact ⟨_, by rw [hl]; rfl⟩

/-- (General form.) main statement: the dof values satisfy the hanging node constraints exactly if the finite element function they
define is single-valued on the whole (sub)mesh. -/
theorem Rdy.continuous (hB : B.WF) (he : torn e = false) (hR : Rdy B e sf s D) (hf : sf = false ∨ FullFlag s)
    {H C : List (Linsys.Con F)} (h : setHanging sf s e D [] = some (H, C)) (U : Nat → F) : Feasible H U ↔ Single B sf s e D U := by
  rw [feas_iff hB he hR h]
  constructor
  · exact single_of hB he hR U
  · intro hS c i P j b m a g
    have hs : Sub sf s (child P (halfCell j b)) := by
      rcases hf with h0 | h0
      · exact .inl h0
      · cases sf
        · exact .inl rfl
        · exact .inr (h0 P g.side.kids _)
    have hl := g.leaf hB hR.toRdyF hs
    obtain ⟨t0, t1⟩ := g.mem he
    have hn := side_node e he j m g.lt
    rw [hS c g.side.leaf _ hl _ (castPt F (node e ((sideDofs e j).getD m 0))) (insq_cast (E_insq i (by linarith) (by linarith)))
      (insq_cast (node_insq e ⟨_, hn.1⟩)) (by
        rw [← castRoot_pt, ← castRoot_pt]
        exact samePt_up B (g.same hB he hR))]
    unfold feFn
    rw [cellFn_node _ _ hn.1]
    unfold dofAt
    rw [g.dof]
    rfl

/-- The constraints imply continuity also if only some children of a cell belong to the submesh. -/
theorem Rdy.implies_continuous (hB : B.WF) (he : torn e = false) (hR : Rdy B e sf s D)
    {H C : List (Linsys.Con F)} (h : setHanging sf s e D [] = some (H, C)) (U : Nat → F) (hU : Feasible H U) :
    Single B sf s e D U :=
  single_of hB he hR U ((feas_iff hB he hR h U).1 hU)

/-- (General form.) which dofs are constrained: a dof of a leaf is constrained exactly if its node is a point of a leaf at which
that leaf has no node. -/
theorem Rdy.hanging (hB : B.WF) (he : torn e = false) (hR : Rdy B e sf s D)
    {H C : List (Linsys.Con F)} (h : setHanging sf s e D [] = some (H, C)) (c' : CN) (hc' : c' ∈ leaves sf s) (p a : Nat)
    (hp : p < nd2 e) (ha : val D c' p = some a) : (∃ x ∈ H, x.dof = a) ↔
      ∃ c ∈ leaves sf s, ∃ z : ℚ × ℚ, InSq z ∧ SamePt B (rootPt c z) (rootPt c' (node e p)) ∧ ∀ q < nd2 e, node e q ≠ z := by
  obtain ⟨_, _, h3⟩ := setHanging_rdy hB he hR h
  have hi := hR.inv
  constructor
  · rintro ⟨x, hx, rfl⟩
    obtain ⟨c, i, P, j, b, m, a, g, rfl⟩ := (h3 x).1 hx
    obtain ⟨t0, t1⟩ := g.mem he
    refine ⟨c, g.side.leaf, E i (1 - halfT e b m), E_insq i (by linarith) (by linarith), ?_, fun q hq => g.notnode ⟨q, hq⟩⟩
    refine .trans _ _ _ (g.same hB he hR) ?_
    exact (hR.shared _ _ _ _ a a (side_node e he j m g.lt).1 hp g.dof ha).1 rfl
  · rintro ⟨c, hc, z, hz, hS, hnn⟩
    have hn : ¬ Corner z := by
      intro hcor
      obtain ⟨i, rfl⟩ := (corner_iff z).1 hcor
      exact hnn _ (cpos e he i).2 (node_cpos e he i)
    have hpn := node_insq e ⟨p, hp⟩
    have hlev : level c ≤ level c' := by
      by_contra hl
      have hl' : level c' ≤ level c := by omega
      have hS' : SamePt B (rootPt c' (node e p)) (rootPt c z) := .symm _ _ hS
      have hn' : ¬ Corner (node e p) := fun hcor => hn (corner_down hB hl' hpn hz hS' hcor)
      rcases meet hB hi hR.flag hR.bal hc' hc hl' hpn hz hS' hn' with ⟨_, h2⟩ | hg | ⟨i, j, P, b, t, hco, rfl, t0, t1, rfl, h2⟩
      · exact hnn p hp h2.symm
      · obtain ⟨i, j, r, r0, r1, hv, e1, e2⟩ := hg
        obtain ⟨q, hq⟩ := flip_node e i j ⟨p, hp⟩ r e1
        exact hnn q q.2 (hq.trans e2.symm)
      · obtain ⟨q, hq⟩ := flip_node e i j ⟨p, hp⟩ _ h2
        obtain ⟨q', hq'⟩ := nest_node e he (halfCell j b) (E j t) (E_insq j t0 t1) q (by
          rw [hq, emb_half]; exact congrArg (E j) (by ring))
        exact hnn q' q'.2 hq'
    rcases meet hB hi hR.flag hR.bal hc hc' hlev hz hpn hS hn with ⟨_, h2⟩ | hg | ⟨i, j, P, b, t, hco, rfl, t0, t1, h2, rfl⟩
    · exact absurd h2 (hnn p hp)
    · exfalso
      obtain ⟨i, j, r, r0, r1, hv, e1, e2⟩ := hg
      simp only at e1 e2
      obtain ⟨q, hq⟩ := flip_node e j i ⟨p, hp⟩ (1 - r) e2
      exact hnn q q.2 (by rw [hq, e1]; exact congrArg (E i) (by ring))
    · obtain ⟨m, hm, h4, h5⟩ := node_side e he j ⟨p, hp⟩ t h2
      simp only at h4
      have ht : ((if b then 1 else 0) + t) / 2 = halfT e b m := by rw [halfT, h5]
      have g : Hangs B e sf s D c i P j b m a := by
        refine ⟨hco, hm, ?_, by rw [h4]; exact ha⟩
        intro q hq
        obtain ⟨q', hq'⟩ := flip_node e j i q _ hq
        exact hnn q' q'.2 (by rw [hq', ht])
      exact ⟨_, (h3 _).2 ⟨c, i, P, j, b, m, a, g, rfl⟩, rfl⟩

theorem fin4_m (k : Fin 4) : k + 1 + 2 = k + 3 := by revert k; decide

/-- The children at the two halves of a coarse side face each other. -/
theorem inner_vt (T : Nat → Option Nat) (P : CN) (j : Fin 4) :
    vt T (side (child P (halfCell j false)) (j + 1)) = some (side (child P (halfCell j true)) (j + 3)) ∧
    vt T (side (child P (halfCell j true)) (j + 3)) = some (side (child P (halfCell j false)) (j + 1)) := by
  have h1 := side_k1 P j
  have h2 := side_k2 P (j + 1)
  rw [fin4_m, fin4_succ_pred] at h2
  simp only [halfCell, Bool.false_eq_true, if_false, if_true]
  rw [h1, h2]
  exact ⟨rfl, rfl⟩

/-- Supporting dofs are dofs of the coarse side. -/
theorem supp_node (he : torn e = false) {P : CN} {j : Fin 4} {t : ℚ} {a : Nat} {x : Nat × F}
    (hx : x ∈ (conOf F e D P j t a).supp) : ∃ k < dpe2 e + 2, x.1 = dofAt D P ((sideDofs e j).getD k 0) := by
  simp only [conOf, List.mem_map] at hx
  obtain ⟨n, hn, rfl⟩ := hx
  obtain ⟨k, hk, h⟩ := List.mem_iff_getElem.1 hn
  refine ⟨k, by rw [sideDofs_len] at hk; exact hk, ?_⟩
  rw [List.getD_eq_getElem?_getD, List.getElem?_eq_getElem hk]
  simp [h]

/-- A node of a coarse side does not hang. -/
theorem Hangs.no_chain (h : Hangs B e sf s D c i P j b m a) (h' : Hangs B e sf s D c' i' P' j' b' m' a') (hB : B.WF)
    (he : torn e = false) (hR : Rdy B e sf s D) (k : Nat) (hk : k < dpe2 e + 2) :
    val D P ((sideDofs e j).getD k 0) ≠ some a' := by
  intro ha
  have hi := hR.inv
  obtain ⟨hx, hsub, hleaf⟩ := (mem_leaves hi c).1 h.side.leaf
  obtain ⟨hx', hsub', hleaf'⟩ := (mem_leaves hi c').1 h'.side.leaf
  obtain ⟨n1, n2⟩ := side_node e he j k hk
  -- the node on `c`
  obtain ⟨q, hq⟩ := flip_node e j i ⟨_, n1⟩ _ n2
  set r : ℚ := 1 - (sideT e).getD k 0 with hr
  have hr01 : 0 ≤ r ∧ r ≤ 1 := by
    have h1 := node_insq e q
    rw [hq] at h1
    have h2 : ∀ (i : Fin 4) (r : ℚ), InSq (E i r) → 0 ≤ r ∧ r ≤ 1 := by
      intro i r h
      obtain ⟨a1, a2, a3, a4⟩ := h
      fin_cases i <;> simp only [E] at a1 a2 a3 a4 <;> constructor <;> linarith
    exact h2 i r h1
  have hS1 : SamePt B (rootPt c (E i r)) (rootPt P (node e ((sideDofs e j).getD k 0))) :=
    PGlue.same _ _ _ _ _ _ (CEx_lt hi hx) (CEx_lt hi h.side.ex) ⟨i, j, r, hr01.1, hr01.2, h.side.face, rfl, by
      rw [n2]; exact congrArg (E j) (by rw [hr]; ring)⟩
  have hS : SamePt B (rootPt c (E i r)) (rootPt c' (E i' (1 - halfT e b' m'))) := by
    refine .trans _ _ _ hS1 (.trans _ _ _ ?_ (.symm _ _ (h'.same hB he hR)))
    exact (hR.shared _ _ _ _ a' a' n1 (side_node e he j' m' h'.lt).1 ha h'.dof).1 rfl
  obtain ⟨t0, t1⟩ := h'.mem he
  have hin' : InSq (E i' (1 - halfT e b' m')) := E_insq i' (by linarith) (by linarith)
  have hin : InSq (E i r) := E_insq i hr01.1 hr01.2
  have hnc := h'.notcorner he
  have hc2 : ¬ (1 - halfT e b' m' = 0 ∨ 1 - halfT e b' m' = 1) := by rintro (h | h) <;> linarith
  rcases le_total (level c') (level c) with hl | hl
  · rcases meet hB hi hR.flag hR.bal h'.side.leaf h.side.leaf hl hin' hin (.symm _ _ hS) hnc with
      ⟨_, h2⟩ | hg | ⟨i2, j2, P2, b2, t2, hco, hcc, s0, s1, hz, hz'⟩
    · exact h'.notnode q (hq.trans h2)
    · obtain ⟨i2, j2, r2, _, _, hv, e1, e2⟩ := hg
      simp only at e1 e2
      obtain ⟨q', hq'⟩ := flip_node e j2 i2 q (1 - r2) (hq.trans e2)
      exact h'.notnode q' (by rw [hq', e1]; exact congrArg (E i2) (by ring))
    · -- `c` is at a half side of the refined neighbour of `c'`
      have hback : i = j2 → False := by
        intro hij
        subst hij
        have hv := h.side.face
        rw [hcc] at hv
        exact hco.no_back hB hi b2 hv h.side.ex h.side.sub
      have hii := E_two i' i2 (by linarith) (by linarith) hz' hc2
      subst hii
      have ht := E_inj i' hz'
      by_cases hrc : r = 0 ∨ r = 1
      · have hC : Corner (E j2 t2) := by rw [← hz, E_corner]; exact hrc
        rw [E_corner] at hC
        have hfin : ∀ Q l, vt B.T (Mesh.side c i) = some (Mesh.side (child P2 Q) l) → ∀ b3, Q = halfCell j2 b3 → False := by
          intro Q l hv b3 hQ
          subst hQ
          rw [h.side.face] at hv
          obtain ⟨h1, _⟩ := side_inj (Option.some.inj hv)
          have := hco.bal hi hR.bal b3
          rw [← h1, h.side.kids] at this
          cases this
        have hcorner : ∀ (i j : Fin 4) (r t : ℚ), (r = 0 ∨ r = 1) → (t = 0 ∨ t = 1) → E i r = E j t →
            i = j ∨ (t = 1 ∧ i = j + 1) ∨ (t = 0 ∧ i = j + 3) := by
          rintro i j r t (rfl | rfl) (rfl | rfl) hE <;> revert hE <;> revert i j <;> decide +kernel
        rcases hcorner i j2 r t2 hrc hC hz with h1 | ⟨h1, h2⟩ | ⟨h1, h2⟩
        · exact hback h1
        · -- the end of the half side: must be the first half
          cases b2
          · subst h2
            have := (inner_vt B.T P2 j2).1
            rw [← hcc] at this
            exact hfin _ _ this true rfl
          · exfalso
            rw [h1] at ht
            simp only [if_true] at ht
            exact hc2 (by left; linarith)
        · cases b2
          · exfalso
            rw [h1] at ht
            simp only [Bool.false_eq_true, if_false] at ht
            exact hc2 (by right; linarith)
          · subst h2
            have := (inner_vt B.T P2 j2).2
            rw [← hcc] at this
            exact hfin _ _ this false rfl
      · exact hback (E_two i j2 hr01.1 hr01.2 hz hrc)
  · by_cases hrc : Corner (E i r)
    · exact hnc (corner_down hB hl hin hin' hS hrc)
    · rcases meet hB hi hR.flag hR.bal h.side.leaf h'.side.leaf hl hin hin' hS hrc with
        ⟨_, h2⟩ | hg | ⟨i2, j2, P2, b2, t2, hco, hcc, s0, s1, hz, hz'⟩
      · exact h'.notnode q (hq.trans h2.symm)
      · obtain ⟨i2, j2, r2, _, _, hv, e1, e2⟩ := hg
        simp only at e1 e2
        obtain ⟨q', hq'⟩ := flip_node e i2 j2 q r2 (hq.trans e1)
        exact h'.notnode q' (by rw [hq', e2])
      · have := E_two i' j2 (by linarith) (by linarith) hz hc2
        subst this
        subst hcc
        exact hco.no_back hB hi b2 h'.side.face h'.side.ex h'.side.sub

/-- (General form.) no chains: supporting dofs are not themselves constrained (so one pass resolves all constraints). -/
theorem Rdy.no_chain (hB : B.WF) (he : torn e = false) (hR : Rdy B e sf s D)
    {H C : List (Linsys.Con F)} (h : setHanging sf s e D [] = some (H, C)) (x : Linsys.Con F) (hx : x ∈ H) (y : Nat × F) (hy : y ∈ x.supp)
    (w : Linsys.Con F) (hw : w ∈ H) : y.1 ≠ w.dof := by
  obtain ⟨_, _, h3⟩ := setHanging_rdy hB he hR h
  obtain ⟨c, i, P, j, b, m, a, g, rfl⟩ := (h3 x).1 hx
  obtain ⟨c', i', P', j', b', m', a', g', rfl⟩ := (h3 w).1 hw
  obtain ⟨k, hk, hyk⟩ := supp_node he hy
  intro heq
  obtain ⟨d, hd⟩ := Option.ne_none_iff_exists'.1 (hR.val g.side.ex g.side.sub _ (side_node e he j k hk).1)
  refine g.no_chain g' hB he hR k hk ?_
  rw [hyk] at heq
  simp only [dofAt, hd, Option.getD_some] at heq
  rw [hd, heq]
  rfl

/-- (General form.) the constraints a new dof handler gets are well-formed (the hypothesis of C37 and C38), together with any
Dirichlet values at dofs that do not hang. -/
theorem Rdy.well_formed (hB : B.WF) (he : torn e = false) (hR : Rdy B e sf s D)
    {H C : List (Linsys.Con F)} (h : setHanging sf s e D [] = some (H, C)) (ds : List (Linsys.Con F)) (h1 : ∀ c ∈ ds, c.dof < D.count)
    (h2 : ∀ c ∈ ds, c.supp = []) (h3 : ∀ c ∈ H, ∀ c' ∈ ds, c.dof ≠ c'.dof)
    (h4 : ∀ c ∈ ds, ∀ c' ∈ ds, c.dof = c'.dof → c.aff = c'.aff) : WellFormed D.count C ds := by
  obtain ⟨hHC, hnd, h5⟩ := setHanging_rdy hB he hR h
  subst hHC
  have hlt : ∀ c p a, p < nd2 e → val D c p = some a → a < D.count := hR.lt
  refine ⟨?_, ?_, ?_, h2, hnd, h3, ?_, h4⟩
  · intro c hc
    rcases List.mem_append.1 hc with hc | hc
    · obtain ⟨c, i, P, j, b, m, a, g, rfl⟩ := (h5 c).1 hc
      exact hlt _ _ _ (side_node e he j m g.lt).1 g.dof
    · exact h1 c hc
  · intro c hc y hy
    obtain ⟨c, i, P, j, b, m, a, g, rfl⟩ := (h5 c).1 hc
    obtain ⟨k, hk, hyk⟩ := supp_node he hy
    obtain ⟨d, hd⟩ := Option.ne_none_iff_exists'.1 (hR.val g.side.ex g.side.sub _ (side_node e he j k hk).1)
    have := hlt _ _ _ (side_node e he j k hk).1 hd
    rw [hyk]
    unfold dofAt
    rw [hd]
    exact this
  · intro c hc
    obtain ⟨c, i, P, j, b, m, a, g, rfl⟩ := (h5 c).1 hc
    rfl
  · intro c hc y hy c' hc'
    exact Rdy.no_chain hB he hR h c hc y hy c' hc'

/-- (General form.) from the mesh to the solver: whatever `solve_system` stores for a new system on a balanced mesh, with Dirichlet values
at dofs that do not hang, is a single-valued function in every column. -/
theorem Rdy.solution_continuous (hB : B.WF) (he : torn e = false) (hR : Rdy B e sf s D)
    {H C : List (Linsys.Con F)} (h : setHanging sf s e D [] = some (H, C)) (ds : List (Linsys.Con F)) (h1 : ∀ c ∈ ds, c.dof < D.count)
    (h2 : ∀ c ∈ ds, c.supp = []) (h3 : ∀ c ∈ H, ∀ c' ∈ ds, c.dof ≠ c'.dof)
    (h4 : ∀ c ∈ ds, ∀ c' ∈ ds, c.dof = c'.dof → c.aff = c'.aff) {k : Nat}
    (A : Matrix (Fin D.count) (Fin D.count) F) (b0 : Option (Matrix (Fin D.count) (Fin k) F))
    (b : Matrix (Fin D.count) (Fin k) F) (bopt : Option (Matrix (Fin D.count) (Fin k) F)) (factor : Bool)
    (hbo : bopt = some b ∨ (bopt = none ∧ b0 = some b)) (s' : Linsys.St F D.count k)
    (hs' : Linsys.Solve (Linsys.init (List.range D.count) (C ++ ds) A b0) bopt factor s') :
    ∃ u, s'.u = some u ∧ ∀ l, Single B sf s e D (Linsys.colOf u l) := by
  have W := Rdy.well_formed hB he hR h ds h1 h2 h3 h4
  obtain ⟨u, g1, g2⟩ := Linsys.C37_constraints W A b0 b bopt factor hbo s' hs'
  have hHC := (setHanging_rdy hB he hR h).1
  refine ⟨u, g1, fun l => Rdy.implies_continuous hB he hR h _ (fun c hc => g2 l c ?_)⟩
  rw [hHC] at hc
  exact List.mem_append_left _ hc

/-! ### Meshes without periodic sides -/

/-- C34 provides what the proofs above need. -/
theorem Ready.rdyF (h : Ready B e sf s D) (hB : B.WF) : RdyF B e sf s D :=
  ⟨h.uses.uses.reach.inv hB, h.flag, h.bal, h.full⟩

theorem Ready.rdy (h : Ready B e sf s D) (hB : B.WF) (hP : Plain B) (he : torn e = false) : Rdy B e sf s D :=
  ⟨h.rdyF hB, fun c c' p p' a a' hp hp' ha ha' => C34_shared hB hP he h.uses c c' p p' a a' hp hp' ha ha',
    fun c p a hp hv => (h.uses.uses.snd hB hP).2.1.lt (c, ⟨p, hp⟩) a hv⟩

/-- What `set_hanging_nodes` returns for a new dof handler. -/
theorem setHanging_spec (hB : B.WF) (hP : Plain B) (he : torn e = false) (hR : Ready B e sf s D) {H C : List (Linsys.Con F)}
    (h : setHanging sf s e D [] = some (H, C)) : H = C ∧ (H.map (·.dof)).Nodup ∧
      ∀ x, x ∈ H ↔ ∃ c i P j b m a, Hangs B e sf s D c i P j b m a ∧ x = conOf F e D P j (halfT e b m) a :=
  setHanging_rdy hB he (hR.rdy hB hP he) h

/-- The situation of the theorems arises: on a balanced mesh `distribute_dofs` makes it. -/
theorem ready_of_distribute (hB : B.WF) (hP : Plain B) {D' : DH} (hu : UsesFixed B e s D) (hf : sf = false ∨ RootedFlag B s)
    (hb : isBalanced sf s = true) (n : Nat) (hn : 4 * s.cells.length ≤ n) (hd : distributeDofs sf B.n s e n D = some D') :
    Ready B e sf s D' :=
  ⟨.dist s D D' sf n hu hf hn hd, hf, hb, fun c hc hm p hp => by
    obtain ⟨a, ha⟩ := C34_complete hB hP hu.uses sf n hn hd c hc hm p hp
    rw [ha]; simp⟩

/-- C62, no failure: `set_hanging_nodes` returns. -/
theorem C62_succeeds (hB : B.WF) (hR : Ready B e sf s D) (hf : sf = false ∨ FullFlag s)
    (old : List (Linsys.Con F)) : ∃ r, setHanging sf s e D old = some r :=
  RdyF.succeeds hB (hR.rdyF hB) hf old

/-- C62, main statement: the dof values satisfy the hanging node constraints exactly if the finite element function they
define is single-valued on the whole (sub)mesh. -/
theorem C62_continuous (hB : B.WF) (hP : Plain B) (he : torn e = false) (hR : Ready B e sf s D) (hf : sf = false ∨ FullFlag s)
    {H C : List (Linsys.Con F)} (h : setHanging sf s e D [] = some (H, C)) (U : Nat → F) : Feasible H U ↔ Single B sf s e D U :=
  Rdy.continuous hB he (hR.rdy hB hP he) hf h U

/-- The constraints imply continuity also if only some children of a cell belong to the submesh. -/
theorem C62_implies_continuous (hB : B.WF) (hP : Plain B) (he : torn e = false) (hR : Ready B e sf s D)
    {H C : List (Linsys.Con F)} (h : setHanging sf s e D [] = some (H, C)) (U : Nat → F) (hU : Feasible H U) :
    Single B sf s e D U :=
  Rdy.implies_continuous hB he (hR.rdy hB hP he) h U hU

/-- C62, which dofs are constrained: a dof of a leaf is constrained exactly if its node is a point of a leaf at which
that leaf has no node. -/
theorem C62_hanging (hB : B.WF) (hP : Plain B) (he : torn e = false) (hR : Ready B e sf s D)
    {H C : List (Linsys.Con F)} (h : setHanging sf s e D [] = some (H, C)) (c' : CN) (hc' : c' ∈ leaves sf s) (p a : Nat)
    (hp : p < nd2 e) (ha : val D c' p = some a) : (∃ x ∈ H, x.dof = a) ↔
      ∃ c ∈ leaves sf s, ∃ z : ℚ × ℚ, InSq z ∧ SamePt B (rootPt c z) (rootPt c' (node e p)) ∧ ∀ q < nd2 e, node e q ≠ z :=
  Rdy.hanging hB he (hR.rdy hB hP he) h c' hc' p a hp ha

/-- C62, no chains: supporting dofs are not themselves constrained (so one pass resolves all constraints). -/
theorem C62_no_chain (hB : B.WF) (hP : Plain B) (he : torn e = false) (hR : Ready B e sf s D)
    {H C : List (Linsys.Con F)} (h : setHanging sf s e D [] = some (H, C)) (x : Linsys.Con F) (hx : x ∈ H) (y : Nat × F) (hy : y ∈ x.supp)
    (w : Linsys.Con F) (hw : w ∈ H) : y.1 ≠ w.dof :=
  Rdy.no_chain hB he (hR.rdy hB hP he) h x hx y hy w hw

/-- C62: the constraints a new dof handler gets are well-formed (the hypothesis of C37 and C38), together with any
Dirichlet values at dofs that do not hang. -/
theorem C62_well_formed (hB : B.WF) (hP : Plain B) (he : torn e = false) (hR : Ready B e sf s D)
    {H C : List (Linsys.Con F)} (h : setHanging sf s e D [] = some (H, C)) (ds : List (Linsys.Con F)) (h1 : ∀ c ∈ ds, c.dof < D.count)
    (h2 : ∀ c ∈ ds, c.supp = []) (h3 : ∀ c ∈ H, ∀ c' ∈ ds, c.dof ≠ c'.dof)
    (h4 : ∀ c ∈ ds, ∀ c' ∈ ds, c.dof = c'.dof → c.aff = c'.aff) : WellFormed D.count C ds :=
  Rdy.well_formed hB he (hR.rdy hB hP he) h ds h1 h2 h3 h4

/-- C62, from the mesh to the solver: whatever `solve_system` stores for a new system on a balanced mesh, with Dirichlet values
at dofs that do not hang, is a single-valued function in every column. -/
theorem C62_solution_continuous (hB : B.WF) (hP : Plain B) (he : torn e = false) (hR : Ready B e sf s D)
    {H C : List (Linsys.Con F)} (h : setHanging sf s e D [] = some (H, C)) (ds : List (Linsys.Con F)) (h1 : ∀ c ∈ ds, c.dof < D.count)
    (h2 : ∀ c ∈ ds, c.supp = []) (h3 : ∀ c ∈ H, ∀ c' ∈ ds, c.dof ≠ c'.dof)
    (h4 : ∀ c ∈ ds, ∀ c' ∈ ds, c.dof = c'.dof → c.aff = c'.aff) {k : Nat}
    (A : Matrix (Fin D.count) (Fin D.count) F) (b0 : Option (Matrix (Fin D.count) (Fin k) F))
    (b : Matrix (Fin D.count) (Fin k) F) (bopt : Option (Matrix (Fin D.count) (Fin k) F)) (factor : Bool)
    (hbo : bopt = some b ∨ (bopt = none ∧ b0 = some b)) (s' : Linsys.St F D.count k)
    (hs' : Linsys.Solve (Linsys.init (List.range D.count) (C ++ ds) A b0) bopt factor s') :
    ∃ u, s'.u = some u ∧ ∀ l, Single B sf s e D (Linsys.colOf u l) :=
  Rdy.solution_continuous hB he (hR.rdy hB hP he) h ds h1 h2 h3 h4 A b0 b bopt factor hbo s' hs'

end
end Verif.Dof
