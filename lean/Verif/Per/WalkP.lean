import Verif.Per.Around

/-!
# `cell.get_neighbors(vertex)` on periodic meshes
-/

namespace Verif.Per
open Verif.Fem Verif.Mesh Verif.Dof

theorem run_reach {α : Type} [DecidableEq α] {φ : α → Option α} {x : α} : ∀ (n : Nat) (y : α) (l : List α) (b : Bool),
    run φ x n y = some (l, b) → ∀ z ∈ l, Relation.EqvGen (fun a b => φ a = some b) y z := by
  intro n
  induction n with
  | zero => intro y l b h; cases h
  | succ n ih =>
    intro y l b h
    unfold run at h
    rcases hz : φ y with _ | z
    · rw [hz] at h; cases h; simp
    · rw [hz] at h
      simp only at h
      split_ifs at h with hzx
      · cases h; simp
      · obtain ⟨⟨l', b'⟩, hr, e⟩ := Option.map_eq_some_iff.1 h
        simp only [Prod.mk.injEq] at e
        obtain ⟨rfl, rfl⟩ := e
        intro w hw
        rcases List.mem_cons.1 hw with rfl | hw
        · exact .rel _ _ hz
        · exact .trans _ z _ (.rel _ _ hz) (ih z l' b' hr w hw)

section
set_option linter.unusedSectionVars false
variable {K : Type} [Field K] {B : Base K} {s : St K} {pr : Pairs}

theorem Co.refl {y : CN × Fin 4} (hy : CEx B.n s.kids y.1) : Co B s y y := ⟨hy, rfl, rfl⟩

theorem step_co (hB : B.WF) (hN : Nice B) (hi : CInv B s) {x y z : CN × Fin 4} (hy : Co B s x y)
    (h : fwd B s y = some z ∨ bwd B s y = some z) : Co B s x z := by
  have hG := geoP hB hN hi
  rcases h with h | h
  · obtain ⟨h1, h2, h3⟩ := (fwd_iff y z).1 h
    have hsw := (hG.swap _ _ _ _ h1 h2 h3).2
    have hl := vt_level _ _ h3
    rw [owner_side, owner_side] at hl
    rw [fin4_l] at hsw
    exact ⟨h2, hl.symm.trans hy.2.1, hy.2.2.trans hsw⟩
  · obtain ⟨h1, h2, h3⟩ := (bwd_iff y z).1 h
    have hsw := (hG.swap _ _ _ _ h1 h2 h3).1
    have hl := vt_level _ _ h3
    rw [owner_side, owner_side] at hl
    rw [fin4_l] at hsw
    exact ⟨h2, hl.symm.trans hy.2.1, hy.2.2.trans hsw⟩

theorem conn_co (hB : B.WF) (hN : Nice B) (hi : CInv B s) {x : CN × Fin 4} (hx : CEx B.n s.kids x.1) {z : CN × Fin 4}
    (h : Relation.EqvGen (fun a b => fwd B s a = some b) x z) : Co B s x z := by
  have key : ∀ a b, Relation.EqvGen (fun a b => fwd B s a = some b) a b → (Co B s x a ↔ Co B s x b) := by
    intro a b h
    induction h with
    | rel a b h =>
      exact ⟨fun ha => step_co hB hN hi ha (.inl h), fun hb => step_co hB hN hi hb (.inr ((fwd_bwd hB _ _).1 h))⟩
    | refl a => exact Iff.rfl
    | symm a b _ ih => exact ih.symm
    | trans a b c _ _ ih1 ih2 => exact ih1.trans ih2
  exact (key x z h).1 (Co.refl hx)

/-- A vertex at the point of corner `i` of a cell that is the vertex of corner `j`: `j` is `i`. -/
theorem at_vert (hB : B.WF) (hN : Nice B) (hs : MReach B s) {c : CN} (hc : CEx B.n s.kids c) {i j : Fin 4}
    (h : At B (vert s c j) (rootPt c (E i 0))) : j = i := by
  have h1 := vert_at hB hs hc j
  exact corners_distinct hB hN c.2 c.1 (CEx_root (hs.inv hB) hc) j i (At.uniq hN h1 h)

theorem incP_eq (hB : B.WF) (hN : Nice B) (hs : MReach B s) {c : CN} (hc : CEx B.n s.kids c) {i : Fin 4} {v : VN}
    (hv : At B v (rootPt c (E i 0))) (rev : Bool) :
    incident s c v rev = if v = vert s c i then some (side c (if rev then i else i + 3)) else none := by
  have hi := hs.inv hB
  unfold incident
  rw [hi.sides c hc]
  by_cases hvi : v = vert s c i
  · rw [if_pos hvi]
    refine find_four_map (side c) _ _ ?_
    intro j
    obtain ⟨r, h1, h2, h3⟩ := vert_eq hi hc j
    cases rev
    · simp only [Bool.false_eq_true, if_false, headOf, h1, Option.map_some, decide_eq_true_eq, Option.some.injEq]
      rw [← h3]
      constructor
      · intro h
        have := at_vert hB hN hs hc (h ▸ hv)
        rw [← this]
        clear * -; revert j; decide
      · rintro rfl
        rw [fin4_l, hvi]
    · simp only [if_true, baseOf, h1, Option.map_some, decide_eq_true_eq, Option.some.injEq]
      rw [← h2]
      constructor
      · intro h; exact at_vert hB hN hs hc (h ▸ hv)
      · rintro rfl; exact hvi.symm
  · rw [if_neg hvi, List.find?_eq_none]
    intro h hh
    obtain ⟨j, _, rfl⟩ := List.mem_map.1 hh
    obtain ⟨r, h1, h2, h3⟩ := vert_eq hi hc j
    cases rev
    · simp only [Bool.false_eq_true, if_false, headOf, h1, Option.map_some, decide_eq_true_eq, Option.some.injEq]
      rw [← h3]
      intro h
      have := at_vert hB hN hs hc (h ▸ hv)
      exact hvi (by rw [← this, h])
    · simp only [if_true, baseOf, h1, Option.map_some, decide_eq_true_eq, Option.some.injEq]
      rw [← h2]
      intro h
      have := at_vert hB hN hs hc (h ▸ hv)
      exact hvi (by rw [← this, h])

theorem piv_at (hB : B.WF) (hs : MReach B s) (hS : Sound B s pr) {v : VN} {p : Nat × (ℚ × ℚ)} (hv : At B v p) (d : CN) :
    At B (piv pr v d) p := by
  unfold piv
  rcases h : (pr v).find? (fun y => decide (y.1 = d)) with _ | y
  · rw [h]; exact hv
  · obtain ⟨hc, j, e, h2⟩ := hS v y (List.mem_of_find?_eq_some h)
    rw [h]
    simp only
    rw [e]
    exact (vert_at hB hs hc j).same (SamePt.symm' (h2 p hv))

theorem piv_eq (hB : B.WF) (hN : Nice B) (hs : MReach B s) (hS : Sound B s pr) {v : VN} {z : CN × Fin 4}
    (hv : At B v (rootPt z.1 (E z.2 0)))
    (h : (z.1, vert s z.1 z.2) ∈ pr v ∨ pr v = [] ∧ vert s z.1 z.2 = v) : piv pr v z.1 = vert s z.1 z.2 := by
  unfold piv
  rcases h with h | ⟨h, h'⟩
  · rcases hf : (pr v).find? (fun y => decide (y.1 = z.1)) with _ | y
    · have := List.find?_eq_none.1 hf _ h
      simp at this
    · have h1 := List.find?_some hf
      simp only [decide_eq_true_eq] at h1
      obtain ⟨hc, j, e, h2⟩ := hS v y (List.mem_of_find?_eq_some hf)
      rw [hf]
      simp only
      rw [e, h1]
      rw [h1] at hc h2
      have := corners_distinct hB hN z.1.2 z.1.1 (CEx_root (hs.inv hB) hc) z.2 j (h2 _ hv)
      rw [this]
  · rw [h]
    exact h'.symm

/-- The steps of the walk. -/
noncomputable def stp (B : Base K) (s : St K) (rev : Bool) : CN × Fin 4 → Option (CN × Fin 4) := if rev then bwd B s else fwd B s

/-- The loops of `get_neighbors(vertex)` find corners at the point; if the pivot follows the corners, they find all. -/
theorem walkP_run (hB : B.WF) (hN : Nice B) (hs : MReach B s) (hS : Sound B s pr) (x : CN × Fin 4) (hx : CEx B.n s.kids x.1)
    (rev : Bool) : ∀ (n : Nat) (y : CN × Fin 4) (v : VN) (l : List (CN × Fin 4)) (b : Bool), Co B s x y →
      At B v (rootPt y.1 (E y.2 0)) → run (stp B s rev) x n y = some (l, b) →
      ∃ l' b' v', walkP s pr x.1 rev n y.1 v = some (l'.map Prod.fst, b', v') ∧ (∀ z ∈ l', z ∈ l) ∧
        At B v' (rootPt x.1 (E x.2 0)) ∧
        ((∀ u z, Co B s x u → stp B s rev u = some z → piv pr (vert s u.1 u.2) z.1 = vert s z.1 z.2) → v = vert s y.1 y.2 →
          l' = l ∧ b' = b ∧ ∃ u ∈ y :: l, v' = vert s u.1 u.2) := by
  have hi := hs.inv hB
  intro n
  induction n with
  | zero => intro y v l b _ _ h; cases h
  | succ n ih =>
    intro y v l b hy hv hrun
    have hyx := hy.1
    have hex : (s.he (side y.1 (if rev then y.2 else y.2 + 3))).isSome := by rw [hi.ex, owner_side]; exact hyx
    have hstep : ∀ d, getNb false s (side y.1 (if rev then y.2 else y.2 + 3)) = some d ↔
        ∃ j, stp B s rev y = some (d, j) := by
      intro d
      rw [getNb_iff hi false hex]
      unfold stp
      cases rev
      · simp only [Bool.false_eq_true, if_false, fwd_iff]
        constructor
        · rintro ⟨t, h1, rfl, h3, _⟩
          exact ⟨(owner t).2, hyx, h3, by rw [side_owner]; exact h1⟩
        · rintro ⟨j, _, h2, h3⟩
          exact ⟨_, h3, by rw [owner_side], h2, .inl trivial⟩
      · simp only [if_true, bwd_iff]
        constructor
        · rintro ⟨t, h1, rfl, h3, _⟩
          refine ⟨(owner t).2 + 1, hyx, h3, ?_⟩
          rw [fin4_h, side_owner]; exact h1
        · rintro ⟨j, _, h2, h3⟩
          exact ⟨_, h3, by rw [owner_side], h2, .inl trivial⟩
    have hvx : At B v (rootPt x.1 (E x.2 0)) := hv.same (SamePt.symm' (cls_iff.1 hy.2.2))
    unfold walkP
    rw [incP_eq hB hN hs hyx hv]
    by_cases hvy : v = vert s y.1 y.2
    · rw [if_pos hvy]
      simp only [Option.bind_some]
      unfold run at hrun
      rcases hφ : stp B s rev y with _ | z
      · rw [hφ] at hrun
        cases hrun
        have : getNb false s (side y.1 (if rev then y.2 else y.2 + 3)) = none := by
          rw [Option.eq_none_iff_forall_ne_some]
          intro d hd
          obtain ⟨j, hj⟩ := (hstep d).1 hd
          rw [hφ] at hj; cases hj
        rw [this]
        exact ⟨[], false, v, rfl, by simp, hvx, fun _ _ => ⟨rfl, rfl, y, by simp, hvy⟩⟩
      · rw [hφ] at hrun
        simp only at hrun
        have hd : getNb false s (side y.1 (if rev then y.2 else y.2 + 3)) = some z.1 := (hstep z.1).2 ⟨z.2, hφ⟩
        rw [hd]
        simp only
        have hzco : Co B s x z := by
          refine step_co hB hN hi hy ?_
          unfold stp at hφ
          cases rev
          · exact .inl hφ
          · exact .inr hφ
        have heq : z.1 = x.1 ↔ z = x := by
          constructor
          · intro h
            refine Prod.ext h ?_
            have := cls_iff.1 hzco.2.2
            rw [h] at this
            exact (corners_distinct hB hN _ _ (CEx_root hi hx) _ _ this).symm
          · intro h; rw [h]
        by_cases hz : z = x
        · rw [if_pos hz] at hrun
          cases hrun
          rw [if_pos (heq.2 hz)]
          exact ⟨[], true, v, rfl, by simp, hvx, fun _ _ => ⟨rfl, rfl, y, by simp, hvy⟩⟩
        · rw [if_neg hz] at hrun
          obtain ⟨⟨l1, b1⟩, hr, e⟩ := Option.map_eq_some_iff.1 hrun
          simp only [Prod.mk.injEq] at e
          obtain ⟨rfl, rfl⟩ := e
          rw [if_neg (fun h => hz (heq.1 h))]
          have hvz : At B (piv pr v z.1) (rootPt z.1 (E z.2 0)) :=
            piv_at hB hs hS (hvx.same (cls_iff.1 hzco.2.2)) z.1
          obtain ⟨l', b', v', h1, h2, h3, h4⟩ := ih z (piv pr v z.1) l1 b1 hzco hvz hr
          refine ⟨z :: l', b', v', by rw [h1]; rfl, ?_, h3, ?_⟩
          · intro u hu
            rcases List.mem_cons.1 hu with rfl | hu
            · simp
            · exact List.mem_cons_of_mem _ (h2 u hu)
          · intro ht _
            obtain ⟨g1, g2, u, g3, g4⟩ := h4 ht (by rw [hvy]; exact ht y z hy hφ)
            exact ⟨by rw [g1], g2, u, List.mem_cons_of_mem _ g3, g4⟩
    · rw [if_neg hvy]
      exact ⟨[], false, v, rfl, by simp, hvx, fun _ h => absurd h hvy⟩

/-- `get_neighbors(vertex)` on a periodic mesh returns corners at the vertex; all of them if the corner is no corner of the parent. -/
theorem nbsP_spec (hB : B.WF) (hO : PerOk B) (hs : MReach B s) (hp : PInv B s pr) (c : CN) (i : Fin 4)
    (hc : CEx B.n s.kids c) (n : Nat) (hn : 4 * s.cells.length ≤ n) :
    ∃ l : List (CN × Fin 4), nbsP s pr n c (vert s c i) = some (l.map Prod.fst) ∧ (c, i) ∉ l ∧
      (∀ z ∈ l, Relation.EqvGen (fun a b => fwd B s a = some b) (c, i) z) ∧
      (TopPl (c, i) → ∀ u ∈ (c, i) :: l, ∀ z, fwd B s u = some z ∨ bwd B s u = some z → z ∈ (c, i) :: l) := by
  have hi := hs.inv hB
  have hN := hO.toNice
  have hsome : (orbit (fwd B s) (bwd B s) n (c, i)).isSome := by
    refine orbit_some (fwd_bwd hB) (s.cells.toFinset ×ˢ Finset.univ) ?_ ?_ ?_
    · simp [(hi.mem c).2 hc]
    · intro u z _ h
      simp only [Finset.mem_product, List.mem_toFinset, Finset.mem_univ, and_true]
      rcases h with h | h
      · exact (hi.mem _).2 ((fwd_iff u z).1 h).2.1
      · exact (hi.mem _).2 ((bwd_iff u z).1 h).2.1
    · rw [Finset.card_product, Finset.card_univ, Fintype.card_fin]
      have := List.toFinset_card_le s.cells
      omega
  have hsome' : (orbit (bwd B s) (fwd B s) n (c, i)).isSome := by
    refine orbit_some (fun u z => (fwd_bwd hB z u).symm) (s.cells.toFinset ×ˢ Finset.univ) ?_ ?_ ?_
    · simp [(hi.mem c).2 hc]
    · intro u z _ h
      simp only [Finset.mem_product, List.mem_toFinset, Finset.mem_univ, and_true]
      rcases h with h | h
      · exact (hi.mem _).2 ((bwd_iff u z).1 h).2.1
      · exact (hi.mem _).2 ((fwd_iff u z).1 h).2.1
    · rw [Finset.card_product, Finset.card_univ, Fintype.card_fin]
      have := List.toFinset_card_le s.cells
      omega
  obtain ⟨L, hL⟩ := Option.isSome_iff_exists.1 hsome
  obtain ⟨o1, o2, o3⟩ := orbit_spec (fwd_bwd hB) hL
  -- the two walks along the corners
  obtain ⟨l1, b1, r1⟩ : ∃ l1 b1, run (stp B s false) (c, i) n (c, i) = some (l1, b1) := by
    unfold orbit at hL
    rcases h : run (fwd B s) (c, i) n (c, i) with _ | ⟨l, b⟩
    · rw [h] at hL; cases hL
    · exact ⟨l, b, h⟩
  obtain ⟨l2, b2, r2⟩ : ∃ l2 b2, run (stp B s true) (c, i) n (c, i) = some (l2, b2) := by
    obtain ⟨L', hL'⟩ := Option.isSome_iff_exists.1 hsome'
    unfold orbit at hL'
    rcases h : run (bwd B s) (c, i) n (c, i) with _ | ⟨l, b⟩
    · rw [h] at hL'; cases hL'
    · exact ⟨l, b, h⟩
  have f1 : ∀ z ∈ l1, z ≠ (c, i) ∧ Relation.EqvGen (fun a b => fwd B s a = some b) (c, i) z :=
    fun z hz => ⟨((run_spec _ _ _ _ r1).2.1 z hz).1, run_reach _ _ _ _ r1 z hz⟩
  have f2 : ∀ z ∈ l2, z ≠ (c, i) ∧ Relation.EqvGen (fun a b => fwd B s a = some b) (c, i) z := by
    intro z hz
    refine ⟨((run_spec _ _ _ _ r2).2.1 z hz).1, ?_⟩
    have key : ∀ a b, Relation.EqvGen (fun a b => stp B s true a = some b) a b →
        Relation.EqvGen (fun a b => fwd B s a = some b) a b := by
      intro a b h
      induction h with
      | rel a b h => exact .symm _ _ (.rel _ _ ((fwd_bwd hB b a).2 h))
      | refl a => exact .refl _
      | symm a b _ ih => exact ih.symm
      | trans a b c _ _ ih1 ih2 => exact ih1.trans _ _ _ ih2
    exact key _ _ (run_reach _ _ _ _ r2 z hz)
  have hv := vert_at hB hs hc i
  obtain ⟨k1, d1, v1, w1, w2, w3, w4⟩ := walkP_run hB hN hs hp.sound (c, i) hc false n (c, i) (vert s c i) l1 b1 (Co.refl hc) hv r1
  obtain ⟨k2, d2, v2, u1, u2, u3, u4⟩ := walkP_run hB hN hs hp.sound (c, i) hc true n (c, i) v1 l2 b2 (Co.refl hc) w3 r2
  simp only at w1 u1
  have sound : ∀ z, z ∈ k1 ∨ z ∈ k2 → z ≠ (c, i) ∧ Relation.EqvGen (fun a b => fwd B s a = some b) (c, i) z := by
    rintro z (h | h)
    · exact f1 z (w2 z h)
    · exact f2 z (u2 z h)
  -- what is found
  obtain ⟨l, hl, hl1, hl2⟩ : ∃ l : List (CN × Fin 4), nbsP s pr n c (vert s c i) = some (l.map Prod.fst) ∧
      (∀ z ∈ l, z ∈ k1 ∨ z ∈ k2) ∧ (TopPl (c, i) → l = L) := by
    have hfull : TopPl (c, i) → k1 = l1 ∧ d1 = b1 ∧ (b1 = false → k2 = l2 ∧ (d2 = b2 ∨ k2 = [])) := by
      intro ht
      have track : ∀ rev u z, Co B s (c, i) u → stp B s rev u = some z → piv pr (vert s u.1 u.2) z.1 = vert s z.1 z.2 := by
        intro rev u z hu hz
        have hstep : fwd B s u = some z ∨ bwd B s u = some z := by
          unfold stp at hz
          cases rev
          · exact .inl hz
          · exact .inr hz
        -- the corner `u` is no corner of the parent either
        have hut : TopPl u := by
          rcases ht with ht | ⟨c', k, e1, e2⟩
          · left
            have := hu.2.1
            simp only [level] at this
            simp only at ht
            rw [ht] at this
            exact List.eq_nil_of_length_eq_zero this
          · right
            simp only at e1 e2
            subst e1
            obtain ⟨c'', k'', e3, h⟩ := hu.par hB e2
            refine ⟨c'', k'', e3, ?_⟩
            intro e4
            rw [e4] at h
            have hcor : Corner (emb k'' (E k'' (0 : ℚ))) := by
              rw [emb_k, E_corner]; simp
            rcases h with ⟨_, h⟩ | h
            · exact emb_cor k i e2 (h ▸ hcor)
            · exact emb_cor k i e2 (h.corner.2 hcor)
        have hco : Co B s u z := step_co hB hN hi (Co.refl hu.1) hstep
        exact piv_eq hB hN hs hp.sound ((vert_at hB hs hu.1 u.2).same (cls_iff.1 hco.2.2)) (around hB hO hs hp hut hu.1 hco)
      obtain ⟨t1, t2, u, t3, t4⟩ := w4 (track false) rfl
      refine ⟨t1, t2, fun hb => ?_⟩
      have huco : ∀ u ∈ (c, i) :: l1, Co B s (c, i) u := by
        intro u hu
        rcases List.mem_cons.1 hu with rfl | hu
        · exact Co.refl hc
        · exact conn_co hB hN hi hc (f1 u hu).2
      have done : v1 = vert s c i → k2 = l2 ∧ (d2 = b2 ∨ k2 = []) := by
        intro e
        obtain ⟨g1, g2, _⟩ := u4 (track true) e
        exact ⟨g1, .inl g2⟩
      rcases turn hB hO hs ht hc with h | h | h | h
      · exact done (by rw [t4]; exact h u (huco u t3))
      · obtain ⟨w, hw1, hw2⟩ := (run_spec _ _ _ _ r1).2.2.2 hb
        exact absurd hw2 (h w (huco w hw1))
      · have : l1 = [] := by
          cases n with
          | zero => cases r1
          | succ n =>
            unfold run at r1
            rw [show stp B s false (c, i) = none from h] at r1
            cases r1; rfl
        rw [this] at t3
        exact done (by rw [t4, List.mem_singleton.1 t3])
      · have : l2 = [] := by
          cases n with
          | zero => cases r2
          | succ n =>
            unfold run at r2
            rw [show stp B s true (c, i) = none from h] at r2
            cases r2; rfl
        have hk2 : k2 = [] := by
          rw [List.eq_nil_iff_forall_not_mem]
          intro z hz
          have := u2 z hz
          rw [‹l2 = []›] at this
          cases this
        exact ⟨by rw [hk2, this], .inr hk2⟩
    unfold nbsP
    rw [w1]
    unfold orbit at hL
    rw [show run (fwd B s) (c, i) n (c, i) = some (l1, b1) from r1] at hL
    cases d1 with
    | true =>
      refine ⟨k1, rfl, fun z hz => .inl hz, fun ht => ?_⟩
      obtain ⟨e1, e2, _⟩ := hfull ht
      rw [← e2] at hL
      simp only [Option.some.injEq] at hL
      rw [e1, hL]
    | false =>
      simp only [u1]
      cases d2 with
      | true =>
        refine ⟨k1, rfl, fun z hz => .inl hz, fun ht => ?_⟩
        obtain ⟨e1, e2, e3⟩ := hfull ht
        rw [← e2] at hL
        simp only at hL
        rw [show run (bwd B s) (c, i) n (c, i) = some (l2, b2) from r2] at hL
        obtain ⟨g1, g2⟩ := e3 e2.symm
        rcases g2 with g2 | g2
        · rw [← g2] at hL
          simp only [Option.some.injEq] at hL
          rw [e1, hL]
        · rw [g2] at g1
          rw [← g1] at hL
          cases b2
          · simp only [List.reverse_nil, List.append_nil, Option.some.injEq] at hL
            rw [e1, hL]
          · simp only [Option.some.injEq] at hL
            rw [e1, hL]
      | false =>
        refine ⟨k1 ++ k2.reverse, by simp, fun z hz => by simpa using hz, fun ht => ?_⟩
        obtain ⟨e1, e2, e3⟩ := hfull ht
        rw [← e2] at hL
        simp only at hL
        rw [show run (bwd B s) (c, i) n (c, i) = some (l2, b2) from r2] at hL
        obtain ⟨g1, g2⟩ := e3 e2.symm
        rcases g2 with g2 | g2
        · rw [← g2] at hL
          simp only [Option.some.injEq] at hL
          rw [e1, g1, hL]
        · rw [g2] at g1
          rw [← g1] at hL
          cases b2
          · simp only [List.reverse_nil, List.append_nil, Option.some.injEq] at hL
            rw [e1, g2, ← hL]; simp
          · simp only [Option.some.injEq] at hL
            rw [e1, g2, ← hL]; simp
  refine ⟨l, hl, ?_, fun z hz => (sound z (hl1 z hz)).2, ?_⟩
  · intro h
    exact (sound _ (hl1 _ h)).1 rfl
  · intro ht
    rw [hl2 ht]
    exact o2

end

end Verif.Per
