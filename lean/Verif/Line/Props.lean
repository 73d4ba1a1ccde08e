import Verif.Line.Distribute
import Mathlib.SetTheory.Cardinal.Finite

/-!
# C70: dof numbering on one-dimensional meshes

A mesh is given by the sorted list `xs` of the vertices it was created from; `per`: the mesh is periodic.
`Uses xs per e F D`: the mesh is `F` and the dof handler `D` after some history of refinements, flags and distributions.
-/

namespace Verif.Line
open Verif.Fem Verif.OneD Verif.Geom
open Verif.Dof (Sys Same Top Eff NumInv Done Shared)

/-! ### Specification -/

section
variable {K : Type} [Field K] [LinearOrder K]

/-- The coordinate of node `p` of the cell `c`: `cell.reference_map(reference_nodes)[p]`. -/
def nodeX (F : List (Cell K)) (e : ET) (c : IN) (p : Nat) : Option K :=
  (cellAt F c).bind (fun t => ((nodes1 e)[p]?).map (toPhys t.data))

/-- The same point: equal coordinates, or the two ends of a periodic mesh. -/
def SamePt (xs : List K) (per : Bool) (x y : K) : Prop :=
  x = y ∨ per = true ∧ (xs.head? = some x ∧ xs.getLast? = some y ∨ xs.getLast? = some x ∧ xs.head? = some y)

/-- `c` is an ancestor of `d` (or `d` itself). -/
def Anc (c d : IN) : Prop := ∃ q, d = (c.1, q ++ c.2)

end

section
set_option linter.unusedSectionVars false
variable {K : Type} [Field K] [LinearOrder K] [IsStrictOrderedRing K]
variable {xs : List K} {per : Bool} {e : ET} {F : List (Cell K)} {D : DH}

theorem val_vOf (D : DH) (c : IN) (p : Nat) (hp : p < nd1 e) : val D c p = vOf (e := e) D.dofs (c, ⟨p, hp⟩) := rfl

theorem nodeX_place {N : Nat} {X : Nat → K} (hF : BisL N X F) {c : IN} (hc : Ex F c) (p : Fin (nd1 e)) :
    nodeX F e c p = some (place X (c, p)) := by
  obtain ⟨t, ht⟩ := Option.isSome_iff_exists.1 hc
  obtain ⟨_, _, h3⟩ := cellAt_bis hF ht
  have hlo : t.data.lo = (box X c.1 c.2).1 := congrArg Prod.fst h3
  have hhi : t.data.hi = (box X c.1 c.2).2 := congrArg Prod.snd h3
  have hlen : (nodeTab e).length = nd1 e := by cases e <;> rfl
  have hn : (nodes1 e : List K)[p.1]? = some ((node e p : ℚ) : K) := by
    rw [nodes_tab, List.getElem?_map, List.getElem?_eq_getElem (by rw [hlen]; exact p.2)]
    simp only [Option.map_some, node, List.getD_eq_getElem?_getD]
    rw [List.getElem?_eq_getElem (by rw [hlen]; exact p.2)]
    rfl
  simp only [nodeX, ht, Option.bind_some, hn, Option.map_some, toPhys, place, pos, hlo, hhi]

theorem samePt_iff (hx : xs ≠ []) (x y : K) :
    SamePt xs per x y ↔ PtEq (xs.length - 1) per (fun f => xs.getD f 0) x y := by
  have h0 : ∀ z, xs.head? = some z ↔ z = xs.getD 0 0 := by
    intro z
    obtain ⟨a, l, rfl⟩ := List.exists_cons_of_ne_nil hx
    simp [eq_comm]
  have h1 : ∀ z, xs.getLast? = some z ↔ z = xs.getD (xs.length - 1) 0 := by
    intro z
    have hl : xs.length - 1 < xs.length := by
      have := List.length_pos_of_ne_nil hx; omega
    rw [List.getLast?_eq_getElem?, List.getD_eq_getElem?_getD, List.getElem?_eq_getElem hl]
    simp [eq_comm]
  simp only [SamePt, PtEq, h0, h1]

theorem uses_ne {c : IN} (h : Uses xs per e F D) (hc : Ex F c) : xs ≠ [] := by
  rintro rfl
  have := ex_lt h.bis hc
  simp at this

/-! ### The theorems -/

/-- C70, no failure: `distribute_dofs` returns, after any history of refinements and distributions. -/
theorem C70_terminates (hN : per = true → 3 ≤ xs.length) (h : Uses xs per e F D) (sf : Option Nat) (n : Nat) (hn : nCells F ≤ n) :
    ∃ D', distribute per (inSub sf) e F n D = some D' := by
  have hN' : per = true → 2 ≤ xs.length - 1 := fun hp => by have := hN hp; omega
  obtain ⟨L, l1, l2, l3, l4⟩ := cellsBF_spec h.bis (inSub sf) n hn
  obtain ⟨D', q1, _⟩ := loop_any h.bis hN' e (inSub sf) (fun _ => True) (fun _ _ _ _ _ _ _ _ => trivial) L D
    (fun c hc => (l3 c).1 hc) (h.inv hN').1 trivial
  exact ⟨D', by rw [distribute, l1]; exact q1⟩

/-- C70, completeness: afterwards every cell of the (sub)mesh has all its dofs. -/
theorem C70_complete (hN : per = true → 3 ≤ xs.length) (h : Uses xs per e F D) {D' : DH} (sf : Option Nat) (n : Nat) (hn : nCells F ≤ n)
    (hd : distribute per (inSub sf) e F n D = some D') (c : IN) (t : Cell K) (hc : cellAt F c = some t)
    (hm : inSub sf t.data = true) (p : Nat) (hp : p < nd1 e) : ∃ a, val D' c p = some a := by
  have hN' : per = true → 2 ≤ xs.length - 1 := fun hp => by have := hN hp; omega
  obtain ⟨L, l1, l2, l3, l4⟩ := cellsBF_spec h.bis (inSub sf) n hn
  have hfold := dist_some hd l1
  obtain ⟨D1, q1, _, _, _, q5⟩ := loop_any h.bis hN' e (inSub sf) (fun _ => True) (fun _ _ _ _ _ _ _ _ => trivial) L D
    (fun c hc => (l3 c).1 hc) (h.inv hN').1 trivial
  rw [hfold] at q1
  cases q1
  rw [val_vOf D' c p hp]
  exact Option.ne_none_iff_exists'.1 (q5 c ((l3 c).2 (by simp [mkAt, hc, hm])) ⟨p, hp⟩)

/-- C70, stability: a later `distribute_dofs`, also after refinement and for other flags, never changes a dof. -/
theorem C70_stable (hN : per = true → 3 ≤ xs.length) (h : Uses xs per e F D) {D' : DH} (sf : Option Nat) (n : Nat) (hn : nCells F ≤ n)
    (hd : distribute per (inSub sf) e F n D = some D') (c : IN) (p a : Nat) (hp : p < nd1 e)
    (ha : val D c p = some a) : val D' c p = some a := by
  have hN' : per = true → 2 ≤ xs.length - 1 := fun hp => by have := hN hp; omega
  obtain ⟨L, l1, l2, l3, l4⟩ := cellsBF_spec h.bis (inSub sf) n hn
  have hfold := dist_some hd l1
  obtain ⟨D1, q1, _, _, q4, _⟩ := loop_any h.bis hN' e (inSub sf) (fun _ => True) (fun _ _ _ _ _ _ _ _ => trivial) L D
    (fun c hc => (l3 c).1 hc) (h.inv hN').1 trivial
  rw [hfold] at q1
  cases q1
  exact q4 (c, ⟨p, hp⟩) a ha

/-- C70, numbers: in every history the dofs in use are exactly `0, ..., n_dofs(all_dofs=True) - 1`. -/
theorem C70_numbers_partial (hN : per = true → 3 ≤ xs.length) (h : Uses xs per e F D) (a : Nat) :
    a < D.count ↔ ∃ c, (cellAt F c).isSome ∧ ∃ p < nd1 e, val D c p = some a := by
  have hN' : per = true → 2 ≤ xs.length - 1 := fun hp => by have := hN hp; omega
  obtain ⟨_, hs, hx⟩ := h.inv hN'
  constructor
  · intro ha
    obtain ⟨⟨c, p⟩, hl⟩ := hs.all a ha
    exact ⟨c, hx (c, p) (by rw [hl]; simp), p, p.2, hl⟩
  · rintro ⟨c, _, p, hp, hl⟩
    exact hs.lt (c, ⟨p, hp⟩) a hl

/-- C70, sharing (continuous elements): in every history, refinement between distributions included, two dofs are equal
exactly if their nodes are the same point; the two ends of a periodic mesh count as one point. -/
theorem C70_shared_partial (hx : xs.IsChain (· < ·)) (hN : per = true → 3 ≤ xs.length) (he : torn e = false) (h : Uses xs per e F D)
    (c c' : IN) (p p' a a' : Nat) (hp : p < nd1 e) (hp' : p' < nd1 e) (ha : val D c p = some a) (ha' : val D c' p' = some a') :
    ∃ x x', nodeX F e c p = some x ∧ nodeX F e c' p' = some x' ∧ (a = a' ↔ SamePt xs per x x') := by
  have hN' : per = true → 2 ≤ xs.length - 1 := fun hp => by have := hN hp; omega
  obtain ⟨_, hs, hex⟩ := h.inv hN'
  have hc := hex (c, ⟨p, hp⟩) (by show val D c p ≠ none; rw [ha]; simp)
  have hc' := hex (c', ⟨p', hp'⟩) (by show val D c' p' ≠ none; rw [ha']; simp)
  refine ⟨_, _, nodeX_place h.bis hc ⟨p, hp⟩, nodeX_place h.bis hc' ⟨p', hp'⟩, ?_⟩
  rw [samePt_iff (uses_ne h hc), hs.iff (c, ⟨p, hp⟩) (c', ⟨p', hp'⟩) a a' ha ha']
  have hsys : sysOf hN' e = contSys hN' e he := by unfold sysOf; rw [dif_pos he]
  rw [hsys]
  exact ⟨fun h' => same_sound he (chain_inc hx) hN' h', fun h' => same_complete he (chain_inc hx) hN' (ex_lt h.bis hc) (ex_lt h.bis hc') h'⟩

/-- C70, count (continuous elements): the number of dofs is the number of different points at which the cells have dofs. -/
theorem C70_count_partial (hx : xs.IsChain (· < ·)) (hN : per = true → 3 ≤ xs.length) (he : torn e = false) (h : Uses xs per e F D) :
    Nat.card {x : Quot (SamePt xs per) // ∃ c p y, p < nd1 e ∧ val D c p ≠ none ∧ nodeX F e c p = some y ∧ x = Quot.mk _ y} = D.count := by
  have hN' : per = true → 2 ≤ xs.length - 1 := fun hp => by have := hN hp; omega
  obtain ⟨_, hs, hex⟩ := h.inv hN'
  have hall : ∀ a : Fin D.count, ∃ (l : Loc e) (y : K), vOf D.dofs l = some a.1 ∧ nodeX F e l.1 l.2 = some y := by
    intro a
    obtain ⟨l, hl⟩ := hs.all a a.2
    exact ⟨l, _, hl, nodeX_place h.bis (hex l (by rw [hl]; simp)) l.2⟩
  choose l y hl hy using hall
  have hshare : ∀ (a : Fin D.count) (c : IN) (p b : Nat) (z : K), p < nd1 e → val D c p = some b → nodeX F e c p = some z →
      (a.1 = b ↔ SamePt xs per (y a) z) := by
    intro a c p b z hp hb hz
    obtain ⟨x, x', g1, g2, g3⟩ := C70_shared_partial hx hN he h (l a).1 c (l a).2 p a b (l a).2.2 hp (hl a) hb
    rw [hy] at g1; rw [hz] at g2
    cases g1; cases g2
    exact g3
  let f : Fin D.count → {x : Quot (SamePt xs per) // ∃ c p y, p < nd1 e ∧ val D c p ≠ none ∧ nodeX F e c p = some y ∧ x = Quot.mk _ y} :=
    fun a => ⟨Quot.mk _ (y a), (l a).1, (l a).2, y a, (l a).2.2, by
      show vOf D.dofs (l a) ≠ none
      rw [hl]; simp, hy a, rfl⟩
  have hf : Function.Bijective f := by
    constructor
    · intro a b hab
      have h1 : Quot.mk (SamePt xs per) (y a) = Quot.mk _ (y b) := congrArg Subtype.val hab
      have hne : xs ≠ [] := uses_ne h (hex (l a) (by rw [hl]; simp))
      have heq : Equivalence (SamePt xs per) := by
        have hpe := ptEq_eqv (chain_inc hx) hN'
        refine ⟨fun z => (samePt_iff hne _ _).2 (hpe.refl z), fun h => (samePt_iff hne _ _).2 (hpe.symm ((samePt_iff hne _ _).1 h)),
          fun h h' => (samePt_iff hne _ _).2 (hpe.trans ((samePt_iff hne _ _).1 h) ((samePt_iff hne _ _).1 h'))⟩
      have h2 := (heq.eqvGen_iff).1 (Quot.eqvGen_exact h1)
      exact Fin.ext ((hshare a (l b).1 (l b).2 b (y b) (l b).2.2 (hl b) (hy b)).2 h2)
    · rintro ⟨x, c, p, z, hp, hv, hz, rfl⟩
      obtain ⟨a, ha⟩ := Option.ne_none_iff_exists'.1 hv
      have hlt : a < D.count := hs.lt (c, ⟨p, hp⟩) a ha
      exact ⟨⟨a, hlt⟩, Subtype.ext (Quot.sound ((hshare ⟨a, hlt⟩ c p a z hp ha hz).1 rfl))⟩
  rw [← Nat.card_congr (Equiv.ofBijective f hf), Nat.card_fin]

theorem top_anc {X : Nat → K} {l t : Loc e} (h : Top (tornSys e) l t) : Anc t.1 l.1 ∧ place X l = place X t := by
  induction h with
  | top l _ => exact ⟨⟨[], rfl⟩, rfl⟩
  | up l m t hu _ ih =>
    obtain ⟨⟨q, hq⟩, ih2⟩ := ih
    refine ⟨?_, by rw [← ih2]; exact up_place hu⟩
    obtain ⟨k, h1, _⟩ := upL_some e l m hu
    exact ⟨k :: q, by rw [h1, hq]; rfl⟩

/-- A torn element passes each dof to one child at most, so the places of one dof form a chain. -/
theorem torn_chain (he : torn e = true) : ∀ {l t : Loc e}, Top (tornSys e) l t → ∀ {l' : Loc e}, Top (tornSys e) l' t →
    (Anc l.1 l'.1 ∨ Anc l'.1 l.1) ∧ (l.1 = l'.1 → l = l') := by
  have len : ∀ {l t : Loc e}, Top (tornSys e) l t → t.1.2.length ≤ l.1.2.length := by
    intro l t h
    obtain ⟨⟨q, hq⟩, _⟩ := top_anc (X := fun _ => (0 : ℚ)) h
    rw [hq]; simp
  have key : ∀ (n : Nat) (l l' t : Loc e), l.1.2.length + l'.1.2.length ≤ n → Top (tornSys e) l t → Top (tornSys e) l' t →
      l.1.2.length ≤ l'.1.2.length → ∃ q, l'.1 = (l.1.1, q ++ l.1.2) ∧ (q = [] → l = l') := by
    intro n
    induction n with
    | zero =>
      intro l l' t hn h h' _
      have hl : ∀ l : Loc e, l.1.2.length = 0 → upL e l = none := by
        rintro ⟨⟨f, _ | ⟨k, p⟩⟩, q⟩ h
        · rfl
        · simp at h
      have e1 := h.fun l (.top l (hl l (by omega)))
      have e2 := h'.fun l' (.top l' (hl l' (by omega)))
      subst e1 e2
      exact ⟨[], by simp, fun _ => rfl⟩
    | succ n ih =>
      intro l l' t hn h h' hle
      cases h' with
      | top _ hu' =>
        cases h with
        | top _ _ => exact ⟨[], by simp, fun _ => rfl⟩
        | up _ m _ hu hm =>
          exfalso
          have := len hm
          have := upL_lev e l m hu
          omega
      | up _ m' _ hu' hm' =>
        have hlt' := upL_lev e l' m' hu'
        obtain ⟨k', h1', h2'⟩ := upL_some e l' m' hu'
        have a1 : l'.1.2.length = m'.1.2.length + 1 := by rw [h1']; rfl
        by_cases hlm : l.1.2.length ≤ m'.1.2.length
        · obtain ⟨q, hq, _⟩ := ih l m' t (by omega) h hm' hlm
          exact ⟨k' :: q, by rw [h1', hq]; rfl, fun h => (by cases h)⟩
        · cases h with
          | top _ _ => exact absurd (len hm') hlm
          | up _ m _ hu hm =>
            obtain ⟨k, h1, h2⟩ := upL_some e l m hu
            have a2 : l.1.2.length = m.1.2.length + 1 := by rw [h1]; rfl
            obtain ⟨q, hq, hq2⟩ := ih m m' t (by omega) hm hm' (by omega)
            have hq0 : q = [] := by
              have := congrArg (fun c : IN => c.2.length) hq
              simp only [List.length_append] at this
              exact List.length_eq_zero_iff.1 (by omega)
            have hmeq := hq2 hq0
            subst hmeq
            obtain ⟨hk, hp⟩ := inherit_once e he k k' l.2 l'.2 m.2 h2 h2'
            subst hk
            have : l = l' := Prod.ext (h1.trans h1'.symm) (Fin.ext hp)
            subst this
            exact ⟨[], by simp, fun _ => rfl⟩
  intro l t h l' h'
  have nil : ∀ {c : IN} {q : List (Fin 2)}, c = (c.1, q ++ c.2) → q = [] := by
    intro c q h
    have := congrArg (fun c : IN => c.2.length) h
    simp only [List.length_append] at this
    exact List.length_eq_zero_iff.1 (by omega)
  rcases le_total l.1.2.length l'.1.2.length with hle | hle
  · obtain ⟨q, hq, hq2⟩ := key _ l l' t (le_refl _) h h' hle
    exact ⟨.inl ⟨q, hq⟩, fun heq => hq2 (nil (by rw [← heq] at hq; exact hq))⟩
  · obtain ⟨q, hq, hq2⟩ := key _ l' l t (le_refl _) h' h hle
    exact ⟨.inr ⟨q, hq⟩, fun heq => (hq2 (nil (by rw [heq] at hq; exact hq))).symm⟩

/-- C70, torn elements: in every history two cells share no dof unless one contains the other; within a cell all dofs
differ; a shared dof sits at the same point. -/
theorem C70_torn (hN : per = true → 3 ≤ xs.length) (he : torn e = true) (h : Uses xs per e F D) (c c' : IN)
    (p p' a : Nat) (hp : p < nd1 e) (hp' : p' < nd1 e) (ha : val D c p = some a) (ha' : val D c' p' = some a) :
    (Anc c c' ∨ Anc c' c) ∧ (c = c' → p = p') ∧ nodeX F e c p = nodeX F e c' p' := by
  have hN' : per = true → 2 ≤ xs.length - 1 := fun hp => by have := hN hp; omega
  obtain ⟨_, hs, hex⟩ := h.inv hN'
  have hsys : sysOf hN' e = tornSys e := by unfold sysOf; rw [dif_neg (by simp [he])]
  rw [hsys] at hs
  obtain ⟨t, t', h1, h2, h3⟩ := (hs.iff (c, ⟨p, hp⟩) (c', ⟨p', hp'⟩) a a ha ha').1 rfl
  have h3' : t = t' := h3
  subst h3'
  obtain ⟨g1, g2⟩ := torn_chain he h1 h2
  refine ⟨g1, fun hcc => ?_, ?_⟩
  · have := g2 hcc
    simp only [Prod.mk.injEq, Fin.mk.injEq] at this
    exact this.2
  · have e1 := nodeX_place h.bis (hex (c, ⟨p, hp⟩) (by show val D c p ≠ none; rw [ha]; simp)) ⟨p, hp⟩
    have e2 := nodeX_place h.bis (hex (c', ⟨p', hp'⟩) (by show val D c' p' ≠ none; rw [ha']; simp)) ⟨p', hp'⟩
    simp only at e1 e2
    rw [e1, e2, (top_anc h1).2, (top_anc h2).2]

end
end Verif.Line
