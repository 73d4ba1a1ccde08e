import Verif.Line.Sys

/-!
# The trees of a one-dimensional mesh: bisection
-/

namespace Verif.Line
open Verif.Fem Verif.OneD Verif.Geom

section
set_option linter.unusedSectionVars false
variable {K : Type} [Field K] [LinearOrder K] [IsStrictOrderedRing K]

/-- A tree of bisected intervals. -/
inductive Bis : Cell K → Prop
  | leaf (d : Itv K) : d.n = 2 → Bis (.node d [])
  | node (d : Itv K) (a b : Cell K) : d.n = 2 → ends a = (d.lo, (d.lo + d.hi) / 2) → ends b = ((d.lo + d.hi) / 2, d.hi) →
      Bis a → Bis b → Bis (.node d [a, b])

/-- A mesh of such trees with the initial vertices `X`. -/
def BisL (N : Nat) (X : Nat → K) (F : List (Cell K)) : Prop :=
  F.length = N ∧ ∀ (f : Nat) (t : Cell K), F[f]? = some t → Bis t ∧ ends t = (X f, X (f + 1))

theorem Bis.n {t : Cell K} (h : Bis t) : t.data.n = 2 := by cases h <;> assumption

theorem split_bis {t : Cell K} (h : Bis t) : Bis (split t) := by
  obtain ⟨d, ks⟩ := t
  have hn : d.n = 2 := h.n
  have h2 : (2 : K) ≠ 0 := two_ne_zero
  have : split (.node d ks) = .node d [.node ⟨d.lo, (d.lo + d.hi) / 2, 2, ∅⟩ [], .node ⟨(d.lo + d.hi) / 2, d.hi, 2, ∅⟩ []] := by
    have e1 : d.lo + (d.hi - d.lo) / 2 = (d.lo + d.hi) / 2 := by field_simp; ring
    simp [split, splitLoop, hn, e1]
  rw [this]
  exact .node d _ _ hn rfl rfl (.leaf _ rfl) (.leaf _ rfl)

/-- The operations leave ends and number of children. -/
def Keeps (g : Cell K → Cell K) : Prop := ∀ t, Bis t → Bis (g t) ∧ ends (g t) = ends t

theorem keeps_split : Keeps (K := K) split := fun t h => ⟨split_bis h, by cases t; rfl⟩

theorem keeps_delete : Keeps (K := K) deleteKids := fun t h => by
  obtain ⟨d, ks⟩ := t
  exact ⟨.leaf d h.n, rfl⟩

theorem keeps_data (u : Itv K → Itv K) (h1 : ∀ d, (u d).lo = d.lo) (h2 : ∀ d, (u d).hi = d.hi) (h3 : ∀ d, (u d).n = d.n) :
    Keeps (K := K) (fun t => .node (u t.data) t.kids) := fun t h => by
  refine ⟨?_, by simp [ends, h1, h2]⟩
  cases h with
  | leaf d hn => exact .leaf _ (by rw [h3]; exact hn)
  | node d a b hn ha hb ga gb => exact .node _ a b (by rw [h3]; exact hn) (by rw [h1, h2]; exact ha) (by rw [h1, h2]; exact hb) ga gb

theorem keeps_mark (f : Nat) : Keeps (K := K) (mark f) := by
  have := keeps_data (K := K) (fun d => { d with flags := insert f d.flags }) (fun _ => rfl) (fun _ => rfl) (fun _ => rfl)
  intro t h
  have := this t h
  cases t
  exact this

theorem keeps_unmark (f : Nat) : Keeps (K := K) (unmark f) := by
  have := keeps_data (K := K) (fun d => { d with flags := d.flags.erase f }) (fun _ => rfl) (fun _ => rfl) (fun _ => rfl)
  intro t h
  have := this t h
  cases t
  exact this

/-- An update somewhere in the trees. -/
theorem modifyL_keeps {g : Cell K → Cell K} (hg : Keeps g) : ∀ (p : Path) (F : List (Cell K)),
    (∀ t ∈ F, Bis t) → (modifyL g F p).length = F.length ∧ ∀ (f : Nat) (t : Cell K), (modifyL g F p)[f]? = some t →
      ∃ s, F[f]? = some s ∧ Bis t ∧ ends t = ends s := by
  have key : ∀ (h : Cell K → Cell K), Keeps h → ∀ (F : List (Cell K)) (i : Nat), (∀ t ∈ F, Bis t) →
      (F.modify i h).length = F.length ∧ ∀ (f : Nat) (t : Cell K), (F.modify i h)[f]? = some t → ∃ s, F[f]? = some s ∧ Bis t ∧ ends t = ends s := by
    intro h hh F i hF
    refine ⟨by simp, fun f t ht => ?_⟩
    rw [List.getElem?_modify] at ht
    rcases hs : F[f]? with _ | s
    · rw [hs] at ht; simp at ht
    · have hb := hF s (List.mem_of_getElem? hs)
      rw [hs] at ht
      refine ⟨s, rfl, ?_⟩
      by_cases hi : i = f
      · simp [hi] at ht; subst ht; exact hh s hb
      · simp [hi] at ht; subst ht; exact ⟨hb, rfl⟩
  intro p
  induction p with
  | nil =>
    intro F hF
    exact ⟨rfl, fun f t ht => ⟨t, ht, hF t (List.mem_of_getElem? ht), rfl⟩⟩
  | cons i p ih =>
    intro F hF
    cases p with
    | nil => exact key g hg F i hF
    | cons j p =>
      refine key _ ?_ F i hF
      intro t ht
      refine ⟨?_, rfl⟩
      cases ht with
      | leaf d hn =>
        have : modifyL g ([] : List (Cell K)) (j :: p) = [] := by cases p <;> simp [modifyL]
        simp only [GTree.kids_node, GTree.data_node, this]
        exact .leaf d hn
      | node d a b hn ha hb ga gb =>
        obtain ⟨h1, h2⟩ := ih [a, b] (by simp [ga, gb])
        simp only [GTree.kids_node, GTree.data_node]
        obtain ⟨a', b', hab⟩ : ∃ a' b', modifyL g [a, b] (j :: p) = [a', b'] := by
          match hm : modifyL g [a, b] (j :: p), h1 with
          | [a', b'], _ => exact ⟨a', b', rfl⟩
        rw [hab] at h2 ⊢
        obtain ⟨s, hs, q1, q2⟩ := h2 0 a' rfl
        obtain ⟨s', hs', q3, q4⟩ := h2 1 b' rfl
        simp at hs hs'
        subst hs hs'
        exact .node d a' b' hn (q2.trans ha) (q4.trans hb) q1 q3

variable {N : Nat} {X : Nat → K} {F : List (Cell K)}

theorem BisL.modify (h : BisL N X F) {g : Cell K → Cell K} (hg : Keeps g) (p : Path) : BisL N X (modifyL g F p) := by
  obtain ⟨h1, h2⟩ := modifyL_keeps hg p F (fun t ht => by
    obtain ⟨f, hf⟩ := List.mem_iff_getElem?.1 ht
    exact (h.2 f t hf).1)
  refine ⟨h1.trans h.1, fun f t ht => ?_⟩
  obtain ⟨s, hs, q1, q2⟩ := h2 f t ht
  exact ⟨q1, q2.trans (h.2 f s hs).2⟩

theorem BisL.step (h : BisL N X F) (op : Op) : BisL N X (step F op) := by
  cases op with
  | split p => exact h.modify keeps_split p
  | coarsen p => exact h.modify keeps_delete p
  | mark p f => exact h.modify (keeps_mark f) p
  | unmark p f => exact h.modify (keeps_unmark f) p

theorem BisL.run (h : BisL N X F) (ops : List Op) : BisL N X (run F ops) := by
  induction ops generalizing F with
  | nil => exact h
  | cons op ops ih => exact ih (h.step op)

theorem roots_bis (xs : List K) : BisL (xs.length - 1) (fun f => xs.getD f 0) (roots xs) := by
  induction xs with
  | nil => exact ⟨rfl, fun f t h => by simp [roots] at h⟩
  | cons a r ih =>
    cases r with
    | nil => exact ⟨rfl, fun f t h => by simp [roots] at h⟩
    | cons b r =>
      obtain ⟨h1, h2⟩ := ih
      refine ⟨by simp only [roots, List.length_cons] at h1 ⊢; omega, ?_⟩
      rintro (_ | f) t ht
      · simp only [roots, List.getElem?_cons_zero, Option.some.injEq] at ht
        subst ht
        exact ⟨.leaf _ rfl, rfl⟩
      · simp only [roots, List.getElem?_cons_succ] at ht
        simpa using h2 f t ht

theorem chain_inc {xs : List K} (h : xs.IsChain (· < ·)) : Inc (xs.length - 1) (fun f => xs.getD f 0) := by
  intro f hf
  have h1 : f + 1 < xs.length := by omega
  simp only [List.getD_eq_getElem?_getD, List.getElem?_eq_getElem h1, List.getElem?_eq_getElem (show f < xs.length by omega),
    Option.getD_some]
  exact List.isChain_iff_getElem.1 h f h1

/-! ### Cells -/

theorem getL_none (F : List (Cell K)) (p q : Path) (hp : p ≠ []) (h : getL F p = none) : getL F (p ++ q) = none := by
  induction p generalizing F with
  | nil => exact absurd rfl hp
  | cons i p ih =>
    cases p with
    | nil =>
      simp only [getL] at h
      cases q with
      | nil => simpa [getL] using h
      | cons j q => simp [getL, h]
    | cons j p =>
      simp only [getL] at h
      simp only [List.cons_append, getL]
      cases hi : F[i]? with
      | none => rfl
      | some t =>
        rw [hi] at h
        exact ih t.kids (by simp) h

theorem cellAt_root (F : List (Cell K)) (f : Nat) : cellAt F (f, []) = F[f]? := rfl

theorem cellAt_child (F : List (Cell K)) (c : IN) (k : Fin 2) : cellAt F (child c k) = (cellAt F c).bind (fun t => t.kids[k.1]?) := by
  have hp : pathOf (child c k) = pathOf c ++ [k.1] := by simp [pathOf, child]
  unfold cellAt
  rw [hp]
  rcases h : getL F (pathOf c) with _ | t
  · rw [getL_none F _ _ (by simp [pathOf]) h]; rfl
  · rw [getL_append F _ _ t h (by simp)]; rfl

/-- The end points of the cells. -/
theorem cellAt_bis (h : BisL N X F) : ∀ {c : IN} {t : Cell K}, cellAt F c = some t → c.1 < N ∧ Bis t ∧ ends t = box X c.1 c.2 := by
  rintro ⟨f, p⟩
  induction p with
  | nil =>
    intro t ht
    rw [cellAt_root] at ht
    have := h.2 f t ht
    exact ⟨by rw [← h.1]; exact (List.getElem?_eq_some_iff.1 ht).1, this.1, this.2⟩
  | cons k p ih =>
    intro t ht
    rw [show ((f, k :: p) : IN) = child (f, p) k from rfl, cellAt_child, Option.bind_eq_some_iff] at ht
    obtain ⟨s, hs, hk⟩ := ht
    obtain ⟨g1, g2, g3⟩ := ih hs
    refine ⟨g1, ?_⟩
    cases g2 with
    | leaf d hn => simp at hk
    | node d a b hn ha hb ga gb =>
      simp only [ends, GTree.data_node] at g3
      have g3a : d.lo = (box X f p).1 := congrArg Prod.fst g3
      have g3b : d.hi = (box X f p).2 := congrArg Prod.snd g3
      fin_cases k
      · simp at hk
        subst hk
        exact ⟨ga, by rw [ha, g3a, g3b]; simp [box]⟩
      · simp at hk
        subst hk
        exact ⟨gb, by rw [hb, g3a, g3b]; simp [box]⟩

/-- The cell exists. -/
def Ex (F : List (Cell K)) (c : IN) : Prop := (cellAt F c).isSome

theorem ex_root (h : BisL N X F) (f : Nat) : Ex F (f, []) ↔ f < N := by
  unfold Ex
  rw [cellAt_root, ← h.1]
  simp

theorem ex_child (h : BisL N X F) (c : IN) (k : Fin 2) : Ex F (child c k) ↔ kidsAt F c = true := by
  unfold Ex kidsAt hasCh
  rw [cellAt_child]
  rcases hc : cellAt F c with _ | t
  · simp
  · obtain ⟨_, g2, _⟩ := cellAt_bis h hc
    cases g2 with
    | leaf d hn => simp [hasKids]
    | node d a b hn ha hb ga gb => fin_cases k <;> simp [hasKids]

theorem ex_lt (h : BisL N X F) {c : IN} (hc : Ex F c) : c.1 < N := by
  obtain ⟨t, ht⟩ := Option.isSome_iff_exists.1 hc
  exact (cellAt_bis h ht).1

theorem ex_parent {c : IN} {k : Fin 2} (hc : Ex F (child c k)) : Ex F c := by
  unfold Ex at *
  rw [cellAt_child] at hc
  rcases hx : cellAt F c with _ | t
  · rw [hx] at hc; simp at hc
  · rfl

theorem kids_ex {c : IN} (h : kidsAt F c = true) : Ex F c := by
  unfold kidsAt hasCh at h
  unfold Ex
  rcases hx : cellAt F c with _ | t
  · rw [hx] at h; simp at h
  · rfl

theorem hasCh_iff (h : BisL N X F) (mk : Itv K → Bool) (c : IN) : hasCh mk F c = true ↔ ∃ k, mkAt mk F (child c k) = true := by
  unfold hasCh mkAt
  simp only [cellAt_child]
  rcases hc : cellAt F c with _ | t
  · simp
  · obtain ⟨_, g2, _⟩ := cellAt_bis h hc
    cases g2 with
    | leaf d hn => simp [hasKids]
    | node d a b hn ha hb ga gb => simp [hasKids, Fin.exists_fin_two]

end
end Verif.Line
