import Verif.Bnd.Segments
import Verif.Dof.Meet

/-! # C64: the boundary segments are the boundary -/

namespace Verif.Bnd
open Verif.Mesh Verif.Dof

section
set_option linter.unusedSectionVars false
variable {K : Type} [Field K] {B : Base K} {s : St K} {sf : Bool}

/-! ### Refining a segment -/

/-- The half-edges that are put on the list `hes_todo`. -/
inductive Desc (sf : Bool) (s : St K) (g : List Nat) : HN → Prop
  | root (k : Nat) : k ∈ g → Desc sf s g (.root k)
  | kid (h : HN) (b : Bool) : Desc sf s g h → hasCh sf s (owner h).1 = true → Desc sf s g (.kid h b)

theorem replaceAt_eq {l1 l2 l : List HN} {h : HN} (hn : (l1 ++ h :: l2).Nodup) : replaceAt (l1 ++ h :: l2) h l = l1 ++ l ++ l2 := by
  have h1 : ∀ x ∈ l1, x ≠ h := by
    rintro x hx rfl
    rw [List.nodup_append'] at hn
    exact hn.2.2 hx (by simp)
  have ht : (l1 ++ h :: l2).takeWhile (fun x => !decide (x = h)) = l1 := by
    rw [List.takeWhile_append_of_pos (fun x hx => by simp [h1 x hx])]
    simp
  have hd : (l1 ++ h :: l2).dropWhile (fun x => !decide (x = h)) = h :: l2 := by
    rw [List.dropWhile_append_of_pos (fun x hx => by simp [h1 x hx])]
    simp
  unfold replaceAt
  rw [ht, hd, List.tail_cons]

theorem path_subst {V : Type} {C : HN → V × V} {l1 l2 : List HN} {h a b : HN} (hP : Path C (l1 ++ h :: l2)) (h1 : (C a).1 = (C h).1)
    (h2 : (C a).2 = (C b).1) (h3 : (C b).2 = (C h).2) : Path C (l1 ++ [a, b] ++ l2) := by
  induction l1 with
  | nil =>
    refine ⟨h2, ?_⟩
    cases l2 with
    | nil => trivial
    | cons c l2 => exact ⟨by rw [h3]; exact hP.1, hP.2⟩
  | cons x l1 ih =>
    cases l1 with
    | nil => exact ⟨by rw [h1]; exact hP.1, ih hP.2⟩
    | cons y l1 => exact ⟨hP.1, ih hP.2⟩

/-- First vertex and last vertex. -/
def tips {V : Type} (C : HN → V × V) (l : List HN) : Option V × Option V :=
  (l.head?.map (fun h => (C h).1), l.getLast?.map (fun h => (C h).2))

theorem tips_subst {V : Type} {C : HN → V × V} {l1 l2 : List HN} {h a b : HN} (h1 : (C a).1 = (C h).1) (h3 : (C b).2 = (C h).2) :
    tips C (l1 ++ [a, b] ++ l2) = tips C (l1 ++ h :: l2) := by
  unfold tips
  congr 1
  · cases l1 with
    | nil => simp [h1]
    | cons x l1 => simp
  · rcases List.eq_nil_or_concat l2 with rfl | ⟨l, z, rfl⟩
    · simp [h3]
    · have e1 : l1 ++ [a, b] ++ l.concat z = (l1 ++ [a, b] ++ l) ++ [z] := by simp
      have e2 : l1 ++ h :: l.concat z = (l1 ++ h :: l) ++ [z] := by simp
      rw [e1, e2, List.getLast?_concat, List.getLast?_concat]

theorem kids_rec (hi : CInv B s) {h : HN} (hx : (s.he h).isSome) (hk : hasCh sf s (owner h).1 = true) :
    heKids s h = [.kid h false, .kid h true] ∧ (∀ b, (s.he (.kid h b)).isSome) ∧ (ends s (.kid h false)).1 = (ends s h).1 ∧
      (ends s (.kid h false)).2 = (ends s (.kid h true)).1 ∧ (ends s (.kid h true)).2 = (ends s h).2 := by
  obtain ⟨r, hr⟩ := Option.isSome_iff_exists.1 hx
  have hkids := hasCh_kids hk
  have hrk : r.kids = true := (hi.kids_iff hr).2 hkids
  have hex : ∀ b, (s.he (.kid h b)).isSome := fun b => (hi.hinv.kids h r hr b).1 hrk
  obtain ⟨a, ha⟩ := Option.isSome_iff_exists.1 (hex false)
  obtain ⟨b, hb⟩ := Option.isSome_iff_exists.1 (hex true)
  obtain ⟨e1, e2, e3, _⟩ := hi.hinv.ends h r a b hr ha hb
  refine ⟨by unfold heKids; rw [hr]; simp [hrk], hex, ?_, ?_, ?_⟩ <;> unfold ends <;> simp only [hr, ha, hb]
  · exact e1
  · exact e2
  · exact e3

theorem desc_ex (hi : CInv B s) {g : List Nat} (hg : ∀ k ∈ g, k < 4 * B.n) {h : HN} (hd : Desc sf s g h) : (s.he h).isSome := by
  induction hd with
  | root k hk =>
    rw [hi.ex]
    have := hg k hk
    show k / 4 < B.n
    omega
  | kid h b _ hk ih => exact (kids_rec hi ih hk).2.1 b

theorem hes_length (hi : CInv B s) {l : List HN} (hn : l.Nodup) (hx : ∀ h ∈ l, (s.he h).isSome) : l.length ≤ 4 * s.cells.length := by
  have hsub : l ⊆ s.cells.flatMap (fun c => four.map (side c)) := by
    intro h hh
    have := (hi.ex h).1 (hx h hh)
    rw [List.mem_flatMap]
    exact ⟨(owner h).1, (hi.mem _).2 this, List.mem_map.2 ⟨(owner h).2, four_mem _, side_owner h⟩⟩
  refine le_trans (hn.subperm hsub).length_le ?_
  rw [List.length_flatMap]
  have : (s.cells.map (fun c => (four.map (side c)).length)) = s.cells.map (fun _ => 4) := by
    apply List.map_congr_left
    intro c _
    simp [four]
  rw [this]
  simp
  omega

theorem desc_mem {g : List Nat} {P : List HN} (h3 : ∀ k ∈ g, .root k ∈ P)
    (h7 : ∀ h ∈ P, hasCh sf s (owner h).1 = true → ∀ b, .kid h b ∈ P) {x : HN} (a : Desc sf s g x) : x ∈ P := by
  induction a with
  | root k hk => exact h3 k hk
  | kid h b _ hk ih => exact h7 h ih hk b

theorem expand_ok (hi : CInv B s) {g : List Nat} (hg : ∀ k ∈ g, k < 4 * B.n) : ∀ (n : Nat) (P Q seg : List HN), (P ++ Q).Nodup →
    (∀ x ∈ P ++ Q, Desc sf s g x) → (∀ k ∈ g, .root k ∈ P ++ Q) → seg.Nodup →
    (∀ x, x ∈ seg ↔ x ∈ Q ∨ (x ∈ P ∧ hasCh sf s (owner x).1 = false)) →
    (∀ h b, .kid h b ∈ P ++ Q → h ∈ P) → (∀ h ∈ P, hasCh sf s (owner h).1 = true → ∀ b, .kid h b ∈ P ++ Q) →
    Path (ends s) seg → 4 * s.cells.length ≤ P.length + n →
    ∃ R, expand sf s n Q seg = some R ∧ R.Nodup ∧ Path (ends s) R ∧ tips (ends s) R = tips (ends s) seg ∧
      ∀ x, x ∈ R ↔ Desc sf s g x ∧ hasCh sf s (owner x).1 = false := by
  intro n
  induction n with
  | zero =>
    intro P Q seg h1 h2 h3 h4 h5 h6 h7 h8 h9
    cases Q with
    | nil =>
      refine ⟨seg, by unfold expand; rfl, h4, h8, rfl, fun x => ?_⟩
      rw [h5 x]
      simp only [List.append_nil, List.not_mem_nil, false_or] at *
      refine ⟨fun ⟨a, b⟩ => ⟨h2 x a, b⟩, fun ⟨a, b⟩ => ⟨desc_mem h3 h7 a, b⟩⟩
    | cons h Q =>
      exfalso
      have := hes_length hi h1 (fun x hx => desc_ex hi hg (h2 x hx))
      simp at this
      omega
  | succ n ih =>
    intro P Q seg h1 h2 h3 h4 h5 h6 h7 h8 h9
    cases Q with
    | nil =>
      refine ⟨seg, by unfold expand; rfl, h4, h8, rfl, fun x => ?_⟩
      rw [h5 x]
      simp only [List.append_nil, List.not_mem_nil, false_or] at *
      refine ⟨fun ⟨a, b⟩ => ⟨h2 x a, b⟩, fun ⟨a, b⟩ => ⟨desc_mem h3 h7 a, b⟩⟩
    | cons h Q =>
      have hdh := h2 h (by simp)
      have hex := desc_ex hi hg hdh
      obtain ⟨r, hr⟩ := Option.isSome_iff_exists.1 hex
      have hcell := hi.cell h r hr
      have hseg : h ∈ seg := (h5 h).2 (.inl (by simp))
      have hhP : h ∉ P := by
        intro hh
        rw [List.nodup_append'] at h1
        exact h1.2.2 hh (by simp)
      have hhQ : h ∉ Q := by
        rw [List.nodup_append', List.nodup_cons] at h1
        exact h1.2.1.1
      have hmid : ∀ x, x ∈ (h :: P) ++ Q ↔ x ∈ P ++ h :: Q := fun x => (List.perm_middle (a := h) (l₁ := P) (l₂ := Q)).mem_iff.symm
      unfold expand
      rw [hr]
      simp only [Option.bind_some, hcell]
      by_cases hk : hasCh sf s (owner h).1 = true
      · obtain ⟨k1, k2, k3, k4, k5⟩ := kids_rec hi hex hk
        rw [if_pos hk, if_pos hseg, k1]
        obtain ⟨l1, l2, hl⟩ := List.append_of_mem hseg
        rw [hl] at h4 h8 h5
        rw [hl, replaceAt_eq h4]
        have hnk : ∀ b, .kid h b ∉ P ++ h :: Q := fun b hb => hhP (h6 h b hb)
        have hne : HN.kid h false ≠ .kid h true := by simp
        have hall : ∀ x, x ∈ (h :: P) ++ (Q ++ [.kid h false, .kid h true]) ↔ x ∈ P ++ h :: Q ∨ x = .kid h false ∨ x = .kid h true := by
          intro x
          rw [← List.append_assoc, List.mem_append, hmid]
          simp
        obtain ⟨R, r1, r2, r3, r4, r5⟩ := ih (h :: P) (Q ++ [.kid h false, .kid h true]) (l1 ++ [.kid h false, .kid h true] ++ l2) (by
            rw [← List.append_assoc, List.nodup_append']
            refine ⟨(List.perm_middle (a := h) (l₁ := P) (l₂ := Q)).nodup_iff.1 h1, by simp, ?_⟩
            intro x hx hx'
            rw [hmid] at hx
            simp only [List.mem_cons, List.not_mem_nil, or_false] at hx'
            rcases hx' with rfl | rfl
            · exact hnk false hx
            · exact hnk true hx) (by
            intro x hx
            rcases (hall x).1 hx with hx | rfl | rfl
            · exact h2 x hx
            · exact .kid h false hdh hk
            · exact .kid h true hdh hk) (fun k hk' => (hall _).2 (.inl (h3 k hk'))) (by
            have e : (l1 ++ [HN.kid h false, HN.kid h true] ++ l2).Perm ([HN.kid h false, HN.kid h true] ++ (l1 ++ l2)) := by
              rw [← List.append_assoc]
              exact List.Perm.append_right _ List.perm_append_comm
            rw [e.nodup_iff, List.nodup_append']
            refine ⟨by simp, ?_, ?_⟩
            · have e2 : (l1 ++ h :: l2).Perm (h :: (l1 ++ l2)) := List.perm_middle
              exact (List.nodup_cons.1 (e2.nodup_iff.1 h4)).2
            · have hno : ∀ b, .kid h b ∉ l1 ++ l2 := by
                intro b hb
                have : .kid h b ∈ l1 ++ h :: l2 := by
                  rcases List.mem_append.1 hb with hb | hb
                  · exact List.mem_append_left _ hb
                  · exact List.mem_append_right _ (List.mem_cons_of_mem _ hb)
                rcases (h5 _).1 this with hh | hh
                · exact hnk b (List.mem_append_right _ hh)
                · exact hnk b (List.mem_append_left _ hh.1)
              intro x hx hx'
              simp only [List.mem_cons, List.not_mem_nil, or_false] at hx
              rcases hx with rfl | rfl
              · exact hno false hx'
              · exact hno true hx') (by
            intro x
            have hx5 := h5 x
            simp only [List.mem_append, List.mem_cons, List.not_mem_nil, or_false] at hx5 ⊢
            by_cases hxh : x = h
            · subst hxh
              have n1 : x ∉ l1 ∧ x ∉ l2 := by
                have e2 : (l1 ++ x :: l2).Perm (x :: (l1 ++ l2)) := List.perm_middle
                have := (List.nodup_cons.1 (e2.nodup_iff.1 h4)).1
                simpa using this
              have n2 : x ≠ .kid x false := fun e => kid_ne x false e.symm
              have n3 : x ≠ .kid x true := fun e => kid_ne x true e.symm
              simp only [n1.1, n1.2, n2, n3, hhQ, hk, or_false, false_or, true_or, true_and, Bool.true_eq_false, and_false]
            · simp only [hxh, false_or] at hx5 ⊢
              tauto) (by
            intro h' b hb
            rcases (hall _).1 hb with hb | hb | hb
            · exact List.mem_cons_of_mem _ (h6 h' b hb)
            · injection hb with e1 e2
              subst e1
              simp
            · injection hb with e1 e2
              subst e1
              simp) (by
            intro h' hh' hk' b
            rw [hall]
            rcases List.mem_cons.1 hh' with rfl | hh'
            · right
              cases b
              · exact .inl rfl
              · exact .inr rfl
            · exact .inl (h7 h' hh' hk' b)) (path_subst h8 k3 k4 k5) (by simp; omega)
        exact ⟨R, r1, r2, r3, by rw [r4, tips_subst k3 k5], r5⟩
      · rw [if_neg hk]
        have hk' : hasCh sf s (owner h).1 = false := by simpa using hk
        refine ih (h :: P) Q seg ((List.perm_middle (a := h) (l₁ := P) (l₂ := Q)).nodup_iff.1 h1) (fun x hx => h2 x ((hmid x).1 hx))
          (fun k hk => (hmid _).2 (h3 k hk)) h4 (fun x => ?_) (fun h' b hb => List.mem_cons_of_mem _ (h6 h' b ((hmid _).1 hb)))
          (fun h' hh' hkk b => ?_) h8 (by simp; omega)
        · rw [h5 x]
          simp only [List.mem_cons]
          by_cases hxh : x = h
          · subst hxh
            simp [hk']
          · simp [hxh]
        · rw [hmid]
          rcases List.mem_cons.1 hh' with rfl | hh'
          · exact absurd hkk hk
          · exact h7 h' hh' hkk b

end
end Verif.Bnd
