import Verif.Dir.Assembler
import Verif.Fn.Setup
import Mathlib.Algebra.BigOperators.Group.Finset.Basic

/-!
# The cells of a refined mesh are listed once; sums over leaves
-/

namespace Verif.Gal
open Verif.Mesh Verif.Dof Verif.Bnd

section
variable {K : Type} [Field K]

theorem forEach_ind {σ α : Type} {f : σ → α → Except Geom.Err σ} {P : List α → σ → Prop} (hstep : ∀ D s a s', P D s → f s a = .ok s' → P (D ++ [a]) s') :
    ∀ (l D : List α) (s s' : σ), P D s → forEach f l s = .ok s' → P (D ++ l) s' := by
  intro l
  induction l with
  | nil => intro D s s' h e; cases e; simpa using h
  | cons a l ih =>
    intro D s s' h e
    simp only [forEach] at e
    split at e
    · cases e
    · rename_i s1 h1
      have := ih (D ++ [a]) s1 s' (hstep D s a s1 h h1) e
      simpa using this

theorem heSplit_cells {s s' : St K} {h : HN} (e : heSplit s h = .ok s') : s'.cells = s.cells := by
  unfold heSplit at e
  split at e
  · cases e
  · split at e
    · simp only at e
      split_ifs at e <;> first | (cases e; done) | (injection e with e; subst e; rfl)
    · cases e; rfl

theorem splitSide_cells {s s' : St K} {c : CN} {i : Fin 4} (e : splitSide c s i = .ok s') : s'.cells = s.cells := by
  unfold splitSide at e
  split at e
  · cases e
  · split at e
    · cases e
    · rename_i s1 h1
      have h2 : s1.cells = s.cells := by
        split at h1
        · cases h1; rfl
        · exact heSplit_cells h1
      split at e
      · cases e
      · cases e; exact h2

theorem newCell_cells {s s' : St K} {c : CN} {hes : Fin 4 → HN} (e : newCell s c hes = .ok s') : s'.cells = s.cells ++ [c] := by
  unfold newCell at e
  split at e
  · split at e
    · cases e; rfl
    · cases e
  · cases e

theorem cellSplit_cells {sf : Bool} {s s' : St K} {c : CN} (e : cellSplit sf s c = .ok s') : s'.cells = s.cells ++ four.map (child c) := by
  unfold cellSplit at e
  split at e
  · cases e
  · split at e
    · cases e
    · rename_i s1 h1
      split at e
      · cases e
      · rename_i s2 h2
        cases e
        have a1 := forEach_ind (P := fun _ t => t.cells = s.cells) (fun D t a t' h e => (splitSide_cells e).trans h) four [] _ s1 rfl h1
        have a2 := forEach_ind (P := fun D t => t.cells = s.cells ++ D.map (child c)) (fun D t a t' h e => by
          rw [newCell_cells e, h]; simp) four [] _ s2 (by simpa using a1) h2
        simpa using a2

/-- Every cell is listed once. -/
theorem cells_nodup {B : Base K} (hB : B.WF) {s : St K} (h : MReach B s) : s.cells.Nodup := by
  induction h with
  | init =>
    show ((List.range B.n).map (fun r => ((r, []) : CN))).Nodup
    exact List.nodup_range.map (fun a b h => congrArg Prod.fst h)
  | split s s' c sf hr hc hk e ih =>
    rw [cellSplit_cells e]
    have hi := hr.inv hB
    refine List.nodup_append.2 ⟨ih, ?_, ?_⟩
    · refine List.Nodup.map (fun a b h => ?_) (by decide)
      have : a :: c.2 = b :: c.2 := congrArg Prod.snd h
      exact (List.cons.inj this).1
    · rintro d hd d' hd' rfl
      obtain ⟨k, -, rfl⟩ := List.mem_map.1 hd'
      have : s.kids c = true := (hi.mem _).1 hd
      rw [hk] at this; cases this
  | mark s m _ ih => exact ih

theorem leaves_nodup {B : Base K} (hB : B.WF) {s : St K} (h : MReach B s) (sf : Bool) : (leaves sf s).Nodup :=
  (cells_nodup hB h).filter _

/-- A quantity that is, for every refined cell of the (sub)mesh, the sum over the children, sums over the leaves to the sum over the
initial cells. -/
theorem sum_leaves {M : Type} [AddCommGroup M] {B : Base K} (hB : B.WF) {s : St K} (h : MReach B s) {sf : Bool} (hr : RootsIn B sf s)
    (hf : sf = false ∨ (RootedFlag B s ∧ FullFlag s)) (Φ : CN → M)
    (hΦ : ∀ c ∈ s.cells, Dof.Sub sf s c → hasCh sf s c = true → Φ c = ∑ k : Fin 4, Φ (child c k)) :
    ((leaves sf s).map Φ).sum = ∑ f ∈ Finset.range B.n, Φ (f, []) := by
  classical
  have hi := h.inv hB
  have hnd := cells_nodup hB h
  set S : Finset CN := s.cells.toFinset.filter (fun c => Dof.Sub sf s c) with hS
  have memS : ∀ c, c ∈ S ↔ CEx B.n s.kids c ∧ Dof.Sub sf s c := by
    intro c; rw [hS, Finset.mem_filter, List.mem_toFinset, hi.mem]
  set L : Finset CN := S.filter (fun c => hasCh sf s c = false)
  set R : Finset CN := S.filter (fun c => ¬ hasCh sf s c = false)
  set O : Finset CN := S.filter (fun c => c.2 = [])
  set N : Finset CN := S.filter (fun c => ¬ c.2 = [])
  have e1 : ((leaves sf s).map Φ).sum = ∑ c ∈ L, Φ c := by
    rw [← List.sum_toFinset _ (leaves_nodup hB h sf)]
    refine Finset.sum_congr ?_ (fun _ _ => rfl)
    ext c
    rw [List.mem_toFinset, Dof.mem_leaves hi c, Finset.mem_filter, memS]
    tauto
  have e2 : ∑ c ∈ O, Φ c = ∑ f ∈ Finset.range B.n, Φ (f, []) := by
    symm
    refine Finset.sum_bij (fun f _ => ((f, []) : CN)) ?_ (fun a _ b _ h => congrArg Prod.fst h) ?_ (fun _ _ => rfl)
    · intro f hf'
      have hlt := Finset.mem_range.1 hf'
      rw [Finset.mem_filter, memS]
      exact ⟨⟨hlt, hr f hlt⟩, rfl⟩
    · rintro ⟨f, p⟩ hc
      rw [Finset.mem_filter, memS] at hc
      obtain ⟨⟨h1, _⟩, h3⟩ := hc
      simp only at h3
      subst h3
      exact ⟨f, Finset.mem_range.2 h1, rfl⟩
  have e3 : ∑ c ∈ N, Φ c = ∑ c ∈ R, Φ c := by
    have : ∑ c ∈ R, Φ c = ∑ c ∈ R, ∑ k : Fin 4, Φ (child c k) := by
      refine Finset.sum_congr rfl (fun c hc => ?_)
      rw [Finset.mem_filter, memS] at hc
      exact hΦ c ((hi.mem c).2 hc.1.1) hc.1.2 (by simpa using hc.2)
    rw [this, ← Finset.sum_product']
    symm
    refine Finset.sum_bij (fun y _ => child y.1 y.2) ?_ ?_ ?_ (fun _ _ => rfl)
    · rintro ⟨c, k⟩ hy
      rw [Finset.mem_product, Finset.mem_filter, memS] at hy
      obtain ⟨⟨⟨h1, h2⟩, h3⟩, -⟩ := hy
      simp only at h1 h2 h3 ⊢
      have h3' : hasCh sf s c = true := by simpa using h3
      have hk : s.kids c = true := by
        unfold hasCh at h3'
        simp only [Bool.and_eq_true] at h3'
        exact h3'.1
      rw [Finset.mem_filter, memS]
      refine ⟨⟨hk, ?_⟩, by simp [child]⟩
      rcases hf with h0 | ⟨_, h0⟩
      · exact .inl h0
      · cases sf
        · exact .inl rfl
        · exact .inr (h0 c h3' k)
    · rintro ⟨c, k⟩ _ ⟨c', k'⟩ _ h
      simp only [child, Prod.mk.injEq, List.cons.injEq] at h
      obtain ⟨h1, h2, h3⟩ := h
      exact Prod.ext (Prod.ext h1 h3) h2
    · rintro ⟨f, p⟩ hc
      rw [Finset.mem_filter, memS] at hc
      obtain ⟨⟨h1, h2⟩, h3⟩ := hc
      cases p with
      | nil => exact absurd rfl h3
      | cons k p =>
        have hk : s.kids (f, p) = true := h1
        have hsub : Dof.Sub sf s (f, p) := by
          rcases h2 with h0 | h0
          · exact .inl h0
          · rcases hf with h0' | ⟨h0', _⟩
            · exact .inl h0'
            · exact .inr (h0' (f, p) k h1 h0)
        refine ⟨((f, p), k), ?_, rfl⟩
        rw [Finset.mem_product, Finset.mem_filter, memS]
        refine ⟨⟨⟨hi.pref _ hk, hsub⟩, ?_⟩, Finset.mem_univ _⟩
        unfold hasCh
        rw [hk]
        rcases h2 with rfl | h0
        · simp
        · simp only [Bool.true_and, Bool.not_eq_false, Bool.or_eq_true, Bool.not_eq_true', List.any_eq_true]
          exact .inr ⟨k, by clear * -; revert k; decide, h0⟩
  have s1 := Finset.sum_filter_add_sum_filter_not S (fun c => hasCh sf s c = false) Φ
  have s2 := Finset.sum_filter_add_sum_filter_not S (fun c => c.2 = []) Φ
  rw [e1, ← e2]
  have : ∑ c ∈ L, Φ c + ∑ c ∈ R, Φ c = ∑ c ∈ O, Φ c + ∑ c ∈ N, Φ c := s1.trans s2.symm
  rw [e3] at this
  exact add_right_cancel this

end
end Verif.Gal
