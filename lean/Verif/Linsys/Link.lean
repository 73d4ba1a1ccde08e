import Verif.Linsys.Core

/-!
# From the constraint lists to the constraint matrix
-/

namespace Verif.Linsys

open Matrix

variable {K : Type} [Field K] [DecidableEq K] {n m : ℕ}

/-- A converted constraint describes the same constraint (dofs `0..n-1`). -/
def Rel (c : Con K) (r : RCon K n) : Prop :=
  (r.k : ℕ) = c.dof ∧ r.raw = r.k ∧ r.supp.map (fun s => ((s.1 : ℕ), s.2)) = c.supp ∧ r.aff = c.aff

theorem dof2eqn_range {k : ℕ} (hk : k < n) : dof2eqn n (List.range n) k = .ok ⟨k, hk⟩ := by
  unfold dof2eqn
  rw [List.getLast?_range]
  have : n ≠ 0 := by omega
  have h2 : (List.range n).idxOf k = k := by
    have h := List.Nodup.idxOf_getElem (List.nodup_range (n := n)) k (by simpa using hk)
    simpa using h
  simp only [this, if_false]
  rw [if_pos (by omega)]
  simp [h2, hk]

theorem rsupp_ok (s : List (ℕ × K)) (h : ∀ p ∈ s, p.1 < n) :
    ∃ s' : List (Fin n × K), s.mapM (rsupp n (List.range n)) = .ok s' ∧
      s'.map (fun s => ((s.1 : ℕ), s.2)) = s := by
  induction s with
  | nil => exact ⟨[], rfl, rfl⟩
  | cons p s ih =>
    obtain ⟨s', h1, h2⟩ := ih (fun q hq => h q (by simp [hq]))
    refine ⟨(⟨p.1, h p (by simp)⟩, p.2) :: s', ?_, by simp [h2]⟩
    rw [List.mapM_cons, h1]
    simp only [rsupp, dof2eqn_range (h p (by simp))]
    rfl

theorem rcon_ok (c : Con K) (h1 : c.dof < n) (h2 : ∀ s ∈ c.supp, s.1 < n) :
    ∃ r : RCon K n, rcon n (List.range n) c = .ok r ∧ Rel c r := by
  obtain ⟨s', h3, h4⟩ := rsupp_ok c.supp h2
  refine ⟨⟨⟨c.dof, h1⟩, ⟨c.dof, h1⟩, s', c.aff⟩, ?_, rfl, rfl, h4, rfl⟩
  simp only [rcon, dof2eqn_range h1, rawIdx, h1, dif_pos, h3]
  rfl

theorem rcons_ok (cs : List (Con K)) (h1 : ∀ c ∈ cs, c.dof < n)
    (h2 : ∀ c ∈ cs, ∀ s ∈ c.supp, s.1 < n) :
    ∃ rs : List (RCon K n), cs.mapM (rcon n (List.range n)) = .ok rs ∧ List.Forall₂ Rel cs rs := by
  induction cs with
  | nil => exact ⟨[], rfl, .nil⟩
  | cons c cs ih =>
    obtain ⟨r, h3, h4⟩ := rcon_ok c (h1 c (by simp)) (h2 c (by simp))
    obtain ⟨rs, h5, h6⟩ := ih (fun q hq => h1 q (by simp [hq])) (fun q hq => h2 q (by simp [hq]))
    refine ⟨r :: rs, ?_, .cons h4 h6⟩
    rw [List.mapM_cons, h5, h3]; rfl

theorem rel_ks {cs : List (Con K)} {rs : List (RCon K n)} (h : List.Forall₂ Rel cs rs) :
    rs.map (fun r => (r.k : ℕ)) = cs.map (·.dof) := by
  induction h with
  | nil => rfl
  | cons h _ ih => simp [ih, h.1]

theorem rel_raw {cs : List (Con K)} {rs : List (RCon K n)} (h : List.Forall₂ Rel cs rs) :
    rs.map (·.raw) = rs.map (·.k) := by
  induction h with
  | nil => rfl
  | cons h _ ih => simp [ih, h.2.1]

theorem rel_mem {cs : List (Con K)} {rs : List (RCon K n)} (h : List.Forall₂ Rel cs rs)
    {r : RCon K n} (hr : r ∈ rs) : ∃ c ∈ cs, Rel c r := by
  induction h with
  | nil => simp at hr
  | @cons a b l1 l2 h _ ih =>
    rcases List.mem_cons.1 hr with rfl | hr
    · exact ⟨a, by simp, h⟩
    · obtain ⟨c, hc, h2⟩ := ih hr
      exact ⟨c, by simp [hc], h2⟩

theorem rel_mem' {cs : List (Con K)} {rs : List (RCon K n)} (h : List.Forall₂ Rel cs rs)
    {c : Con K} (hc : c ∈ cs) : ∃ r ∈ rs, Rel c r := by
  induction h with
  | nil => simp at hc
  | @cons a b l1 l2 h _ ih =>
    rcases List.mem_cons.1 hc with rfl | hr
    · exact ⟨b, by simp, h⟩
    · obtain ⟨c, hc, h2⟩ := ih hr
      exact ⟨c, by simp [hc], h2⟩

omit [DecidableEq K] in
theorem foldl_update (rs : List (RCon K n)) (d0 : Fin n → K) (i : Fin n) (a : K)
    (h1 : ∀ r ∈ rs, r.raw = i → r.aff = a) (h2 : d0 i = a ∨ ∃ r ∈ rs, r.raw = i) :
    rs.foldl (fun d r => Function.update d r.raw r.aff) d0 i = a := by
  induction rs generalizing d0 with
  | nil => simpa using h2
  | cons r rs ih =>
    simp only [List.foldl_cons]
    apply ih _ (fun q hq => h1 q (by simp [hq]))
    by_cases h : r.raw = i
    · left; subst h; simp [h1 r (by simp) rfl]
    · rcases h2 with h2 | ⟨q, hq, h3⟩
      · left; rw [Function.update_of_ne (Ne.symm h)]; exact h2
      · rcases List.mem_cons.1 hq with rfl | hq
        · exact absurd h3 h
        · exact Or.inr ⟨q, hq, h3⟩

theorem entry_ne (r : RCon K n) (i j : Fin n) (h : r.k ≠ i) : entry r i j = 0 := by
  simp [entry, h]

theorem sum_entries_zero (rs : List (RCon K n)) (i j : Fin n)
    (h : ∀ r ∈ rs, r.k = i → r.supp = []) : (rs.map (fun r => entry r i j)).sum = 0 := by
  apply List.sum_eq_zero
  intro x hx
  obtain ⟨r, hr, rfl⟩ := List.mem_map.1 hx
  by_cases hk : r.k = i
  · simp [entry, h r hr hk]
  · exact entry_ne r i j hk

theorem sum_entries_one (rs : List (RCon K n)) (hnd : (rs.map (·.k)).Nodup) {r : RCon K n}
    (hr : r ∈ rs) (j : Fin n) : (rs.map (fun q => entry q r.k j)).sum = entry r r.k j := by
  induction rs with
  | nil => simp at hr
  | cons q rs ih =>
    simp only [List.map_cons, List.nodup_cons, List.sum_cons] at hnd ⊢
    rcases List.mem_cons.1 hr with rfl | hr
    · have : (rs.map (fun q => entry q r.k j)).sum = 0 := by
        apply List.sum_eq_zero
        intro x hx
        obtain ⟨p, hp, rfl⟩ := List.mem_map.1 hx
        exact entry_ne p _ j (fun e => hnd.1 (e ▸ List.mem_map_of_mem hp))
      rw [this, add_zero]
    · rw [ih hnd.2 hr, entry_ne q _ j (fun e => hnd.1 (e ▸ List.mem_map_of_mem hr)), zero_add]

theorem sum_entry_mul (r : RCon K n) (v : Fin n → K) :
    ∑ j, entry r r.k j * v j = (r.supp.map (fun s => s.2 * v s.1)).sum := by
  simp only [entry, true_and]
  induction r.supp with
  | nil => simp
  | cons s S ih =>
    simp only [List.map_cons, List.sum_cons, add_mul, Finset.sum_add_distrib, ih]
    congr 1
    simp

/-- The converted constraints of a well-formed system and their properties. -/
theorem link {hs ds : List (Con K)} (W : WellFormed n hs ds) :
    ∃ hr dr : List (RCon K n),
      (hs ++ ds).mapM (rcon n (List.range n)) = .ok (hr ++ dr) ∧
      List.Forall₂ Rel hs hr ∧ List.Forall₂ Rel ds dr ∧
      CoreH (Cmat (hr ++ dr)) (dvec (hr ++ dr)) (hr.map (·.k)) (dr.map (·.k)) ∧
      (∀ r ∈ hr, ∀ v : Fin n → K, ∑ j, Cmat (hr ++ dr) r.k j * v j =
        (r.supp.map (fun s => s.2 * v s.1)).sum) ∧
      (∀ r ∈ dr, dvec (hr ++ dr) r.k = r.aff) := by
  obtain ⟨hr, h1, h2⟩ := rcons_ok (n := n) hs (fun c hc => W.dofs c (by simp [hc])) W.supps
  obtain ⟨dr, h3, h4⟩ := rcons_ok (n := n) ds (fun c hc => W.dofs c (by simp [hc]))
    (fun c hc => by rw [W.dirichlet c hc]; simp)
  have hnd : (hr.map (·.k)).Nodup := by
    have : ((hr.map (·.k)).map (fun x : Fin n => (x : ℕ))).Nodup := by
      rw [List.map_map]
      have := rel_ks h2
      rw [show ((fun x : Fin n => (x : ℕ)) ∘ fun r : RCon K n => r.k) = (fun r => (r.k : ℕ)) from rfl,
        this]
      exact W.nodup
    exact List.Nodup.of_map _ this
  have hdisj : ∀ r ∈ hr, ∀ q ∈ dr, r.k ≠ q.k := by
    intro r hr' q hq e
    obtain ⟨c, hc, R⟩ := rel_mem h2 hr'
    obtain ⟨c', hc', R'⟩ := rel_mem h4 hq
    exact W.disj c hc c' hc' (by rw [← R.1, ← R'.1, e])
  have hemp : ∀ q ∈ dr, q.supp = [] := by
    intro q hq
    obtain ⟨c', hc', R'⟩ := rel_mem h4 hq
    have := R'.2.2.1
    rw [W.dirichlet c' hc'] at this
    simpa using this
  have hrow : ∀ r ∈ hr, ∀ j, Cmat (hr ++ dr) r.k j = entry r r.k j := by
    intro r hr' j
    simp only [Cmat, List.map_append, List.sum_append]
    rw [sum_entries_one hr hnd hr', sum_entries_zero dr _ j (fun q hq _ => hemp q hq)]
    have : r.k ∈ hr.map (·.k) := List.mem_map_of_mem hr'
    simp [this]
  refine ⟨hr, dr, ?_, h2, h4, ⟨?_, ?_, ?_, hnd, ?_, ?_⟩, ?_, ?_⟩
  · rw [List.mapM_append, h1, h3]; rfl
  · intro k hk l hl
    obtain ⟨r, hr', rfl⟩ := List.mem_map.1 hk
    obtain ⟨q, hq, rfl⟩ := List.mem_map.1 hl
    rw [hrow r hr']
    simp only [entry, true_and]
    apply List.sum_eq_zero
    intro x hx
    obtain ⟨s, hs', rfl⟩ := List.mem_map.1 hx
    obtain ⟨c, hc, R⟩ := rel_mem h2 hr'
    obtain ⟨c', hc', R'⟩ := rel_mem h2 hq
    rw [if_neg]
    intro e
    have hmem : ((s.1 : ℕ), s.2) ∈ c.supp := by
      rw [← R.2.2.1]; exact List.mem_map.2 ⟨s, hs', rfl⟩
    exact W.chain c hc _ hmem c' hc' (by rw [← R'.1, e])
  · intro k hk l
    obtain ⟨r, hr', rfl⟩ := List.mem_map.1 hk
    simp only [Cmat, List.map_append, List.sum_append]
    rw [sum_entries_zero dr _ l (fun q hq _ => hemp q hq),
      sum_entries_zero hr _ l (fun q hq e => absurd e (hdisj q hq r hr'))]
    have : r.k ∈ dr.map (·.k) := List.mem_map_of_mem hr'
    simp [this]
  · intro i hi hi' l
    simp only [Cmat, List.map_append, List.sum_append]
    rw [sum_entries_zero dr _ l (fun q hq _ => hemp q hq),
      sum_entries_zero hr _ l (fun q hq e => absurd (List.mem_map.2 ⟨q, hq, e⟩) hi)]
    have : i ∉ hr.map (·.k) ++ dr.map (·.k) := by simp only [List.mem_append]; tauto
    simp only [zero_add, this, not_false_eq_true, and_true]
  · intro k hk hk'
    obtain ⟨r, hr', rfl⟩ := List.mem_map.1 hk
    obtain ⟨q, hq, e⟩ := List.mem_map.1 hk'
    exact hdisj r hr' q hq e.symm
  · intro i hi
    apply foldl_update
    · intro r hr' e
      rcases List.mem_append.1 hr' with h | h
      · obtain ⟨c, hc, R⟩ := rel_mem h2 h
        rw [R.2.2.2, W.hanging c hc]
      · obtain ⟨c, hc, R⟩ := rel_mem h4 h
        exact absurd (List.mem_map.2 ⟨r, h, by rw [← R.2.1, e]⟩) hi
    · left; rfl
  · intro r hr' v
    rw [← sum_entry_mul]
    exact Finset.sum_congr rfl (fun j _ => by rw [hrow r hr'])
  · intro r hr'
    obtain ⟨c, hc, R⟩ := rel_mem h4 hr'
    apply foldl_update
    · intro q hq e
      rcases List.mem_append.1 hq with h | h
      · obtain ⟨c', hc', R'⟩ := rel_mem h2 h
        exact absurd (by rw [← R'.2.1, e]) (hdisj q h r hr')
      · obtain ⟨c', hc', R'⟩ := rel_mem h4 h
        rw [R.2.2.2, R'.2.2.2]
        exact W.consistent c' hc' c hc (by rw [← R.1, ← R'.1, ← R'.2.1, e])
    · exact Or.inr ⟨r, by simp [hr'], R.2.1⟩

end Verif.Linsys
