import Verif.Asm.Assemble
import Mathlib.Data.List.Basic

/-! # Lemmas about `consolidate` -/

set_option linter.unusedSectionVars false

namespace Verif.Asm

variable {R : Type} [CommRing R] {κ : Type} [DecidableEq κ]

lemma foldl_set_length {α : Type} (ps : List (ℕ × α)) : ∀ a : List α,
    (ps.foldl (fun a p => a.set p.1 p.2) a).length = a.length := by
  induction ps with
  | nil => intro a; rfl
  | cons p ps ih => intro a; rw [List.foldl_cons, ih]; simp

lemma foldl_set_not_mem {α : Type} (ps : List (ℕ × α)) {d : ℕ} (hd : d ∉ ps.map (·.1)) :
    ∀ a : List α, (ps.foldl (fun a p => a.set p.1 p.2) a)[d]? = a[d]? := by
  induction ps with
  | nil => intro a; rfl
  | cons p ps ih =>
    intro a
    simp only [List.map_cons, List.mem_cons, not_or] at hd
    rw [List.foldl_cons, ih hd.2, List.getElem?_set_ne (Ne.symm hd.1)]

lemma foldl_set_mem {α : Type} (ps : List (ℕ × α)) (hn : (ps.map (·.1)).Nodup) {d : ℕ} {x : α}
    (hd : (d, x) ∈ ps) :
    ∀ a : List α, d < a.length → (ps.foldl (fun a p => a.set p.1 p.2) a)[d]? = some x := by
  induction ps with
  | nil => cases hd
  | cons p ps ih =>
    intro a ha
    simp only [List.map_cons, List.nodup_cons] at hn
    rw [List.foldl_cons]
    rcases List.mem_cons.1 hd with h | h
    · subst h
      rw [foldl_set_not_mem ps hn.1, List.getElem?_set_self ha]
    · exact ih hn.2 h _ (by simpa using ha)

lemma mkIdx_ok {u idx : List ℕ} (h : mkIdx u = .ok idx) (hn : u.Nodup) :
    (∀ i (hi : i < u.length), idx[u[i]]? = some i) ∧
      ∃ l, u.getLast? = some l ∧ idx.length = l + 1 ∧ ∀ d, d ≤ l → d ∉ u → idx[d]? = some 0 := by
  unfold mkIdx at h
  cases hl : u.getLast? with
  | none => simp [hl] at h
  | some l =>
    rw [hl] at h
    simp only at h
    split_ifs at h with hall
    simp only [Except.ok.injEq] at h
    have hle : ∀ x ∈ u, x ≤ l := by simpa using hall
    have hmap : u.zipIdx.map (·.1) = u := by simp
    refine ⟨fun i hi => ?_, l, rfl, ?_, ?_⟩
    · rw [← h]
      apply foldl_set_mem
      · rw [hmap]; exact hn
      · rw [List.mem_zipIdx_iff_getElem?]; simp
      · have := hle _ (List.getElem_mem hi)
        simp; omega
    · rw [← h, foldl_set_length]; simp
    · intro d hd hdu
      rw [← h, foldl_set_not_mem _ (by rw [hmap]; exact hdu)]
      simp [Nat.lt_succ_of_le hd]

lemma mkIdx_ascending {u : List ℕ} (hu : u.Pairwise (· < ·)) (hne : u ≠ []) :
    ∃ idx, mkIdx u = .ok idx := by
  unfold mkIdx
  rw [List.getLast?_eq_getLast_of_ne_nil hne]
  simp only
  have : u.all (· ≤ u.getLast hne) = true := by
    simp only [List.all_eq_true, decide_eq_true_eq]
    intro x hx
    obtain ⟨i, hi, rfl⟩ := List.mem_iff_getElem.1 hx
    rw [List.getLast_eq_getElem]
    rcases Nat.lt_or_ge i (u.length - 1) with h | h
    · exact le_of_lt (List.pairwise_iff_getElem.1 hu _ _ _ _ h)
    · have : i = u.length - 1 := by omega
      subst this; exact le_rfl
  rw [if_pos this]
  exact ⟨_, rfl⟩

lemma look_ok {idx : List ℕ} : ∀ {dofs rs : List ℕ}, look idx dofs = .ok rs →
    rs = dofs.map (fun d => (idx[d]?).getD 0) ∧ ∀ d ∈ dofs, d < idx.length := by
  intro dofs
  induction dofs with
  | nil =>
    intro rs h
    simp only [look, List.mapM_nil, pure, Except.pure, Except.ok.injEq] at h
    subst h; simp
  | cons d dofs ih =>
    intro rs h
    simp only [look, List.mapM_cons, bind, Except.bind] at h
    cases hd : idx[d]? with
    | none => simp [hd] at h
    | some i =>
      rw [hd] at h
      simp only at h
      cases hr : look idx dofs with
      | error e =>
        unfold look at hr
        rw [hr] at h; simp at h
      | ok rs' =>
        obtain ⟨h1, h2⟩ := ih hr
        unfold look at hr
        rw [hr] at h
        simp only [pure, Except.pure, Except.ok.injEq] at h
        subst h
        refine ⟨by simp [hd, h1], ?_⟩
        intro x hx
        rcases List.mem_cons.1 hx with rfl | hx
        · exact (List.getElem?_eq_some_iff.1 hd).1
        · exact h2 x hx

lemma look_total {idx : List ℕ} : ∀ {dofs : List ℕ}, (∀ d ∈ dofs, d < idx.length) →
    ∃ rs, look idx dofs = .ok rs := by
  intro dofs
  induction dofs with
  | nil => intro _; exact ⟨[], rfl⟩
  | cons d dofs ih =>
    intro h
    obtain ⟨rs, hrs⟩ := ih fun x hx => h x (by simp [hx])
    have hd : idx[d]? = some (idx[d]'(h d (by simp))) := List.getElem?_eq_getElem (h d (by simp))
    refine ⟨idx[d]'(h d (by simp)) :: rs, ?_⟩
    unfold look at hrs ⊢
    simp only [List.mapM_cons, bind, Except.bind, hd, hrs]
    rfl

/-- The index of a dof of `u`. -/
lemma idx_eq_iff {u idx : List ℕ} (hn : u.Nodup)
    (hidx : ∀ i (hi : i < u.length), idx[u[i]]? = some i) {d i : ℕ} (hd : d ∈ u)
    (hi : i < u.length) : (idx[d]?).getD 0 = i ↔ d = u[i] := by
  obtain ⟨k, hk, rfl⟩ := List.mem_iff_getElem.1 hd
  rw [hidx k hk, Option.getD_some, List.Nodup.getElem_inj_iff hn]

lemma zip3_map {α β γ δ : Type} (l : List α) (f : α → β) (g : α → γ) (h : α → δ) :
    (l.map f).zip ((l.map g).zip (l.map h)) = l.map fun a => (f a, g a, h a) := by
  induction l with
  | nil => rfl
  | cons a l ih => simp [ih]

lemma zip2_map {α β γ : Type} (l : List α) (f : α → β) (g : α → γ) :
    (l.map f).zip (l.map g) = l.map fun a => (f a, g a) := by
  induction l with
  | nil => rfl
  | cons a l ih => simp [ih]

/-- Unfolding a successful `consolidate`. -/
lemma consolidate2_ok {ord : List ℕ → List ℕ} {af : AF2 κ R} {s : Sys2 R}
    (h : af.consolidate ord = .ok s) :
    ∃ ir ic, mkIdx (ord (af.agg.map (·.row))) = .ok ir ∧ mkIdx (ord (af.agg.map (·.col))) = .ok ic ∧
      s.urow = ord (af.agg.map (·.row)) ∧ s.ucol = ord (af.agg.map (·.col)) ∧
      s.coo = af.agg.map (fun e => ((ir[e.row]?).getD 0, (ic[e.col]?).getD 0, e.val)) ∧
      s.x0 = (if af.bnd = [] then none else
        some (bincount (af.bnd.map fun p => (ir[p.1]?).getD 0) (af.bnd.map (·.2)) s.urow.length)) ∧
      ∀ p ∈ af.bnd, p.1 < ir.length := by
  unfold AF2.consolidate at h
  simp only [bind, Except.bind] at h
  cases h1 : mkIdx (ord (af.agg.map (·.row))) with
  | error e => simp [h1] at h
  | ok ir =>
    cases h2 : mkIdx (ord (af.agg.map (·.col))) with
    | error e => simp [h1, h2] at h
    | ok ic =>
      cases h3 : look ir (af.bnd.map (·.1)) with
      | error e => simp [h1, h2, h3] at h
      | ok xd =>
        cases h4 : look ir (af.agg.map (·.row)) with
        | error e => simp [h1, h2, h3, h4] at h
        | ok rs =>
          cases h5 : look ic (af.agg.map (·.col)) with
          | error e => simp [h1, h2, h3, h4, h5] at h
          | ok cl =>
            simp only [h1, h2, h3, h4, h5, Except.ok.injEq] at h
            subst h
            refine ⟨ir, ic, rfl, rfl, rfl, rfl, ?_, ?_, ?_⟩
            · simp only [(look_ok h4).1, (look_ok h5).1, List.map_map]
              rw [zip3_map]; rfl
            · have := (look_ok h3).1
              rw [List.map_map] at this
              simp only [this, List.map_eq_nil_iff]
              rfl
            · intro p hp
              exact (look_ok h3).2 p.1 (List.mem_map.2 ⟨p, hp, rfl⟩)

/-- The matrix: entry `(i,j)` collects exactly the aggregate entries of these two dofs. -/
lemma entry_eq {ord : List ℕ → List ℕ} (ho : SetOrder ord) {af : AF2 κ R} {s : Sys2 R}
    (h : af.consolidate ord = .ok s) {i j : ℕ} (hi : i < s.urow.length) (hj : j < s.ucol.length) :
    s.entry i j = (af.agg.map fun e => if e.row = s.urow[i] ∧ e.col = s.ucol[j] then e.val else 0).sum := by
  obtain ⟨ir, ic, h1, h2, hu, hc, hcoo, _, _⟩ := consolidate2_ok h
  unfold Sys2.entry
  rw [hcoo, List.map_map]
  congr 1
  apply List.map_congr_left
  intro e he
  have hr : e.row ∈ s.urow := by
    rw [hu, (ho _).2]; exact List.mem_map.2 ⟨e, he, rfl⟩
  have hcl : e.col ∈ s.ucol := by
    rw [hc, (ho _).2]; exact List.mem_map.2 ⟨e, he, rfl⟩
  have n1 : s.urow.Nodup := by rw [hu]; exact (ho _).1
  have n2 : s.ucol.Nodup := by rw [hc]; exact (ho _).1
  rw [← hu] at h1; rw [← hc] at h2
  have e1 := idx_eq_iff n1 (mkIdx_ok h1 n1).1 hr hi
  have e2 := idx_eq_iff n2 (mkIdx_ok h2 n2).1 hcl hj
  simp only [Function.comp]
  simp only [e1, e2]

/-- Summing against the positions of a duplicate-free list. -/
lemma sum_pick {u : List ℕ} (hn : u.Nodup) (w : ℕ → R) {d : ℕ} (hd : d ∈ u) (a : R) :
    ∑ i : Fin u.length, w u[i] * (if d = u[i] then a else 0) = w d * a := by
  obtain ⟨k, hk, rfl⟩ := List.mem_iff_getElem.1 hd
  rw [Finset.sum_eq_single ⟨k, hk⟩]
  · simp
  · intro b _ hb
    have : u[k] ≠ u[b] := by
      intro h
      apply hb
      have := (List.Nodup.getElem_inj_iff hn).1 h
      exact Fin.ext this.symm
    simp only [Fin.getElem_fin] at this
    simp [this]
  · simp

/-- The matrix as a bilinear form. -/
lemma matrix_val {ord : List ℕ → List ℕ} (ho : SetOrder ord) {af : AF2 κ R} {s : Sys2 R}
    (h : af.consolidate ord = .ok s) (v x : ℕ → R) :
    ∑ i : Fin s.urow.length, ∑ j : Fin s.ucol.length, v s.urow[i] * s.entry i j * x s.ucol[j]
      = val2 v x af.agg := by
  obtain ⟨ir, ic, h1, h2, hu, hc, hcoo, _, _⟩ := consolidate2_ok h
  have n1 : s.urow.Nodup := by rw [hu]; exact (ho _).1
  have n2 : s.ucol.Nodup := by rw [hc]; exact (ho _).1
  have hr : ∀ e ∈ af.agg, e.row ∈ s.urow := fun e he => by
    rw [hu, (ho _).2]; exact List.mem_map.2 ⟨e, he, rfl⟩
  have hcl : ∀ e ∈ af.agg, e.col ∈ s.ucol := fun e he => by
    rw [hc, (ho _).2]; exact List.mem_map.2 ⟨e, he, rfl⟩
  have : ∀ (i : Fin s.urow.length) (j : Fin s.ucol.length), s.entry i j
      = (af.agg.map fun e => if e.row = s.urow[i] ∧ e.col = s.ucol[j] then e.val else 0).sum :=
    fun i j => entry_eq ho h i.2 j.2
  simp only [this]
  generalize af.agg = agg at hr hcl
  clear h h1 h2 hu hc hcoo this
  induction agg with
  | nil => simp
  | cons e es ih =>
    simp only [List.map_cons, List.sum_cons, mul_add, add_mul, Finset.sum_add_distrib, val2_cons]
    rw [ih (fun e he => hr e (by simp [he])) (fun e he => hcl e (by simp [he]))]
    congr 1
    have key : ∀ i : Fin s.urow.length, ∑ j : Fin s.ucol.length,
        v s.urow[i] * (if e.row = s.urow[i] ∧ e.col = s.ucol[j] then e.val else 0) * x s.ucol[j]
        = v s.urow[i] * (if e.row = s.urow[i] then e.val * x e.col else 0) := by
      intro i
      have := sum_pick n2 x (hcl e (by simp)) (v s.urow[i] * (if e.row = s.urow[i] then e.val else 0))
      calc _ = ∑ j : Fin s.ucol.length, x s.ucol[j] *
            (if e.col = s.ucol[j] then v s.urow[i] * (if e.row = s.urow[i] then e.val else 0) else 0) := by
            apply Finset.sum_congr rfl
            intro j _
            generalize s.urow[i] = a
            generalize s.ucol[j] = b
            by_cases c1 : e.row = a <;> by_cases c2 : e.col = b <;> simp [c1, c2]
            ring
        _ = _ := by
            rw [this]
            generalize s.urow[i] = a
            by_cases c1 : e.row = a <;> simp [c1]
            ring
    simp only [key]
    rw [sum_pick n1 v (hr e (by simp))]; ring

lemma bincount_getD {idx : List ℕ} {vals : List R} {n i : ℕ} (hi : i < n) :
    (bincount idx vals n).getD i 0 = ((idx.zip vals).map fun p => if p.1 = i then p.2 else 0).sum := by
  unfold bincount
  have : i < max n ((idx.map (· + 1)).foldr max 0) := lt_of_lt_of_le hi (le_max_left _ _)
  simp [this]

lemma foldr_max_le {n : ℕ} : ∀ {l : List ℕ}, (∀ x ∈ l, x < n) → (l.map (· + 1)).foldr max 0 ≤ n := by
  intro l
  induction l with
  | nil => intro _; simp
  | cons a l ih =>
    intro h
    simp only [List.map_cons, List.foldr_cons]
    exact max_le (h a (by simp)) (ih fun x hx => h x (by simp [hx]))

lemma bincount_length {idx : List ℕ} {vals : List R} {n : ℕ} (h : ∀ x ∈ idx, x < n) :
    (bincount idx vals n).length = n := by
  unfold bincount
  simp [foldr_max_le h]

/-- The Dirichlet correction stored by `consolidate` (`0` if there is none). -/
def corr (s : Sys2 R) (i : ℕ) : R := (s.x0.getD []).getD i 0

/-- The Dirichlet correction, if all its rows are rows of the matrix. -/
lemma corr_eq {ord : List ℕ → List ℕ} (ho : SetOrder ord) {af : AF2 κ R} {s : Sys2 R}
    (h : af.consolidate ord = .ok s) (hb : ∀ p ∈ af.bnd, p.1 ∈ af.agg.map (·.row))
    {i : ℕ} (hi : i < s.urow.length) :
    corr s i = (af.bnd.map fun p => if p.1 = s.urow[i] then p.2 else 0).sum := by
  obtain ⟨ir, ic, h1, h2, hu, hc, _, hx0, _⟩ := consolidate2_ok h
  have n1 : s.urow.Nodup := by rw [hu]; exact (ho _).1
  rw [← hu] at h1
  unfold corr
  rw [hx0]
  split_ifs with hbe
  · simp [hbe]
  · rw [Option.getD_some, bincount_getD hi, zip2_map, List.map_map]
    congr 1
    apply List.map_congr_left
    intro p hp
    have hm : p.1 ∈ s.urow := by rw [hu, (ho _).2]; exact hb p hp
    simp only [Function.comp]
    simp only [idx_eq_iff n1 (mkIdx_ok h1 n1).1 hm hi]

lemma corr_val {ord : List ℕ → List ℕ} (ho : SetOrder ord) {af : AF2 κ R} {s : Sys2 R}
    (h : af.consolidate ord = .ok s) (hb : ∀ p ∈ af.bnd, p.1 ∈ af.agg.map (·.row)) (v : ℕ → R) :
    ∑ i : Fin s.urow.length, v s.urow[i] * corr s i = valb v af.bnd := by
  have hu : s.urow = ord (af.agg.map (·.row)) := (consolidate2_ok h).choose_spec.choose_spec.2.2.1
  have n1 : s.urow.Nodup := by rw [hu]; exact (ho _).1
  have hm : ∀ p ∈ af.bnd, p.1 ∈ s.urow := fun p hp => by rw [hu, (ho _).2]; exact hb p hp
  have : ∀ i : Fin s.urow.length, corr s i
      = (af.bnd.map fun p => if p.1 = s.urow[i] then p.2 else 0).sum := fun i => corr_eq ho h hb i.2
  simp only [this]
  generalize af.bnd = bs at hm
  clear h hb hu this
  induction bs with
  | nil => simp
  | cons p bs ih =>
    simp only [List.map_cons, List.sum_cons, mul_add, Finset.sum_add_distrib]
    rw [ih fun p hp => hm p (by simp [hp]), sum_pick n1 v (hm p (by simp))]
    simp [valb]

lemma consolidate1_ok {ord : List ℕ → List ℕ} {af : AF1 κ R} {u : List ℕ} {b : List R}
    (h : af.consolidate ord = .ok (u, b)) :
    ∃ ir, mkIdx u = .ok ir ∧ u = ord (af.agg.map (·.row)) ∧
      b = bincount (af.agg.map fun e => (ir[e.row]?).getD 0) (af.agg.map (·.val)) u.length := by
  unfold AF1.consolidate at h
  simp only [bind, Except.bind] at h
  cases h1 : mkIdx (ord (af.agg.map (·.row))) with
  | error e => simp [h1] at h
  | ok ir =>
    cases h4 : look ir (af.agg.map (·.row)) with
    | error e => simp [h1, h4] at h
    | ok rs =>
      simp only [h1, h4, Except.ok.injEq, Prod.mk.injEq] at h
      obtain ⟨rfl, rfl⟩ := h
      refine ⟨ir, h1, rfl, ?_⟩
      rw [(look_ok h4).1, List.map_map]; rfl

lemma vec_eq {ord : List ℕ → List ℕ} (ho : SetOrder ord) {af : AF1 κ R} {u : List ℕ} {b : List R}
    (h : af.consolidate ord = .ok (u, b)) :
    b.length = u.length ∧ ∀ i (hi : i < u.length),
      b.getD i 0 = (af.agg.map fun e => if e.row = u[i] then e.val else 0).sum := by
  obtain ⟨ir, h1, hu, hb⟩ := consolidate1_ok h
  have n1 : u.Nodup := by rw [hu]; exact (ho _).1
  have hm : ∀ e ∈ af.agg, e.row ∈ u := fun e he => by
    rw [hu, (ho _).2]; exact List.mem_map.2 ⟨e, he, rfl⟩
  have hidx := (mkIdx_ok h1 n1).1
  constructor
  · rw [hb]
    apply bincount_length
    intro x hx
    obtain ⟨e, he, rfl⟩ := List.mem_map.1 hx
    obtain ⟨k, hk, hk'⟩ := List.mem_iff_getElem.1 (hm e he)
    rw [← hk', hidx k hk]; exact hk
  · intro i hi
    rw [hb, bincount_getD hi, zip2_map, List.map_map]
    congr 1
    apply List.map_congr_left
    intro e he
    simp only [Function.comp]
    simp only [idx_eq_iff n1 hidx (hm e he) hi]

lemma vec_val {ord : List ℕ → List ℕ} (ho : SetOrder ord) {af : AF1 κ R} {u : List ℕ} {b : List R}
    (h : af.consolidate ord = .ok (u, b)) (v : ℕ → R) :
    ∑ i : Fin u.length, v u[i] * b.getD i 0 = val1 v af.agg := by
  have hu : u = ord (af.agg.map (·.row)) := (consolidate1_ok h).choose_spec.2.1
  have n1 : u.Nodup := by rw [hu]; exact (ho _).1
  have hm : ∀ e ∈ af.agg, e.row ∈ u := fun e he => by
    rw [hu, (ho _).2]; exact List.mem_map.2 ⟨e, he, rfl⟩
  have : ∀ i : Fin u.length, b.getD i 0
      = (af.agg.map fun e => if e.row = u[i] then e.val else 0).sum := fun i => (vec_eq ho h).2 i i.2
  simp only [this]
  generalize af.agg = es at hm
  clear h hu this
  induction es with
  | nil => simp
  | cons e es ih =>
    simp only [List.map_cons, List.sum_cons, mul_add, Finset.sum_add_distrib]
    rw [ih fun e he => hm e (by simp [he]), sum_pick n1 v (hm e (by simp))]
    simp

/-- If `list(set(..))` is sorted and some free dof is coupled, `consolidate` succeeds as long as the
rows of the Dirichlet correction are rows of the matrix. -/
lemma consolidate2_total {ord : List ℕ → List ℕ} (ho : SetOrder ord) (hs : Ascending ord)
    {af : AF2 κ R} (hne : af.agg ≠ []) (hb : ∀ p ∈ af.bnd, p.1 ∈ af.agg.map (·.row)) :
    ∃ s, af.consolidate ord = .ok s := by
  have lt : ∀ (l : List ℕ) idx, mkIdx (ord l) = .ok idx → ∀ d ∈ l, d < idx.length := by
    intro l idx h d hd
    have hd' := ((ho l).2 d).2 hd
    obtain ⟨k, hk, rfl⟩ := List.mem_iff_getElem.1 hd'
    exact (List.getElem?_eq_some_iff.1 ((mkIdx_ok h (ho l).1).1 k hk)).1
  have ne : ∀ l : List ℕ, l ≠ [] → ord l ≠ [] := by
    intro l hl h
    obtain ⟨x, hx⟩ := List.exists_mem_of_ne_nil l hl
    have := ((ho l).2 x).2 hx
    rw [h] at this; cases this
  obtain ⟨ir, h1⟩ := mkIdx_ascending (hs (af.agg.map (·.row))) (ne _ (by simpa using hne))
  obtain ⟨ic, h2⟩ := mkIdx_ascending (hs (af.agg.map (·.col))) (ne _ (by simpa using hne))
  obtain ⟨xd, h3⟩ := look_total (idx := ir) (dofs := af.bnd.map (·.1)) (by
    intro d hd
    obtain ⟨p, hp, rfl⟩ := List.mem_map.1 hd
    exact lt _ _ h1 _ (hb p hp))
  obtain ⟨rs, h4⟩ := look_total (idx := ir) (dofs := af.agg.map (·.row)) (lt _ _ h1)
  obtain ⟨cl, h5⟩ := look_total (idx := ic) (dofs := af.agg.map (·.col)) (lt _ _ h2)
  unfold AF2.consolidate
  simp only [bind, Except.bind, h1, h2, h3, h4, h5]
  exact ⟨_, rfl⟩

lemma consolidate1_total {ord : List ℕ → List ℕ} (ho : SetOrder ord) (hs : Ascending ord)
    {af : AF1 κ R} (hne : af.agg ≠ []) : ∃ u b, af.consolidate ord = .ok (u, b) := by
  obtain ⟨x, hx⟩ := List.exists_mem_of_ne_nil (af.agg.map (·.row)) (by simpa using hne)
  have hne' : ord (af.agg.map (·.row)) ≠ [] := by
    intro h
    have := ((ho (af.agg.map (·.row))).2 x).2 hx
    rw [h] at this; cases this
  obtain ⟨ir, h1⟩ := mkIdx_ascending (hs (af.agg.map (·.row))) hne'
  obtain ⟨rs, h4⟩ := look_total (idx := ir) (dofs := af.agg.map (·.row)) (by
    intro d hd
    have hd' := ((ho (af.agg.map (·.row))).2 d).2 hd
    obtain ⟨k, hk, rfl⟩ := List.mem_iff_getElem.1 hd'
    exact (List.getElem?_eq_some_iff.1 ((mkIdx_ok h1 (ho _).1).1 k hk)).1)
  unfold AF1.consolidate
  simp only [bind, Except.bind, h1, h4]
  exact ⟨_, _, rfl⟩

end Verif.Asm
