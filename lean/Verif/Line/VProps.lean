import Verif.Line.VModel

/-!
# The vertices of the dofs of one-dimensional meshes
-/

namespace Verif.Line
open Verif.Fem Verif.OneD Verif.Geom
open Verif.Dof (allSome allSome_some)

section
set_option linter.unusedSectionVars false
variable {K : Type} [Field K] [LinearOrder K] [IsStrictOrderedRing K]
variable {N : Nat} {X : Nat → K} {F : List (Cell K)}

theorem dfs_ok (hF : BisL N X F) : ∀ (n : Nat) (P Q : List IN), (P ++ Q).Nodup → (∀ x ∈ P ++ Q, Ex F x) →
    (∀ x k, child x k ∈ P ++ Q → x ∈ P) → (∀ x ∈ P, kidsAt F x = true → ∀ k, child x k ∈ P ++ Q) →
    (∀ f < N, (f, []) ∈ P ++ Q) → (Q.map (szAt F)).sum ≤ n →
    ∃ R, dfs F n Q = some R ∧ (P ++ R).Nodup ∧ ∀ x, x ∈ P ++ R ↔ Ex F x := by
  have nil : ∀ (P : List IN), (∀ x ∈ P, kidsAt F x = true → ∀ k, child x k ∈ P) → (∀ f < N, (f, []) ∈ P) → ∀ x, Ex F x → x ∈ P := by
    rintro P h4 h5 ⟨f, p⟩
    induction p with
    | nil => intro hx; exact h5 f ((ex_root hF f).1 hx)
    | cons k p ih =>
      intro hx
      have hx' : Ex F (child (f, p) k) := hx
      exact h4 _ (ih (ex_parent hx')) ((ex_child hF _ k).1 hx') k
  intro n
  induction n with
  | zero =>
    intro P Q h1 h2 h3 h4 h5 h6
    cases Q with
    | nil =>
      rw [List.append_nil] at *
      exact ⟨[], rfl, by simpa using h1, fun x => by rw [List.append_nil]; exact ⟨h2 x, nil P h4 h5 x⟩⟩
    | cons c Q =>
      exfalso
      have := szAt_pos (h2 c (by simp))
      simp at h6
      omega
  | succ n ih =>
    intro P Q h1 h2 h3 h4 h5 h6
    cases Q with
    | nil =>
      rw [List.append_nil] at *
      exact ⟨[], rfl, by simpa using h1, fun x => by rw [List.append_nil]; exact ⟨h2 x, nil P h4 h5 x⟩⟩
    | cons c Q =>
      have hcx := h2 c (by simp)
      obtain ⟨new, hnew⟩ : ∃ new, new = if kidsAt F c then [child c 0, child c 1] else [] := ⟨_, rfl⟩
      have hmem : ∀ x, x ∈ new ↔ kidsAt F c = true ∧ ∃ k, x = child c k := by
        intro x
        rw [hnew]
        split_ifs with hk
        · simp [hk, Fin.exists_fin_two]
        · simp [hk]
      have hnd : new.Nodup := by
        rw [hnew]
        split_ifs
        · rw [List.nodup_cons]
          refine ⟨?_, List.nodup_singleton _⟩
          rw [List.mem_singleton]
          intro h
          exact absurd (child_inj h).2 (by decide)
        · exact List.nodup_nil
      have hsz : (new.map (szAt F)).sum + 1 ≤ szAt F c := by
        rw [hnew]
        split_ifs with hk
        · rw [szAt_kids hF hk]; simp
        · simpa using szAt_pos hcx
      have hcP : c ∉ P := by
        intro h
        have := (List.nodup_append'.1 h1).2.2
        exact this h (by simp)
      have hperm : ((c :: P) ++ (new ++ Q)).Perm ((P ++ c :: Q) ++ new) := by
        refine (List.Perm.append_left _ List.perm_append_comm).trans ?_
        rw [List.cons_append, ← List.append_assoc]
        exact (List.perm_middle.symm).append_right new
      have hm : ∀ x, x ∈ (c :: P) ++ (new ++ Q) ↔ x ∈ P ++ c :: Q ∨ x ∈ new := by
        intro x; rw [hperm.mem_iff, List.mem_append]
      obtain ⟨R, r1, r3, r4⟩ := ih (c :: P) (new ++ Q) (by
          rw [hperm.nodup_iff, List.nodup_append']
          refine ⟨h1, hnd, ?_⟩
          intro x hx hx'
          obtain ⟨_, k, rfl⟩ := (hmem x).1 hx'
          exact hcP (h3 c k hx)) (by
          intro x hx
          rcases (hm x).1 hx with h | h
          · exact h2 x h
          · obtain ⟨hk, k, rfl⟩ := (hmem x).1 h
            exact (ex_child hF c k).2 hk) (by
          intro x k hx
          rcases (hm _).1 hx with h | h
          · exact List.mem_cons_of_mem _ (h3 x k h)
          · obtain ⟨_, j, hj⟩ := (hmem _).1 h
            rw [(child_inj hj).1]; simp) (by
          intro x hx hk k
          rw [hm]
          rcases List.mem_cons.1 hx with rfl | hx
          · exact .inr ((hmem _).2 ⟨hk, k, rfl⟩)
          · exact .inl (h4 x hx hk k)) (fun f hf => (hm _).2 (.inl (h5 f hf))) (by
          simp only [List.map_append, List.sum_append]
          simp only [List.map_cons, List.sum_cons] at h6
          omega)
      refine ⟨c :: R, ?_, ?_, ?_⟩
      · unfold dfs
        rw [← hnew, r1]; rfl
      · exact (List.perm_middle (a := c) (l₁ := P) (l₂ := R)).nodup_iff.2 r3
      · intro x
        rw [← r4 x, (List.perm_middle (a := c) (l₁ := P) (l₂ := R)).mem_iff]
        rfl

theorem cellsDF_spec (hF : BisL N X F) (mk : Itv K → Bool) (n : Nat) (hn : nCells F ≤ n) :
    ∃ L, cellsDF mk F n = some L ∧ L.Nodup ∧ (∀ c, c ∈ L ↔ mkAt mk F c = true) := by
  have hsum : (((List.range F.length).map (fun f => ((f, []) : IN))).map (szAt F)).sum ≤ n := by
    refine le_trans (le_of_eq ?_) hn
    unfold nCells
    congr 1
    apply List.ext_getElem
    · simp
    · intro i h1 h2
      simp at h1
      simp [szAt, cellAt_root, List.getElem?_eq_getElem h1]
  obtain ⟨R, r1, r3, r4⟩ := dfs_ok hF n [] ((List.range F.length).map (fun f => (f, []))) (by
      rw [List.nil_append]
      exact List.Nodup.map (fun a b h => (Prod.mk.inj h).1) List.nodup_range) (by
      intro x hx
      simp only [List.nil_append, List.mem_map, List.mem_range] at hx
      obtain ⟨f, hf, rfl⟩ := hx
      exact (ex_root hF f).2 (hF.1 ▸ hf)) (by
      intro x k hx
      simp only [List.nil_append, List.mem_map, List.mem_range] at hx
      obtain ⟨f, _, h⟩ := hx
      exact absurd h.symm child_ne_root) (by simp) (by
      intro f hf
      simp only [List.nil_append, List.mem_map, List.mem_range]
      exact ⟨f, by rw [hF.1]; exact hf, rfl⟩) hsum
  rw [List.nil_append] at r3
  refine ⟨_, by rw [cellsDF, r1]; rfl, r3.filter _, ?_⟩
  · intro c
    have := r4 c
    rw [List.nil_append] at this
    rw [List.mem_filter, this]
    exact ⟨fun h => h.2, fun h => ⟨mkAt_ex h, h⟩⟩


/-- A leaf of the (sub)mesh. -/
def IsLeaf (mk : Itv K → Bool) (F : List (Cell K)) (c : IN) : Prop := mkAt mk F c = true ∧ hasCh mk F c = false

theorem leaves1_spec (hF : BisL N X F) (mk : Itv K → Bool) (n : Nat) (hn : nCells F ≤ n) :
    ∃ L, leaves1 mk F n = some L ∧ L.Nodup ∧ ∀ c, c ∈ L ↔ IsLeaf mk F c := by
  obtain ⟨L, h1, h2, h3, _⟩ := cellsBF_spec hF mk n hn
  refine ⟨_, by rw [leaves1, h1]; rfl, h2.filter _, fun c => ?_⟩
  rw [List.mem_filter, h3]
  simp [IsLeaf]

end

section
set_option linter.unusedSectionVars false
variable {K : Type} [Field K] [LinearOrder K] [IsStrictOrderedRing K]
variable {close : K → K → Bool} {xs : List K} {per : Bool} {e : ET} {F : List (Cell K)} {D : DH} {V : DV K}

theorem UsesV.uses (h : UsesV close xs per e F D V) : Uses xs per e F D := by
  induction h with
  | new ops => exact .new ops
  | split F D V c _ h1 h2 ih => exact .split F D c ih h1 h2
  | mark F D V c f _ ih => exact .mark F D c f ih
  | unmark F D V c f _ ih => exact .unmark F D c f ih
  | dist F D D' V V' sf n _ h1 h2 h3 ih =>
    unfold distributeV at h3
    obtain ⟨D1, g1, g2⟩ := Option.bind_eq_some_iff.1 h3
    obtain ⟨V1, g3, g4⟩ := Option.map_eq_some_iff.1 g2
    cases g4
    exact .dist F D D' sf n ih h1 h2 g1
  | set => assumption

/-! ### The rows -/

theorem val_row {c : IN} {l : List (Option Nat)} (h : D.dofs c = some l) (i : Nat) : val D c i = l.getD i none := by simp [val, h]

theorem rowOf_some {c : IN} {row : List Nat} (h : rowOf D c = some row) : D.dofs c = some (row.map some) := by
  unfold rowOf at h
  obtain ⟨l, h1, h2⟩ := Option.bind_eq_some_iff.1 h
  rw [h1, (allSome_some l row).1 h2]

theorem rowOf_val {c : IN} {row : List Nat} (h : rowOf D c = some row) (i a : Nat) : row[i]? = some a ↔ val D c i = some a := by
  rw [val_row (rowOf_some h), List.getD_eq_getElem?_getD, List.getElem?_map]
  cases row[i]? <;> simp

theorem rowOf_len (hl : Len e D.dofs) {c : IN} {row : List Nat} (h : rowOf D c = some row) : row.length = nd1 e := by
  have := hl c _ (rowOf_some h)
  simpa using this

theorem rowOf_mem (hl : Len e D.dofs) {c : IN} {row : List Nat} (h : rowOf D c = some row) (a : Nat) :
    a ∈ row ↔ ∃ p < nd1 e, val D c p = some a := by
  rw [List.mem_iff_getElem?]
  constructor
  · rintro ⟨p, hp⟩
    refine ⟨p, ?_, (rowOf_val h p a).1 hp⟩
    rw [← rowOf_len hl h]
    exact (List.getElem?_eq_some_iff.1 hp).1
  · rintro ⟨p, _, hp⟩
    exact ⟨p, (rowOf_val h p a).2 hp⟩

theorem nd1_pos (e : ET) : 0 < nd1 e := by cases e <;> decide

theorem rowOf_ex (hl : Len e D.dofs) {c : IN} (h : ∀ p < nd1 e, val D c p ≠ none) : ∃ row, rowOf D c = some row := by
  rcases hr : D.dofs c with _ | l
  · exact absurd (by simp [val, hr]) (h 0 (nd1_pos e))
  · have hlen := hl c l hr
    have : ∃ row : List Nat, l = row.map some := by
      refine ⟨l.map (·.getD 0), ?_⟩
      apply List.ext_getElem?
      intro i
      simp only [List.getElem?_map]
      rcases hi : l[i]? with _ | o
      · rfl
      · have hlt : i < nd1 e := by rw [← hlen]; exact (List.getElem?_eq_some_iff.1 hi).1
        have := h i hlt
        rw [val_row hr, List.getD_eq_getElem?_getD, hi] at this
        cases o with
        | none => exact absurd rfl this
        | some a => rfl
    obtain ⟨row, rfl⟩ := this
    refine ⟨row, ?_⟩
    unfold rowOf
    rw [hr]
    exact (allSome_some _ _).2 rfl

/-! ### The invariant -/

/-- What is stored: for every dof the nodes of some of the cells it belongs to. -/
structure VInv (X : Nat → K) (e : ET) (D : DH) (V : DV K) : Prop where
  nd : V.keys.Nodup
  iff : ∀ a, a ∈ V.keys ↔ V.at_ a ≠ []
  ok : ∀ a c x, (c, x) ∈ V.at_ a → ∃ p : Fin (nd1 e), val D c p = some a ∧ x = place X (c, p)

theorem VInv.new {X : Nat → K} : VInv X e D (DV.new : DV K) := ⟨List.nodup_nil, by simp [DV.new], by simp [DV.new]⟩

theorem VInv.mono {X : Nat → K} {D' : DH} (h : VInv X e D V) (hD : ∀ c p a, p < nd1 e → val D c p = some a → val D' c p = some a) :
    VInv X e D' V := by
  refine ⟨h.nd, h.iff, fun a c x hx => ?_⟩
  obtain ⟨p, h2, h3⟩ := h.ok a c x hx
  exact ⟨p, hD c p a p.2 h2, h3⟩

theorem mem_dput {l : List (IN × K)} {c c' : IN} {x x' : K} (h : (c', x') ∈ dput l c x) : (c', x') ∈ l ∨ (c' = c ∧ x' = x) := by
  unfold dput at h
  split_ifs at h with hc
  · obtain ⟨y, hy, he⟩ := List.mem_map.1 h
    split_ifs at he with h1
    · right; cases he; exact ⟨rfl, rfl⟩
    · left; rw [← he]; exact hy
  · rcases List.mem_append.1 h with h | h
    · exact .inl h
    · right; rw [List.mem_singleton] at h; cases h; exact ⟨rfl, rfl⟩

theorem dput_ne (l : List (IN × K)) (c : IN) (x : K) : dput l c x ≠ [] := by
  unfold dput
  split_ifs with hc
  · intro h
    rw [List.map_eq_nil_iff] at h
    rw [h] at hc
    simp at hc
  · simp

theorem addV_inv {X : Nat → K} (h : VInv X e D V) {c : IN} {a : Nat} {x : K} (hx : ∃ p : Fin (nd1 e), val D c p = some a ∧ x = place X (c, p)) :
    VInv X e D (addV close V c a x) := by
  unfold addV
  split_ifs with h1 h2
  · refine ⟨h.nd, fun b => ?_, fun b c' x' hm => ?_⟩
    · by_cases hb : b = a
      · subst hb
        simp only [Function.update_self]
        exact ⟨fun _ => dput_ne _ _ _, fun _ => h1⟩
      · simp only [Function.update_of_ne hb]
        exact h.iff b
    · by_cases hb : b = a
      · subst hb
        simp only [Function.update_self] at hm
        rcases mem_dput hm with hm | ⟨rfl, rfl⟩
        · exact h.ok _ _ _ hm
        · exact hx
      · simp only [Function.update_of_ne hb] at hm
        exact h.ok _ _ _ hm
  · exact h
  · refine ⟨?_, fun b => ?_, fun b c' x' hm => ?_⟩
    · rw [List.nodup_append']
      refine ⟨h.nd, List.nodup_singleton _, ?_⟩
      intro y hy hy'
      rw [List.mem_singleton] at hy'
      subst hy'
      exact h1 hy
    · by_cases hb : b = a
      · subst hb; simp
      · simp [hb, h.iff b]
    · by_cases hb : b = a
      · subst hb
        simp only [Function.update_self, List.mem_singleton] at hm
        cases hm
        exact hx
      · simp only [Function.update_of_ne hb] at hm
        exact h.ok _ _ _ hm

theorem addV_keys (V : DV K) (c : IN) (a : Nat) (x : K) (b : Nat) : b ∈ (addV close V c a x).keys ↔ b ∈ V.keys ∨ b = a := by
  unfold addV
  split_ifs with h1 h2
  · exact ⟨.inl, fun h => h.elim id (fun h => h ▸ h1)⟩
  · exact ⟨.inl, fun h => h.elim id (fun h => h ▸ h1)⟩
  · simp

theorem fold_keys (F : List (Cell K)) (e : ET) (c : IN) : ∀ (l : List (Nat × Nat)) (V : DV K) (b : Nat),
    b ∈ (l.foldl (fun V y => addV close V c y.1 ((nodeX F e c y.2).getD 0)) V).keys ↔ b ∈ V.keys ∨ b ∈ l.map (·.1) := by
  intro l
  induction l with
  | nil => simp
  | cons y l ih =>
    intro V b
    rw [List.foldl_cons, ih, addV_keys]
    simp [or_assoc]

theorem fold_inv {X : Nat → K} {c : IN} : ∀ (l : List (Nat × Nat)) (V : DV K), VInv X e D V →
    (∀ y ∈ l, ∃ p : Fin (nd1 e), val D c p = some y.1 ∧ (nodeX F e c y.2).getD 0 = place X (c, p)) →
    VInv X e D (l.foldl (fun V y => addV close V c y.1 ((nodeX F e c y.2).getD 0)) V) := by
  intro l
  induction l with
  | nil => intro V h _; exact h
  | cons y l ih =>
    intro V h hl
    exact ih _ (addV_inv h (hl y (by simp))) (fun z hz => hl z (by simp [hz]))

theorem visitV_spec {N : Nat} {X : Nat → K} (hF : BisL N X F) (hl : Len e D.dofs) {c : IN} (hc : Ex F c) {V' : DV K}
    (h : visitV close F e D V c = some V') : (VInv X e D V → VInv X e D V') ∧
      ∃ row, rowOf D c = some row ∧ ∀ b, b ∈ V'.keys ↔ b ∈ V.keys ∨ b ∈ row := by
  unfold visitV at h
  obtain ⟨row, hr, h⟩ := Option.map_eq_some_iff.1 h
  split_ifs at h with hall
  · subst h
    refine ⟨id, row, hr, fun b => ⟨.inl, fun h => h.elim id (fun h => ?_)⟩⟩
    simpa using List.all_eq_true.1 hall b h
  · subst h
    refine ⟨fun hV => fold_inv _ _ hV ?_, row, hr, fun b => ?_⟩
    · rintro ⟨a, p⟩ hy
      have hp := List.mk_mem_zipIdx_iff_getElem?.1 hy
      have hlt : p < nd1 e := by
        rw [← rowOf_len hl hr]
        exact (List.getElem?_eq_some_iff.1 hp).1
      refine ⟨⟨p, hlt⟩, (rowOf_val hr p a).1 hp, ?_⟩
      simp only
      rw [nodeX_place hF hc ⟨p, hlt⟩]
      rfl
    · rw [fold_keys, List.zipIdx_map_fst]

theorem visits_spec {N : Nat} {X : Nat → K} (hF : BisL N X F) (hl : Len e D.dofs) : ∀ (L : List IN) (V V' : DV K), (∀ c ∈ L, Ex F c) →
    L.foldlM (visitV close F e D) V = some V' → (VInv X e D V → VInv X e D V') ∧
      (∀ b ∈ V.keys, b ∈ V'.keys) ∧ ∀ c ∈ L, ∃ row, rowOf D c = some row ∧ ∀ b ∈ row, b ∈ V'.keys := by
  intro L
  induction L with
  | nil =>
    intro V V' _ h
    simp only [List.foldlM_nil, Option.pure_def, Option.some.injEq] at h
    subst h
    exact ⟨id, fun _ h => h, by simp⟩
  | cons c L ih =>
    intro V V' hL h
    rw [List.foldlM_cons] at h
    obtain ⟨V1, g1, g2⟩ := Option.bind_eq_some_iff.1 h
    obtain ⟨a1, row, a2, a3⟩ := visitV_spec hF hl (hL c (by simp)) g1
    obtain ⟨b1, b2, b3⟩ := ih V1 V' (fun x hx => hL x (by simp [hx])) g2
    refine ⟨fun h => b1 (a1 h), fun b hb => b2 b ((a3 b).2 (.inl hb)), ?_⟩
    intro d hd
    rcases List.mem_cons.1 hd with rfl | hd
    · exact ⟨row, a2, fun b hb => b2 b ((a3 b).2 (.inr hb))⟩
    · exact b3 d hd

theorem visits_ex (L : List IN) (hL : ∀ c ∈ L, ∃ row, rowOf D c = some row) : ∀ (V : DV K),
    ∃ V', L.foldlM (visitV close F e D) V = some V' := by
  induction L with
  | nil => intro V; exact ⟨V, rfl⟩
  | cons c L ih =>
    intro V
    obtain ⟨row, hr⟩ := hL c (by simp)
    obtain ⟨V1, h1⟩ : ∃ V1, visitV close F e D V c = some V1 := by unfold visitV; rw [hr]; exact ⟨_, rfl⟩
    obtain ⟨V', h2⟩ := ih (fun d hd => hL d (by simp [hd])) V1
    refine ⟨V', ?_⟩
    rw [List.foldlM_cons, h1]
    exact h2

theorem allSome_ex {α : Type} (l : List (Option α)) (h : ∀ x ∈ l, ∃ a, x = some a) : ∃ m, allSome l = some m := by
  induction l with
  | nil => exact ⟨[], rfl⟩
  | cons x l ih =>
    obtain ⟨a, rfl⟩ := h x (by simp)
    obtain ⟨m, hm⟩ := ih (fun y hy => h y (by simp [hy]))
    exact ⟨a :: m, by simp [allSome, hm]⟩

theorem leafDofs_some {N : Nat} {X : Nat → K} (hF : BisL N X F) (hl : Len e D.dofs) {mk : Itv K → Bool} {n : Nat} (hn : nCells F ≤ n) {l : List Nat}
    (h : leafDofs mk F n D = some l) : l.Nodup ∧ ∀ a, a ∈ l ↔ ∃ c, IsLeaf mk F c ∧ ∃ p < nd1 e, val D c p = some a := by
  obtain ⟨L, q1, q2, q3⟩ := leaves1_spec hF mk n hn
  unfold leafDofs at h
  rw [q1] at h
  obtain ⟨rows, h1, h2⟩ := Option.map_eq_some_iff.1 h
  rw [allSome_some] at h1
  subst h2
  refine ⟨List.nodup_dedup _, fun a => ?_⟩
  rw [List.mem_dedup, List.mem_flatten]
  constructor
  · rintro ⟨row, hr, ha⟩
    have : some row ∈ L.map (rowOf D) := by rw [h1]; exact List.mem_map_of_mem hr
    obtain ⟨c, hc, hrow⟩ := List.mem_map.1 this
    exact ⟨c, (q3 c).1 hc, (rowOf_mem hl hrow a).1 ha⟩
  · rintro ⟨c, hc, hp⟩
    have : rowOf D c ∈ rows.map some := by rw [← h1]; exact List.mem_map_of_mem ((q3 c).2 hc)
    obtain ⟨row, hr, hrow⟩ := List.mem_map.1 this
    exact ⟨row, hr, (rowOf_mem hl hrow.symm a).2 hp⟩

theorem leafDofs_ex {N : Nat} {X : Nat → K} (hF : BisL N X F) {mk : Itv K → Bool} {n : Nat} (hn : nCells F ≤ n)
    (h : ∀ c, IsLeaf mk F c → ∃ row, rowOf D c = some row) : ∃ l, leafDofs mk F n D = some l := by
  obtain ⟨L, q1, q2, q3⟩ := leaves1_spec hF mk n hn
  obtain ⟨rows, hr⟩ := allSome_ex (L.map (rowOf D)) (by
    intro x hx
    obtain ⟨c, hc, rfl⟩ := List.mem_map.1 hx
    exact h c ((q3 c).1 hc))
  refine ⟨rows.flatten.dedup, ?_⟩
  unfold leafDofs
  rw [q1]
  simp only [Option.bind_some, hr]
  rfl

theorem setVerts_spec {N : Nat} {X : Nat → K} (hF : BisL N X F) (hl : Len e D.dofs) {mk : Itv K → Bool} {n : Nat} (hn : nCells F ≤ n) {V' : DV K}
    (h : setVerts close mk F e n D V = some V') : (VInv X e D V → VInv X e D V') ∧ (∀ b ∈ V.keys, b ∈ V'.keys) ∧
      ∃ l, leafDofs mk F n D = some l ∧ ((l.length ≤ V.keys.length ∧ V' = V) ∨
        ∀ c, mkAt mk F c = true → ∃ row, rowOf D c = some row ∧ ∀ b ∈ row, b ∈ V'.keys) := by
  unfold setVerts at h
  obtain ⟨l, h1, h2⟩ := Option.bind_eq_some_iff.1 h
  split_ifs at h2 with hlen
  · cases h2
    exact ⟨id, fun _ h => h, l, h1, .inl ⟨hlen, rfl⟩⟩
  · obtain ⟨L, h3, h4⟩ := Option.bind_eq_some_iff.1 h2
    obtain ⟨L', q1, q2, q3⟩ := cellsDF_spec hF mk n hn
    rw [h3] at q1
    cases q1
    obtain ⟨a1, a2, a3⟩ := visits_spec hF hl L V V' (fun c hc => mkAt_ex ((q3 c).1 hc)) h4
    exact ⟨a1, a2, l, h1, .inr (fun c hm => a3 c ((q3 c).2 hm))⟩

theorem UsesV.inv (hN : per = true → 3 ≤ xs.length) (h : UsesV close xs per e F D V) : VInv (fun f => xs.getD f 0) e D V := by
  have hN' : per = true → 2 ≤ xs.length - 1 := fun hp => by have := hN hp; omega
  induction h with
  | new ops => exact VInv.new
  | split F D V c _ _ _ ih => exact ih
  | mark F D V c f _ ih => exact ih
  | unmark F D V c f _ ih => exact ih
  | dist F D D' V V' sf n h0 h1 h2 h3 ih =>
    unfold distributeV at h3
    obtain ⟨D1, g1, g2⟩ := Option.bind_eq_some_iff.1 h3
    obtain ⟨V1, g3, g4⟩ := Option.map_eq_some_iff.1 g2
    cases g4
    have hu := h0.uses
    have hu' : Uses xs per e F D' := .dist F D D' sf n hu h1 h2 g1
    refine (setVerts_spec hu.bis (hu'.inv hN').1 h2 g3).1 (ih.mono fun c p a hp ha => ?_)
    exact C70_stable hN hu sf n h2 g1 c p a hp ha
  | set F D V V' sf n h0 h1 h2 ih =>
    exact (setVerts_spec h0.uses.bis (h0.uses.inv hN').1 h1 h2).1 ih

theorem getVert_ex {X : Nat → K} (hV : VInv X e D V) {a : Nat} (ha : a ∈ V.keys) : ∃ x, getVert V a = some x := by
  unfold getVert
  rw [if_pos ha]
  obtain ⟨y, l, hy⟩ := List.exists_cons_of_ne_nil ((hV.iff a).1 ha)
  exact ⟨y.2, by rw [hy]; rfl⟩

theorem getVert_mem {X : Nat → K} (hV : VInv X e D V) {a : Nat} {x : K} (h : getVert V a = some x) :
    ∃ (c : IN) (p : Fin (nd1 e)), val D c p = some a ∧ x = place X (c, p) := by
  unfold getVert at h
  split_ifs at h with hk
  obtain ⟨⟨c, y⟩, hy, rfl⟩ := Option.map_eq_some_iff.1 h
  obtain ⟨p, h1, h2⟩ := hV.ok a c y (List.mem_of_mem_head? hy)
  exact ⟨c, p, h1, h2⟩

end

end Verif.Line
