import Verif.Dof.Share

/-!
# `distribute_dofs` on a mesh, and the histories of a dof handler
-/

namespace Verif.Dof
open Verif.Fem Verif.Mesh

section model
variable {K : Type}

/-- The loop of `cells.traverse(mode='breadth-first')` (mesh.py 1180-1202), at most `n` rounds. -/
def bfs (s : St K) : Nat → List CN → Option (List CN)
  | _, [] => some []
  | 0, _ :: _ => none
  | n + 1, c :: q => (bfs s n (q ++ if s.kids c then four.map (child c) else [])).map (c :: ·)

/-- `cells.traverse(mode='breadth-first', flag=subforest_flag)` of a mesh with `N` initial cells (mesh.py 1158-1202). -/
def cellsBF (sf : Bool) (N : Nat) (s : St K) (n : Nat) : Option (List CN) :=
  (bfs s n ((List.range N).map (fun f => (f, [])))).map (List.filter (fun c => !sf || s.mkd c))

/-- `distribute_dofs(subforest_flag)` (fem.py 1221-1276). -/
def distributeDofs [Field K] (sf : Bool) (N : Nat) (s : St K) (e : ET) (n : Nat) (D : DH) : Option DH :=
  (cellsBF sf N s n).bind (fun L => distribute sf s e n L D)

end model

/-! ### The traversal -/

/-- Parents come first; `P`: the cells seen before. -/
def Ord : List CN → List CN → Prop
  | _, [] => True
  | P, c :: L => (∀ x k, c = child x k → x ∈ P) ∧ Ord (c :: P) L

theorem child_inj {c d : CN} {k j : Fin 4} (h : child c k = child d j) : c = d ∧ k = j := by
  obtain ⟨f, p⟩ := c
  obtain ⟨g, q⟩ := d
  simp only [child, Prod.mk.injEq, List.cons.injEq] at h
  obtain ⟨rfl, rfl, rfl⟩ := h
  exact ⟨rfl, rfl⟩

theorem child_ne_root {c : CN} {k : Fin 4} {f : Nat} : child c k ≠ (f, []) := by
  intro h
  simp [child] at h

theorem cn_cases (c : CN) : (∃ f, c = (f, [])) ∨ ∃ d k, c = child d k := by
  obtain ⟨f, _ | ⟨k, p⟩⟩ := c
  · exact .inl ⟨f, rfl⟩
  · exact .inr ⟨(f, p), k, rfl⟩

section
set_option linter.unusedSectionVars false
variable {K : Type} [Field K] {B : Base K} {s : St K}

theorem bfs_ok (hi : CInv B s) : ∀ (n : Nat) (P Q : List CN), (P ++ Q).Nodup → (∀ x ∈ P ++ Q, CEx B.n s.kids x) →
    (∀ x k, child x k ∈ P ++ Q → x ∈ P) → (∀ x ∈ P, s.kids x = true → ∀ k, child x k ∈ P ++ Q) →
    (∀ f < B.n, (f, []) ∈ P ++ Q) → s.cells.length ≤ P.length + n →
    ∃ R, bfs s n Q = some R ∧ Ord P R ∧ (P ++ R).Nodup ∧ ∀ x, x ∈ P ++ R ↔ CEx B.n s.kids x := by
  intro n
  induction n with
  | zero =>
    intro P Q h1 h2 h3 h4 h5 h6
    cases Q with
    | nil =>
      refine ⟨[], rfl, trivial, h1, fun x => ⟨h2 x, ?_⟩⟩
      obtain ⟨f, p⟩ := x
      intro hx
      induction p with
      | nil => exact h5 f hx
      | cons k p ih =>
        have := ih (hi.pref _ hx)
        rw [List.append_nil] at this
        exact h4 _ this hx k
    | cons c Q =>
      exfalso
      have := (h1.subperm (l₂ := s.cells) (fun x hx => (hi.mem x).2 (h2 x hx))).length_le
      simp at this
      omega
  | succ n ih =>
    intro P Q h1 h2 h3 h4 h5 h6
    cases Q with
    | nil =>
      refine ⟨[], rfl, trivial, h1, fun x => ⟨h2 x, ?_⟩⟩
      obtain ⟨f, p⟩ := x
      intro hx
      induction p with
      | nil => exact h5 f hx
      | cons k p ih =>
        have := ih (hi.pref _ hx)
        rw [List.append_nil] at this
        exact h4 _ this hx k
    | cons c Q =>
      have hcx := h2 c (by simp)
      obtain ⟨new, hnew⟩ : ∃ new, new = if s.kids c then four.map (child c) else [] := ⟨_, rfl⟩
      have hmem : ∀ x, x ∈ new ↔ s.kids c = true ∧ ∃ k, x = child c k := by
        intro x
        rw [hnew]
        split_ifs with hk
        · simp only [List.mem_map, hk, true_and]
          exact ⟨fun ⟨k, _, h⟩ => ⟨k, h.symm⟩, fun ⟨k, h⟩ => ⟨k, four_mem k, h.symm⟩⟩
        · simp [hk]
      have hnd : new.Nodup := by
        rw [hnew]
        split_ifs
        · refine List.Nodup.map (fun a b h => (child_inj h).2) (by decide)
        · exact List.nodup_nil
      have hcP : c ∉ P := by
        intro h
        have := (List.nodup_append'.1 h1).2.2
        exact this h (by simp)
      have hperm : ((c :: P) ++ (Q ++ new)).Perm ((P ++ c :: Q) ++ new) := by
        rw [List.cons_append, ← List.append_assoc]
        exact (List.perm_middle.symm).append_right new
      have hm : ∀ x, x ∈ (c :: P) ++ (Q ++ new) ↔ x ∈ P ++ c :: Q ∨ x ∈ new := by
        intro x; rw [hperm.mem_iff, List.mem_append]
      obtain ⟨R, r1, r2, r3, r4⟩ := ih (c :: P) (Q ++ new) (by
          rw [hperm.nodup_iff, List.nodup_append']
          refine ⟨h1, hnd, ?_⟩
          intro x hx hx'
          obtain ⟨_, k, rfl⟩ := (hmem x).1 hx'
          exact hcP (h3 c k hx)) (by
          intro x hx
          rcases (hm x).1 hx with h | h
          · exact h2 x h
          · obtain ⟨hk, k, rfl⟩ := (hmem x).1 h
            exact hk) (by
          intro x k hx
          rcases (hm _).1 hx with h | h
          · exact List.mem_cons_of_mem _ (h3 x k h)
          · obtain ⟨_, j, hj⟩ := (hmem _).1 h
            rw [(child_inj hj).1]; simp) (by
          intro x hx hk k
          rw [hm]
          rcases List.mem_cons.1 hx with rfl | hx
          · exact .inr ((hmem _).2 ⟨hk, k, rfl⟩)
          · exact .inl (h4 x hx hk k)) (fun f hf => (hm _).2 (.inl (h5 f hf))) (by simp; omega)
      refine ⟨c :: R, ?_, ⟨?_, r2⟩, ?_, ?_⟩
      · unfold bfs
        rw [← hnew, r1]; rfl
      · rintro x k rfl
        exact h3 x k (by simp)
      · exact (List.perm_middle (a := c) (l₁ := P) (l₂ := R)).nodup_iff.2 r3
      · intro x
        rw [← r4 x, (List.perm_middle (a := c) (l₁ := P) (l₂ := R)).mem_iff]
        rfl

/-- All ancestors of a flagged cell are flagged. -/
def RootedFlag (B : Base K) (s : St K) : Prop := ∀ c k, CEx B.n s.kids (child c k) → s.mkd (child c k) = true → s.mkd c = true

theorem ord_filter (m : CN → Bool) : ∀ (L P : List CN), (∀ c k, child c k ∈ L → m (child c k) = true → m c = true) →
    Ord P L → Ord (P.filter m) (L.filter m) := by
  intro L
  induction L with
  | nil => intro P _ _; trivial
  | cons c L ih =>
    rintro P hm ⟨h1, h2⟩
    have := ih (c :: P) (fun x k hx => hm x k (by simp [hx])) h2
    by_cases hc : m c = true
    · rw [List.filter_cons_of_pos hc] at this ⊢
      refine ⟨?_, this⟩
      rintro x k rfl
      exact List.mem_filter.2 ⟨h1 x k rfl, hm x k (by simp) hc⟩
    · rw [List.filter_cons_of_neg hc] at this ⊢
      exact this

/-- The cells a distribution visits. -/
def Visited (B : Base K) (sf : Bool) (s : St K) (c : CN) : Prop := CEx B.n s.kids c ∧ (sf = false ∨ s.mkd c = true)

theorem cellsBF_spec (hi : CInv B s) (sf : Bool) (n : Nat) (hn : 4 * s.cells.length ≤ n) :
    ∃ L, cellsBF sf B.n s n = some L ∧ L.Nodup ∧ (∀ c, c ∈ L ↔ Visited B sf s c) ∧
      ((sf = false ∨ RootedFlag B s) → Ord [] L) := by
  obtain ⟨R, r1, r2, r3, r4⟩ := bfs_ok hi n [] ((List.range B.n).map (fun f => (f, []))) (by
      rw [List.nil_append]
      exact List.Nodup.map (fun a b h => (Prod.mk.inj h).1) List.nodup_range) (by
      intro x hx
      simp only [List.nil_append, List.mem_map, List.mem_range] at hx
      obtain ⟨f, hf, rfl⟩ := hx
      exact hf) (by
      intro x k hx
      simp only [List.nil_append, List.mem_map, List.mem_range] at hx
      obtain ⟨f, _, h⟩ := hx
      exact absurd h.symm child_ne_root) (by simp) (by
      intro f hf
      simp only [List.nil_append, List.mem_map, List.mem_range]
      exact ⟨f, hf, rfl⟩) (by simp; omega)
  rw [List.nil_append] at r3
  refine ⟨_, by rw [cellsBF, r1]; rfl, r3.filter _, ?_, ?_⟩
  · intro c
    have := r4 c
    rw [List.nil_append] at this
    rw [List.mem_filter, this]
    unfold Visited
    cases sf <;> simp
  · intro h
    refine ord_filter _ R [] ?_ r2
    intro c k hx hm
    have hx := (r4 _).1 (by simpa using hx)
    rcases h with rfl | h
    · simp
    · cases sf
      · simp
      · simp only [Bool.not_true, Bool.false_or] at hm ⊢
        exact h c k hx hm

/-! ### One distribution -/

/-- The treatment of the cells of `L` one after the other. -/
theorem loop_gen {X : Type} {V : CN → Fin 4 → X} (hG : Geo B (CEx B.n s.kids) V) (e : ET) (sf : Bool) (P : DH → CN → Option DH)
    (hP : ∀ c D, CEx B.n s.kids c → Len e D.dofs → ∃ D', P D c = some D' ∧ Len e D'.dofs ∧
      Eff (sysOf hG e) c (hasCh sf s c) (vOf D.dofs) (vOf D'.dofs) D.count D'.count) :
    ∀ (L Q : List CN) (D : DH), Ord Q L → (∀ c ∈ L, Visited B sf s c) → Len e D.dofs →
    NumInv (sysOf hG e) (vOf D.dofs) D.count →
    (∀ c ∈ Q, Done (sysOf hG e) (vOf D.dofs) c ∧ (hasCh sf s c = true → Shared (sysOf hG e) (vOf D.dofs) c)) →
    ∃ D', L.foldlM P D = some D' ∧ Len e D'.dofs ∧ NumInv (sysOf hG e) (vOf D'.dofs) D'.count ∧
      ∀ c ∈ Q ++ L, Done (sysOf hG e) (vOf D'.dofs) c := by
  intro L
  induction L with
  | nil =>
    intro Q D _ _ hl hv hQ
    exact ⟨D, rfl, hl, hv, fun c hc => (hQ c (by simpa using hc)).1⟩
  | cons c L ih =>
    rintro Q D ⟨ho, ho'⟩ hL hl hv hQ
    have hcx := (hL c (by simp)).1
    obtain ⟨D1, p1, p2, p3⟩ := hP c D hcx hl
    have hc : ∀ l m, (sysOf hG e).cell l = c → (sysOf hG e).up l = some m → vOf D.dofs l ≠ none := by
      intro l m h1 h2
      have h2' := h2
      rw [sysOf_up] at h2'
      rw [sysOf_cell] at h1
      obtain ⟨k, h3, _⟩ := upL_some e l m h2'
      rw [h1] at h3
      have hmP := ho m.1 k h3
      have hch : hasCh sf s m.1 = true := by
        unfold hasCh
        have hk : s.kids m.1 = true := by rw [h3] at hcx; exact hcx
        rw [hk]
        rcases (hL c (by simp)).2 with rfl | hm
        · rfl
        · simp only [Bool.true_and, Bool.or_eq_true, List.any_eq_true]
          exact .inr ⟨k, four_mem k, by rw [← h3]; exact hm⟩
      exact (hQ m.1 hmP).2 hch m l (by rw [sysOf_cell]) h2
    obtain ⟨s1, s2, s3⟩ := hv.step hc p3
    obtain ⟨D', q1, q2, q3, q4⟩ := ih (c :: Q) D1 ho' (fun x hx => hL x (by simp [hx])) p2 s1 (by
      intro x hx
      rcases List.mem_cons.1 hx with rfl | hx
      · exact ⟨s2, s3⟩
      · obtain ⟨d1, d2⟩ := hQ x hx
        exact ⟨d1.mono p3, fun h => (d2 h).mono p3⟩)
    refine ⟨D', ?_, q2, q3, ?_⟩
    · simp only [List.foldlM_cons, p1]
      exact q1
    · intro x hx
      refine q4 x ?_
      simp only [List.mem_append, List.mem_cons] at hx ⊢
      tauto

theorem loop_spec (hB : B.WF) (hi : CInv B s) (hG : Geo B (CEx B.n s.kids) (vert s)) (e : ET) (sf : Bool) {n : Nat}
    (hn : 4 * s.cells.length ≤ n) : ∀ (L P : List CN) (D : DH), Ord P L → (∀ c ∈ L, Visited B sf s c) → Len e D.dofs →
    NumInv (sysOf hG e) (vOf D.dofs) D.count →
    (∀ c ∈ P, Done (sysOf hG e) (vOf D.dofs) c ∧ (hasCh sf s c = true → Shared (sysOf hG e) (vOf D.dofs) c)) →
    ∃ D', L.foldlM (process sf s e n) D = some D' ∧ Len e D'.dofs ∧ NumInv (sysOf hG e) (vOf D'.dofs) D'.count ∧
      ∀ c ∈ P ++ L, Done (sysOf hG e) (vOf D'.dofs) c :=
  loop_gen hG e sf _ (fun _ D hc hl => process_spec hB hi hG sf hc hn D hl)

/-- What holds for every mesh and every dof handler: the treatment of the cells does not fail, assigns all dofs, and
changes none. -/
theorem any_gen {X : Type} {V : CN → Fin 4 → X} (hG : Geo B (CEx B.n s.kids) V) (e : ET) (sf : Bool) (P : DH → CN → Option DH)
    (hP : ∀ c D, CEx B.n s.kids c → Len e D.dofs → ∃ D', P D c = some D' ∧ Len e D'.dofs ∧
      Eff (sysOf hG e) c (hasCh sf s c) (vOf D.dofs) (vOf D'.dofs) D.count D'.count) (I : DH → Prop)
    (hI : ∀ c D D', Visited B sf s c → I D → Len e D.dofs → Len e D'.dofs →
      Eff (sysOf hG e) c (hasCh sf s c) (vOf D.dofs) (vOf D'.dofs) D.count D'.count → I D') :
    ∀ (L : List CN) (D : DH), (∀ c ∈ L, Visited B sf s c) → Len e D.dofs → I D →
    ∃ D', L.foldlM P D = some D' ∧ Len e D'.dofs ∧ I D' ∧
      (∀ (l : Loc e) a, vOf D.dofs l = some a → vOf D'.dofs l = some a) ∧ ∀ c ∈ L, ∀ p : Fin (nd2 e), vOf D'.dofs (c, p) ≠ none := by
  intro L
  induction L with
  | nil =>
    intro D _ hl h
    exact ⟨D, rfl, hl, h, fun _ _ h => h, fun c hc => (by cases hc)⟩
  | cons c L ih =>
    intro D hL hl h
    obtain ⟨D1, p1, p2, p3⟩ := hP c D (hL c (by simp)).1 hl
    obtain ⟨D', q1, q2, q3, q4, q5⟩ := ih D1 (fun x hx => hL x (by simp [hx])) p2 (hI c D D1 (hL c (by simp)) h hl p2 p3)
    refine ⟨D', ?_, q2, q3, fun l a h => q4 l a (p3.mono l a h), ?_⟩
    · simp only [List.foldlM_cons, p1]
      exact q1
    · intro x hx p
      rcases List.mem_cons.1 hx with rfl | hx
      · obtain ⟨a, ha, _⟩ := p3.own (x, p) (by rw [sysOf_cell])
        rw [q4 _ a ha]; simp
      · exact q5 x hx p

theorem loop_any (hB : B.WF) (hi : CInv B s) (hG : Geo B (CEx B.n s.kids) (vert s)) (e : ET) (sf : Bool) {n : Nat}
    (hn : 4 * s.cells.length ≤ n) (I : DH → Prop)
    (hI : ∀ c D D', Visited B sf s c → I D → Len e D.dofs → Len e D'.dofs →
      Eff (sysOf hG e) c (hasCh sf s c) (vOf D.dofs) (vOf D'.dofs) D.count D'.count → I D') :
    ∀ (L : List CN) (D : DH), (∀ c ∈ L, Visited B sf s c) → Len e D.dofs → I D →
    ∃ D', L.foldlM (process sf s e n) D = some D' ∧ Len e D'.dofs ∧ I D' ∧
      (∀ (l : Loc e) a, vOf D.dofs l = some a → vOf D'.dofs l = some a) ∧ ∀ c ∈ L, ∀ p : Fin (nd2 e), vOf D'.dofs (c, p) ≠ none :=
  any_gen hG e sf _ (fun _ D hc hl => process_spec hB hi hG sf hc hn D hl) I hI

end

/-! ### Histories -/

section hist
variable {K : Type} [Field K]

/-- The states of a mesh and a dof handler on it, when the mesh is refined, flags are set and dofs are distributed in
any order. -/
inductive Uses (B : Base K) (e : ET) : St K → DH → Prop
  | new (s : St K) : MReach B s → Uses B e s DH.new
  | split (s s' : St K) (D : DH) (c : CN) (sf : Bool) : Uses B e s D → c ∈ s.cells → s.kids c = false →
      cellSplit sf s c = .ok s' → Uses B e s' D
  | mark (s : St K) (D : DH) (m : CN → Bool) : Uses B e s D → Uses B e { s with mkd := m } D
  | dist (s : St K) (D D' : DH) (sf : Bool) (n : Nat) : Uses B e s D → (sf = false ∨ RootedFlag B s) →
      4 * s.cells.length ≤ n → distributeDofs sf B.n s e n D = some D' → Uses B e s D'

/-- The same without refinement after the dof handler was created (or cleared). -/
inductive UsesFixed (B : Base K) (e : ET) : St K → DH → Prop
  | new (s : St K) : MReach B s → UsesFixed B e s DH.new
  | mark (s : St K) (D : DH) (m : CN → Bool) : UsesFixed B e s D → UsesFixed B e { s with mkd := m } D
  | dist (s : St K) (D D' : DH) (sf : Bool) (n : Nat) : UsesFixed B e s D → (sf = false ∨ RootedFlag B s) →
      4 * s.cells.length ≤ n → distributeDofs sf B.n s e n D = some D' → UsesFixed B e s D'

theorem UsesFixed.uses {B : Base K} {e : ET} {s : St K} {D : DH} (h : UsesFixed B e s D) : Uses B e s D := by
  induction h with
  | new s h => exact .new s h
  | mark s D m _ ih => exact .mark s D m ih
  | dist s D D' sf n _ h1 h2 h3 ih => exact .dist s D D' sf n ih h1 h2 h3

theorem Uses.reach {B : Base K} {e : ET} {s : St K} {D : DH} (h : Uses B e s D) : MReach B s := by
  induction h with
  | new s h => exact h
  | split s s' D c sf _ h1 h2 h3 ih => exact .split s s' c sf ih h1 h2 h3
  | mark s D m _ ih => exact .mark s m ih
  | dist s D D' sf n _ _ _ _ ih => exact ih

/-- Numbers below the count, without gaps; same number, same point. -/
structure Snd {L : Type} (R : L → L → Prop) (v : L → Option Nat) (n : Nat) : Prop where
  lt : ∀ l a, v l = some a → a < n
  all : ∀ a < n, ∃ l, v l = some a
  same : ∀ l l' a, v l = some a → v l' = some a → R l l'

theorem Snd.empty {L : Type} {R : L → L → Prop} : Snd R (fun _ => none) 0 :=
  ⟨fun _ _ h => (by cases h), fun _ h => (by omega), fun _ _ _ h => (by cases h)⟩

theorem Snd.step {L C : Type} {S : Sys L C} {R : L → L → Prop} (hR : Equivalence R) (hnb : ∀ l l', S.nb l l' → R l l')
    (hup : ∀ l l', S.up l = some l' → R l l') {c : C} {b : Bool} {v v' : L → Option Nat} {n n' : Nat}
    (hi : Snd R v n) (h : Eff S c b v v' n n') : Snd R v' n' := by
  have own : ∀ l a, S.cell l = c → v' l = some a → (v l = some a ∨ (S.cell l = c ∧ v l = none ∧ n ≤ a ∧ a < n')) := by
    intro l a hl ha
    obtain ⟨a', ha', h1⟩ := h.own l hl
    rw [ha] at ha'; cases ha'
    rcases h1 with h1 | ⟨h1, h2, h3⟩
    · exact .inl h1
    · exact .inr ⟨hl, h1, h2, h3⟩
  have rep : ∀ l a, v' l = some a → ∃ ρ, R l ρ ∧ v' ρ = some a ∧ (v ρ = some a ∨
      (S.cell ρ = c ∧ v ρ = none ∧ n ≤ a ∧ a < n')) := by
    intro l a ha
    by_cases hl : S.cell l = c
    · exact ⟨l, hR.refl l, ha, own l a hl ha⟩
    · rcases hv : v l with _ | a'
      · obtain ⟨l0, h0, h1, h2⟩ := h.new l a hv ha hl
        refine ⟨l0, ?_, h1, own l0 a h0 h1⟩
        rcases h2 with h2 | ⟨_, h2⟩
        · exact hR.symm (hnb _ _ h2)
        · exact hup _ _ h2
      · have := h.mono l a' hv
        rw [ha] at this; cases this
        exact ⟨l, hR.refl l, ha, .inl hv⟩
  refine ⟨?_, ?_, ?_⟩
  · intro l a ha
    obtain ⟨ρ, _, _, h1 | h1⟩ := rep l a ha
    · exact lt_of_lt_of_le (hi.lt ρ a h1) h.le
    · exact h1.2.2.2
  · intro a ha
    by_cases hn : a < n
    · obtain ⟨l, hl⟩ := hi.all a hn
      exact ⟨l, h.mono l a hl⟩
    · obtain ⟨l, _, _, hl⟩ := h.onto a (by omega) ha
      exact ⟨l, hl⟩
  · intro l l' a h1 h2
    obtain ⟨ρ, s1, r1, o1⟩ := rep l a h1
    obtain ⟨ρ', s2, r2, o2⟩ := rep l' a h2
    refine hR.trans s1 (hR.trans ?_ (hR.symm s2))
    rcases o1 with o1 | ⟨c1, o1, n1, _⟩ <;> rcases o2 with o2 | ⟨c2, o2, n2, _⟩
    · exact hi.same ρ ρ' a o1 o2
    · have := hi.lt ρ a o1; omega
    · have := hi.lt ρ' a o2; omega
    · rw [h.inj ρ ρ' c1 c2 o1 o2 (by rw [r1, r2])]
      exact hR.refl _

variable {B : Base K} {e : ET}

theorem distribute_some {s : St K} {sf : Bool} {n : Nat} {D D' : DH} (h : distributeDofs sf B.n s e n D = some D') {L : List CN}
    (hL : cellsBF sf B.n s n = some L) : L.foldlM (process sf s e n) D = some D' := by
  unfold distributeDofs at h
  rw [hL] at h
  simp only [Option.bind_some, distribute] at h
  split_ifs at h
  exact h

theorem vOf_new : (vOf (e := e) DH.new.dofs) = fun _ => none := by
  funext l
  rfl

/-- The same place up to inheritance: for torn elements. -/
def TornSame (e : ET) : Loc e → Loc e → Prop := Same (tornSys e)

/-- Dofs identify: for a continuous element the same point of the domain, for a torn element only what is
inherited. -/
def PtRel (B : Base K) (e : ET) (l l' : Loc e) : Prop :=
  if torn e = false then SamePt B (rootPt l.1 (node e l.2)) (rootPt l'.1 (node e l'.2)) else TornSame e l l'

theorem ptRel_eqv (B : Base K) (e : ET) : Equivalence (PtRel B e) := by
  unfold PtRel
  split_ifs
  · exact ⟨fun l => .refl _, fun h => .symm _ _ h, fun h h' => .trans _ _ _ h h'⟩
  · exact ⟨fun l => Same.refl l, fun h => Same.symm h, fun h h' => Same.trans h h'⟩

theorem ptRel_same {X : Type} {ex : CN → Prop} {V : CN → Fin 4 → X} (hG : Geo B ex V) {l l' : Loc e} (h : Same (sysOf hG e) l l') :
    PtRel B e l l' := by
  unfold PtRel
  unfold sysOf at h
  split_ifs with he
  · rw [dif_pos he] at h
    exact same_sound hG e he h
  · rw [dif_neg he] at h
    exact h

theorem nb_ex {X : Type} {ex : CN → Prop} {V : CN → Fin 4 → X} (hG : Geo B ex V) {l l' : Loc e} (hl : ex l.1)
    (h : (sysOf hG e).nb l l') : ex l'.1 := by
  unfold sysOf at h
  split_ifs at h with he
  · rcases adj_class hG e h with rfl | ⟨_, _, _, h1, _⟩ | ⟨_, _, _, _, _, _, h1⟩
    · exact hl
    · exact h1
    · exact h1
  · have : l = l' := h
    rw [← this]; exact hl

/-- The invariant of all histories. -/
theorem Uses.snd (hB : B.WF) (hP : Plain B) {s : St K} {D : DH} (h : Uses B e s D) :
    Len e D.dofs ∧ Snd (PtRel B e) (vOf D.dofs) D.count ∧ ∀ (l : Loc e), vOf D.dofs l ≠ none →
      CEx B.n s.kids l.1 := by
  induction h with
  | new s hs => exact ⟨fun c row h => (by cases h), Snd.empty, fun l h => absurd rfl h⟩
  | split s s' D c sf hu hc hk hss ih =>
    refine ⟨ih.1, ih.2.1, ?_⟩
    have hi := hu.reach.inv hB
    obtain ⟨s'', h1, _, h3, _⟩ := cellSplit_spec hB hi ((hi.mem c).1 hc) hk sf
    rw [hss] at h1
    cases h1
    intro l hl
    have := ih.2.2 l hl
    obtain ⟨⟨f, _ | ⟨k, p⟩⟩, q⟩ := l
    · exact this
    · show s'.kids _ = true
      have hk' : s.kids (f, p) = true := this
      rw [h3]
      by_cases hx : (f, p) = c
      · simp [hx]
      · simp [Function.update_of_ne hx, hk']
  | mark s D m hu ih => exact ih
  | dist s D D' sf n hu hf hn hd ih =>
    have hi := hu.reach.inv hB
    have hG := geo hB hP hu.reach
    obtain ⟨L, l1, l2, l3, l4⟩ := cellsBF_spec hi sf n hn
    have hfold := distribute_some hd l1
    obtain ⟨D1, q1, q2, q3, _⟩ := loop_any hB hi hG e sf hn
      (fun D => Snd (PtRel B e) (vOf D.dofs) D.count ∧ ∀ (l : Loc e), vOf D.dofs l ≠ none → CEx B.n s.kids l.1) (by
        rintro c D D' hcv ⟨hI1, hI2⟩ _ _ hE
        refine ⟨hI1.step (ptRel_eqv B e) (fun l l' h => ptRel_same hG (Same.nb h)) (fun l l' h => ptRel_same hG (Same.up h)) hE, ?_⟩
        intro l hl
        rcases hv : vOf D.dofs l with _ | a
        · by_cases hlc : l.1 = c
          · rw [hlc]; exact hcv.1
          · obtain ⟨a, ha⟩ := Option.ne_none_iff_exists'.1 hl
            obtain ⟨l0, h0, _, h2⟩ := hE.new l a hv ha (by rw [sysOf_cell]; exact hlc)
            rw [sysOf_cell] at h0
            rcases h2 with h2 | ⟨hb, h2⟩
            · exact nb_ex hG (h0 ▸ hcv.1) h2
            · rw [sysOf_up] at h2
              obtain ⟨k, h3, _⟩ := upL_some e l l0 h2
              rw [h3, h0]
              show s.kids c = true
              unfold hasCh at hb
              exact (Bool.and_eq_true_iff.1 hb).1
        · exact hI2 l (by rw [hv]; simp)) L D (fun c hc => (l3 c).1 hc) ih.1 ih.2
    rw [hfold] at q1
    cases q1
    exact ⟨q2, q3⟩

end hist

end Verif.Dof
