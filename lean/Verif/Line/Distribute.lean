import Verif.Line.Share
import Verif.Dof.Distribute

/-!
# `distribute_dofs` on a one-dimensional mesh, and the histories of a dof handler
-/

namespace Verif.Line
open Verif.Fem Verif.OneD Verif.Geom
open Verif.Dof (Sys Same Top Eff NumInv Done Shared Snd)

section
variable {K : Type}

/-- The number of cells of a tree, itself included. -/
def size : Cell K → Nat
  | .node _ ks => 1 + go ks
where
  go : List (Cell K) → Nat
    | [] => 0
    | k :: ks => size k + go ks

/-- The number of cells of a mesh, on all levels. -/
def nCells (F : List (Cell K)) : Nat := (F.map size).sum

end

/-! ### The traversal -/

/-- Parents come first; `P`: the cells seen before. -/
def Ord : List IN → List IN → Prop
  | _, [] => True
  | P, c :: L => (∀ x k, c = child x k → x ∈ P) ∧ Ord (c :: P) L

theorem child_inj {c d : IN} {k j : Fin 2} (h : child c k = child d j) : c = d ∧ k = j := by
  obtain ⟨f, p⟩ := c
  obtain ⟨g, q⟩ := d
  simp only [child, Prod.mk.injEq, List.cons.injEq] at h
  obtain ⟨rfl, rfl, rfl⟩ := h
  exact ⟨rfl, rfl⟩

theorem child_ne_root {c : IN} {k : Fin 2} {f : Nat} : child c k ≠ (f, []) := by
  intro h
  simp [child] at h

section
set_option linter.unusedSectionVars false
variable {K : Type} [Field K] [LinearOrder K] [IsStrictOrderedRing K] {N : Nat} {per : Bool} {X : Nat → K} {F : List (Cell K)} {e : ET}

/-- The size of the tree below a cell. -/
def szAt (F : List (Cell K)) (c : IN) : Nat := (cellAt F c).elim 0 size

theorem szAt_pos {c : IN} (h : Ex F c) : 1 ≤ szAt F c := by
  obtain ⟨⟨d, ks⟩, ht⟩ := Option.isSome_iff_exists.1 h
  simp [szAt, ht, size]

theorem szAt_kids (h : BisL N X F) {c : IN} (hk : kidsAt F c = true) : szAt F c = 1 + szAt F (child c 0) + szAt F (child c 1) := by
  obtain ⟨t, ht⟩ := Option.isSome_iff_exists.1 (kids_ex hk)
  have h0 := (ex_child h c 0).2 hk
  unfold Ex at h0
  unfold szAt
  rw [cellAt_child, ht] at h0
  rw [cellAt_child, cellAt_child, ht]
  obtain ⟨_, g2, _⟩ := cellAt_bis h ht
  cases g2 with
  | leaf d hn => simp at h0
  | node d a b hn ha hb ga gb =>
    simp [size, size.go]
    omega

theorem bfs_ok (hF : BisL N X F) : ∀ (n : Nat) (P Q : List IN), (P ++ Q).Nodup → (∀ x ∈ P ++ Q, Ex F x) →
    (∀ x k, child x k ∈ P ++ Q → x ∈ P) → (∀ x ∈ P, kidsAt F x = true → ∀ k, child x k ∈ P ++ Q) →
    (∀ f < N, (f, []) ∈ P ++ Q) → (Q.map (szAt F)).sum ≤ n →
    ∃ R, bfs F n Q = some R ∧ Ord P R ∧ (P ++ R).Nodup ∧ ∀ x, x ∈ P ++ R ↔ Ex F x := by
  have nil : ∀ (P : List IN), (∀ x ∈ P, kidsAt F x = true → ∀ k, child x k ∈ P) → (∀ f < N, (f, []) ∈ P) → ∀ x, Ex F x → x ∈ P := by
    rintro P h4 h5 ⟨f, p⟩
    induction p with
    | nil => intro hx; exact h5 f ((ex_root hF f).1 hx)
    | cons k p ih =>
      intro hx
      have hx' : Ex F (child (f, p) k) := hx
      exact h4 _ (ih (ex_parent hx')) ((ex_child hF _ k).1 hx') k
  intro n
  induction n with
  | zero =>
    intro P Q h1 h2 h3 h4 h5 h6
    cases Q with
    | nil =>
      rw [List.append_nil] at *
      exact ⟨[], rfl, trivial, by simpa using h1, fun x => by rw [List.append_nil]; exact ⟨h2 x, nil P h4 h5 x⟩⟩
    | cons c Q =>
      exfalso
      have := szAt_pos (h2 c (by simp))
      simp at h6
      omega
  | succ n ih =>
    intro P Q h1 h2 h3 h4 h5 h6
    cases Q with
    | nil =>
      rw [List.append_nil] at *
      exact ⟨[], rfl, trivial, by simpa using h1, fun x => by rw [List.append_nil]; exact ⟨h2 x, nil P h4 h5 x⟩⟩
    | cons c Q =>
      have hcx := h2 c (by simp)
      obtain ⟨new, hnew⟩ : ∃ new, new = if kidsAt F c then [child c 0, child c 1] else [] := ⟨_, rfl⟩
      have hmem : ∀ x, x ∈ new ↔ kidsAt F c = true ∧ ∃ k, x = child c k := by
        intro x
        rw [hnew]
        split_ifs with hk
        · simp [hk, Fin.exists_fin_two]
        · simp [hk]
      have hnd : new.Nodup := by
        rw [hnew]
        split_ifs
        · rw [List.nodup_cons]
          refine ⟨?_, List.nodup_singleton _⟩
          rw [List.mem_singleton]
          intro h
          exact absurd (child_inj h).2 (by decide)
        · exact List.nodup_nil
      have hsz : (new.map (szAt F)).sum + 1 ≤ szAt F c := by
        rw [hnew]
        split_ifs with hk
        · rw [szAt_kids hF hk]; simp
        · simpa using szAt_pos hcx
      have hcP : c ∉ P := by
        intro h
        have := (List.nodup_append'.1 h1).2.2
        exact this h (by simp)
      have hperm : ((c :: P) ++ (Q ++ new)).Perm ((P ++ c :: Q) ++ new) := by
        rw [List.cons_append, ← List.append_assoc]
        exact (List.perm_middle.symm).append_right new
      have hm : ∀ x, x ∈ (c :: P) ++ (Q ++ new) ↔ x ∈ P ++ c :: Q ∨ x ∈ new := by
        intro x; rw [hperm.mem_iff, List.mem_append]
      obtain ⟨R, r1, r2, r3, r4⟩ := ih (c :: P) (Q ++ new) (by
          rw [hperm.nodup_iff, List.nodup_append']
          refine ⟨h1, hnd, ?_⟩
          intro x hx hx'
          obtain ⟨_, k, rfl⟩ := (hmem x).1 hx'
          exact hcP (h3 c k hx)) (by
          intro x hx
          rcases (hm x).1 hx with h | h
          · exact h2 x h
          · obtain ⟨hk, k, rfl⟩ := (hmem x).1 h
            exact (ex_child hF c k).2 hk) (by
          intro x k hx
          rcases (hm _).1 hx with h | h
          · exact List.mem_cons_of_mem _ (h3 x k h)
          · obtain ⟨_, j, hj⟩ := (hmem _).1 h
            rw [(child_inj hj).1]; simp) (by
          intro x hx hk k
          rw [hm]
          rcases List.mem_cons.1 hx with rfl | hx
          · exact .inr ((hmem _).2 ⟨hk, k, rfl⟩)
          · exact .inl (h4 x hx hk k)) (fun f hf => (hm _).2 (.inl (h5 f hf))) (by
          simp only [List.map_append, List.sum_append]
          simp only [List.map_cons, List.sum_cons] at h6
          omega)
      refine ⟨c :: R, ?_, ⟨?_, r2⟩, ?_, ?_⟩
      · unfold bfs
        rw [← hnew, r1]; rfl
      · rintro x k rfl
        exact h3 x k (by simp)
      · exact (List.perm_middle (a := c) (l₁ := P) (l₂ := R)).nodup_iff.2 r3
      · intro x
        rw [← r4 x, (List.perm_middle (a := c) (l₁ := P) (l₂ := R)).mem_iff]
        rfl

/-- The parents of the cells of the (sub)mesh are in the (sub)mesh. -/
def Rooted (mk : Itv K → Bool) (F : List (Cell K)) : Prop := ∀ c k, mkAt mk F (child c k) = true → mkAt mk F c = true

theorem ord_filter (m : IN → Bool) : ∀ (L P : List IN), (∀ c k, m (child c k) = true → m c = true) →
    Ord P L → Ord (P.filter m) (L.filter m) := by
  intro L
  induction L with
  | nil => intro P _ _; trivial
  | cons c L ih =>
    rintro P hm ⟨h1, h2⟩
    have := ih (c :: P) hm h2
    by_cases hc : m c = true
    · rw [List.filter_cons_of_pos hc] at this ⊢
      refine ⟨?_, this⟩
      rintro x k rfl
      exact List.mem_filter.2 ⟨h1 x k rfl, hm x k hc⟩
    · rw [List.filter_cons_of_neg hc] at this ⊢
      exact this

theorem mkAt_ex {mk : Itv K → Bool} {c : IN} (h : mkAt mk F c = true) : Ex F c := by
  unfold mkAt at h
  unfold Ex
  rcases hx : cellAt F c with _ | t
  · rw [hx] at h; simp at h
  · rfl

theorem cellsBF_spec (hF : BisL N X F) (mk : Itv K → Bool) (n : Nat) (hn : nCells F ≤ n) :
    ∃ L, cellsBF mk F n = some L ∧ L.Nodup ∧ (∀ c, c ∈ L ↔ mkAt mk F c = true) ∧ (Rooted mk F → Ord [] L) := by
  have hsum : (((List.range F.length).map (fun f => ((f, []) : IN))).map (szAt F)).sum ≤ n := by
    refine le_trans (le_of_eq ?_) hn
    unfold nCells
    congr 1
    apply List.ext_getElem
    · simp
    · intro i h1 h2
      simp at h1
      simp [szAt, cellAt_root, List.getElem?_eq_getElem h1]
  obtain ⟨R, r1, r2, r3, r4⟩ := bfs_ok hF n [] ((List.range F.length).map (fun f => (f, []))) (by
      rw [List.nil_append]
      exact List.Nodup.map (fun a b h => (Prod.mk.inj h).1) List.nodup_range) (by
      intro x hx
      simp only [List.nil_append, List.mem_map, List.mem_range] at hx
      obtain ⟨f, hf, rfl⟩ := hx
      exact (ex_root hF f).2 (hF.1 ▸ hf)) (by
      intro x k hx
      simp only [List.nil_append, List.mem_map, List.mem_range] at hx
      obtain ⟨f, _, h⟩ := hx
      exact absurd h.symm child_ne_root) (by simp) (by
      intro f hf
      simp only [List.nil_append, List.mem_map, List.mem_range]
      exact ⟨f, by rw [hF.1]; exact hf, rfl⟩) hsum
  rw [List.nil_append] at r3
  refine ⟨_, by rw [cellsBF, r1]; rfl, r3.filter _, ?_, ?_⟩
  · intro c
    have := r4 c
    rw [List.nil_append] at this
    rw [List.mem_filter, this]
    exact ⟨fun h => h.2, fun h => ⟨mkAt_ex h, h⟩⟩
  · intro h
    exact ord_filter _ R [] h r2

/-! ### One distribution -/

/-- The treatment of the cells of `L` one after the other. -/
theorem loop_spec (hF : BisL N X F) (hN : per = true → 2 ≤ N) (e : ET) (mk : Itv K → Bool) :
    ∀ (L P : List IN) (D : DH), Ord P L → (∀ c ∈ L, mkAt mk F c = true) → Len e D.dofs →
    NumInv (sysOf hN e) (vOf D.dofs) D.count →
    (∀ c ∈ P, Done (sysOf hN e) (vOf D.dofs) c ∧ (hasCh mk F c = true → Shared (sysOf hN e) (vOf D.dofs) c)) →
    ∃ D', L.foldlM (process per mk e F) D = some D' ∧ Len e D'.dofs ∧ NumInv (sysOf hN e) (vOf D'.dofs) D'.count ∧
      ∀ c ∈ P ++ L, Done (sysOf hN e) (vOf D'.dofs) c := by
  intro L
  induction L with
  | nil =>
    intro P D _ _ hl hv hP
    exact ⟨D, rfl, hl, hv, fun c hc => (hP c (by simpa using hc)).1⟩
  | cons c L ih =>
    rintro P D ⟨ho, ho'⟩ hL hl hv hP
    have hcm := hL c (by simp)
    obtain ⟨D1, p1, p2, p3⟩ := process_spec hF.1 hN mk (ex_lt hF (mkAt_ex hcm)) D hl
    have hc : ∀ l m, (sysOf hN e).cell l = c → (sysOf hN e).up l = some m →
        vOf D.dofs l ≠ none := by
      intro l m h1 h2
      have h2' := h2
      rw [sysOf_up] at h2'
      rw [sysOf_cell] at h1
      obtain ⟨k, h3, _⟩ := upL_some e l m h2'
      rw [h1] at h3
      have hmP := ho m.1 k h3
      have hch : hasCh mk F m.1 = true := (hasCh_iff hF mk m.1).2 ⟨k, by rw [← h3]; exact hcm⟩
      exact (hP m.1 hmP).2 hch m l (by rw [sysOf_cell]) h2
    obtain ⟨s1, s2, s3⟩ := hv.step hc p3
    obtain ⟨D', q1, q2, q3, q4⟩ := ih (c :: P) D1 ho' (fun x hx => hL x (by simp [hx])) p2 s1 (by
      intro x hx
      rcases List.mem_cons.1 hx with rfl | hx
      · exact ⟨s2, s3⟩
      · obtain ⟨d1, d2⟩ := hP x hx
        exact ⟨d1.mono p3, fun h => (d2 h).mono p3⟩)
    refine ⟨D', ?_, q2, q3, ?_⟩
    · simp only [List.foldlM_cons, p1]
      exact q1
    · intro x hx
      refine q4 x ?_
      simp only [List.mem_append, List.mem_cons] at hx ⊢
      tauto

/-- What holds for every mesh and every dof handler: the treatment of the cells does not fail, assigns all dofs, and
changes none. -/
theorem loop_any (hF : BisL N X F) (hN : per = true → 2 ≤ N) (e : ET) (mk : Itv K → Bool) (I : DH → Prop)
    (hI : ∀ c D D', mkAt mk F c = true → I D → Len e D.dofs → Len e D'.dofs →
      Eff (sysOf hN e) c (hasCh mk F c) (vOf D.dofs) (vOf D'.dofs) D.count D'.count → I D') :
    ∀ (L : List IN) (D : DH), (∀ c ∈ L, mkAt mk F c = true) → Len e D.dofs → I D →
    ∃ D', L.foldlM (process per mk e F) D = some D' ∧ Len e D'.dofs ∧ I D' ∧
      (∀ (l : Loc e) a, vOf D.dofs l = some a → vOf D'.dofs l = some a) ∧ ∀ c ∈ L, ∀ p : Fin (nd1 e), vOf D'.dofs (c, p) ≠ none := by
  intro L
  induction L with
  | nil =>
    intro D _ hl h
    exact ⟨D, rfl, hl, h, fun _ _ h => h, fun c hc => (by cases hc)⟩
  | cons c L ih =>
    intro D hL hl h
    have hcm := hL c (by simp)
    obtain ⟨D1, p1, p2, p3⟩ := process_spec hF.1 hN mk (ex_lt hF (mkAt_ex hcm)) D hl
    obtain ⟨D', q1, q2, q3, q4, q5⟩ := ih D1 (fun x hx => hL x (by simp [hx])) p2 (hI c D D1 hcm h hl p2 p3)
    refine ⟨D', ?_, q2, q3, fun l a h => q4 l a (p3.mono l a h), ?_⟩
    · simp only [List.foldlM_cons, p1]
      exact q1
    · intro x hx p
      rcases List.mem_cons.1 hx with rfl | hx
      · obtain ⟨a, ha, _⟩ := p3.own (x, p) (by rw [sysOf_cell])
        rw [q4 _ a ha]; simp
      · exact q5 x hx p

theorem dist_some {mk : Itv K → Bool} {n : Nat} {D D' : DH} (h : distribute per mk e F n D = some D') {L : List IN}
    (hL : cellsBF mk F n = some L) : L.foldlM (process per mk e F) D = some D' := by
  unfold distribute at h
  rw [hL] at h
  exact h

theorem nb_ex (hF : BisL N X F) (hN : per = true → 2 ≤ N) {l l' : Loc e} (hl : Ex F l.1) (h : (sysOf hN e).nb l l') : Ex F l'.1 := by
  have hnext : ∀ c d : IN, next N c = some d → (Ex F c ↔ Ex F d) := by
    rintro ⟨f, _ | ⟨k, p⟩⟩ d hd
    · simp only [next] at hd
      split_ifs at hd with h1
      cases hd
      rw [ex_root hF, ex_root hF]
      exact ⟨fun _ => h1, fun _ => by omega⟩
    · simp only [next] at hd
      split_ifs at hd with h1
      cases hd
      exact (ex_child hF (f, p) k).trans (ex_child hF (f, p) 1).symm
  have key : ∀ c d : IN, Rt N per c d → (Ex F c ↔ Ex F d) := by
    rintro c d (h | ⟨h1, rfl, rfl⟩)
    · exact hnext c d h
    · rw [ex_root hF, ex_root hF]
      have := hN h1
      omega
  unfold sysOf at h
  split_ifs at h with he
  · rcases h with rfl | h | h
    · exact hl
    · exact (key _ _ h.1).1 hl
    · exact (key _ _ h.1).2 hl
  · have : l = l' := h
    rw [← this]; exact hl

/-! ### Histories -/

theorem getL_modify_mono (g : Cell K → Cell K) : ∀ (p : Path) (F : List (Cell K)),
    (∀ t, getL F p = some t → ∀ q, (getL t.kids q).isSome → (getL (g t).kids q).isSome) →
    ∀ q, (getL F q).isSome → (getL (modifyL g F p) q).isSome := by
  have key : ∀ (u : Cell K → Cell K) (i : Nat) (F : List (Cell K)),
      (∀ t, F[i]? = some t → ∀ q, (getL t.kids q).isSome → (getL (u t).kids q).isSome) →
      ∀ q, (getL F q).isSome → (getL (F.modify i u) q).isSome := by
    intro u i F hu q hq
    match q with
    | [] => exact hq
    | [j] =>
      simp only [getL] at hq ⊢
      rw [List.getElem?_modify]
      simpa using hq
    | j :: j' :: q =>
      simp only [getL] at hq ⊢
      rw [List.getElem?_modify]
      rcases hj : F[j]? with _ | t
      · rw [hj] at hq; simp at hq
      · rw [hj] at hq
        by_cases hij : i = j
        · subst hij
          simp only [if_true, Option.map_eq_map, Option.map_some]
          exact hu t hj _ hq
        · simpa [hij] using hq
  intro p
  induction p with
  | nil => intro F _ q hq; exact hq
  | cons i p ih =>
    intro F hg q hq
    match p with
    | [] => exact key g i F hg q hq
    | i' :: p =>
      refine key _ i F ?_ q hq
      intro t ht q hq
      simp only [GTree.kids_node]
      refine ih t.kids ?_ q hq
      intro s hs
      exact hg s (by simp only [getL, ht]; exact hs)

theorem ex_modify {g : Cell K → Cell K} {p : Path} (hg : ∀ t, getL F p = some t → t.kids = [] ∨ (g t).kids = t.kids) {c : IN}
    (hc : Ex F c) : Ex (modifyL g F p) c := by
  refine getL_modify_mono g p F ?_ (pathOf c) hc
  intro t ht q hq
  rcases hg t ht with h | h
  · rw [h] at hq
    match q with
    | [] => simp [getL] at hq
    | [j] => simp [getL] at hq
    | j :: j' :: q => simp [getL] at hq
  · rw [h]; exact hq

end

section
set_option linter.unusedSectionVars false
variable {K : Type} [Field K] [LinearOrder K] [IsStrictOrderedRing K]

/-- The states of a mesh and a dof handler on it, when the mesh is refined, flags are set and dofs are distributed in any
order.  Before the dof handler is created the mesh may be changed arbitrarily. -/
inductive Uses (xs : List K) (per : Bool) (e : ET) : List (Cell K) → DH → Prop
  | new (ops : List Op) : Uses xs per e (run (roots xs) ops) DH.new
  | split (F : List (Cell K)) (D : DH) (c : IN) : Uses xs per e F D → Ex F c → kidsAt F c = false →
      Uses xs per e (step F (.split (pathOf c))) D
  | mark (F : List (Cell K)) (D : DH) (c : IN) (f : Nat) : Uses xs per e F D → Uses xs per e (step F (.mark (pathOf c) f)) D
  | unmark (F : List (Cell K)) (D : DH) (c : IN) (f : Nat) : Uses xs per e F D → Uses xs per e (step F (.unmark (pathOf c) f)) D
  | dist (F : List (Cell K)) (D D' : DH) (sf : Option Nat) (n : Nat) : Uses xs per e F D → Rooted (inSub sf) F → nCells F ≤ n →
      distribute per (inSub sf) e F n D = some D' → Uses xs per e F D'

variable {xs : List K} {per : Bool} {e : ET} {F : List (Cell K)} {D : DH}

theorem Uses.bis (h : Uses xs per e F D) : BisL (xs.length - 1) (fun f => xs.getD f 0) F := by
  induction h with
  | new ops => exact (roots_bis xs).run ops
  | split F D c _ _ _ ih => exact ih.step _
  | mark F D c f _ ih => exact ih.step _
  | unmark F D c f _ ih => exact ih.step _
  | dist F D D' sf n _ _ _ _ ih => exact ih

/-- The invariant of all histories. -/
theorem Uses.inv (hN : per = true → 2 ≤ xs.length - 1) (h : Uses xs per e F D) :
    Len e D.dofs ∧ NumInv (sysOf hN e) (vOf D.dofs) D.count ∧ ∀ l : Loc e, vOf D.dofs l ≠ none → Ex F l.1 := by
  induction h with
  | new ops => exact ⟨fun c row h => (by cases h), NumInv.empty, fun l h => absurd rfl h⟩
  | split F D c hu hc hk ih =>
    refine ⟨ih.1, ih.2.1, fun l hl => ex_modify ?_ (ih.2.2 l hl)⟩
    intro t ht
    left
    unfold kidsAt hasCh at hk
    have ht' : cellAt F c = some t := ht
    rw [ht'] at hk
    rcases hks : t.kids with _ | ⟨k, ks⟩
    · rfl
    · simp [hasKids, hks] at hk
  | mark F D c f hu ih => exact ⟨ih.1, ih.2.1, fun l hl => ex_modify (fun t _ => .inr (by cases t; rfl)) (ih.2.2 l hl)⟩
  | unmark F D c f hu ih => exact ⟨ih.1, ih.2.1, fun l hl => ex_modify (fun t _ => .inr (by cases t; rfl)) (ih.2.2 l hl)⟩
  | dist F D D' sf n hu hf hn hd ih =>
    have hF := hu.bis
    obtain ⟨L, l1, l2, l3, l4⟩ := cellsBF_spec hF (inSub sf) n hn
    have hfold := dist_some hd l1
    obtain ⟨D1, q1, q2, q3, _⟩ := loop_spec hF hN e (inSub sf) L [] D (l4 hf) (fun c hc => (l3 c).1 hc) ih.1 ih.2.1 (by simp)
    rw [hfold] at q1
    cases q1
    refine ⟨q2, q3, ?_⟩
    obtain ⟨D1, q1, _, q3, _⟩ := loop_any hF hN e (inSub sf) (fun D => ∀ l : Loc e, vOf D.dofs l ≠ none → Ex F l.1) (by
        rintro c D D' hcv hI2 _ _ hE l hl
        rcases hv : vOf D.dofs l with _ | a
        · by_cases hlc : l.1 = c
          · rw [hlc]; exact mkAt_ex hcv
          · obtain ⟨a, ha⟩ := Option.ne_none_iff_exists'.1 hl
            obtain ⟨l0, h0, _, h2⟩ := hE.new l a hv ha (by rw [sysOf_cell]; exact hlc)
            rw [sysOf_cell] at h0
            rcases h2 with h2 | ⟨hb, h2⟩
            · exact nb_ex hF hN (h0 ▸ mkAt_ex hcv) h2
            · rw [sysOf_up] at h2
              obtain ⟨k, h3, _⟩ := upL_some e l l0 h2
              rw [h3, h0]
              obtain ⟨j, hj⟩ := (hasCh_iff hF _ _).1 hb
              exact (ex_child hF c k).2 ((ex_child hF c j).1 (mkAt_ex hj))
        · exact hI2 l (by rw [hv]; simp)) L D (fun c hc => (l3 c).1 hc) ih.1 ih.2.2
    rw [hfold] at q1
    cases q1
    exact q3

end

end Verif.Line
