import Verif.Fn.Model

/-! # C67: `bin_points` on a refined mesh -/

namespace Verif.Fn
open Verif.Mesh Verif.Dof Verif.Fem Verif.Quad Verif.Phys Verif.Reg Verif.Bnd

section
set_option linter.unusedSectionVars false
variable {K : Type} [Field K] [LinearOrder K] [IsStrictOrderedRing K] {B : Base K} {s : St K} {sf : Bool} {tol : K}

/-- Specification: the points are distributed over leaves that contain them, each point to one leaf. -/
structure Binned (tol : K) (sf : Bool) (s : St K) (pts : List (Nat × Pt K)) (bins : Bins) : Prop where
  perm : (bins.flatMap (·.2)).Perm (pts.map (·.1))
  leaf : ∀ b ∈ bins, b.1 ∈ leaves sf s ∧ b.2 ≠ []
  ins : ∀ b ∈ bins, ∀ i ∈ b.2, ∃ x, (i, x) ∈ pts ∧ contains tol (cellQ s b.1) x = true
  nodup : (bins.map (·.1)).Nodup

/-- `d` is `c` or one of its descendants. -/
def Below (c d : CN) : Prop := d.1 = c.1 ∧ c.2 <:+ d.2

theorem Below.child {c : CN} {k : Fin 4} {d : CN} (h : Below (child c k) d) : Below c d :=
  ⟨h.1, (List.suffix_cons k c.2).trans h.2⟩

theorem below_inj {c : CN} {k k' : Fin 4} {d : CN} (h : Below (child c k) d) (h' : Below (child c k') d) : k = k' := by
  have h1 := List.suffix_of_suffix_length_le h.2 h'.2 (by simp [child])
  have h2 : (k :: c.2) = (k' :: c.2) := h1.eq_of_length (by simp [child])
  exact (List.cons.inj h2).1

theorem loop_spec (f : CN → List (Nat × Pt K) → Option Bins) : ∀ (l : List CN) (pts : List (Nat × Pt K)),
    (l.Pairwise (fun c c' => ∀ d, Below c d → ¬ Below c' d)) →
    (∀ c ∈ l, ∀ p : List (Nat × Pt K), p ≠ [] → (∀ x ∈ p, inCell tol s c x.2 = true) →
      ∃ b, f c p = some b ∧ Binned tol sf s p b ∧ ∀ y ∈ b, Below c y.1) →
    ∃ b rest, binLoop tol s f l pts = some (b, rest) ∧ rest = pts.filter (fun x => l.all (fun c => !inCell tol s c x.2)) ∧
      (b.flatMap (·.2) ++ rest.map (·.1)).Perm (pts.map (·.1)) ∧
      (∀ y ∈ b, y.1 ∈ leaves sf s ∧ y.2 ≠ []) ∧
      (∀ y ∈ b, ∀ i ∈ y.2, ∃ x, (i, x) ∈ pts ∧ contains tol (cellQ s y.1) x = true) ∧
      (b.map (·.1)).Nodup ∧ ∀ y ∈ b, ∃ c ∈ l, Below c y.1 := by
  intro l
  induction l with
  | nil =>
    intro pts _ _
    refine ⟨[], pts, rfl, by simp, by simp, by simp, by simp, by simp, by simp⟩
  | cons c l ih =>
    intro pts hp hf
    rw [List.pairwise_cons] at hp
    have hf' := fun d (hd : d ∈ l) => hf d (List.mem_cons_of_mem _ hd)
    unfold binLoop
    by_cases ha : pts.any (fun x => inCell tol s c x.2) = true
    · rw [if_pos ha]
      obtain ⟨x0, hx0, hx0'⟩ := List.any_eq_true.1 ha
      obtain ⟨b, e1, hb, hbel⟩ := hf c (by simp) (pts.filter (fun x => inCell tol s c x.2))
        (List.ne_nil_of_mem (List.mem_filter.2 ⟨hx0, hx0'⟩)) (fun x hx => (List.mem_filter.1 hx).2)
      obtain ⟨b', rest, e2, e3, e4, e5, e6, e7, e8⟩ := ih (pts.filter (fun x => !inCell tol s c x.2)) hp.2 hf'
      refine ⟨b ++ b', rest, by rw [e1, e2]; rfl, ?_, ?_, ?_, ?_, ?_, ?_⟩
      · rw [e3, List.filter_filter]
        congr 1
        funext x
        simp [Bool.and_comm]
      · rw [List.flatMap_append, List.append_assoc]
        refine (List.Perm.append hb.perm e4).trans ?_
        rw [← List.map_append]
        exact (List.filter_append_perm _ _).map _
      · intro y hy
        rcases List.mem_append.1 hy with hy | hy
        · exact hb.leaf y hy
        · exact e5 y hy
      · intro y hy i hi
        rcases List.mem_append.1 hy with hy | hy
        · obtain ⟨x, h1, h2⟩ := hb.ins y hy i hi
          exact ⟨x, (List.mem_filter.1 h1).1, h2⟩
        · obtain ⟨x, h1, h2⟩ := e6 y hy i hi
          exact ⟨x, (List.mem_filter.1 h1).1, h2⟩
      · rw [List.map_append, List.nodup_append]
        refine ⟨hb.nodup, e7, ?_⟩
        rintro a h1 a' h2 rfl
        obtain ⟨y, hy, rfl⟩ := List.mem_map.1 h1
        obtain ⟨y', hy', e⟩ := List.mem_map.1 h2
        obtain ⟨d, hd, hd'⟩ := e8 y' hy'
        rw [e] at hd'
        exact hp.1 d hd _ (hbel y hy) hd'
      · intro y hy
        rcases List.mem_append.1 hy with hy | hy
        · exact ⟨c, by simp, hbel y hy⟩
        · obtain ⟨d, hd, hd'⟩ := e8 y hy
          exact ⟨d, by simp [hd], hd'⟩
    · rw [if_neg ha]
      obtain ⟨b', rest, e2, e3, e4, e5, e6, e7, e8⟩ := ih pts hp.2 hf'
      refine ⟨b', rest, e2, ?_, e4, e5, e6, e7, fun y hy => ?_⟩
      · rw [e3]
        apply List.filter_congr
        intro x hx
        have : inCell tol s c x.2 = false := by
          by_contra h
          exact ha (List.any_eq_true.2 ⟨x, hx, by simpa using h⟩)
        simp [this]
      · obtain ⟨d, hd, hd'⟩ := e8 y hy
        exact ⟨d, by simp [hd], hd'⟩

/-- What remains after a loop that covers all the points. -/
theorem loop_all (f : CN → List (Nat × Pt K) → Option Bins) (l : List CN) (pts : List (Nat × Pt K))
    (hp : l.Pairwise (fun c c' => ∀ d, Below c d → ¬ Below c' d))
    (hf : ∀ c ∈ l, ∀ p : List (Nat × Pt K), p ≠ [] → (∀ x ∈ p, inCell tol s c x.2 = true) →
      ∃ b, f c p = some b ∧ Binned tol sf s p b ∧ ∀ y ∈ b, Below c y.1)
    (hc : ∀ x ∈ pts, ∃ c ∈ l, inCell tol s c x.2 = true) :
    ∃ b, binLoop tol s f l pts = some (b, []) ∧ Binned tol sf s pts b ∧ ∀ y ∈ b, ∃ c ∈ l, Below c y.1 := by
  obtain ⟨b, rest, e2, e3, e4, e5, e6, e7, e8⟩ := loop_spec (sf := sf) f l pts hp hf
  have hr : rest = [] := by
    rw [e3, List.filter_eq_nil_iff]
    intro x hx h
    obtain ⟨c, hcl, hcx⟩ := hc x hx
    have := List.all_eq_true.1 h c hcl
    rw [hcx] at this
    cases this
  subst hr
  refine ⟨b, e2, ⟨by simpa using e4, e5, e6, e7⟩, e8⟩

theorem cell_child (hB : B.WF) (hs : MReach B s) {c : CN} (hk : s.kids c = true) (hc : CEx B.n s.kids c) (k : Fin 4) :
    SameVerts (cellQ s (child c k)) ((quadAt B c.1 c.2).child ∅ k) := by
  have hi := hs.inv hB
  exact cellQ_eq hB hs (child c k) ((hi.mem _).2 hk)

theorem contains_same {a b : QD K} (h : SameVerts a b) (p : Pt K) : contains tol a p = contains tol b p := by
  obtain ⟨h0, h1, h2, h3⟩ := h
  unfold contains QD.edges
  rw [h0, h1, h2, h3]

theorem kid_cover (ht : 0 ≤ tol) (hB : B.WF) (hs : MReach B s) {c : CN} (hk : s.kids c = true) (hc : CEx B.n s.kids c) {x : Pt K}
    (h : inCell tol s c x = true) : ∃ k, inCell tol s (child c k) x = true := by
  have hi := hs.inv hB
  unfold inCell at *
  rw [contains_same (cellQ_eq hB hs c ((hi.mem c).2 hc))] at h
  have hch := fun k => cell_child hB hs hk hc k
  rcases child_cover tol ht _ x h _ _ _ _ (hch 0) (hch 1) (hch 2) (hch 3) with h | h | h | h
  exacts [⟨0, h⟩, ⟨1, h⟩, ⟨2, h⟩, ⟨3, h⟩]

theorem kids_pair (sf : Bool) (s : St K) (c : CN) : (kidsOf sf s c).Pairwise (fun c c' => ∀ d, Below c d → ¬ Below c' d) := by
  unfold kidsOf
  apply List.Pairwise.filter
  rw [List.pairwise_map]
  have : four.Nodup := by decide
  exact this.imp (fun h d h1 h2 => h (below_inj h1 h2))

theorem mem_kidsOf (c d : CN) : d ∈ kidsOf sf s c ↔ ∃ k, d = child c k ∧ Sub sf s (child c k) := by
  unfold kidsOf Dof.Sub
  rw [List.mem_filter, List.mem_map]
  constructor
  · rintro ⟨⟨k, _, rfl⟩, h⟩
    refine ⟨k, rfl, ?_⟩
    cases sf <;> simp_all
  · rintro ⟨k, rfl, h⟩
    refine ⟨⟨k, mem_four k, rfl⟩, ?_⟩
    rcases h with rfl | h
    · rfl
    · simp [h]

theorem binCell_spec (ht : 0 ≤ tol) (hB : B.WF) (hs : MReach B s) (hf : sf = false ∨ FullFlag s) {N : Nat}
    (hN : ∀ c, CEx B.n s.kids c → level c ≤ N) : ∀ (n : Nat) (c : CN), N + 1 ≤ n + level c → CEx B.n s.kids c → Sub sf s c →
    ∀ pts : List (Nat × Pt K), pts ≠ [] → (∀ x ∈ pts, inCell tol s c x.2 = true) →
      ∃ b, binCell tol sf s n c pts = some b ∧ Binned tol sf s pts b ∧ ∀ y ∈ b, Below c y.1 := by
  have hi := hs.inv hB
  intro n
  induction n with
  | zero => intro c h1 h2; have := hN c h2; omega
  | succ n ih =>
    intro c h1 h2 h3 pts hne hin
    unfold binCell
    rw [if_pos (List.all_eq_true.2 hin)]
    have hmk : (sf && !s.mkd c) = false := by rcases h3 with rfl | h3 <;> simp_all
    rw [hmk]
    simp only [Bool.false_eq_true, if_false]
    rcases hh : hasCh sf s c with _ | _
    · simp only [Bool.false_eq_true, if_false]
      refine ⟨_, rfl, ⟨by simp, ?_, ?_, by simp⟩, ?_⟩
      · simp only [List.mem_singleton]
        rintro b rfl
        exact ⟨(Dof.mem_leaves hi c).2 ⟨h2, h3, hh⟩, by simpa using hne⟩
      · simp only [List.mem_singleton]
        rintro b rfl i hib
        obtain ⟨x, hx, rfl⟩ := List.mem_map.1 hib
        exact ⟨x.2, hx, hin x hx⟩
      · simp only [List.mem_singleton]
        rintro b rfl
        exact ⟨rfl, List.suffix_rfl⟩
    · simp only [if_true]
      have hk := hasCh_kids hh
      have hsub : ∀ k, Sub sf s (child c k) := by
        intro k
        rcases hf with rfl | hf
        · exact .inl rfl
        · cases sf
          · exact .inl rfl
          · exact .inr (hf c hh k)
      obtain ⟨b, e1, e2, e3⟩ := loop_all (sf := sf) (binCell tol sf s n) (kidsOf sf s c) pts (kids_pair sf s c) (by
        intro d hd p hp hpi
        obtain ⟨k, rfl, hk'⟩ := (mem_kidsOf c d).1 hd
        exact ih (child c k) (by rw [level_child]; omega) hk hk' p hp hpi) (by
        intro x hx
        obtain ⟨k, hk'⟩ := kid_cover ht hB hs hk h2 (hin x hx)
        exact ⟨child c k, (mem_kidsOf c _).2 ⟨k, rfl, hsub k⟩, hk'⟩)
      refine ⟨b, by rw [e1]; rfl, e2, fun y hy => ?_⟩
      obtain ⟨d, hd, hd'⟩ := e3 y hy
      obtain ⟨k, rfl, _⟩ := (mem_kidsOf c d).1 hd
      exact hd'.child

/-- The depth of the recursion is enough. -/
def Deep (s : St K) (n : Nat) : Prop := ∀ c ∈ s.cells, c.2.length < n

theorem roots_mem (hr : RootsIn B sf s) (d : CN) :
    d ∈ (((List.range B.n).map (fun f => ((f, []) : CN))).filter (fun d => !sf || s.mkd d)) ↔ ∃ f < B.n, d = (f, []) := by
  rw [List.mem_filter, List.mem_map]
  constructor
  · rintro ⟨⟨f, hf, rfl⟩, _⟩
    exact ⟨f, List.mem_range.1 hf, rfl⟩
  · rintro ⟨f, hf, rfl⟩
    refine ⟨⟨f, List.mem_range.2 hf, rfl⟩, ?_⟩
    rcases hr f hf with rfl | h
    · rfl
    · simp [h]

theorem binMesh_loop (ht : 0 ≤ tol) (hB : B.WF) (hs : MReach B s) (hr : RootsIn B sf s) (hf : sf = false ∨ FullFlag s) {n : Nat}
    (hn : Deep s n) : ∀ c ∈ (((List.range B.n).map (fun f => ((f, []) : CN))).filter (fun d => !sf || s.mkd d)),
      ∀ p : List (Nat × Pt K), p ≠ [] → (∀ x ∈ p, inCell tol s c x.2 = true) →
      ∃ b, binCell tol sf s n c p = some b ∧ Binned tol sf s p b ∧ ∀ y ∈ b, Below c y.1 := by
  intro c hc p hp hpi
  have hi := hs.inv hB
  obtain ⟨f, hf', rfl⟩ := (roots_mem hr c).1 hc
  have hcx : CEx B.n s.kids (f, []) := hf'
  rcases n with _ | n
  · exact absurd (hn _ ((hi.mem _).2 hcx)) (by simp)
  refine binCell_spec ht hB hs hf (N := n) (fun c hc => ?_) _ _ (by simp [level]) hcx (hr f hf') p hp hpi
  have := hn c ((hi.mem c).2 hc)
  show c.2.length ≤ n
  omega

theorem roots_pair : (((List.range B.n).map (fun f => ((f, []) : CN))).filter (fun d => !sf || s.mkd d)).Pairwise
    (fun c c' => ∀ d, Below c d → ¬ Below c' d) := by
  apply List.Pairwise.filter
  rw [List.pairwise_map]
  exact List.nodup_range.imp (fun h d h1 h2 => h (h1.1.symm.trans h2.1))

/-- **C67** (bin_points): on a refined mesh, points that lie (within the tolerance) in initial cells are distributed over the leaves of
the (sub)mesh: each point to one leaf, which contains it. -/
theorem C67_bins (ht : 0 ≤ tol) (hB : B.WF) (hs : MReach B s) (hr : RootsIn B sf s) (hf : sf = false ∨ FullFlag s) {n : Nat}
    (hn : Deep s n) (pts : List (Nat × Pt K)) (hin : ∀ x ∈ pts, ∃ f < B.n, contains tol (rootQ B f) x.2 = true) :
    ∃ bins, binMesh tol sf B.n s n pts = some bins ∧ Binned tol sf s pts bins := by
  have hi := hs.inv hB
  obtain ⟨b, e1, e2, _⟩ := loop_all (sf := sf) (binCell tol sf s n) _ pts roots_pair (binMesh_loop ht hB hs hr hf hn) (by
    intro x hx
    obtain ⟨f, hf', h⟩ := hin x hx
    refine ⟨(f, []), (roots_mem hr _).2 ⟨f, hf', rfl⟩, ?_⟩
    unfold inCell
    rw [contains_same (cellQ_eq hB hs (f, []) ((hi.mem _).2 (show CEx B.n s.kids (f, []) from hf')))]
    exact h)
  refine ⟨b, ?_, e2⟩
  unfold binMesh
  rw [e1]
  rfl

/-- **C67** (bin_points): if some point lies in no initial cell, an exception is raised. -/
theorem C67_bins_outside (ht : 0 ≤ tol) (hB : B.WF) (hs : MReach B s) (hr : RootsIn B sf s) (hf : sf = false ∨ FullFlag s) {n : Nat}
    (hn : Deep s n) (pts : List (Nat × Pt K)) (x : Nat × Pt K) (hx : x ∈ pts)
    (hout : ∀ f < B.n, contains tol (rootQ B f) x.2 = false) : binMesh tol sf B.n s n pts = none := by
  have hi := hs.inv hB
  obtain ⟨b, rest, e2, e3, -⟩ := loop_spec (sf := sf) (binCell tol sf s n) _ pts roots_pair (binMesh_loop ht hB hs hr hf hn)
  unfold binMesh
  rw [e2]
  simp only [Option.bind_some]
  have : x ∈ rest := by
    rw [e3, List.mem_filter]
    refine ⟨hx, List.all_eq_true.2 (fun c hc => ?_)⟩
    obtain ⟨f, hf', rfl⟩ := (roots_mem hr c).1 hc
    unfold inCell
    rw [contains_same (cellQ_eq hB hs (f, []) ((hi.mem _).2 (show CEx B.n s.kids (f, []) from hf')))]
    rw [show quadAt B (f, []).1 (f, []).2 = rootQ B f from rfl, hout f hf']
    rfl
  rw [if_neg (by intro h; rw [List.isEmpty_iff.1 h] at this; cases this)]

end
end Verif.Fn
