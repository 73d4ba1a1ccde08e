import Verif.Mesh.Balance

/-!
# `balance(subforest_flag)` when the mesh is finer than the submesh (C53)

The neighbour lookups of `balance` respect the flag, but the cells it puts back on the worklist
(mesh.py 7876-7880) do not: `hep_twin.cell()` may be a cell that does not carry the flag.  For some
orders of `set.pop` the result is not balanced.
-/

namespace Verif.Mesh
open Verif.Geom Verif.Quad

/-! ### Simulation on lists of split and of marked cells -/

def exA (n : Nat) (ks : List CN) (c : CN) : Bool :=
  match c with
  | (r, []) => decide (r < n)
  | (r, _ :: p) => decide ((r, p) ∈ ks)

def hasChA (ks ms : List CN) (c : CN) : Bool :=
  decide (c ∈ ks) && four.any (fun k => decide (child c k ∈ ms))

def sideBadA (T : Nat → Option Nat) (n : Nat) (ks ms : List CN) (c : CN) (i : Fin 4) : Bool :=
  match vt T (side c i) with
  | none => false
  | some t => exA n ks (owner t).1 && decide ((owner t).1 ∈ ms) && hasChA ks ms (owner t).1 &&
      [false, true].any (fun b => decide ((owner t).1 ∈ ks) && hasChA ks ms (owner (.kid t b)).1)

def addedA (T : Nat → Option Nat) (n : Nat) (ks : List CN) (c : CN) : List CN :=
  four.map (child c) ++ four.filterMap (fun i => match side c i with
    | .kid h _ => (match vt T h with
      | some t => if exA n ks (owner t).1 then some (owner t).1 else none
      | none => none)
    | _ => none)

/-- One round on the lists. -/
def bodyA (T : Nat → Option Nat) (n : Nat) (ks ms : List CN) (c : CN) : List CN × List CN × List CN :=
  if four.any (sideBadA T n ks ms c) then
    if hasChA ks ms c then (ks, ms, [])
    else if c ∈ ks then (ks, four.map (child c) ++ ms, addedA T n ks c)
    else (c :: ks, four.map (child c) ++ ms, addedA T n (c :: ks) c)
  else (ks, ms, [])

/-- A run that pops the given cells; `none` if a cell is not in the worklist or does not exist. -/
def runA (T : Nat → Option Nat) (n : Nat) : List CN → List CN → List CN → List CN →
    Option (List CN × List CN × List CN)
  | [], ks, ms, W => some (ks, ms, W)
  | c :: cs, ks, ms, W =>
    if c ∈ W ∧ exA n ks c then
      match bodyA T n ks ms c with
      | (ks', ms', l) => runA T n cs ks' ms' (W.filter (· ≠ c) ++ l)
    else none

def validA (n : Nat) : List CN → Bool
  | [] => true
  | c :: ks => exA n ks c && decide (c ∉ ks) && validA n ks

section
variable {K : Type} [Field K]

/-- The lists describe the state. -/
def Rep (s : St K) (ks ms : List CN) : Prop :=
  s.kids = (fun c => decide (c ∈ ks)) ∧ s.mkd = fun c => decide (c ∈ ms)

theorem exA_iff (n : Nat) (ks : List CN) (c : CN) :
    exA n ks c = true ↔ CEx n (fun c => decide (c ∈ ks)) c := by
  rcases c with ⟨r, _ | ⟨k, p⟩⟩ <;> simp [exA, CEx]

theorem hasChA_eq {s : St K} {ks ms : List CN} (hr : Rep s ks ms) (c : CN) :
    hasCh true s c = hasChA ks ms c := by
  simp [hasCh, hasChA, hr.1, hr.2]

theorem sideBadA_eq {B : Base K} {s : St K} (hi : CInv B s) {ks ms : List CN} (hr : Rep s ks ms) {c : CN}
    (hc : CEx B.n s.kids c) (i : Fin 4) : sideBad true s c i = sideBadA B.T B.n ks ms c i := by
  have e1 : (s.he (side c i)).isSome := by rw [hi.ex, owner_side]; exact hc
  rw [Bool.eq_iff_iff]
  unfold sideBad sideBadA
  rw [hi.sides c hc]
  have hk : ∀ d, s.kids d = true ↔ d ∈ ks := by intro d; rw [hr.1]; simp
  have hm : ∀ d, s.mkd d = true ↔ d ∈ ms := by intro d; rw [hr.2]; simp
  have hx : ∀ d, exA B.n ks d = true ↔ CEx B.n s.kids d := by
    intro d; rw [hr.1, exA_iff]
  rcases hn : getNb true s (side c i) with _ | d
  · rcases hv : vt B.T (side c i) with _ | t
    · simp
    · simp only [Bool.false_eq_true, Bool.and_eq_true, hx, decide_eq_true_eq, false_iff, not_and]
      intro h1 
      exfalso
      have := (getNb_iff hi true e1 _).2 ⟨t, hv, rfl, h1.1.1, .inr ((hm _).2 h1.1.2)⟩
      rw [hn] at this; cases this
  · obtain ⟨t, hv, rfl, hd, hmd⟩ := (getNb_iff hi true e1 d).1 hn
    have hmd' : (owner t).1 ∈ ms := by
      rcases hmd with h | h
      · cases h
      · exact (hm _).1 h
    rw [hv]
    simp only [Bool.and_eq_true, twinKidSplit_iff hi true e1, hasChA_eq hr, hx, decide_eq_true_eq, hd,
      hmd', true_and, List.any_eq_true]
    constructor
    · rintro ⟨h1, t', b, hv', h2, h3⟩
      rw [hv] at hv'
      cases hv'
      exact ⟨h1, b, by cases b <;> simp, (hk _).1 h2, h3⟩
    · rintro ⟨h1, b, _, h2, h3⟩
      exact ⟨h1, t, b, hv, (hk _).2 h2, h3⟩

theorem addedA_eq {B : Base K} {s : St K} (hi : CInv B s) {ks ms : List CN} (hr : Rep s ks ms) {c : CN}
    (hc : CEx B.n s.kids c) : added s c = addedA B.T B.n ks c := by
  unfold added addedA
  rw [hi.sides c hc]
  congr 1
  apply List.filterMap_congr
  intro i _
  have hx : ∀ d, exA B.n ks d = true ↔ CEx B.n s.kids d := by
    intro d; rw [hr.1, exA_iff]
  have e1 : (s.he (side c i)).isSome := by rw [hi.ex, owner_side]; exact hc
  rcases hs : side c i with k | ⟨h, b⟩ | ⟨c', i', d⟩
  · rfl
  · simp only
    rw [hs] at e1
    have e2 := hi.hinv.par h b e1
    obtain ⟨r, hr'⟩ := Option.isSome_iff_exists.1 e2
    rw [hr']
    simp only
    rcases ht : r.twin with _ | t
    · rcases hv : vt B.T h with _ | t
      · rfl
      · simp only
        rw [if_neg]
        rw [hx]
        intro hcx
        have := (hi.hinv.tw h r hr' t).2 ⟨hv, (hi.ex t).2 hcx⟩
        rw [ht] at this; cases this
    · obtain ⟨hv, he⟩ := (hi.hinv.tw h r hr' t).1 ht
      obtain ⟨q, hq⟩ := Option.isSome_iff_exists.1 he
      rw [hv]
      simp only [hq, hi.cell t q hq]
      rw [if_pos ((hx _).2 ((hi.ex t).1 he))]
  · rfl

theorem any_congr' {s : St K} {B : Base K} (hi : CInv B s) {ks ms : List CN} (hr : Rep s ks ms) {c : CN}
    (hc : CEx B.n s.kids c) : four.any (sideBad true s c) = four.any (sideBadA B.T B.n ks ms c) := by
  have : sideBad true s c = sideBadA B.T B.n ks ms c := funext (sideBadA_eq hi hr hc)
  rw [this]

theorem bodyA_spec {B : Base K} (hB : B.WF) {s : St K} (hs : MReach B s) {ks ms : List CN} (hr : Rep s ks ms)
    {c : CN} (hc : CEx B.n s.kids c) : ∃ s', balBody true s c = .ok (s', (bodyA B.T B.n ks ms c).2.2) ∧
      MReach B s' ∧ Rep s' (bodyA B.T B.n ks ms c).1 (bodyA B.T B.n ks ms c).2.1 := by
  have hi := hs.inv hB
  unfold balBody bodyA
  rw [any_congr' hi hr hc, hasChA_eq hr]
  split_ifs with h1 h2 h3 h4 h5
  · exact ⟨s, rfl, hs, hr⟩
  · refine ⟨{ s with mkd := fun d => if ∃ k, d = child c k then true else s.mkd d }, ?_, .mark s _ hs, ?_⟩
    · simp only
      rw [addedA_eq (hi.mark (fun d => if ∃ k, d = child c k then true else s.mkd d)) (ks := ks) (ms := four.map (child c) ++ ms) ?_ hc]
      refine ⟨hr.1, ?_⟩
      funext d
      simp only [hr.2, List.mem_append, List.mem_map]
      by_cases hd : ∃ k, d = child c k
      · rw [if_pos hd]
        obtain ⟨k, rfl⟩ := hd
        symm
        rw [decide_eq_true_eq]
        exact .inl ⟨k, mem_four k, rfl⟩
      · rw [if_neg hd]
        apply decide_eq_decide.2
        constructor
        · exact .inr
        · rintro (⟨k, _, rfl⟩ | h)
          · exact absurd ⟨k, rfl⟩ hd
          · exact h
    · refine ⟨hr.1, ?_⟩
      funext d
      simp only [hr.2, List.mem_append, List.mem_map]
      by_cases hd : ∃ k, d = child c k
      · rw [if_pos hd]
        obtain ⟨k, rfl⟩ := hd
        symm
        rw [decide_eq_true_eq]
        exact .inl ⟨k, mem_four k, rfl⟩
      · rw [if_neg hd]
        apply decide_eq_decide.2
        constructor
        · exact .inr
        · rintro (⟨k, _, rfl⟩ | h)
          · exact absurd ⟨k, rfl⟩ hd
          · exact h
  · exfalso
    rw [hr.1] at h3
    simp at h3
    exact h4 h3
  · exfalso
    rw [hr.1] at h3
    simp at h3
    exact h3 h5
  · have hk : s.kids c = false := by simpa using h3
    obtain ⟨s', a1, a2, a3, a4⟩ := cellSplit_spec hB hi hc hk true
    have hrep : Rep s' (c :: ks) (four.map (child c) ++ ms) := by
      refine ⟨?_, ?_⟩
      · rw [a3]
        funext d
        by_cases hd : d = c
        · subst hd; simp
        · rw [Function.update_of_ne hd, hr.1]
          simp [hd]
      · rw [a4]
        funext d
        simp only [hr.2, List.mem_append, List.mem_map]
        by_cases hd : ∃ k, d = child c k
        · rw [if_pos (by simpa using hd)]
          obtain ⟨k, rfl⟩ := hd
          symm
          rw [decide_eq_true_eq]
          exact .inl ⟨k, mem_four k, rfl⟩
        · rw [if_neg (by simpa using hd)]
          apply decide_eq_decide.2
          constructor
          · exact .inr
          · rintro (⟨k, _, rfl⟩ | h)
            · exact absurd ⟨k, rfl⟩ hd
            · exact h
    have hc' : CEx B.n s'.kids c := CEx_mono (fun d hd => by
      rw [a3]
      by_cases hdc : d = c
      · rw [hdc]; simp
      · rw [Function.update_of_ne hdc]; exact hd) hc
    refine ⟨s', ?_, .split s s' c true hs ((hi.mem c).2 hc) hk a1, hrep⟩
    rw [a1]
    simp only
    rw [addedA_eq a2 hrep hc']
  · exact ⟨s, rfl, hs, hr⟩

theorem runA_spec {B : Base K} (hB : B.WF) (cs : List CN) : ∀ {s : St K} {ks ms W ks' ms' W' : List CN},
    MReach B s → Rep s ks ms → runA B.T B.n cs ks ms W = some (ks', ms', W') →
    ∃ s', Relation.ReflTransGen (BalStep true) (s, W.toFinset) (s', W'.toFinset) ∧ MReach B s' ∧ Rep s' ks' ms' := by
  induction cs with
  | nil =>
    intro s ks ms W ks' ms' W' hs hr h
    simp only [runA, Option.some.injEq, Prod.mk.injEq] at h
    obtain ⟨rfl, rfl, rfl⟩ := h
    exact ⟨s, .refl, hs, hr⟩
  | cons c cs ih =>
    intro s ks ms W ks' ms' W' hs hr h
    simp only [runA] at h
    split_ifs at h with hcW
    have hc : CEx B.n s.kids c := by
      rw [hr.1]; exact (exA_iff _ _ _).1 hcW.2
    obtain ⟨s1, b1, b2, b3⟩ := bodyA_spec hB hs hr hc
    obtain ⟨s', d1, d2, d3⟩ := ih b2 b3 h
    refine ⟨s', .head (.step s s1 W.toFinset c _ (List.mem_toFinset.2 hcW.1) b1) ?_, d2, d3⟩
    have e : W.toFinset.erase c ∪ (bodyA B.T B.n ks ms c).2.2.toFinset =
        (W.filter (· ≠ c) ++ (bodyA B.T B.n ks ms c).2.2).toFinset := by
      ext d
      simp [and_comm]
    rw [e]
    exact d1

theorem reach_of_valid {B : Base K} (hB : B.WF) (ks : List CN) (hv : validA B.n ks = true) (ms : List CN) :
    ∃ s, MReach B s ∧ Rep s ks ms := by
  suffices h : ∃ s, MReach B s ∧ s.kids = (fun c => decide (c ∈ ks)) by
    obtain ⟨s, h1, h2⟩ := h
    exact ⟨_, .mark s (fun c => decide (c ∈ ms)) h1, h2, rfl⟩
  induction ks with
  | nil => exact ⟨_, .init, by funext c; simp [init]⟩
  | cons c ks ih =>
    simp only [validA, Bool.and_eq_true, decide_eq_true_eq] at hv
    obtain ⟨s, h1, h2⟩ := ih hv.2
    have hi := h1.inv hB
    have hc : c ∈ s.cells := by
      rw [hi.mem, h2]
      exact (exA_iff _ _ _).1 hv.1.1
    obtain ⟨s', a1, a2, _, a4⟩ := C52_split_ok hB h1 c hc (by rw [h2]; simp [hv.1.2]) false
    refine ⟨s', a2, ?_⟩
    funext d
    rw [Bool.eq_iff_iff, a4, h2]
    simp [or_comm]

end

/-! ### The witness -/

/-- Three squares in the shape of an L: 0 (the corner), 1 (to the right), 2 (above). -/
def ell : Base ℚ where
  n := 3
  b := fun k => [0, 1, 4, 3, 1, 2, 5, 4, 3, 4, 7, 6].getD k 0
  hd := fun k => [1, 4, 3, 0, 2, 5, 4, 1, 4, 7, 6, 3].getD k 0
  T := fun k => if k = 1 then some 7 else if k = 7 then some 1 else if k = 2 then some 8 else
    if k = 8 then some 2 else none
  xy := fun k => [⟨0, 0⟩, ⟨1, 0⟩, ⟨2, 0⟩, ⟨0, 1⟩, ⟨1, 1⟩, ⟨2, 1⟩, ⟨0, 2⟩, ⟨1, 2⟩].getD k ⟨0, 0⟩

theorem ell_wf : ell.WF := by
  refine ⟨?_, ?_, ?_, ?_⟩
  · intro k j h
    simp only [ell] at h ⊢
    split_ifs at h <;> simp_all <;> subst h <;> simp
  · intro k j h
    simp only [ell] at h
    split_ifs at h <;> simp_all <;> subst h <;> simp
  · intro k j h
    simp only [ell] at h ⊢
    split_ifs at h <;> simp_all <;> omega
  · decide

/-- All cells given the split cells. -/
def cellsA (n : Nat) (ks : List CN) : List CN :=
  (List.range n).map (fun r => (r, [])) ++ ks.flatMap (fun c => four.map (child c))

/-- Square 1, its upper left child, the upper right child of this, ... are split; square 0 is
split as well, but only in the mesh, not in the submesh. -/
def ks0 : List CN := [(1, [3, 2, 3]), (1, [2, 3]), (1, [3]), (1, []), (0, [])]

def ms0 : List CN := cellsA 3 [(1, [3, 2, 3]), (1, [2, 3]), (1, [3]), (1, [])]

def lv0 : List CN := ms0.filter (fun c => !hasChA ks0 ms0 c)

/-- Pop the given cells first, then the first in the list. -/
def orderA (T : Nat → Option Nat) (n : Nat) : Nat → List CN → List CN → List CN → List CN → List CN
  | 0, _, _, _, _ => []
  | _ + 1, _, _, _, [] => []
  | f + 1, c :: cs, ks, ms, W => match bodyA T n ks ms c with
      | (ks', ms', l) => c :: orderA T n f cs ks' ms' (W.filter (· ≠ c) ++ l)
  | f + 1, [], ks, ms, c :: W => match bodyA T n ks ms c with
      | (ks', ms', l) => c :: orderA T n f [] ks' ms' (W.filter (· ≠ c) ++ l)

def pops : List CN := orderA ell.T 3 200 [(1, [3, 3]), (0, [2]), (2, []), (0, [])] ks0 ms0 lv0


/-- The flagged cells form a rooted submesh: all squares of the initial mesh are flagged, and
with a cell also its parent and its siblings (mesh.py 1276-1316). -/
def Rooted (B : Base ℚ) (s : St ℚ) : Prop :=
  (∀ r < B.n, s.mkd (r, []) = true) ∧
    ∀ c k, s.mkd (child c k) = true → s.mkd c = true ∧ s.kids c = true ∧ ∀ j, s.mkd (child c j) = true

theorem rooted_of {s : St ℚ} {ks ms : List CN} (hr : Rep s ks ms)
    (h0 : (List.range 3).all (fun r => decide ((r, []) ∈ ms)) = true)
    (h1 : ms.all (fun c => match c with
      | (_, []) => true
      | (r, _ :: p) => decide ((r, p) ∈ ms) && decide ((r, p) ∈ ks) &&
          four.all (fun j => decide (child (r, p) j ∈ ms))) = true) : Rooted ell s := by
  refine ⟨?_, ?_⟩
  · intro r hr'
    rw [hr.2]
    have := List.all_eq_true.1 h0 r (List.mem_range.2 hr')
    simpa using this
  · rintro ⟨r, p⟩ k hk
    rw [hr.2] at hk ⊢
    rw [hr.1]
    have := List.all_eq_true.1 h1 (child (r, p) k) (by simpa using hk)
    simp only [child, Bool.and_eq_true, List.all_eq_true, decide_eq_true_eq] at this
    refine ⟨by simpa using this.1.1, by simpa using this.1.2, fun j => ?_⟩
    simpa [child] using this.2 j (mem_four j)

theorem leavesA {B : Base ℚ} {s : St ℚ} (hi : CInv B s) {ks ms : List CN} (hr : Rep s ks ms)
    (hx : ms.all (exA B.n ks) = true) (c : CN) :
    c ∈ leaves true s ↔ c ∈ ms.filter (fun c => !hasChA ks ms c) := by
  unfold leaves
  rw [List.mem_filter, List.mem_filter, hi.mem, hasChA_eq hr, hr.1, hr.2, ← exA_iff]
  simp only [Bool.not_true, Bool.false_or, Bool.and_eq_true, decide_eq_true_eq, Bool.not_eq_true']
  constructor
  · exact fun h => h.2
  · exact fun h => ⟨List.all_eq_true.1 hx c h.1, h⟩

def balA (T : Nat → Option Nat) (n : Nat) (ks ms : List CN) : Bool :=
  (ms.filter (fun c => !hasChA ks ms c)).all (fun c => four.all (fun i => !sideBadA T n ks ms c i))

theorem balA_eq {B : Base ℚ} {s : St ℚ} (hi : CInv B s) {ks ms : List CN} (hr : Rep s ks ms)
    (hx : ms.all (exA B.n ks) = true) : isBalanced true s = balA B.T B.n ks ms := by
  rw [Bool.eq_iff_iff]
  unfold isBalanced balA
  rw [List.all_eq_true, List.all_eq_true]
  have h : ∀ c ∈ ms, four.all (fun i => !sideBad true s c i) = four.all (fun i => !sideBadA B.T B.n ks ms c i) := by
    intro c hc
    have hcx : CEx B.n s.kids c := by
      rw [hr.1]; exact (exA_iff _ _ _).1 (List.all_eq_true.1 hx c hc)
    congr 1
    funext i
    rw [sideBadA_eq hi hr hcx]
  constructor
  · intro h1 c hc
    rw [← h c (List.mem_filter.1 hc).1]
    exact h1 c ((leavesA hi hr hx c).2 hc)
  · intro h1 c hc
    have hc' := (leavesA hi hr hx c).1 hc
    rw [h c (List.mem_filter.1 hc').1]
    exact h1 c hc'

def pops1 : List CN := orderA ell.T 3 200 [] ks0 ms0 lv0

theorem runA_get {B : Base ℚ} (hB : B.WF) {s : St ℚ} {ks ms : List CN} (hs : MReach B s) (hr : Rep s ks ms)
    (hx : ms.all (exA B.n ks) = true) (cs ks' ms' : List CN)
    (h : runA B.T B.n cs ks ms (ms.filter (fun c => !hasChA ks ms c)) = some (ks', ms', [])) :
    ∃ s', BalRun true s s' ∧ MReach B s' ∧ Rep s' ks' ms' := by
  obtain ⟨s', h1, h2, h3⟩ := runA_spec hB cs hs hr h
  refine ⟨s', ?_, h2, h3⟩
  unfold BalRun
  have e : (leaves true s).toFinset = (ms.filter (fun c => !hasChA ks ms c)).toFinset := by
    ext c
    rw [List.mem_toFinset, List.mem_toFinset, leavesA (hs.inv hB) hr hx]
  rw [e]
  exact h1

def finOf (cs : List CN) : List CN × List CN :=
  match runA ell.T 3 cs ks0 ms0 lv0 with
  | some (ks, ms, []) => (ks, ms)
  | _ => ([], [])

/-- `balance(subforest_flag)` depends on the order in which `set.pop` returns the cells: for one order the
resulting submesh is balanced, for another it is not - two leaves of the submesh that touch differ
by two levels. -/
theorem C53_submesh_violated : ∃ s s1 s2 : St ℚ, MReach ell s ∧ Rooted ell s ∧
    BalRun true s s1 ∧ isBalanced true s1 = true ∧
    BalRun true s s2 ∧ isBalanced true s2 = false ∧
    ∃ c c', c ∈ leaves true s2 ∧ c' ∈ leaves true s2 ∧ TouchesFrom s2 c c' ∧ level c' = level c + 2 := by
  obtain ⟨s, hs, hr⟩ := reach_of_valid ell_wf ks0 (by decide +kernel) ms0
  have hx : ms0.all (exA ell.n ks0) = true := by decide +kernel
  obtain ⟨s1, a1, a2, a3⟩ := runA_get ell_wf hs hr hx pops1 (finOf pops1).1 (finOf pops1).2 (by decide +kernel)
  obtain ⟨s2, b1, b2, b3⟩ := runA_get ell_wf hs hr hx pops (finOf pops).1 (finOf pops).2 (by decide +kernel)
  have hx1 : (finOf pops1).2.all (exA ell.n (finOf pops1).1) = true := by decide +kernel
  have hx2 : (finOf pops).2.all (exA ell.n (finOf pops).1) = true := by decide +kernel
  have hi2 := b2.inv ell_wf
  refine ⟨s, s1, s2, hs, rooted_of hr (by decide +kernel) (by decide +kernel), a1, ?_, b1, ?_,
    (2, []), (0, [2, 2]), ?_, ?_, ?_, rfl⟩
  · rw [balA_eq (a2.inv ell_wf) a3 hx1]
    decide +kernel
  · rw [balA_eq hi2 b3 hx2]
    decide +kernel
  · rw [leavesA hi2 b3 hx2]
    decide +kernel
  · rw [leavesA hi2 b3 hx2]
    decide +kernel
  · have hc : ∀ c, exA ell.n (finOf pops).1 c = true → CEx ell.n s2.kids c := by
      intro c h
      rw [b3.1]; exact (exA_iff _ _ _).1 h
    have hc1 : CEx ell.n s2.kids (2, []) := hc _ (by decide +kernel)
    have hc2 : CEx ell.n s2.kids (0, [2, 2]) := hc _ (by decide +kernel)
    have hc0 : CEx ell.n s2.kids (0, []) := hc _ (by decide +kernel)
    have e1 : (s2.he (.root 8)).isSome := (hi2.ex _).2 hc1
    have e2 : (s2.he (.root 2)).isSome := (hi2.ex _).2 hc0
    obtain ⟨r, hr'⟩ := Option.isSome_iff_exists.1 e1
    refine ⟨0, 2, r, .root 2, ?_, (hi2.hinv.tw _ r hr' _).2 ⟨rfl, e2⟩, ?_⟩
    · rw [hi2.sides _ hc1]; exact hr'
    · rw [hi2.sides _ hc2]
      exact .kid _ _ (.kid _ _ .refl)

/-- If all cells carry the flag, `balance(subforest_flag)` terminates and every run ends with a balanced
submesh.  Missing for C53: submeshes of a finer mesh, where the claim is false. -/
theorem C53_full_flag_partial {K : Type} [Field K] {B : Base K} (hB : B.WF) {s : St K} (hs : MReach B s)
    (hf : ∀ c ∈ s.cells, s.mkd c = true) :
    Acc (fun y x => BalStep true x y) (s, (leaves true s).toFinset) ∧
    ∀ s', BalRun true s s' → isBalanced true s' = true ∧ Balanced21 s' ∧ ∀ c ∈ s'.cells, s'.mkd c = true := by
  refine ⟨C27_terminates hB hs true (.inr hf), fun s' hr => ?_⟩
  obtain ⟨_, h2, h3, _⟩ := C27_result hB hs true (.inr hf) hr
  refine ⟨h3, h2, ?_⟩
  rcases (binv_run hB (binv_init hB hs (.inr hf)) hr).full with h | h
  · cases h
  · exact h

/-- Non-vacuity of the theorems about the whole mesh: the right one of two squares is split twice, the
left one has to follow. -/
example : ∃ s s', MReach twoB s ∧ ¬ Balanced21 s ∧ BalRun false s s' ∧ Balanced21 s' ∧
    s.kids (0, []) = false ∧ s'.kids (0, []) = true := by
  obtain ⟨s, hs, hr⟩ := reach_of_valid twoB_wf [(1, [0]), (1, [])] (by decide) []
  have hi := hs.inv twoB_wf
  obtain ⟨s', hr'⟩ := C27_run_exists twoB_wf hs false (.inl rfl)
  obtain ⟨h1, h2, _, _, h5⟩ := C27_result twoB_wf hs false (.inl rfl) hr'
  have hk : ∀ k : CN → Bool, k (1, []) = true → k (1, [0]) = true → Bad twoB.T k (0, []) :=
    fun k a b => ⟨1, .root 7, true, rfl, a, b⟩
  have k0 : s.kids (0, []) = false := by rw [hr.1]; decide
  have k1 : s.kids (1, []) = true := by rw [hr.1]; decide
  have k2 : s.kids (1, [0]) = true := by rw [hr.1]; decide
  have hx : ∀ k, CEx twoB.n k (0, []) := fun k => by show 0 < 2; decide
  refine ⟨s, s', hs, ?_, hr', h2, k0, ?_⟩
  · intro hb
    exact (balanced21_iff hi).1 hb (0, []) (hx _) k0 (hk _ k1 k2)
  · by_contra h6
    exact (balanced21_iff (h1.inv twoB_wf)).1 h2 (0, []) (hx _) (by simpa using h6) (hk _ (h5 _ k1) (h5 _ k2))

end Verif.Mesh
