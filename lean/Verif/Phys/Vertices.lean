import Verif.Phys.Place
import Verif.Dof.HangProps

/-!
# The vertices of the dofs (fem.py 2187-2300)
-/

namespace Verif.Phys
open Verif.Geom Verif.Quad Verif.Mesh Verif.Dof Verif.Fem

section model
variable {K : Type}

/-- The loop of `cells.traverse()` (mesh.py 1158-1202, mode 'depth-first'), at most `n` rounds.  The head of the list is the
end of the deque. -/
def dfs (s : St K) : Nat → List CN → Option (List CN)
  | _, [] => some []
  | 0, _ :: _ => none
  | n + 1, c :: q => (dfs s n ((if s.kids c then four.map (child c) else []) ++ q)).map (c :: ·)

/-- `cells.traverse(flag=subforest_flag)` of a mesh with `N` initial cells (mesh.py 1158-1202). -/
def cellsDF (sf : Bool) (N : Nat) (s : St K) (n : Nat) : Option (List CN) :=
  (dfs s n ((List.range N).map (fun f => (f, [])))).map (List.filter (fun c => !sf || s.mkd c))

/-- `get_cell_dofs(cell)` (fem.py 2033-2055): `none` if the cell has no dofs (`None` in the code) or has one that
is not assigned yet (does not happen after `distribute_dofs`, C34_complete). -/
def rowOf (D : DH) (c : CN) : Option (List Nat) := (D.dofs c).bind allSome

/-- `get_region_dofs(subforest_flag)` (fem.py 2147-2184 with the default arguments) as a list without duplicates; `none`:
a leaf has no dofs, `dofs.union(None)` raises. -/
def leafDofs (sf : Bool) (s : St K) (D : DH) : Option (List Nat) :=
  (allSome ((leaves sf s).map (rowOf D))).map (fun l => l.flatten.dedup)

/-- `self.__dof_vertices`: the keys in order of insertion, and the dictionary `{cell: vertex}` of each. -/
structure DV (K : Type) where
  keys : List Nat
  at_ : Nat → List (CN × Pt K)

/-- `self.__dof_vertices = {}` (fem.py 1208, 1216). -/
def DV.new : DV K := ⟨[], fun _ => []⟩

/-- `d[cell] = x`. -/
def dput (l : List (CN × Pt K)) (c : CN) (x : Pt K) : List (CN × Pt K) :=
  if c ∈ l.map (·.1) then l.map (fun y => if y.1 = c then (c, x) else y) else l ++ [(c, x)]

/-- The body of the inner loop (fem.py 2213-2224); `close` is `np.allclose`. -/
def addV (close : Pt K → Pt K → Bool) (V : DV K) (c : CN) (a : Nat) (x : Pt K) : DV K :=
  if a ∈ V.keys then
    if (V.at_ a).any (fun y => close x y.2) then { V with at_ := Function.update V.at_ a (dput (V.at_ a) c x) } else V
  else ⟨V.keys ++ [a], Function.update V.at_ a [(c, x)]⟩

/-- `x[i,:]` for `x = cell.reference_map(x_ref)` (fem.py 2196, 2210). -/
def nodeXY [Field K] (s : St K) (e : ET) (c : CN) (i : Nat) : Pt K := phys (cellQ s c) (castPt K (node e i))

/-- The body of the outer loop (fem.py 2199-2224). -/
def visitV [Field K] (close : Pt K → Pt K → Bool) (s : St K) (e : ET) (D : DH) (V : DV K) (c : CN) : Option (DV K) :=
  (rowOf D c).map (fun row =>
    if row.all (fun a => decide (a ∈ V.keys)) then V
    else row.zipIdx.foldl (fun V y => addV close V c y.1 (nodeXY s e c y.2)) V)

/-- `set_dof_vertices(subforest_flag)` (fem.py 2187-2224).  `none`: an exception. -/
def setVerts [Field K] (close : Pt K → Pt K → Bool) (sf : Bool) (N : Nat) (s : St K) (e : ET) (n : Nat) (D : DH) (V : DV K) :
    Option (DV K) :=
  (leafDofs sf s D).bind (fun l =>
    if l.length ≤ V.keys.length then some V else (cellsDF sf N s n).bind (fun L => L.foldlM (visitV close s e D) V))

/-- `distribute_dofs(subforest_flag)` with its last line (fem.py 1276). -/
def distributeV [Field K] (close : Pt K → Pt K → Bool) (sf : Bool) (N : Nat) (s : St K) (e : ET) (n : Nat) (D : DH) (V : DV K) :
    Option (DH × DV K) :=
  (distributeDofs sf N s e n D).bind (fun D' => (setVerts close sf N s e n D' V).map (fun V' => (D', V')))

/-- One round of the loop of `get_dof_vertices(dofs)` (fem.py 2247-2270) when `cells` is `None`; `none`: `KeyError`. -/
def getVert (V : DV K) (a : Nat) : Option (Pt K) := if a ∈ V.keys then (V.at_ a).head?.map (·.2) else none

/-- `get_dof_vertices(dofs)` (fem.py 2227-2286). -/
def getVerts (V : DV K) (l : List Nat) : Option (List (Pt K)) := allSome (l.map (getVert V))

/-- `get_dof_vertices(dofs, cells)` with a dictionary `cells` (fem.py 2247-2270): a dof with several vertices that is not in
`cells` is skipped. -/
def getVertsIn (V : DV K) (l : List Nat) (cells : Nat → Option CN) : Option (List (Pt K)) :=
  (allSome (l.map (fun a =>
    if a ∈ V.keys then
      if (V.at_ a).length = 1 then some ((V.at_ a).map (·.2))
      else match cells a with
        | some c => ((V.at_ a).find? (fun y => decide (y.1 = c))).map (fun y => [y.2])
        | none => some []
    else none))).map List.flatten

/-- The states of a mesh, a dof handler on it and its vertices, when the mesh is refined, flags are set, dofs are
distributed and `set_dof_vertices` is called in any order. -/
inductive UsesV [Field K] (close : Pt K → Pt K → Bool) (B : Base K) (e : ET) : St K → DH → DV K → Prop
  | new (s : St K) : MReach B s → UsesV close B e s DH.new DV.new
  | split (s s' : St K) (D : DH) (V : DV K) (c : CN) (sf : Bool) : UsesV close B e s D V → c ∈ s.cells → s.kids c = false →
      cellSplit sf s c = .ok s' → UsesV close B e s' D V
  | mark (s : St K) (D : DH) (V : DV K) (m : CN → Bool) : UsesV close B e s D V → UsesV close B e { s with mkd := m } D V
  | dist (s : St K) (D D' : DH) (V V' : DV K) (sf : Bool) (n : Nat) : UsesV close B e s D V → (sf = false ∨ RootedFlag B s) →
      4 * s.cells.length ≤ n → distributeV close sf B.n s e n D V = some (D', V') → UsesV close B e s D' V'
  | set (s : St K) (D : DH) (V V' : DV K) (sf : Bool) (n : Nat) : UsesV close B e s D V →
      4 * s.cells.length ≤ n → setVerts close sf B.n s e n D V = some V' → UsesV close B e s D V'

end model

section
set_option linter.unusedSectionVars false
variable {K : Type} [Field K] {B : Base K} {s : St K}

theorem dfs_ok (hi : CInv B s) : ∀ (n : Nat) (P Q : List CN), (P ++ Q).Nodup → (∀ x ∈ P ++ Q, CEx B.n s.kids x) →
    (∀ x k, child x k ∈ P ++ Q → x ∈ P) → (∀ x ∈ P, s.kids x = true → ∀ k, child x k ∈ P ++ Q) →
    (∀ f < B.n, (f, []) ∈ P ++ Q) → s.cells.length ≤ P.length + n →
    ∃ R, dfs s n Q = some R ∧ Ord P R ∧ (P ++ R).Nodup ∧ ∀ x, x ∈ P ++ R ↔ CEx B.n s.kids x := by
  intro n
  induction n with
  | zero =>
    intro P Q h1 h2 h3 h4 h5 h6
    cases Q with
    | nil =>
      refine ⟨[], rfl, trivial, h1, fun x => ⟨h2 x, ?_⟩⟩
      obtain ⟨f, p⟩ := x
      intro hx
      induction p with
      | nil => exact h5 f hx
      | cons k p ih =>
        have := ih (hi.pref _ hx)
        rw [List.append_nil] at this
        exact h4 _ this hx k
    | cons c Q =>
      exfalso
      have := (h1.subperm (l₂ := s.cells) (fun x hx => (hi.mem x).2 (h2 x hx))).length_le
      simp at this
      omega
  | succ n ih =>
    intro P Q h1 h2 h3 h4 h5 h6
    cases Q with
    | nil =>
      refine ⟨[], rfl, trivial, h1, fun x => ⟨h2 x, ?_⟩⟩
      obtain ⟨f, p⟩ := x
      intro hx
      induction p with
      | nil => exact h5 f hx
      | cons k p ih =>
        have := ih (hi.pref _ hx)
        rw [List.append_nil] at this
        exact h4 _ this hx k
    | cons c Q =>
      have hcx := h2 c (by simp)
      obtain ⟨new, hnew⟩ : ∃ new, new = if s.kids c then four.map (child c) else [] := ⟨_, rfl⟩
      have hmem : ∀ x, x ∈ new ↔ s.kids c = true ∧ ∃ k, x = child c k := by
        intro x
        rw [hnew]
        split_ifs with hk
        · simp only [List.mem_map, hk, true_and]
          exact ⟨fun ⟨k, _, h⟩ => ⟨k, h.symm⟩, fun ⟨k, h⟩ => ⟨k, four_mem k, h.symm⟩⟩
        · simp [hk]
      have hnd : new.Nodup := by
        rw [hnew]
        split_ifs
        · refine List.Nodup.map (fun a b h => (Dof.child_inj h).2) (by decide)
        · exact List.nodup_nil
      have hcP : c ∉ P := by
        intro h
        have := (List.nodup_append'.1 h1).2.2
        exact this h (by simp)
      have hperm : ((c :: P) ++ (new ++ Q)).Perm ((P ++ c :: Q) ++ new) := by
        rw [List.cons_append, List.append_assoc]
        refine (List.perm_middle (a := c)).symm.trans ?_
        exact List.Perm.append_left P ((List.Perm.cons c List.perm_append_comm))
      have hm : ∀ x, x ∈ (c :: P) ++ (new ++ Q) ↔ x ∈ P ++ c :: Q ∨ x ∈ new := by
        intro x; rw [hperm.mem_iff, List.mem_append]
      obtain ⟨R, r1, r2, r3, r4⟩ := ih (c :: P) (new ++ Q) (by
          rw [hperm.nodup_iff, List.nodup_append']
          refine ⟨h1, hnd, ?_⟩
          intro x hx hx'
          obtain ⟨_, k, rfl⟩ := (hmem x).1 hx'
          exact hcP (h3 c k hx)) (by
          intro x hx
          rcases (hm x).1 hx with h | h
          · exact h2 x h
          · obtain ⟨hk, k, rfl⟩ := (hmem x).1 h
            exact hk) (by
          intro x k hx
          rcases (hm _).1 hx with h | h
          · exact List.mem_cons_of_mem _ (h3 x k h)
          · obtain ⟨_, j, hj⟩ := (hmem _).1 h
            rw [(Dof.child_inj hj).1]; simp) (by
          intro x hx hk k
          rw [hm]
          rcases List.mem_cons.1 hx with rfl | hx
          · exact .inr ((hmem _).2 ⟨hk, k, rfl⟩)
          · exact .inl (h4 x hx hk k)) (fun f hf => (hm _).2 (.inl (h5 f hf))) (by simp; omega)
      refine ⟨c :: R, ?_, ⟨?_, r2⟩, ?_, ?_⟩
      · unfold dfs
        rw [← hnew, r1]; rfl
      · rintro x k rfl
        exact h3 x k (by simp)
      · exact (List.perm_middle (a := c) (l₁ := P) (l₂ := R)).nodup_iff.2 r3
      · intro x
        rw [← r4 x, (List.perm_middle (a := c) (l₁ := P) (l₂ := R)).mem_iff]
        rfl

theorem cellsDF_spec (hi : CInv B s) (sf : Bool) (n : Nat) (hn : 4 * s.cells.length ≤ n) :
    ∃ L, cellsDF sf B.n s n = some L ∧ L.Nodup ∧ ∀ c, c ∈ L ↔ c ∈ s.cells ∧ (sf = false ∨ s.mkd c = true) := by
  obtain ⟨R, r1, r2, r3, r4⟩ := dfs_ok hi n [] ((List.range B.n).map (fun f => (f, []))) (by
      rw [List.nil_append]
      exact List.Nodup.map (fun a b h => by simpa using h) List.nodup_range) (by
      intro x hx
      simp only [List.nil_append, List.mem_map, List.mem_range] at hx
      obtain ⟨f, hf, rfl⟩ := hx
      exact hf) (by
      intro x k hx
      simp only [List.nil_append, List.mem_map, List.mem_range] at hx
      obtain ⟨f, hf, h⟩ := hx
      exact absurd h.symm child_ne_root) (by simp) (by
      intro f hf
      simp [hf]) (by simp; omega)
  refine ⟨R.filter (fun c => !sf || s.mkd c), by rw [cellsDF, r1]; rfl, ?_, ?_⟩
  · exact List.Nodup.filter _ (by simpa using r3)
  · intro c
    have := r4 c
    rw [List.nil_append] at this
    rw [List.mem_filter, this, hi.mem]
    cases sf <;> simp

end
end Verif.Phys
