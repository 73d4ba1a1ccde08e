import Verif.Dof.Props
import Verif.Fem.Hanging
import Verif.Linsys.Spec

/-!
# Model of `DofHandler.set_hanging_nodes` (fem.py 2477-2570)
-/

namespace Verif.Dof
open Verif.Fem Verif.Mesh
open Verif.Linsys (Con)

/-! ### The reference cell -/

/-- `v.get_pos(0)` (mesh.py 4160-4170, 4458-4484). -/
def pos0 (e : ET) (v : Nat) : Option Nat :=
  if v ∈ (rcell e).own then some ((rcell e).own.idxOf v) else none

/-- `v.get_pos(1, k)` for a continuous element (mesh.py 4160-4170, 4494-4518). -/
def pos1 (e : ET) (k : Fin 4) (v : Nat) : Option Nat :=
  if v ∈ (rcell e).kids.getD k [] then some (((rcell e).kids.getD k []).idxOf v) else none

/-- Base, head and dof vertices of a half-edge (fem.py 2513-2514, 2529-2530). -/
def heVs (r : RHE) : List Nat := r.base :: r.head :: r.dofs

/-- `coarse_vertices` of side `i` (fem.py 2511-2514). -/
def coarseV (e : ET) (i : Fin 4) : List Nat := heVs ((rcell e).sides.getD i ⟨0, 0, []⟩)

/-- `fine_vertices` of half `b` of side `i` (fem.py 2525-2530). -/
def fineV (e : ET) (i : Fin 4) (b : Bool) : List Nat :=
  let h := (rcell e).halves.getD i (⟨0, 0, []⟩, ⟨0, 0, []⟩)
  heVs (if b then h.2 else h.1)

/-- `i_supp_dofs` (fem.py 2516-2518).  The set is here a list in the order of insertion: the order in which a set is
iterated has no meaning, and it is the same for the supporting dofs and the coefficients. -/
def suppPos (e : ET) (i : Fin 4) : List Nat := ((coarseV e i).filterMap (pos0 e)).dedup

/-- `rhe_ch.cell().get_node_position()` (fem.py 2548): the first half of side `i` belongs to child `i`, the second half to
child `i + 1` (mesh.py 4391-4402). -/
def halfCell (i : Fin 4) (b : Bool) : Fin 4 := if b then i + 1 else i

/-! ### The constraints -/

/-- All or nothing. -/
def allSome {α : Type} : List (Option α) → Option (List α)
  | [] => some []
  | none :: _ => none
  | some a :: l => (allSome l).map (a :: ·)

section
variable {K F : Type} [Field K] [Field F]

/-- One supporting dof with its coefficient `element.phi(i, v)[0]` (fem.py 2519, 2540-2542). -/
def suppAt (e : ET) (row : List (Option Nat)) (v n : Nat) : Option (Nat × F) :=
  match row.getD n none, phi2 e n (((xy (rcell e).vs v).1 : F), ((xy (rcell e).vs v).2 : F)) with
  | some d, .ok x => some (d, x)
  | _, _ => none

/-- The constraint for vertex `v` of half `b` of side `j` of the refined neighbour with dofs `row`; `t` is the
half-edge of the neighbour (fem.py 2536-2563).  Simplification: a `None` among the dofs (cells that have not been filled)
is treated like an exception. -/
def conAt (s : St K) (e : ET) (D : DH) (row : List (Option Nat)) (t : HN) (j : Fin 4) (b : Bool) (v : Nat) : Option (Con F) :=
  match (s.he (.kid t b)).bind (·.cell) with
  | none => none
  | some d => match D.dofs d, pos1 e (halfCell j b) v with
    | some r, some p => match r.getD p none, allSome ((suppPos e j).map (suppAt e row v)) with
      | some a, some l => some ⟨a, l, 0⟩
      | _, _ => none
    | _, _ => none

/-- The constraints found at side `i` of the leaf `c` (fem.py 2496-2563).  `none`: an exception. -/
def sideCons (sf : Bool) (s : St K) (e : ET) (D : DH) (c : CN) (i : Fin 4) : List (Option (Con F)) :=
  match getNb sf s (s.sides c i) with
  | none => []
  | some nb =>
    if hasCh sf s nb then
      match (s.he (s.sides c i)).bind (·.twin) with
      | none => [none]
      | some t => match hIdx s nb t, D.dofs nb with
        | some j, some row => [false, true].flatMap (fun b =>
            ((fineV e j b).filter (fun v => pos0 e v = none)).map (conAt s e D row t j b))
        | _, _ => [none]
    else []

/-- All constraints in the order in which they are found (fem.py 2493-2563). -/
def allCons (sf : Bool) (s : St K) (e : ET) (D : DH) : Option (List (Con F)) :=
  allSome ((leaves sf s).flatMap (fun c => four.flatMap (sideCons sf s e D c)))

/-- `hanging_nodes[constrained_dof] = ...` (fem.py 2552-2553): overwrites. -/
def dset (H : List (Con F)) (c : Con F) : List (Con F) :=
  if c.dof ∈ H.map (·.dof) then H.map (fun x => if x.dof = c.dof then c else x) else H ++ [c]

/-- The update of `self.constraints` (fem.py 2555-2563): only if the dof is not yet constrained. -/
def cadd (C : List (Con F)) (c : Con F) : List (Con F) := if c.dof ∈ C.map (·.dof) then C else C ++ [c]

/-- `set_hanging_nodes(subforest_flag)` on a two-dimensional mesh (fem.py 2477-2570): the new dictionary of
hanging nodes, and `self.constraints`, which was `old`.  The dictionary and the constraints are updated at the end
and not while searching, which makes a difference only if an exception is raised. -/
def setHanging (sf : Bool) (s : St K) (e : ET) (D : DH) (old : List (Con F)) : Option (List (Con F) × List (Con F)) :=
  if torn e then some ([], old)
  else (allCons sf s e D).map (fun l => (l.foldl dset [], l.foldl cadd old))

end

/-! ### Tables -/

theorem cont_of {e : ET} (he : torn e = false) : Cont e := by
  cases e <;> simp_all [torn, Cont]

/-- The parameter of node `m` of half `b` of a side. -/
def halfT (e : ET) (b : Bool) (m : Nat) : ℚ := ((if b then 1 else 0) + (sideT e).getD m 0) / 2

theorem supp_tab (e : ET) (he : torn e = false) (i : Fin 4) : suppPos e i = sideDofs e i := by
  have : ∀ e : ET, torn e = true ∨ ∀ i : Fin 4, suppPos e i = sideDofs e i := by decide +kernel
  exact (this e).resolve_left (by simp [he]) i

theorem fine_len (e : ET) (he : torn e = false) (i : Fin 4) (b : Bool) : (fineV e i b).length = dpe2 e + 2 := by
  have : ∀ e : ET, torn e = true ∨ ∀ i : Fin 4, ∀ b, (fineV e i b).length = dpe2 e + 2 := by decide +kernel
  exact (this e).resolve_left (by simp [he]) i b

theorem fine_tab (e : ET) (he : torn e = false) (i : Fin 4) (b : Bool) (m : Nat) (hm : m < dpe2 e + 2) :
    xy (rcell e).vs ((fineV e i b).getD m 0) = E i (halfT e b m) ∧
    pos1 e (halfCell i b) ((fineV e i b).getD m 0) = some ((sideDofs e i).getD m 0) ∧
    (pos0 e ((fineV e i b).getD m 0) = none ↔ ∀ p : Fin (nd2 e), node e p ≠ E i (halfT e b m)) ∧
    0 ≤ halfT e b m ∧ halfT e b m ≤ 1 := by
  have : ∀ e : ET, torn e = true ∨ ∀ i : Fin 4, ∀ b, ∀ m < dpe2 e + 2,
    xy (rcell e).vs ((fineV e i b).getD m 0) = E i (halfT e b m) ∧
    pos1 e (halfCell i b) ((fineV e i b).getD m 0) = some ((sideDofs e i).getD m 0) ∧
    (pos0 e ((fineV e i b).getD m 0) = none ↔ ∀ p : Fin (nd2 e), node e p ≠ E i (halfT e b m)) ∧
    0 ≤ halfT e b m ∧ halfT e b m ≤ 1 := by decide +kernel
  exact (this e).resolve_left (by simp [he]) i b m hm

theorem fine_inj (e : ET) (he : torn e = false) (i : Fin 4) (b b' : Bool) (v v' : Nat) (hv : v ∈ fineV e i b)
    (hv' : v' ∈ fineV e i b') (h : xy (rcell e).vs v = xy (rcell e).vs v') : v = v' := by
  have : ∀ e : ET, torn e = true ∨ ∀ i : Fin 4, ∀ b b', ∀ v ∈ fineV e i b, ∀ v' ∈ fineV e i b',
    xy (rcell e).vs v = xy (rcell e).vs v' → v = v' := by decide +kernel
  exact (this e).resolve_left (by simp [he]) i b b' v hv v' hv' h

/-- The nodes of a side. -/
theorem side_node (e : ET) (he : torn e = false) (i : Fin 4) (m : Nat) (hm : m < dpe2 e + 2) :
    (sideDofs e i).getD m 0 < nd2 e ∧ node e ((sideDofs e i).getD m 0) = E i ((sideT e).getD m 0) := by
  have : ∀ e : ET, torn e = true ∨ ∀ i : Fin 4, ∀ m < dpe2 e + 2, (sideDofs e i).getD m 0 < nd2 e ∧
    node e ((sideDofs e i).getD m 0) = E i ((sideT e).getD m 0) := by decide +kernel
  exact (this e).resolve_left (by simp [he]) i m hm

/-- A node on a side is one of the nodes of the side. -/
theorem node_side (e : ET) (he : torn e = false) (i : Fin 4) (p : Fin (nd2 e)) (r : ℚ) (h : node e p = E i r) :
    ∃ m < dpe2 e + 2, (sideDofs e i).getD m 0 = p ∧ (sideT e).getD m 0 = r := by
  have : ∀ e : ET, torn e = true ∨ ∀ i : Fin 4, ∀ p : Fin (nd2 e), node e p = E i (par i (node e p)) →
    ∃ m < dpe2 e + 2, (sideDofs e i).getD m 0 = p ∧ (sideT e).getD m 0 = par i (node e p) := by decide +kernel
  have hr : par i (node e p) = r := by rw [h, par_E]
  have h2 := (this e).resolve_left (by simp [he]) i p
  rw [hr] at h2
  exact h2 h

end Verif.Dof
