import Verif.Bnd.OneLoop
import Verif.Phys.Coords
import Verif.Dof.Hang

/-!
# `Mesh2D.get_boundary_segments`, `get_boundary_vertices` (mesh.py 7150-7260)
-/

namespace Verif.Bnd
open Verif.Mesh Verif.Dof

section model
variable {K : Type}

/-- `he.base()`, `he.head()` (vertices are compared as objects). -/
def ends (s : St K) (h : HN) : VN × VN :=
  match s.he h with
  | some r => (r.base, r.head)
  | none => (.root 0, .root 0)

/-- The half-edges of the initial mesh without twin (mesh.py 7167-7170), for a mesh with `N` initial cells. -/
def bndRoots (N : Nat) (s : St K) : List Nat :=
  (List.range (4 * N)).filter (fun k => match s.he (.root k) with
    | some r => decide (r.twin = none)
    | none => false)

/-- `he.get_children()` (mesh.py 705-740). -/
def heKids (s : St K) (h : HN) : List HN :=
  match s.he h with
  | some r => if r.kids then [.kid h false, .kid h true] else []
  | none => []

/-- `i = segment.index(he); del segment[i]`, then the elements of `l` are inserted at `i` (mesh.py 7224-7229). -/
def replaceAt (seg : List HN) (h : HN) (l : List HN) : List HN :=
  seg.takeWhile (fun x => !decide (x = h)) ++ l ++ (seg.dropWhile (fun x => !decide (x = h))).tail

/-- The loop `while len(hes_todo)>0` (mesh.py 7214-7234), at most `n` rounds. -/
def expand (sf : Bool) (s : St K) : Nat → List HN → List HN → Option (List HN)
  | _, [], seg => some seg
  | 0, _ :: _, _ => none
  | n + 1, h :: todo, seg => ((s.he h).bind (·.cell)).bind (fun c =>
      if hasCh sf s c then
        if h ∈ seg then expand sf s n (todo ++ heKids s h) (replaceAt seg h (heKids s h)) else none
      else expand sf s n todo seg)

/-- Removal of the half-edges that are not flagged (mesh.py 7238-7244): the list is changed while it is traversed, so that
the half-edge after a removed one is skipped. -/
def dropFlag (m : HN → Bool) : List HN → List HN
  | [] => []
  | [x] => if m x then [x] else []
  | x :: y :: l => if m x then x :: dropFlag m (y :: l) else y :: dropFlag m l

/-- The body of the loop over the segments (mesh.py 7213-7244). -/
def segment (sf : Bool) (s : St K) (n : Nat) (flag : Option (HN → Bool)) (g : List Nat) : Option (List HN) :=
  (expand sf s n (g.map .root) (g.map .root)).map (fun seg => match flag with
    | none => seg
    | some m => dropFlag m seg)

/-- `get_boundary_segments(subforest_flag, flag)` (mesh.py 7150-7246); `sf` says whether there is a subforest flag. -/
def boundarySegments (sf : Bool) (N : Nat) (s : St K) (n : Nat) (flag : Option (HN → Bool)) : Option (List (List HN)) :=
  (groups (fun k => ends s (.root k)) (bndRoots N s)).bind (fun L => allSome (L.map (segment sf s n flag)))

/-- `get_boundary_vertices(flag, subforest_flag)` (mesh.py 7249-7260). -/
def boundaryVertices (sf : Bool) (N : Nat) (s : St K) (n : Nat) (flag : Option (HN → Bool)) : Option (List VN) :=
  (boundarySegments sf N s n flag).map (fun l => l.flatten.map (fun h => (ends s h).1))

end model

/-! ## Specification -/

/-- Side `i` of the cell `c` lies on a side of its initial cell that has no twin. -/
def OnBoundary {K : Type} (B : Base K) (c : CN) (i : Fin 4) : Prop :=
  ∃ j : Fin 4, B.T (4 * c.1 + j) = none ∧ ∀ t : ℚ, 0 ≤ t → t ≤ 1 → ∃ r : ℚ, 0 ≤ r ∧ r ≤ 1 ∧ climb c.2 (E i t) = E j r

/-- The half-edges of the initial mesh without twin form one simple loop. -/
def OneBoundary {K : Type} (B : Base K) : Prop :=
  SimpleLoop (fun k => (B.b k, B.hd k)) ((List.range (4 * B.n)).filter (fun k => decide (B.T k = none)))

end Verif.Bnd
