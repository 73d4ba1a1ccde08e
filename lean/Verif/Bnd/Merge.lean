import Verif.Dcel.Model

/-!
# The merge loops of `Mesh2D.get_boundary_segments` (mesh.py 7172-7211)

A deque is a list of (numbers of) half-edges.  The objects in `bnd_hes_sorted` are identified by their positions.
-/

namespace Verif.Bnd
open Verif.Dcel (MS popFirst setAt shift)

section
variable {V : Type} [DecidableEq V]

/-- Body of the loop over `g2` (mesh.py 7185-7203).  `C k` are the vertices `base()` and `head()` of the half-edge `k`. -/
def mergeBody (C : Nat → V × V) (s : MS) (g2 : List Nat) : MS :=
  match s.g1.head?, s.g1.getLast?, g2.head?, g2.getLast? with
  | some a, some b, some c, some d =>
    if (C b).2 = (C c).1 then
      let i' := shift s.i (s.L.findIdx (· = g2))
      ⟨setAt (popFirst s.L g2) i' (s.g1 ++ g2), i', s.g1 ++ g2, true⟩
    else if (C a).1 = (C d).2 then
      let i' := shift s.i (s.L.findIdx (· = g2))
      ⟨setAt (popFirst s.L g2) i' (g2 ++ s.g1), i', g2 ++ s.g1, true⟩
    else s
  | _, _, _, _ => s

/-- `for g2 in bnd_hes_sorted` with iterator position `j`; `fuel` bounds the iterations (the list never grows, so its
initial length suffices). -/
def innerLoop (C : Nat → V × V) : Nat → Nat → MS → MS
  | 0, _, s => s
  | fuel + 1, j, s =>
    match s.L[j]? with
    | none => s
    | some g2 => innerLoop C fuel (j + 1) (mergeBody C s g2)

/-- `for g1 in bnd_hes_sorted` with iterator position `i`; returns the list and the last value of `merger_activity` (it is
reset for every `g1`). -/
def outerLoop (C : Nat → V × V) : Nat → Nat → List (List Nat) → Bool → List (List Nat) × Bool
  | 0, _, L, a => (L, a)
  | fuel + 1, i, L, a =>
    match L[i]? with
    | none => (L, a)
    | some g1 =>
      let s := innerLoop C L.length 0 ⟨L, some i, g1, false⟩
      outerLoop C fuel (i + 1) s.L s.act

/-- `while True` (mesh.py 7176-7206), at most `fuel` rounds; `none`: more rounds are needed. -/
def whileLoop (C : Nat → V × V) : Nat → List (List Nat) → Option (List (List Nat))
  | 0, _ => none
  | fuel + 1, L =>
    if (outerLoop C L.length 0 L false).2 = false ∨ (outerLoop C L.length 0 L false).1.length = 1 then
      some (outerLoop C L.length 0 L false).1
    else whileLoop C fuel (outerLoop C L.length 0 L false).1

/-- The groups of the half-edges in `bnd` (mesh.py 7172-7206). -/
def groups (C : Nat → V × V) (bnd : List Nat) : Option (List (List Nat)) :=
  whileLoop C (bnd.length + 1) (bnd.map (fun i => [i]))

/-! ## Specification -/

/-- Each half-edge starts where the one before ends. -/
def Path {α : Type} (C : α → V × V) : List α → Prop
  | a :: b :: l => (C a).2 = (C b).1 ∧ Path C (b :: l)
  | _ => True

/-- A closed path. -/
def Loop {α : Type} (C : α → V × V) (g : List α) : Prop :=
  Path C g ∧ ∃ a b, g.head? = some a ∧ g.getLast? = some b ∧ (C b).2 = (C a).1

/-- The half-edges `bnd` form one simple loop: they can be arranged in a closed path that visits no vertex twice. -/
def SimpleLoop (C : Nat → V × V) (bnd : List Nat) : Prop :=
  ∃ g : List Nat, g.Perm bnd ∧ Loop C g ∧ (g.map (fun k => (C k).1)).Nodup ∧ 2 ≤ g.length

end
end Verif.Bnd
