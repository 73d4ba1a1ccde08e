import Verif.Forest.Model

/-!
# Specification vocabulary for trees and forests

Everything the property theorems say about a forest is expressed through `Forest.view?`
(what a user can observe at a node: its attributes and which child slots are occupied),
existence of nodes, and markings.  A node is named by its path: position of the tree in the
forest followed by the child positions.
-/

namespace Verif.Trees

/-- The observable content of one node: its attributes and which child slots are occupied. -/
abbrev View := Info × List Bool

def Tree.view (t : Tree) : View := (t.info, t.kids.map Option.isSome)

/-- The observable content of the node at path `a`, `none` if there is no such node. -/
def Forest.view? (F : Forest) (a : Path) : Option View := (F.get? a).map Tree.view

/-- There is a node at path `a`. -/
def Forest.HasNode (F : Forest) (a : Path) : Prop := (F.get? a).isSome

/-- The node at path `a` exists and carries flag `f`. -/
def Forest.Marked (F : Forest) (a : Path) (f : Flag) : Prop :=
  ∃ t, F.get? a = some t ∧ f ∈ t.info.flags

/-- In the subforest selected by `flag` (`None`: the whole forest). -/
def Forest.InSub (F : Forest) (flag : Option Flag) (a : Path) : Prop :=
  match flag with
  | none => F.HasNode a
  | some f => F.Marked a f

/-- Leaf of the subforest selected by `flag`: in it, but none of its children is. -/
def Forest.IsLeaf (F : Forest) (flag : Option Flag) (a : Path) : Prop :=
  F.InSub flag a ∧ ∀ i, ¬ F.InSub flag (a ++ [i])

/-- `f` marks a rooted, sibling-closed subforest. -/
def Forest.Rooted (F : Forest) (f : Flag) : Prop :=
  (∀ i, F.HasNode [i] → F.Marked [i] f) ∧
  (∀ a i, a ≠ [] → F.Marked (a ++ [i]) f →
    F.Marked a f ∧ ∀ j, F.HasNode (a ++ [j]) → F.Marked (a ++ [j]) f)

/-- The nodes that must be marked if all roots, and with each node its parent and siblings,
are to be marked. -/
inductive Forced (F : Forest) (f : Flag) : Path → Prop
  | old {a : Path} : F.Marked a f → Forced F f a
  | root {i : Nat} : F.HasNode [i] → Forced F f [i]
  | parent {a : Path} {i : Nat} : a ≠ [] → Forced F f (a ++ [i]) → Forced F f a
  | sibling {a : Path} {i j : Nat} : a ≠ [] → Forced F f (a ++ [i]) → F.HasNode (a ++ [j]) →
      Forced F f (a ++ [j])

/-- Order of the breadth-first traversal: by depth, then left to right. -/
def BfLt (a b : Path) : Prop := a.length < b.length ∨ (a.length = b.length ∧ a < b)

/-- All nodes are regular (as in every mesh of the library). -/
def Forest.Regular (F : Forest) : Prop := ∀ a t, F.get? a = some t → t.info.regular = true

/-- Two forests have the same nodes with the same attributes, except possibly for flags. -/
def SameUpToFlags (F F' : Forest) : Prop :=
  ∀ a, (F'.view? a).map (fun v => ({ v.1 with flags := ∅ }, v.2)) =
    (F.view? a).map (fun v => ({ v.1 with flags := ∅ }, v.2))

end Verif.Trees
