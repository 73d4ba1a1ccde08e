import Mathlib.Data.Finset.Basic
import Mathlib.Data.List.Basic

/-!
# Model of `Tree` and `Forest` (`/repo/src/mesh.py` lines 191-1770)

Python objects become values: a `Tree` is a rose tree whose slots may be empty
(`None`), a node is identified by its *path* (list of child slots leading to it), and a
method that mutates `self` becomes a function that returns the new forest.
Exceptions (`assert`, `TypeError`, `AttributeError`) are values of `Err`.

Flags: any hashable flag is coded by a natural number; the only thing the code uses is
equality of flags.  `True` is coded as `1` (in Python `True == 1` as well).
-/

namespace Verif.Trees

abbrev Flag := Nat
abbrev Path := List Nat

/-- The flag `True`, added by `mark()` without argument (mesh.py 517-521). -/
def flagTrue : Flag := 1

/-- `_node_type` (mesh.py 276, 320). -/
inductive Kind where
  | root | branch | leaf
deriving DecidableEq, Repr

/-- Failure modes of the modelled methods. -/
inductive Err where
  | assertion      -- a failed `assert`
  | typeError      -- e.g. `range(None)`
  | attribute      -- method call on `None`
deriving DecidableEq, Repr

/-- The scalar attributes of a node (mesh.py 252-327): `_node_type`, `_is_regular`,
`_node_address`, `_node_depth`, `_flags`.  `_n_children` always equals
`len(_children)` and is not stored separately; `_node_position` is the last entry of the
path.  `_forest`/`_in_forest` are not modelled. -/
structure Info where
  kind : Kind
  regular : Bool
  addr : List Nat
  depth : Nat
  flags : Finset Flag
deriving DecidableEq

/-- A tree node with its list of child slots (mesh.py 307, 343: `_children`). -/
inductive Tree where
  | node (info : Info) (kids : List (Option Tree))

def Tree.info : Tree → Info
  | .node i _ => i

def Tree.kids : Tree → List (Option Tree)
  | .node _ k => k

/-- A forest: list of trees (mesh.py 1098-1126, `_trees`).  Forests created with empty
slots (`n_trees=`) are not modelled. -/
structure Forest where
  trees : List Tree

/-! ## Access by path (object identity) -/

/-- The node at relative path `p`, if it exists. -/
def Tree.get? : Tree → Path → Option Tree
  | t, [] => some t
  | t, i :: p =>
    match t.kids[i]? with
    | some (some c) => c.get? p
    | _ => none

/-- In-place update of the object at relative path `p`. -/
def Tree.modify (f : Tree → Tree) : Path → Tree → Tree
  | [], t => f t
  | i :: p, t => .node t.info (t.kids.modify i (Option.map (Tree.modify f p)))

/-- The node at `path = position in forest :: relative path`. -/
def Forest.get? (F : Forest) : Path → Option Tree
  | [] => none
  | i :: p => match F.trees[i]? with
    | some t => t.get? p
    | none => none

/-- In-place update of a node of the forest. -/
def Forest.modify (F : Forest) (f : Tree → Tree) : Path → Forest
  | [] => F
  | i :: p => ⟨F.trees.modify i (Tree.modify f p)⟩

/-! ## Node-level operations -/

/-- Change the flag set of a node. -/
def Tree.mapFlags (g : Finset Flag → Finset Flag) (t : Tree) : Tree :=
  .node { t.info with flags := g t.info.flags } t.kids

/-- `mark(flag)` on the flag set (mesh.py 517-526). -/
def addFlag (flag : Option Flag) (s : Finset Flag) : Finset Flag :=
  match flag with
  | none => insert flagTrue s
  | some f => insert f s

/-- `unmark(flag)` on the flag set (mesh.py 562-567). -/
def removeFlag (flag : Option Flag) (s : Finset Flag) : Finset Flag :=
  match flag with
  | none => ∅
  | some f => s.erase f

/-- `is_marked(flag)` (mesh.py 589-605). -/
def Tree.isMarked (t : Tree) (flag : Option Flag) : Bool :=
  match flag with
  | none => decide (t.info.flags ≠ ∅)
  | some f => decide (f ∈ t.info.flags)

/-- `has_children(flag)` without position (mesh.py 660-672). -/
def Tree.hasChildren (t : Tree) (flag : Option Flag) : Bool :=
  match flag with
  | none => t.kids.any (fun c => c.isSome)
  | some f => t.kids.any (fun c => match c with
      | some c => c.isMarked (some f)
      | none => false)

/-- `has_children(position, flag)` (mesh.py 673-692); fails if the position is out of range. -/
def Tree.hasChildAt (t : Tree) (pos : Nat) (flag : Option Flag) : Except Err Bool :=
  if pos < t.kids.length then
    match flag with
    | none => .ok (match t.kids[pos]? with | some (some _) => true | _ => false)
    | some f => .ok (match t.kids[pos]? with
        | some (some c) => c.isMarked (some f)
        | _ => false)
  else .error .assertion

/-- `get_children(flag, reverse)` (mesh.py 705-740): the occupied (flagged) slots in
(reverse) order, each with its position. -/
def Tree.getChildren (t : Tree) (flag : Option Flag) (reverse : Bool) : List (Nat × Tree) :=
  if t.hasChildren flag then
    let slots := t.kids.zipIdx.filterMap (fun oi => oi.1.map (fun c => (oi.2, c)))
    let slots := if reverse then slots.reverse else slots
    slots.filter (fun ic => match flag with
      | none => true
      | some f => ic.2.isMarked (some f))
  else []

/-- The new child made by `Tree(parent=self, position=i)` (mesh.py 309-349): a LEAF one
level deeper, with the address extended by its position, no flags, and (regular) as many
empty slots as its parent or (irregular) none. -/
def newChild (parent : Info) (nSlots : Nat) (regular : Bool) (i : Nat) : Tree :=
  .node { kind := .leaf, regular := regular, addr := parent.addr ++ [i],
          depth := parent.depth + 1, flags := ∅ }
        (if regular then List.replicate nSlots none else [])

/-- "Change parent type (from LEAF)" (mesh.py 347-349). -/
def promote (k : Kind) : Kind :=
  match k with
  | .leaf => .branch
  | k => k

/-- `add_child()` (mesh.py 758-769), irregular trees only. -/
def Tree.addChild (t : Tree) : Except Err Tree :=
  if t.info.regular then .error .assertion
  else .ok (.node { t.info with kind := promote t.info.kind }
        (t.kids ++ [some (newChild t.info 0 false t.kids.length)]))

/-- The loop `for i in range(n_children): self.add_child()` (mesh.py 815-819). -/
def Tree.addChildren : Nat → Tree → Except Err Tree
  | 0, t => .ok t
  | n + 1, t => match t.addChild with
    | .ok t' => Tree.addChildren n t'
    | .error e => .error e

/-- The loop over `range(self.n_children())` in `split` of a regular tree (mesh.py 799-806).
Each slot is overwritten by a fresh child, whatever it contained; the node type changes when
the first child is made, so a node with zero slots keeps its type. -/
def Tree.splitRegular (t : Tree) : Tree :=
  let n := t.kids.length
  .node { t.info with kind := if n = 0 then t.info.kind else promote t.info.kind }
        ((List.range n).map (fun i => some (newChild t.info n true i)))

/-- `split(n_children)` (mesh.py 794-819). -/
def Tree.split (t : Tree) (n : Option Nat) : Except Err Tree :=
  if t.info.regular then .ok t.splitRegular
  else if t.kids.length = 0 then
    match n with
    | none => .error .typeError
    | some n => t.addChildren n
  else .error .assertion

/-- `delete_children()` without position (mesh.py 772-792): every occupied slot becomes
`None`, and a BRANCH becomes a LEAF. -/
def Tree.deleteChildren (t : Tree) : Tree :=
  .node { t.info with kind := if t.info.kind = .branch then .leaf else t.info.kind }
        (t.kids.map (fun _ => none))

/-- `delete_children(position)` (mesh.py 784-792). -/
def Tree.deleteChildAt (t : Tree) (pos : Nat) : Except Err Tree :=
  match t.kids[pos]? with
  | none => .error .assertion
  | some none => .error .attribute
  | some (some _) =>
    let kids := t.kids.set pos none
    .ok (.node { t.info with
      kind := if t.info.kind = .branch ∧ kids.all (fun c => c.isNone) then .leaf
              else t.info.kind } kids)

/-- `child.remove()` seen from the parent (mesh.py 750-755): the slot becomes `None`, the
parent's type is *not* updated. -/
def Tree.removeChildAt (t : Tree) (pos : Nat) : Tree :=
  .node t.info (t.kids.set pos none)

/-! ## Traversal -/

/-- Traversal mode. -/
inductive Mode where
  | depthFirst | breadthFirst
deriving DecidableEq

/-- An entry of the queue: a node together with its path. -/
abbrev Item := Path × Tree

/-- Children of a queue entry, in (reverse) order. -/
def itemChildren (it : Item) (reverse : Bool) : List Item :=
  (it.2.getChildren none reverse).map (fun ic => (it.1 ++ [ic.1], ic.2))

mutual
/-- Number of nodes; used only as termination measure of the traversal loop. -/
def Tree.size : Tree → Nat
  | .node _ ks => 1 + Tree.sizeKids ks
def Tree.sizeKids : List (Option Tree) → Nat
  | [] => 0
  | k :: ks => Tree.sizeOpt k + Tree.sizeKids ks
def Tree.sizeOpt : Option Tree → Nat
  | none => 0
  | some c => Tree.size c
end

def queueSize (q : List Item) : Nat := (q.map (fun it => it.2.size)).sum

theorem sizeKids_filterMap (ks : List (Option Tree)) (k : Nat) :
    ((ks.zipIdx k).filterMap (fun oi => oi.1.map (fun c => (oi.2, c)))
      |>.map (fun ic => ic.2.size)).sum = Tree.sizeKids ks := by
  induction ks generalizing k with
  | nil => simp [Tree.sizeKids]
  | cons o ks ih =>
    cases o with
    | none => simp [List.zipIdx_cons, Tree.sizeKids, Tree.sizeOpt, ih]
    | some c => simp [List.zipIdx_cons, Tree.sizeKids, Tree.sizeOpt, ih]

theorem queueSize_children (it : Item) (r : Bool) :
    queueSize (itemChildren it r) < it.2.size := by
  obtain ⟨p, t⟩ := it
  obtain ⟨inf, ks⟩ := t
  unfold itemChildren Tree.getChildren
  have h := sizeKids_filterMap ks 0
  split
  · cases r
    · simp [queueSize, Tree.kids, Tree.size, Function.comp_def] at *; omega
    · simp [queueSize, Tree.kids, Tree.size, Function.comp_def, List.sum_reverse] at *; omega
  · simp [queueSize, Tree.size]; omega

theorem queueSize_append (a b : List Item) : queueSize (a ++ b) = queueSize a + queueSize b := by
  simp [queueSize]

/-- The `while len(queue) != 0` loop shared by `Tree.traverse` (mesh.py 845-861) and
`Forest.traverse` (mesh.py 1185-1202), without the flag filter; the deque is written from left
to right.  `pop` takes the right end (depth-first), `popleft` the left end
(breadth-first); children are appended on the right, in reverse order when depth-first.
The generator is modelled by the list of the nodes it yields: the loops in the code that
consume it never change which nodes exist while they run. -/
def traverseLoop (mode : Mode) (q : List Item) : List Item :=
  match mode with
  | .depthFirst =>
    match _h : q.getLast? with
    | none => []
    | some it => it :: traverseLoop mode (q.dropLast ++ itemChildren it true)
  | .breadthFirst =>
    match q with
    | [] => []
    | it :: rest => it :: traverseLoop mode (rest ++ itemChildren it false)
termination_by queueSize q
decreasing_by
  · have h2 : q = q.dropLast ++ [it] := by
      rw [List.getLast?_eq_some_iff] at _h
      obtain ⟨ys, rfl⟩ := _h
      simp
    have := queueSize_children it true
    conv => rhs; rw [h2]
    rw [queueSize_append, queueSize_append]
    have h3 : queueSize [it] = it.2.size := by simp [queueSize]
    omega
  · have := queueSize_children it false
    rw [queueSize_append]
    have h3 : queueSize (it :: rest) = it.2.size + queueSize rest := by simp [queueSize]
    omega

/-- "if flag is not None: if node.is_marked(flag): yield node" (mesh.py 857-861). -/
def filterFlag (flag : Option Flag) (l : List Item) : List Item :=
  match flag with
  | none => l
  | some f => l.filter (fun it => it.2.isMarked (some f))

/-- `Tree.traverse(flag, mode)` of the node `t` at path `p` (mesh.py 822-861). -/
def Tree.traverse (p : Path) (t : Tree) (flag : Option Flag) (mode : Mode) : List Item :=
  filterFlag flag (traverseLoop mode [(p, t)])

/-- The initial queue of `Forest.traverse`: all trees in order (mesh.py 1176-1179). -/
def Forest.items (F : Forest) : List Item :=
  F.trees.zipIdx.map (fun ti => ([ti.2], ti.1))

/-- `Forest.traverse(flag, mode)` (mesh.py 1158-1202). -/
def Forest.traverse (F : Forest) (flag : Option Flag) (mode : Mode) : List Item :=
  filterFlag flag (traverseLoop mode
    (match mode with
     | .depthFirst => F.items.reverse
     | .breadthFirst => F.items))

/-- The selection of leaves (mesh.py 890-908 and 1224-1240). -/
def selectLeaves (l : List Item) (flag sub : Option Flag) : List Item :=
  let leaves := l.filter (fun it => !it.2.hasChildren sub)
  match flag with
  | none => leaves
  | some f => leaves.filter (fun it => it.2.isMarked (some f))

/-- `Tree.get_leaves(flag, subtree_flag, mode)` (mesh.py 864-908). -/
def Tree.getLeaves (p : Path) (t : Tree) (flag sub : Option Flag) (mode : Mode) : List Item :=
  selectLeaves (t.traverse p sub mode) flag sub

/-- `Forest.get_leaves(flag, subforest_flag, mode)` (mesh.py 1205-1240). -/
def Forest.getLeaves (F : Forest) (flag sub : Option Flag) (mode : Mode) : List Item :=
  selectLeaves (F.traverse sub mode) flag sub

/-! ## Marking -/

/-- `node.mark(flag)` for the node at path `a` of the forest (mesh.py 517-526). -/
def Forest.mark (F : Forest) (a : Path) (flag : Option Flag) : Forest :=
  F.modify (Tree.mapFlags (addFlag flag)) a

/-- `node.unmark(flag)` (mesh.py 562-567). -/
def Forest.unmark (F : Forest) (a : Path) (flag : Option Flag) : Forest :=
  F.modify (Tree.mapFlags (removeFlag flag)) a

mutual
/-- The recursion over progeny shared by `mark(recursive=True)` and
`unmark(recursive=True)` (mesh.py 517-546, 562-586), with the change `g` of the flag set. -/
def Tree.mapFlagsRec (g : Finset Flag → Finset Flag) : Tree → Tree
  | .node inf ks => .node { inf with flags := g inf.flags } (Tree.mapFlagsKids g ks)
def Tree.mapFlagsKids (g : Finset Flag → Finset Flag) : List (Option Tree) → List (Option Tree)
  | [] => []
  | k :: ks => Tree.mapFlagsOpt g k :: Tree.mapFlagsKids g ks
def Tree.mapFlagsOpt (g : Finset Flag → Finset Flag) : Option Tree → Option Tree
  | none => none
  | some c => some (Tree.mapFlagsRec g c)
end

/-- `node.mark(flag, recursive=True)` (mesh.py 541-546). -/
def Forest.markRec (F : Forest) (a : Path) (flag : Option Flag) : Forest :=
  F.modify (Tree.mapFlagsRec (addFlag flag)) a

/-- `node.unmark(flag, recursive=True)` (mesh.py 581-586). -/
def Forest.unmarkRec (F : Forest) (a : Path) (flag : Option Flag) : Forest :=
  F.modify (Tree.mapFlagsRec (removeFlag flag)) a

/-- The chain `self, self._parent, ...` up to the root, as paths (mesh.py 608-632). -/
def chainUp (a : Path) : List Path :=
  if a.length ≤ 1 then [a] else a :: chainUp a.dropLast
termination_by a.length
decreasing_by simp; omega

/-- Proper ancestors from the parent upwards (`while ancestor.has_parent(): ancestor =
ancestor.get_parent()`). -/
def ancestors (a : Path) : List Path := (chainUp a).tail

/-- `node.mark(flag, recursive=True, reverse=True)` (mesh.py 531-538). -/
def Forest.markUp (F : Forest) (a : Path) (flag : Option Flag) : Forest :=
  (chainUp a).foldl (fun F b => F.mark b flag) F

/-- `node.unmark(flag, recursive=True, reverse=True)` (mesh.py 572-578). -/
def Forest.unmarkUp (F : Forest) (a : Path) (flag : Option Flag) : Forest :=
  (chainUp a).foldl (fun F b => F.unmark b flag) F

/-- `record(flag)` (mesh.py 1418-1423). -/
def Forest.record (F : Forest) (flag : Option Flag) : Forest :=
  (List.range F.trees.length).foldl (fun F i => F.markRec [i] flag) F

/-- Is the node at path `a` marked with the flag? -/
def Forest.isMarked (F : Forest) (a : Path) (flag : Option Flag) : Bool :=
  match F.get? a with
  | some t => t.isMarked flag
  | none => false

/-- Paths of the children of the node at path `a` (`get_children()` without flag). -/
def Forest.childPaths (F : Forest) (a : Path) : List Path :=
  match F.get? a with
  | some t => (t.getChildren none false).map (fun ic => a ++ [ic.1])
  | none => []

/-! ## Rooted subforests -/

/-- One iteration of the `while ancestor.has_parent()` loop (mesh.py 1266-1273):
mark the ancestor and all its children. -/
def Forest.markFamily (f : Flag) (F : Forest) (b : Path) : Forest :=
  let F := F.mark b (some f)
  (F.childPaths b).foldl (fun F c => F.mark c (some f)) F

/-- The body of the traversal loop of `root_subtrees` (mesh.py 1258-1273). -/
def Forest.rootVisit (f : Flag) (F : Forest) (a : Path) : Forest :=
  if F.isMarked a (some f) then (ancestors a).foldl (Forest.markFamily f) F else F

/-- The body of the loop over root nodes (mesh.py 1253-1273). -/
def Forest.rootTree (f : Flag) (F : Forest) (i : Nat) : Forest :=
  let F := F.mark [i] (some f)
  match F.get? [i] with
  | some t => ((t.traverse [i] none .depthFirst).map (·.1)).foldl (Forest.rootVisit f) F
  | none => F

/-- `root_subtrees(flag)` (mesh.py 1243-1273). -/
def Forest.rootSubtrees (F : Forest) (f : Flag) : Forest :=
  (List.range F.trees.length).foldl (Forest.rootTree f) F

/-- The inner loops of `subtrees_rooted` for a visited node (mesh.py 1297-1317): `true` when
no violation is found. -/
def Forest.rootedAt (F : Forest) (f : Flag) (a : Path) : Bool :=
  if F.isMarked a (some f) then
    (ancestors a).all (fun b => F.isMarked b (some f) &&
      (F.childPaths b).all (fun c => F.isMarked c (some f)))
  else true

/-- `subtrees_rooted(flag)` (mesh.py 1276-1322). -/
def Forest.subtreesRooted (F : Forest) (flag : Option Flag) : Bool :=
  match flag with
  | none => true
  | some f => (List.range F.trees.length).all (fun i =>
      F.isMarked [i] (some f) &&
      (match F.get? [i] with
       | some t => ((t.traverse [i] none .depthFirst).map (·.1)).all (F.rootedAt f)
       | none => true))

/-- The node's tree root path (`get_root()`, mesh.py 635-642). -/
def rootPath (a : Path) : Path := a.take 1

/-- `node.make_rooted_subtree(flag)` (mesh.py 911-927): breadth-first over the whole tree
that contains the node, mark the ancestors of each marked node. -/
def Forest.makeRootedSubtree (F : Forest) (a : Path) (f : Flag) : Forest :=
  match F.get? (rootPath a) with
  | some t => ((t.traverse (rootPath a) none .breadthFirst).map (·.1)).foldl
      (fun F x => if F.isMarked x (some f) then
          (ancestors x).foldl (fun F b => F.mark b (some f)) F else F) F
  | none => F

/-- `node.is_rooted_subtree(flag)` (mesh.py 930-955). -/
def Forest.isRootedSubtree (F : Forest) (a : Path) (f : Flag) : Bool :=
  match F.get? (rootPath a) with
  | some t => ((t.traverse (rootPath a) none .breadthFirst).map (·.1)).all
      (fun x => if F.isMarked x (some f) then
          (ancestors x).all (fun b => F.isMarked b (some f)) else true)
  | none => true

/-! ## Queries -/

mutual
/-- `tree_depth(flag)` (mesh.py 438-448).  The recursive call passes *no* flag, as in the code:
`Tree.treeDepthFrom` below is the loop, `Tree.treeDepth none` the recursive call. -/
def Tree.treeDepthAll : Tree → Nat
  | .node inf ks => Tree.treeDepthKids inf.depth ks
/-- The loop `for child in children: d = child.tree_depth(); if d > depth: depth = d`. -/
def Tree.treeDepthKids (depth : Nat) : List (Option Tree) → Nat
  | [] => depth
  | k :: ks => Tree.treeDepthKids (max depth (Tree.treeDepthOpt k)) ks
def Tree.treeDepthOpt : Option Tree → Nat
  | none => 0
  | some c => Tree.treeDepthAll c
end

/-- `tree_depth(flag)` (mesh.py 438-448); `d > depth` replaced by `max`. -/
def Tree.treeDepth (t : Tree) (flag : Option Flag) : Nat :=
  if t.hasChildren none then
    (t.getChildren flag false).foldl (fun d ic => max d ic.2.treeDepthAll) t.info.depth
  else t.info.depth

/-- `Forest.depth()` (mesh.py 1146-1155). -/
def Forest.depth (F : Forest) : Nat :=
  F.trees.foldl (fun d t => max d (t.treeDepth none)) 0

/-- Stored depth of the node at path `a` (`get_depth()`). -/
def Forest.depthAt (F : Forest) (a : Path) : Nat :=
  match F.get? a with
  | some t => t.info.depth
  | none => 0

/-- `get_parent(flag)` (mesh.py 618-632); the result is the path of the returned node. -/
def Forest.getParent (F : Forest) (a : Path) (flag : Option Flag) : Option Path :=
  match flag with
  | none => (ancestors a).head?
  | some f => (ancestors a).find? (fun b => F.isMarked b (some f))

/-- The `while` loop of `nearest_ancestor` (mesh.py 982-989). -/
def Forest.nearestLoop (F : Forest) (f : Flag) : List Path → Except Err (Option Path)
  | [] => .error .attribute
  | c :: cs =>
    if F.isMarked c (some f) then .ok (some c)
    else if F.depthAt c = 0 then .ok none
    else F.nearestLoop f cs

/-- `nearest_ancestor(flag)` (mesh.py 975-989). -/
def Forest.nearestAncestor (F : Forest) (a : Path) (flag : Option Flag) :
    Except Err (Option Path) :=
  match flag with
  | none => .ok (some a)
  | some f => F.nearestLoop f (chainUp a)

/-- The `while` loop of `contains` (mesh.py 1001-1008); the list is the chain of proper
ancestors still available. -/
def Forest.containsLoop (F : Forest) (self tree : Path) : List Path → Except Err Bool
  | [] => if F.depthAt tree > F.depthAt self then .error .attribute else .ok false
  | b :: bs =>
    if F.depthAt tree > F.depthAt self then
      if self = b then .ok true else F.containsLoop self b bs
    else .ok false

/-- `self.contains(tree)` (mesh.py 992-1008). -/
def Forest.contains (F : Forest) (self tree : Path) : Except Err Bool :=
  if F.depthAt tree < F.depthAt self then .ok false
  else if tree = self then .ok true
  else F.containsLoop self tree (ancestors tree)

/-- Outcome of `find_node`: a node with its path, the forest object itself, or `None`. -/
inductive Found where
  | node (a : Path) (t : Tree)
  | forest
  | nothing

/-- The loop of `Tree.find_node` (mesh.py 966-972) from the node `t` at path `p`. -/
def Tree.findLoop (p : Path) (t : Tree) : List Nat → Except Err Found
  | [] => .ok (.node p t)
  | a :: rest =>
    if t.hasChildren none && decide (a < t.kids.length) then
      match t.kids[a]? with
      | some (some c) => Tree.findLoop (p ++ [a]) c rest
      | _ => match rest with
        | [] => .ok .nothing
        | _ :: _ => .error .attribute
    else .ok .nothing

/-- `node.find_node(address)` (mesh.py 958-972): starts from the root of the node's tree. -/
def Forest.treeFindNode (F : Forest) (a : Path) (address : List Nat) : Except Err Found :=
  match F.get? (rootPath a) with
  | some t => t.findLoop (rootPath a) address
  | none => .error .attribute

/-- The loop of `Forest.find_node` (mesh.py 1335-1343) once inside a tree: a node without
children swallows the remaining address. -/
def Tree.forestFindLoop (p : Path) (t : Tree) : List Nat → Except Err Found
  | [] => .ok (.node p t)
  | a :: rest =>
    if t.hasChildren none then
      if a < t.kids.length then
        match t.kids[a]? with
        | some (some c) => Tree.forestFindLoop (p ++ [a]) c rest
        | _ => match rest with
          | [] => .ok .nothing
          | _ :: _ => .error .attribute
      else .ok .nothing
    else Tree.forestFindLoop p t rest

/-- `Forest.find_node(address)` (mesh.py 1325-1343). -/
def Forest.findNode (F : Forest) (address : List Nat) : Except Err Found :=
  match address with
  | [] => .ok .forest
  | a :: rest =>
    if F.trees.length > 0 then
      match F.trees[a]? with
      | some t => t.forestFindLoop [a] rest
      | none => .ok .nothing
    else .ok .forest

/-- `is_contained_in(test_flag, reference_flag)` (mesh.py 1726-1769). -/
def Forest.isContainedIn (F : Forest) (test ref : Option Flag) : Bool :=
  match test with
  | none => true
  | some f =>
    if ref = some f then true
    else (F.getLeaves none (some f) .breadthFirst).all (fun it =>
      if F.isMarked it.1 ref then true
      else (F.getParent it.1 ref).isSome)

/-- `Forest.get_children(flag, reverse)` (mesh.py 1371-1392).  The branch with `reverse` and
a flag builds a list and returns nothing, i.e. `None`. -/
def Forest.getChildren (F : Forest) (flag : Option Flag) (reverse : Bool) :
    Option (List Tree) :=
  match reverse, flag with
  | false, none => some F.trees
  | false, some f => some (F.trees.filter (fun t => t.isMarked (some f)))
  | true, none => some F.trees.reverse
  | true, some _ => none

/-! ## Refinement and coarsening -/

/-- `node.split()` at path `a` of the forest. -/
def Forest.split (F : Forest) (a : Path) : Except Err Forest :=
  match F.get? a with
  | some t => match t.split none with
    | .ok t' => .ok (F.modify (fun _ => t') a)
    | .error e => .error e
  | none => .error .attribute

/-- The label given to the children of a refined leaf (mesh.py 1697-1712). -/
def childLabel (sub new : Option Flag) : Option Flag :=
  match new with
  | some l => some l
  | none => sub

/-- "if new_label is not None: leaf.mark(new_label)" (mesh.py 1680-1681). -/
def Forest.markIf (F : Forest) (a : Path) (label : Option Flag) : Forest :=
  match label with
  | some l => F.mark a (some l)
  | none => F

/-- The loop that labels each child of a refined leaf (mesh.py 1697-1712). -/
def Forest.markChildrenIf (F : Forest) (a : Path) (label : Option Flag) : Forest :=
  match label with
  | some l => (F.childPaths a).foldl (fun F c => F.mark c (some l)) F
  | none => F

/-- "if not leaf.has_children(): leaf.split()" (mesh.py 1691-1692). -/
def Forest.splitIfLeaf (F : Forest) (a : Path) : Except Err Forest :=
  match F.get? a with
  | some t => if t.hasChildren none then .ok F else F.split a
  | none => .error .attribute

/-- The body of the loop of `refine` over the leaves (mesh.py 1677-1717). -/
def Forest.refineLeaf (sub ref new : Option Flag) (cleanUp : Bool) (F : Forest) (a : Path) :
    Except Err Forest :=
  let F := F.markIf a new
  if ref.isSome && !F.isMarked a ref then .ok F
  else
    match F.splitIfLeaf a with
    | .error e => .error e
    | .ok F =>
      let F := F.markChildrenIf a (childLabel sub new)
      .ok (if ref.isSome && cleanUp then F.unmark a ref else F)

/-- The loop of `refine` over the list of leaves. -/
def Forest.refineLoop (sub ref new : Option Flag) (cleanUp : Bool) :
    List Path → Forest → Except Err Forest
  | [], F => .ok F
  | a :: as, F => match F.refineLeaf sub ref new cleanUp a with
    | .ok F' => Forest.refineLoop sub ref new cleanUp as F'
    | .error e => .error e

/-- Preparation `if subforest_flag is not None: self.root_subtrees(subforest_flag)`
(mesh.py 1670-1671 and 1452-1453). -/
def Forest.rootIf (F : Forest) (flag : Option Flag) : Forest :=
  match flag with
  | some f => F.rootSubtrees f
  | none => F

/-- `refine(subforest_flag, refinement_flag, new_label, clean_up)` (mesh.py 1651-1723). -/
def Forest.refine (F : Forest) (sub ref new : Option Flag) (cleanUp : Bool) :
    Except Err Forest :=
  let F := F.rootIf sub
  match Forest.refineLoop sub ref new cleanUp
      ((F.getLeaves none sub .breadthFirst).map (·.1)) F with
  | .ok F => .ok (F.rootIf new)
  | .error e => .error e

/-- The decision whether to coarsen a node (mesh.py 1026-1053). -/
def Tree.wantsCoarsening (t : Tree) (sub coa : Option Flag) : Bool :=
  match coa with
  | some c => t.isMarked (some c)
  | none =>
    if t.hasChildren sub then
      (t.getChildren none false).all (fun ic => ic.2.info.kind = .leaf)
        && !(t.getChildren none false).isEmpty
    else false

/-- Apply the new label, if any (mesh.py 1056-1060). -/
def Tree.labelled (t : Tree) (new : Option Flag) : Tree :=
  match new with
  | some l => t.mapFlags (addFlag (some l))
  | none => t

/-- Remove the coarsening flag if `clean_up` (mesh.py 1083-1087). -/
def Tree.cleaned (t : Tree) (coa : Option Flag) (cleanUp : Bool) : Tree :=
  if coa.isSome && cleanUp then t.mapFlags (removeFlag coa) else t

/-- What happens to a node that is coarsened (mesh.py 1062-1087): with a new label nothing,
with a subforest flag that flag is removed from the *direct* children, otherwise the
children are deleted. -/
def Tree.coarsenHere (t : Tree) (sub new coa : Option Flag) (cleanUp : Bool) : Tree :=
  let t := match new, sub with
    | some _, _ => t
    | none, some s => Tree.node t.info
        (t.kids.map (Option.map (Tree.mapFlags (removeFlag (some s)))))
    | none, none => t.deleteChildren
  t.cleaned coa cleanUp

mutual
/-- `Tree.coarsen(subforest_flag, coarsening_flag, new_label, clean_up)` (mesh.py 1011-1095). -/
def Tree.coarsen (sub coa new : Option Flag) (cleanUp : Bool) : Tree → Tree
  | .node inf ks =>
    if sub.isSome && !(Tree.node inf ks).isMarked sub then .node inf ks
    else if (Tree.node inf ks).wantsCoarsening sub coa then
      ((Tree.node inf ks).labelled new).coarsenHere sub new coa cleanUp
    else if (Tree.node inf ks).hasChildren sub then
      .node ((Tree.node inf ks).labelled new).info (Tree.coarsenKids sub coa new cleanUp ks)
    else (Tree.node inf ks).labelled new
def Tree.coarsenKids (sub coa new : Option Flag) (cleanUp : Bool) :
    List (Option Tree) → List (Option Tree)
  | [] => []
  | k :: ks => Tree.coarsenOpt sub coa new cleanUp k :: Tree.coarsenKids sub coa new cleanUp ks
def Tree.coarsenOpt (sub coa new : Option Flag) (cleanUp : Bool) : Option Tree → Option Tree
  | none => none
  | some c => some (Tree.coarsen sub coa new cleanUp c)
end

/-- `Forest.coarsen(...)` (mesh.py 1426-1461; the rest of the method is a string literal). -/
def Forest.coarsen (F : Forest) (sub coa new : Option Flag) (cleanUp : Bool) : Forest :=
  let F := F.rootIf sub
  ⟨F.trees.map (Tree.coarsen sub coa new cleanUp)⟩

/-! ## Building forests -/

/-- A free-standing root node with `n` empty slots (mesh.py 272-308). -/
def newRoot (n : Nat) (regular : Bool) : Tree :=
  .node { kind := .root, regular := regular, addr := [], depth := 0, flags := ∅ }
        (List.replicate (if regular then n else 0) none)

/-- `add_tree(tree)` (mesh.py 1395-1402) with `plant_in_forest` (465-474): only the address of
the root itself is updated. -/
def Forest.addTree (F : Forest) (t : Tree) : Except Err Forest :=
  if t.info.kind = .root then
    .ok ⟨F.trees ++ [.node { t.info with addr := [F.trees.length] } t.kids]⟩
  else .error .assertion

/-- `remove_tree(position)` (mesh.py 1405-1415): later trees keep their stored address. -/
def Forest.removeTree (F : Forest) (i : Nat) : Except Err Forest :=
  if i < F.trees.length then .ok ⟨F.trees.eraseIdx i⟩ else .error .assertion

end Verif.Trees
