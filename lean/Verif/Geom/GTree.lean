import Mathlib.Data.List.Basic
import Mathlib.Data.List.Perm.Basic
import Mathlib.Data.List.Nodup
import Mathlib.Data.Finset.Basic

/-!
# Geometric trees: cells that carry their geometry

`Interval` and `QuadCell` are subclasses of `Tree` (`/repo/src/mesh.py` 2699, 3624, 191).
Here a cell is a value with its geometric data `D` and the list of its children (either
none or all of them: deletion of a single child, `Tree.delete_children(position)`, is not
used by the meshes and is left out here; it is modelled in `Verif.Forest`).
Flags are part of the data; the functions below take the predicate `mk : D → Bool`,
"`sf is None or self.is_marked(flag=sf)`".
-/

namespace Verif.Geom

abbrev Path := List Nat

/-- Failure modes. -/
inductive Err where
  | assertion
  | attribute
  | zeroDivision
  | name
deriving DecidableEq, Repr

/-- A cell with data and children (mesh.py 252-343, `_children`). -/
inductive GTree (D : Type) where
  | node (data : D) (kids : List (GTree D))

variable {D P ι : Type}

def GTree.data : GTree D → D
  | .node d _ => d

def GTree.kids : GTree D → List (GTree D)
  | .node _ k => k

@[simp] theorem GTree.data_node (d : D) (ks) : (GTree.node d ks).data = d := rfl
@[simp] theorem GTree.kids_node (d : D) (ks) : (GTree.node d ks).kids = ks := rfl

/-- Induction principle. -/
theorem GTree.ind {Q : GTree D → Prop}
    (h : ∀ d ks, (∀ k ∈ ks, Q k) → Q (.node d ks)) (t : GTree D) : Q t :=
  GTree.rec (motive_1 := Q) (motive_2 := fun ks => ∀ k ∈ ks, Q k)
    (fun d ks ih => h d ks ih)
    (fun k hk => by cases hk)
    (fun a as ha has k hk => by
      rcases List.mem_cons.1 hk with rfl | hk
      · exact ha
      · exact has k hk) t

/-- The cell at a relative path below a list of siblings (or the roots of a mesh). -/
def getL : List (GTree D) → Path → Option (GTree D)
  | _, [] => none
  | ts, [i] => ts[i]?
  | ts, i :: j :: p => match ts[i]? with
    | some t => getL t.kids (j :: p)
    | none => none

/-- In-place update of the cell at a path. -/
def modifyL (f : GTree D → GTree D) : List (GTree D) → Path → List (GTree D)
  | ts, [] => ts
  | ts, [i] => ts.modify i f
  | ts, i :: j :: p => ts.modify i (fun t => .node t.data (modifyL f t.kids (j :: p)))

/-- `has_children(flag)` (mesh.py 573-601): is there a child in the submesh? -/
def hasKids (mk : D → Bool) (t : GTree D) : Bool := t.kids.any (fun k => mk k.data)

/-! ## Leaves from left to right

The leaves of a submesh in depth-first order (mesh.py 668-716 `get_leaves` with
`mode='depth-first'`), under the convention that a cell has all or none of its children
in the submesh. -/
mutual
def leavesT (mk : D → Bool) : GTree D → Path → List Path
  | .node d ks, p =>
    if hasKids mk (.node d ks) then leavesL mk ks p 0 else [p]
def leavesL (mk : D → Bool) : List (GTree D) → Path → Nat → List Path
  | [], _, _ => []
  | k :: ks, p, i => leavesT mk k (p ++ [i]) ++ leavesL mk ks p (i + 1)
end

/-! ## `bin_points` -/
mutual
/-- `Interval.bin_points` (mesh.py 2985-3054), `QuadCell.bin_points` (mesh.py 3797-3868),
for a cell in the submesh; `C d x` is `contains_points`.  `pts` pairs the indices
`i_points` with the points.  The result lists the bins `(cell, indices)`, the cell given
by its path. -/
def bin (C : D → P → Bool) (mk : D → Bool) :
    GTree D → Path → List (ι × P) → Except Err (List (Path × List ι))
  | .node d ks, p, pts =>
    if pts.all (fun x => C d x.2) then
      if hasKids mk (.node d ks) then
        match binKids C mk ks p 0 pts with
        | .ok (b, _) => .ok b
        | .error e => .error e
      else .ok [(p, pts.map Prod.fst)]
    else .error .assertion
/-- The loop over children (mesh.py 3036-3047) or over the trees of a mesh
(mesh.py 6694-6710, 7772-7790).  Returns the bins and the points that are left. -/
def binKids (C : D → P → Bool) (mk : D → Bool) :
    List (GTree D) → Path → Nat → List (ι × P) →
      Except Err (List (Path × List ι) × List (ι × P))
  | [], _, _, pts => .ok ([], pts)
  | k :: ks, p, i, pts =>
    if mk k.data && pts.any (fun x => C k.data x.2) then
      match bin C mk k (p ++ [i]) (pts.filter (fun x => C k.data x.2)) with
      | .error e => .error e
      | .ok b =>
        match binKids C mk ks p (i + 1) (pts.filter (fun x => !C k.data x.2)) with
        | .error e => .error e
        | .ok (r, rest) => .ok (b ++ r, rest)
    else binKids C mk ks p (i + 1) pts
end

/-- `Mesh1D.bin_points` (mesh.py 6668-6713), `Mesh2D.bin_points` (mesh.py 7747-7794). -/
def meshBin (C : D → P → Bool) (mk : D → Bool) (F : List (GTree D)) (pts : List (ι × P)) :
    Except Err (List (Path × List ι)) :=
  match binKids C mk F [] 0 pts with
  | .error e => .error e
  | .ok (b, rest) => if rest.isEmpty then .ok b else .error .assertion

/-- `bin_points` called on the cell at path `r.reverse`, possibly outside the submesh:
move up until the cell is in the submesh (mesh.py 3016-3025, 3829-3838).  The assertion
is checked at every level. -/
def cellBin (C : D → P → Bool) (mk : D → Bool) (F : List (GTree D)) :
    Path → List (ι × P) → Except Err (List (Path × List ι))
  | [], _ => .ok []
  | i :: r, pts =>
    match getL F (i :: r).reverse with
    | none => .error .attribute
    | some t =>
      if mk t.data then bin C mk t (i :: r).reverse pts
      else if pts.all (fun x => C t.data x.2) then cellBin C mk F r pts
      else .error .assertion

/-! ## Specification of a binning -/

/-- Every point that lies in a cell with children in the submesh lies in one of these
children, at every level. -/
inductive Cov (C : D → P → Bool) (mk : D → Bool) : GTree D → Prop
  | node (d : D) (ks : List (GTree D))
      (here : hasKids mk (.node d ks) = true → ∀ x, C d x = true →
        ∃ k ∈ ks, mk k.data = true ∧ C k.data x = true)
      (below : ∀ k ∈ ks, Cov C mk k) : Cov C mk (.node d ks)

/-- `b` is a correct binning of `pts` over the cells of `F`: the indices of all bins
together are exactly the given indices; each bin belongs to a leaf of the submesh; each
point of a bin lies in that leaf. -/
structure GoodBins (C : D → P → Bool) (mk : D → Bool) (F : List (GTree D))
    (pts : List (ι × P)) (b : List (Path × List ι)) : Prop where
  complete : (b.flatMap Prod.snd).Perm (pts.map Prod.fst)
  leaf : ∀ e ∈ b, ∃ t, getL F e.1 = some t ∧ mk t.data = true ∧ hasKids mk t = false
  inside : ∀ e ∈ b, ∀ i ∈ e.2, ∃ x t, (i, x) ∈ pts ∧ getL F e.1 = some t ∧ C t.data x = true
  once : (b.map Prod.fst).Nodup

/-! ## Lemmas about paths -/

theorem getL_append (ts : List (GTree D)) (p q : Path) (t : GTree D)
    (hp : getL ts p = some t) (hq : q ≠ []) : getL ts (p ++ q) = getL t.kids q := by
  induction p generalizing ts with
  | nil => simp [getL] at hp
  | cons i p ih =>
    cases p with
    | nil =>
      cases q with
      | nil => exact absurd rfl hq
      | cons j q => simp only [getL] at hp; simp [getL, hp]
    | cons j p =>
      simp only [getL] at hp
      cases h : ts[i]? with
      | none => simp [h] at hp
      | some s =>
        simp only [h] at hp
        have := ih s.kids hp
        simp only [List.cons_append] at this ⊢
        simp [getL, h, this]

end Verif.Geom
