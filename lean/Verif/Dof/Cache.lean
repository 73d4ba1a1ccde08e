import Verif.Dof.HangEx

/-!
# C77: the hanging nodes kept by a dof handler, over a history of calls

Model of the state of `DofHandler.set_hanging_nodes`, `get_hanging_nodes`, `has_hanging_nodes` (fem.py 2472-2630) and of `DofHandler.constraints`, which
all linear systems with this dof handler share (solver.py 104-108, 287-292, 310).
-/

namespace Verif.Dof
open Verif.Fem Verif.Mesh
open Verif.Linsys (Feasible)

section model
variable {K F : Type} [Field K] [Field F]

/-- The mesh, its flags and the dofs at one time: dimension one or two, element, cells, the flags of the cells, the dofs.  Flags are strings. -/
structure Env (K : Type) where
  dim1 : Bool
  e : ET
  s : St K
  marks : String → CN → Bool
  D : DH

/-- The cells of the (sub)mesh for `subforest_flag` (fem.py 2494). -/
def Env.sub (E : Env K) : Option String → Bool × St K
  | none => (false, E.s)
  | some f => (true, { E.s with mkd := E.marks f })

/-- Exceptions. -/
inductive CErr where
  | key
  /-- raised inside `set_hanging_nodes` -/
  | search
  deriving DecidableEq, Repr

/-- `__hanging_nodes`, a dictionary of tables, and `constraints` (fem.py 1201-1205). -/
structure Cache (F : Type) where
  tabs : List (String × List (Linsys.Con F)) := []
  cons : List (Linsys.Con F) := []

/-- The key of a submesh in the dictionary (fem.py 2567-2570). -/
def key : Option String → String
  | none => "default"
  | some f => f

/-- `__hanging_nodes[k] = t` (fem.py 2568, 2570). -/
def Cache.store (C : Cache F) (k : String) (t : List (Linsys.Con F)) : List (String × List (Linsys.Con F)) := (k, t) :: C.tabs.filter (fun x => x.1 ≠ k)

/-- `set_hanging_nodes(flag)` (fem.py 2472-2570). -/
def setH (E : Env K) (flag : Option String) (C : Cache F) : Except CErr (Cache F) :=
  if E.dim1 then .ok C
  else if torn E.e then .ok C
  else match setHanging (E.sub flag).1 (E.sub flag).2 E.e E.D C.cons with
    | none => .error .search
    | some (H, cs) => .ok ⟨C.store (key flag) H, cs⟩

/-- `get_hanging_nodes(flag)` (fem.py 2573-2596); the table and the new state. -/
def getH (E : Env K) (flag : Option String) (C : Cache F) : Except CErr (List (Linsys.Con F) × Cache F) := do
  let C' ← if (C.tabs.lookup (key flag)).isNone then setH E flag C else .ok C
  match C'.tabs.lookup (key flag) with
  | none => .error .key
  | some t => .ok (t, C')

/-- `has_hanging_nodes(flag)` (fem.py 2599-2630). -/
def hasH (E : Env K) (flag : Option String) (C : Cache F) : Bool :=
  if E.dim1 then false
  else if C.tabs.isEmpty then false
  else match flag with
    | some f => (C.tabs.lookup f).isSome
    | none => true

/-- What the user does.  `mesh`: refinement, new flags, `clear_dofs`, `distribute_dofs`.  `sys`: a new `LinearSystem` calls `set_hanging_nodes` (solver.py
104-108).  `dir`: `add_dirichlet_constraint` appends to the constraints of the dof handler (solver.py 287-292). -/
inductive Ev (K F : Type) where
  | mesh (E : Env K)
  | set (flag : Option String)
  | get (flag : Option String)
  | sys (flag : Option String)
  | dir (ds : List (Linsys.Con F))

/-- One event. -/
def evStep : Env K × Cache F → Ev K F → Except CErr (Env K × Cache F)
  | (_, C), .mesh E => .ok (E, C)
  | (E, C), .set flag => (setH E flag C).map (E, ·)
  | (E, C), .get flag => (getH E flag C).map (E, ·.2)
  | (E, C), .sys flag => (setH E flag C).map (E, ·)
  | (E, C), .dir ds => .ok (E, { C with cons := C.cons ++ ds })

/-- A history of a new dof handler. -/
def history (E : Env K) (evs : List (Ev K F)) : Except CErr (Env K × Cache F) := evs.foldlM evStep (E, {})

end model

section spec
variable {K F : Type} [Field K] [Field F]

/-- The hanging nodes of the (sub)mesh as it is now: what `set_hanging_nodes` finds for a new dof handler (C62: exactly the continuous functions satisfy
these constraints); none for intervals and discontinuous elements. -/
def Env.now (E : Env K) (F : Type) [Field F] (flag : Option String) : Option (List (Linsys.Con F)) :=
  if E.dim1 then some [] else (setHanging (E.sub flag).1 (E.sub flag).2 E.e E.D []).map (·.1)

/-- The event is a call for the submesh `flag`. -/
def Ev.For (flag : Option String) : Ev K F → Prop
  | .set f => f = flag
  | .get f => f = flag
  | .sys f => f = flag
  | _ => False

/-- The event computes the table for the submesh `flag` anew. -/
def Ev.Sets (flag : Option String) : Ev K F → Prop
  | .set f => f = flag
  | .sys f => f = flag
  | _ => False

/-- The event changes the mesh, its flags, or the dofs. -/
def Ev.Mesh : Ev K F → Prop
  | .mesh _ => True
  | _ => False

/-- No event uses the flag `'default'`, which is the key of the whole mesh. -/
def Ev.Plain : Ev K F → Prop
  | .set f => f ≠ some "default"
  | .get f => f ≠ some "default"
  | .sys f => f ≠ some "default"
  | _ => True

end spec

section proofs
variable {K F : Type} [Field K] [Field F]

theorem key_inj {f g : Option String} (hf : f ≠ some "default") (hg : g ≠ some "default") (h : key f = key g) : f = g := by
  cases f <;> cases g <;> simp_all [key]

theorem lookup_store (C : Cache F) (k k' : String) (t : List (Linsys.Con F)) :
    (C.store k t).lookup k' = if k' = k then some t else C.tabs.lookup k' := by
  unfold Cache.store
  rw [List.lookup_cons]
  by_cases h : k' = k
  · simp [h]
  · simp only [h, if_false, beq_eq_false_iff_ne.2 h]
    induction C.tabs with
    | nil => rfl
    | cons x l ih =>
      by_cases hx : x.1 = k
      · rw [List.filter_cons_of_neg (by simp [hx]), ih, List.lookup_cons, show (k' == x.1) = false from by simp [hx, h]]
      · rw [List.filter_cons_of_pos (by simp [hx]), List.lookup_cons, List.lookup_cons, ih]

/-- The dictionary of hanging nodes does not depend on the constraints. -/
theorem setHanging_tab (sf : Bool) (s : St K) (e : ET) (D : DH) (old : List (Linsys.Con F)) :
    (setHanging sf s e D old).map (·.1) = (setHanging sf s e D []).map (·.1) := by
  unfold setHanging
  split
  · rfl
  · rw [Option.map_map, Option.map_map]; rfl

theorem setH_lookup {E : Env K} {flag : Option String} {C C' : Cache F} (h : setH E flag C = .ok C') (h1 : E.dim1 = false) (ht : torn E.e = false) :
    ∃ H, E.now F flag = some H ∧ ∀ k, C'.tabs.lookup k = if k = key flag then some H else C.tabs.lookup k := by
  unfold setH at h
  simp only [h1, ht, Bool.false_eq_true, if_false] at h
  have h2 := setHanging_tab (E.sub flag).1 (E.sub flag).2 E.e E.D C.cons
  cases hs : setHanging (E.sub flag).1 (E.sub flag).2 E.e E.D C.cons with
  | none => rw [hs] at h; cases h
  | some r =>
    rw [hs] at h h2
    cases h
    refine ⟨r.1, by simp [Env.now, h1, ← h2], fun k => lookup_store _ _ _ _⟩

/-- Every mesh of the history is two-dimensional, with a continuous element. -/
def Good (E : Env K) : Prop := E.dim1 = false ∧ torn E.e = false

theorem getH_lookup {E : Env K} {flag : Option String} {C : Cache F} {r : List (Linsys.Con F) × Cache F} (h : getH E flag C = .ok r) (hE : Good E) :
    (∃ H, (C.tabs.lookup (key flag) = none ∧ E.now F flag = some H ∨ C.tabs.lookup (key flag) = some H) ∧ r.1 = H ∧
      ∀ k, r.2.tabs.lookup k = if k = key flag then some H else C.tabs.lookup k) := by
  unfold getH at h
  cases hl : C.tabs.lookup (key flag) with
  | some t =>
    simp only [hl, Option.isNone_some, Bool.false_eq_true, if_false, bind, Except.bind] at h
    cases h
    refine ⟨t, .inr rfl, rfl, fun k => ?_⟩
    split
    · subst k; exact hl
    · rfl
  | none =>
    simp only [hl, Option.isNone_none, if_true, bind, Except.bind] at h
    cases hs : setH E flag C with
    | error e => rw [hs] at h; cases h
    | ok C' =>
      rw [hs] at h
      obtain ⟨H, h1, h2⟩ := setH_lookup hs hE.1 hE.2
      have h3 := h2 (key flag)
      rw [if_pos rfl] at h3
      simp only [h3] at h
      cases h
      exact ⟨H, .inl ⟨rfl, h1⟩, rfl, h2⟩

theorem runFrom_append (E : Env K) (C : Cache F) (a b : List (Ev K F)) :
    (a ++ b).foldlM evStep (E, C) = (do let p ← a.foldlM evStep (E, C); b.foldlM evStep p) := List.foldlM_append

/-- What the dictionary holds for a submesh, by induction on the history without changes of the mesh: an entry that is there is not changed unless recomputed. -/
theorem quiet {flag : Option String} (hf : flag ≠ some "default") : ∀ (evs : List (Ev K F)) (E : Env K) (C : Cache F) (p : Env K × Cache F), Good E →
    (∀ v ∈ evs, ¬ v.Mesh ∧ v.Plain) → evs.foldlM evStep (E, C) = .ok p →
    p.1 = E ∧ (((∀ v ∈ evs, ¬ v.For flag) ∧ p.2.tabs.lookup (key flag) = C.tabs.lookup (key flag)) ∨
      (∃ v ∈ evs, v.For flag) ∧ (((∃ v ∈ evs, v.Sets flag) ∨ C.tabs.lookup (key flag) = none) ∧ (∃ H, E.now F flag = some H ∧ p.2.tabs.lookup (key flag) = some H) ∨
        C.tabs.lookup (key flag) ≠ none ∧ (∀ v ∈ evs, ¬ v.Sets flag) ∧ p.2.tabs.lookup (key flag) = C.tabs.lookup (key flag))) := by
  intro evs
  induction evs with
  | nil =>
    intro E C p hE _ h
    cases h
    exact ⟨rfl, .inl ⟨by simp, rfl⟩⟩
  | cons v evs ih =>
    intro E C p hE hv h
    rw [List.foldlM_cons] at h
    obtain ⟨hm, hpl⟩ := hv v (by simp)
    have hrest := fun w hw => hv w (List.mem_cons_of_mem v hw)
    cases hs : evStep (E, C) v with
    | error e => rw [hs] at h; cases h
    | ok q =>
      rw [hs] at h
      obtain ⟨E', C'⟩ := q
      have hq : E' = E ∧ ((¬ v.For flag ∧ C'.tabs.lookup (key flag) = C.tabs.lookup (key flag)) ∨
          v.For flag ∧ ((v.Sets flag ∨ C.tabs.lookup (key flag) = none) ∧ (∃ H, E.now F flag = some H ∧ C'.tabs.lookup (key flag) = some H) ∨
            ¬ v.Sets flag ∧ C.tabs.lookup (key flag) ≠ none ∧ C'.tabs.lookup (key flag) = C.tabs.lookup (key flag))) := by
        have hset : ∀ g, g ≠ some "default" → (setH E g C).map (E, ·) = .ok (E', C') → E' = E ∧ ((g ≠ flag ∧ C'.tabs.lookup (key flag) = C.tabs.lookup (key flag)) ∨
            g = flag ∧ ∃ H, E.now F flag = some H ∧ C'.tabs.lookup (key flag) = some H) := by
          intro g hg hs
          cases h1 : setH E g C with
          | error e => rw [h1] at hs; cases hs
          | ok C1 =>
            rw [h1] at hs
            cases hs
            obtain ⟨H, h2, h3⟩ := setH_lookup h1 hE.1 hE.2
            refine ⟨rfl, ?_⟩
            by_cases hgf : g = flag
            · subst hgf
              exact .inr ⟨rfl, H, h2, by rw [h3, if_pos rfl]⟩
            · refine .inl ⟨hgf, ?_⟩
              rw [h3, if_neg fun q => hgf (key_inj hf hg q).symm]
        cases v with
        | mesh E1 => exact absurd trivial hm
        | dir ds => cases hs; exact ⟨rfl, .inl ⟨id, rfl⟩⟩
        | set g =>
          obtain ⟨h1, h2⟩ := hset g hpl hs
          refine ⟨h1, ?_⟩
          rcases h2 with ⟨h2, h3⟩ | ⟨h2, h3⟩
          · exact .inl ⟨h2, h3⟩
          · exact .inr ⟨h2, .inl ⟨.inl h2, h3⟩⟩
        | sys g =>
          obtain ⟨h1, h2⟩ := hset g hpl hs
          refine ⟨h1, ?_⟩
          rcases h2 with ⟨h2, h3⟩ | ⟨h2, h3⟩
          · exact .inl ⟨h2, h3⟩
          · exact .inr ⟨h2, .inl ⟨.inl h2, h3⟩⟩
        | get g =>
          change (getH E g C).map _ = _ at hs
          cases h1 : getH E g C with
          | error e => rw [h1] at hs; cases hs
          | ok r =>
            rw [h1] at hs
            cases hs
            obtain ⟨H, h2, h3, h4⟩ := getH_lookup h1 hE
            refine ⟨rfl, ?_⟩
            by_cases hgf : g = flag
            · subst hgf
              refine .inr ⟨rfl, ?_⟩
              rcases h2 with ⟨h2, h5⟩ | h2
              · exact .inl ⟨.inr h2, H, h5, by rw [h4, if_pos rfl]⟩
              · exact .inr ⟨id, by rw [h2]; simp, by rw [h4, if_pos rfl, h2]⟩
            · exact .inl ⟨hgf, by rw [h4, if_neg fun q => hgf (key_inj hf hpl q).symm]⟩
      obtain ⟨rfl, hq⟩ := hq
      obtain ⟨h1, h2⟩ := ih E' C' p hE hrest h
      refine ⟨h1, ?_⟩
      have hex : ∀ Q : Ev K F → Prop, (∃ w ∈ v :: evs, Q w) ↔ Q v ∨ ∃ w ∈ evs, Q w := fun Q => by simp
      have hall : ∀ Q : Ev K F → Prop, (∀ w ∈ v :: evs, Q w) ↔ Q v ∧ ∀ w ∈ evs, Q w := fun Q => by simp
      rw [hall (fun w => ¬ w.For flag), hex (fun w => w.For flag), hex (fun w => w.Sets flag), hall (fun w => ¬ w.Sets flag)]
      have hsub : ∀ w : Ev K F, w.Sets flag → w.For flag := fun w => by cases w <;> simp [Ev.Sets, Ev.For]
      have hno : (∀ w ∈ evs, ¬ w.For flag) → ∀ w ∈ evs, ¬ w.Sets flag := fun h w hw q => h w hw (hsub w q)
      rcases hq with ⟨q1, q2⟩ | ⟨q1, ⟨q2, H, q3, q4⟩ | ⟨q2, q3, q4⟩⟩ <;> rcases h2 with ⟨h2, h3⟩ | ⟨h2, ⟨h3, H', h4, h5⟩ | ⟨h3, h4, h5⟩⟩
      · exact .inl ⟨⟨q1, h2⟩, h3.trans q2⟩
      · refine .inr ⟨.inr h2, .inl ⟨?_, H', h4, h5⟩⟩
        rcases h3 with h3 | h3
        · exact .inl (.inr h3)
        · exact .inr (q2 ▸ h3)
      · exact .inr ⟨.inr h2, .inr ⟨q2 ▸ h3, ⟨fun q => q1 (hsub v q), h4⟩, h5.trans q2⟩⟩
      · refine .inr ⟨.inl q1, .inl ⟨?_, H, q3, h3.trans q4⟩⟩
        rcases q2 with q2 | q2
        · exact .inl (.inl q2)
        · exact .inr q2
      · refine .inr ⟨.inl q1, .inl ⟨?_, H', h4, h5⟩⟩
        rcases q2 with q2 | q2
        · exact .inl (.inl q2)
        · exact .inr q2
      · refine .inr ⟨.inl q1, .inl ⟨?_, H, q3, h5.trans q4⟩⟩
        rcases q2 with q2 | q2
        · exact .inl (.inl q2)
        · exact .inr q2
      · exact .inr ⟨.inl q1, .inr ⟨q3, ⟨q2, hno h2⟩, h3.trans q4⟩⟩
      · refine .inr ⟨.inl q1, .inl ⟨?_, H', h4, h5⟩⟩
        rcases h3 with h3 | h3
        · exact .inl (.inr h3)
        · exact absurd (q4 ▸ h3) q3
      · exact .inr ⟨.inl q1, .inr ⟨q3, ⟨q2, h4⟩, h5.trans q4⟩⟩

/-- A submesh that was never asked for is not in the dictionary. -/
theorem untouched {flag : Option String} (hf : flag ≠ some "default") : ∀ (evs : List (Ev K F)) (E : Env K) (C : Cache F) (p : Env K × Cache F), Good E →
    (∀ E', Ev.mesh E' ∈ evs → Good E') → (∀ v ∈ evs, v.Plain ∧ ¬ v.For flag) → evs.foldlM evStep (E, C) = .ok p →
    Good p.1 ∧ p.2.tabs.lookup (key flag) = C.tabs.lookup (key flag) := by
  intro evs
  induction evs with
  | nil =>
    intro E C p hE _ _ h
    cases h
    exact ⟨hE, rfl⟩
  | cons v evs ih =>
    intro E C p hE hg hv h
    have hrest := fun w hw => hv w (List.mem_cons_of_mem v hw)
    have hgr := fun E' hE' => hg E' (List.mem_cons_of_mem v hE')
    by_cases hm : v.Mesh
    · cases v with
      | mesh E1 =>
        rw [List.foldlM_cons] at h
        exact ih E1 C p (hg E1 (by simp)) hgr hrest h
      | _ => exact hm.elim
    · rw [List.foldlM_cons] at h
      cases hs : evStep (E, C) v with
      | error e => rw [hs] at h; cases h
      | ok q =>
        rw [hs] at h
        obtain ⟨h1, h2⟩ := quiet hf [v] E C q hE (by simpa using ⟨hm, (hv v (by simp)).1⟩) (by rw [List.foldlM_cons, hs]; rfl)
        obtain ⟨E', C'⟩ := q
        change E' = E at h1
        subst h1
        have h3 := ih E' C' p hE hgr hrest h
        rcases h2 with ⟨_, h2⟩ | ⟨⟨w, hw, hw2⟩, _⟩
        · exact ⟨h3.1, h3.2.trans h2⟩
        · rw [List.mem_singleton] at hw
          subst hw
          exact absurd hw2 (hv w (by simp)).2

/-- Meshes stay two-dimensional, with a continuous element. -/
theorem good_end : ∀ (evs : List (Ev K F)) (E : Env K) (C : Cache F) (p : Env K × Cache F), Good E →
    (∀ E', Ev.mesh E' ∈ evs → Good E') → evs.foldlM evStep (E, C) = .ok p → Good p.1 := by
  intro evs
  induction evs with
  | nil => intro E C p hE _ h; cases h; exact hE
  | cons v evs ih =>
    intro E C p hE hg h
    rw [List.foldlM_cons] at h
    have hgr := fun E' hE' => hg E' (List.mem_cons_of_mem v hE')
    cases hs : evStep (E, C) v with
    | error e => rw [hs] at h; cases h
    | ok q =>
      rw [hs] at h
      refine ih q.1 q.2 p ?_ hgr h
      cases v with
      | mesh E1 => cases hs; exact hg E1 (by simp)
      | dir ds => cases hs; exact hE
      | set g => change (setH E g C).map _ = _ at hs; cases h1 : setH E g C <;> rw [h1] at hs <;> cases hs; exact hE
      | sys g => change (setH E g C).map _ = _ at hs; cases h1 : setH E g C <;> rw [h1] at hs <;> cases hs; exact hE
      | get g => change (getH E g C).map _ = _ at hs; cases h1 : getH E g C <;> rw [h1] at hs <;> cases hs; exact hE

/-- **C77** (tables).  After any history of a dof handler for a continuous element on two-dimensional meshes: `get_hanging_nodes(flag)` returns the hanging nodes of the
(sub)mesh as it is now, provided that, since the last change of the mesh, a linear system was made or `set_hanging_nodes` called for this flag, or
that before this change nobody had asked for it.  (Missing: after a change of the mesh the old table is returned; intervals and discontinuous elements; the flag 'default'.) -/
theorem C77_get_partial {E0 E : Env K} {C : Cache F} {before since : List (Ev K F)} {flag : Option String} (hE : Good E0)
    (hg : ∀ E', Ev.mesh E' ∈ before → Good E') (hp : ∀ v ∈ before ++ since, v.Plain) (hf : flag ≠ some "default")
    (hs : ∀ v ∈ since, ¬ v.Mesh) (hnew : (∃ v ∈ since, v.Sets flag) ∨ ∀ v ∈ before, ¬ v.For flag)
    (h : history E0 (before ++ since) = .ok (E, C)) :
    (∀ t C', getH E flag C = .ok (t, C') → E.now F flag = some t) ∧ (E.now F flag ≠ none → ∃ t C', getH E flag C = .ok (t, C')) := by
  unfold history at h
  rw [runFrom_append] at h
  cases h1 : before.foldlM evStep (E0, ({} : Cache F)) with
  | error e => rw [h1] at h; cases h
  | ok q =>
    rw [h1] at h
    obtain ⟨E1, C1⟩ := q
    change since.foldlM evStep (E1, C1) = .ok (E, C) at h
    have hE1 : Good E1 := good_end before E0 {} _ hE hg h1
    obtain ⟨h2, h3⟩ := quiet hf since E1 C1 _ hE1 (fun v hv => ⟨hs v hv, hp v (by simp [hv])⟩) h
    change E = E1 at h2
    subst h2
    change _ ∧ C.tabs.lookup (key flag) = _ ∨ _ at h3
    have hcase : C.tabs.lookup (key flag) = none ∨ ∃ H, E.now F flag = some H ∧ C.tabs.lookup (key flag) = some H := by
      rcases h3 with ⟨h3, h4⟩ | ⟨h3, ⟨h4, h5⟩ | ⟨h4, h5, h6⟩⟩
      · rcases hnew with ⟨v, hv, hv2⟩ | hn
        · exact absurd (show v.For flag by revert hv2; cases v <;> simp [Ev.Sets, Ev.For]) (h3 v hv)
        · left
          rw [h4]
          exact (untouched hf before E0 {} _ hE hg (fun v hv => ⟨hp v (by simp [hv]), hn v hv⟩) h1).2
      · exact .inr h5
      · rcases hnew with ⟨v, hv, hv2⟩ | hn
        · exact absurd hv2 (h5 v hv)
        · exact absurd (untouched hf before E0 {} _ hE hg (fun v hv => ⟨hp v (by simp [hv]), hn v hv⟩) h1).2 h4
    refine ⟨fun t C' ht => ?_, fun hn => ?_⟩
    · obtain ⟨H, h5, rfl, _⟩ := getH_lookup ht hE1
      rcases hcase with hc | ⟨H', hc1, hc2⟩
      · rcases h5 with ⟨_, h5⟩ | h5
        · exact h5
        · rw [hc] at h5; cases h5
      · rcases h5 with ⟨h5, _⟩ | h5
        · rw [hc2] at h5; cases h5
        · rw [hc2] at h5; cases h5; exact hc1
    · rcases hcase with hc | ⟨H, _, hc⟩
      · obtain ⟨H, hH⟩ := Option.ne_none_iff_exists'.1 hn
        have hnow := hH
        simp only [Env.now, hE1.1, Bool.false_eq_true, if_false] at hnow
        rw [← setHanging_tab _ _ _ _ C.cons, Option.map_eq_some_iff] at hnow
        obtain ⟨r, hr, _⟩ := hnow
        have hset : setH E flag C = .ok ⟨C.store (key flag) r.1, r.2⟩ := by
          unfold setH
          simp [hE1.1, hE1.2, hr]
        refine ⟨r.1, ⟨C.store (key flag) r.1, r.2⟩, ?_⟩
        unfold getH
        simp only [hc, Option.isNone_none, if_true, hset, bind, Except.bind]
        rw [lookup_store, if_pos rfl]
      · refine ⟨H, C, ?_⟩
        unfold getH
        simp [hc, bind, Except.bind]

theorem dofs_cadd : ∀ (l C : List (Linsys.Con F)) (d : Nat), d ∈ (l.foldl cadd C).map (·.dof) ↔ d ∈ C.map (·.dof) ∨ d ∈ l.map (·.dof) := by
  intro l
  induction l with
  | nil => simp
  | cons c l ih =>
    intro C d
    rw [List.foldl_cons, ih, List.map_cons, List.mem_cons]
    unfold cadd
    split
    · rename_i h
      constructor
      · rintro (h1 | h1)
        · exact .inl h1
        · exact .inr (.inr h1)
      · rintro (h1 | rfl | h1)
        · exact .inl h1
        · exact .inl h
        · exact .inr h1
    · rw [List.map_append, List.mem_append, List.map_singleton, List.mem_singleton, or_assoc]

theorem cadd_again : ∀ (l C : List (Linsys.Con F)), (∀ d ∈ l.map (·.dof), d ∈ C.map (·.dof)) → l.foldl cadd C = C := by
  intro l
  induction l with
  | nil => simp
  | cons c l ih =>
    intro C h
    rw [List.foldl_cons]
    have : cadd C c = C := by
      unfold cadd
      rw [if_pos (h c.dof (by simp))]
    rw [this]
    exact ih C fun d hd => h d (by simp [hd])

/-- Asking again on the same mesh adds no constraints. -/
theorem setHanging_again {sf : Bool} {s : St K} {e : ET} {D : DH} {H C : List (Linsys.Con F)} (he : torn e = false) (h : setHanging sf s e D [] = some (H, C)) :
    setHanging sf s e D C = some (H, C) := by
  unfold setHanging at *
  rw [he] at *
  simp only [Bool.false_eq_true, if_false, Option.map_eq_some_iff, Prod.mk.injEq] at *
  obtain ⟨l, hl, h1, h2⟩ := h
  refine ⟨l, hl, h1, ?_⟩
  rw [cadd_again]
  · intro d hd
    rw [← h2, dofs_cadd]
    exact .inr hd

/-- One submesh, one mesh: the constraints after any number of calls. -/
theorem quiet_cons {flag : Option String} {E : Env K} (hE : Good E) {H C0 : List (Linsys.Con F)}
    (h0 : setHanging (E.sub flag).1 (E.sub flag).2 E.e E.D [] = some (H, C0)) : ∀ (evs : List (Ev K F)) (C : Cache F), (∀ v ∈ evs, v.For flag) →
    (C.cons = [] ∧ C.tabs = [] ∨ C.cons = C0 ∧ C.tabs = [(key flag, H)]) →
    ∃ C', evs.foldlM evStep (E, C) = .ok (E, C') ∧ (evs = [] ∧ C' = C ∨ C'.cons = C0 ∧ C'.tabs = [(key flag, H)]) := by
  intro evs
  induction evs with
  | nil => exact fun C _ h => ⟨C, rfl, .inl ⟨rfl, rfl⟩⟩
  | cons v evs ih =>
    intro C hv hC
    have hset : setH E flag C = .ok ⟨[(key flag, H)], C0⟩ := by
      have hs : setHanging (E.sub flag).1 (E.sub flag).2 E.e E.D C.cons = some (H, C0) := by
        rcases hC with ⟨h1, _⟩ | ⟨h1, _⟩
        · rw [h1]; exact h0
        · rw [h1]; exact setHanging_again hE.2 h0
      unfold setH
      simp only [hE.1, hE.2, Bool.false_eq_true, if_false, hs]
      congr 2
      unfold Cache.store
      rcases hC with ⟨_, h1⟩ | ⟨_, h1⟩ <;> simp [h1]
    have hstep : evStep (E, C) v = .ok (E, ⟨[(key flag, H)], C0⟩) := by
      have hv1 := hv v (by simp)
      cases v with
      | mesh _ => exact hv1.elim
      | dir _ => exact hv1.elim
      | set g => cases hv1; change (setH E flag C).map _ = _; rw [hset]; rfl
      | sys g => cases hv1; change (setH E flag C).map _ = _; rw [hset]; rfl
      | get g =>
        cases hv1
        change (getH E flag C).map _ = _
        unfold getH
        rcases hC with ⟨_, h1⟩ | ⟨h2, h1⟩
        · simp only [h1, List.lookup_nil, Option.isNone_none, if_true, hset, bind, Except.bind]
          rw [List.lookup_cons, beq_self_eq_true]
          rfl
        · obtain ⟨t, c⟩ := C
          simp only at h1 h2
          subst h1 h2
          simp only [List.lookup_cons, beq_self_eq_true, Option.isNone_some, Bool.false_eq_true, if_false, bind, Except.bind]
          rfl
    rw [List.foldlM_cons, hstep]
    obtain ⟨C', h1, h2⟩ := ih ⟨[(key flag, H)], C0⟩ (fun w hw => hv w (by simp [hw])) (.inr ⟨rfl, rfl⟩)
    refine ⟨C', h1, .inr ?_⟩
    rcases h2 with ⟨rfl, rfl⟩ | h2
    · exact ⟨rfl, rfl⟩
    · exact h2

end proofs

section systems
variable {K F : Type} [Field K] [Field F] [LinearOrder F] [IsStrictOrderedRing F] {B : Base K}

/-- **C77** (linear systems).  The constraints a linear system finds, if the dof handler was new, all systems and calls were for the same submesh, the mesh
does not change, and boundary values are added to one system, the last: the hanging nodes of this submesh, then the boundary values.  (Missing: everything else, see the violations.) -/
theorem C77_system_partial {E : Env K} (hB : B.WF) (hP : Plain B) (h1 : E.dim1 = false) (ht : torn E.e = false) {flag : Option String}
    (hR : Ready B E.e (E.sub flag).1 (E.sub flag).2 E.D) {H : List (Linsys.Con F)} (hnow : E.now F flag = some H) (calls : List (Ev K F))
    (hc : ∀ v ∈ calls, v.For flag) (hne : calls ≠ []) (ds : List (Linsys.Con F)) :
    ∃ C, history E (calls ++ [.dir ds]) = .ok (E, C) ∧ C.cons = H ++ ds ∧ ∀ U, Feasible C.cons U ↔ Feasible H U ∧ Feasible ds U := by
  have hE : Good E := ⟨h1, ht⟩
  simp only [Env.now, h1, Bool.false_eq_true, if_false, Option.map_eq_some_iff] at hnow
  obtain ⟨⟨H', C0⟩, h0, rfl⟩ := hnow
  have hHC : H' = C0 := (setHanging_spec hB hP ht hR h0).1
  obtain ⟨C, h2, h3⟩ := quiet_cons hE h0 calls {} hc (.inl ⟨rfl, rfl⟩)
  rcases h3 with ⟨h3, _⟩ | ⟨h3, _⟩
  · exact absurd h3 hne
  · refine ⟨{ C with cons := C.cons ++ ds }, ?_, by simp [h3, hHC], fun U => ?_⟩
    · unfold history
      rw [runFrom_append]
      erw [h2]
      rfl
    · simp only [Feasible, List.mem_append, h3, ← hHC]
      constructor
      · exact fun h => ⟨fun c hc => h c (.inl hc), fun c hc => h c (.inr hc)⟩
      · rintro ⟨g1, g2⟩ c (hc | hc)
        · exact g1 c hc
        · exact g2 c hc

end systems

/-! ### Examples, and what fails -/

/-- Two cells, the second refined. -/
def envA : Env ℚ := ⟨false, .Q1, wit1, fun _ _ => true, witD1⟩
/-- Then the first is refined as well, and the dofs are distributed anew. -/
def envB : Env ℚ := ⟨false, .Q1, wit2, fun _ _ => true, witD3⟩

theorem nowA : envA.now ℚ none = some [⟨8, [(2, 1 / 2), (1, 1 / 2)], 0⟩] := by decide +kernel
theorem nowB : envB.now ℚ none = some [] := by decide +kernel

theorem setH_eq {K F : Type} [Field K] [Field F] {E : Env K} {flag : Option String} {C : Cache F} {H cs : List (Linsys.Con F)} (h1 : E.dim1 = false) (ht : torn E.e = false)
    (h : setHanging (E.sub flag).1 (E.sub flag).2 E.e E.D C.cons = some (H, cs)) : setH E flag C = .ok ⟨C.store (key flag) H, cs⟩ := by
  unfold setH
  simp [h1, ht, h]

/-- The constraint of the example. -/
def conA : Linsys.Con ℚ := ⟨8, [(2, 1 / 2), (1, 1 / 2)], 0⟩

theorem getH_first {K F : Type} [Field K] [Field F] {E : Env K} {flag : Option String} {C C' : Cache F} {t : List (Linsys.Con F)} (h0 : C.tabs.lookup (key flag) = none)
    (h : setH E flag C = .ok C') (h1 : C'.tabs.lookup (key flag) = some t) : getH E flag C = .ok (t, C') := by
  simp [getH, h0, h, h1, bind, Except.bind]

theorem getH_again {K F : Type} [Field K] [Field F] {E : Env K} {flag : Option String} {C : Cache F} {t : List (Linsys.Con F)} (h : C.tabs.lookup (key flag) = some t) :
    getH E flag C = .ok (t, C) := by
  simp [getH, h, bind, Except.bind]

theorem setA_new : setH envA none ({} : Cache ℚ) = .ok ⟨[("default", [conA])], [conA]⟩ := setH_eq rfl rfl (by decide +kernel)

/-- Non-vacuity of `C77_get_partial`: the mesh is refined between two linear systems. -/
example : ∃ C, history (F := ℚ) envA [.sys none, .mesh envB, .sys none] = .ok (envB, C) ∧ Good envA ∧ Good envB ∧
    (∀ t C', getH envB none C = .ok (t, C') → t = []) := by
  have h : ∃ C, history (F := ℚ) envA [.sys none, .mesh envB, .sys none] = .ok (envB, C) := by
    have hB : setH envB none (⟨[("default", [conA])], [conA]⟩ : Cache ℚ) = .ok ⟨_, [conA]⟩ := setH_eq (H := []) rfl rfl (by decide +kernel)
    exact ⟨_, by simp only [history, List.foldlM_cons, List.foldlM_nil, evStep, setA_new, hB, Except.map, bind, Except.bind]; rfl⟩
  obtain ⟨C, h⟩ := h
  refine ⟨C, h, ⟨rfl, rfl⟩, ⟨rfl, rfl⟩, fun t C' ht => ?_⟩
  have := (C77_get_partial (before := [.sys none, .mesh envB]) (since := [.sys none]) (flag := none) ⟨rfl, rfl⟩ (by simp; exact ⟨rfl, rfl⟩)
    (by simp [Ev.Plain]) (by simp) (by simp [Ev.Mesh]) (.inl ⟨.sys none, by simp, rfl⟩) h).1 t C' ht
  rw [nowB] at this
  exact (Option.some.inj this).symm

/-- Non-vacuity of `C77_system_partial`. -/
example : ∃ C, history (F := ℚ) envA ([.get none, .sys none] ++ [.dir [⟨0, [], 5⟩]]) = .ok (envA, C) ∧
    C.cons = [⟨8, [(2, 1 / 2), (1, 1 / 2)], 0⟩, ⟨0, [], 5⟩] := by
  obtain ⟨C, h1, h2, _⟩ := C77_system_partial (F := ℚ) (E := envA) (flag := none) twoB_wf twoB_plain rfl rfl wit1_ready nowA [.get none, .sys none]
    (by simp [Ev.For]) (by simp) [⟨0, [], 5⟩]
  exact ⟨C, h1, h2⟩

/-- **C77 does not hold after a change of the mesh**: `get_hanging_nodes` returns the old table although no node hangs any more. -/
theorem C77_stale_violated : ∃ C t C', history (F := ℚ) envA [.get none, .mesh envB] = .ok (envB, C) ∧ Ready twoB .Q1 false envB.s envB.D ∧
    getH envB none C = .ok (t, C') ∧ t.length = 1 ∧ envB.now ℚ none = some [] :=
  ⟨⟨[("default", [conA])], [conA]⟩, [conA], _, by
    simp only [history, List.foldlM_cons, List.foldlM_nil, evStep, getH_first (t := [conA]) rfl setA_new rfl, Except.map, bind, Except.bind]; rfl,
    wit2_ready, getH_again rfl, rfl, nowB⟩

/-- **C77 does not hold for intervals and discontinuous elements**: `get_hanging_nodes` raises a `KeyError`, always. -/
theorem C77_key_violated {K F : Type} [Field K] [Field F] (E : Env K) (evs : List (Ev K F)) (hE : E.dim1 = true ∨ torn E.e = true)
    (hm : ∀ v ∈ evs, ¬ v.Mesh) (flag : Option String) : ∀ E' C, history E evs = .ok (E', C) → E' = E ∧ getH E flag C = .error .key := by
  have key : ∀ (evs : List (Ev K F)) (C : Cache F), (∀ v ∈ evs, ¬ v.Mesh) → C.tabs = [] → ∀ E' C', evs.foldlM evStep (E, C) = .ok (E', C') → E' = E ∧ C'.tabs = [] := by
    intro evs
    induction evs with
    | nil => intro C _ hC E' C' h; cases h; exact ⟨rfl, hC⟩
    | cons v evs ih =>
      intro C hm hC E' C' h
      rw [List.foldlM_cons] at h
      have hset : ∀ g, setH E g C = .ok C := fun g => by
        unfold setH
        rcases hE with h | h
        · simp [h]
        · simp [h]
      cases v with
      | mesh _ => exact absurd trivial (hm _ List.mem_cons_self)
      | dir ds => exact ih { C with cons := C.cons ++ ds } (fun w hw => hm w (by simp [hw])) hC E' C' h
      | set g =>
        simp only [evStep, hset, Except.map, bind, Except.bind] at h
        exact ih C (fun w hw => hm w (by simp [hw])) hC E' C' h
      | sys g =>
        simp only [evStep, hset, Except.map, bind, Except.bind] at h
        exact ih C (fun w hw => hm w (by simp [hw])) hC E' C' h
      | get g =>
        simp [evStep, getH, hset, hC, Except.map, bind, Except.bind] at h
  intro E' C h
  obtain ⟨h1, h2⟩ := key evs {} hm rfl E' C h
  refine ⟨h1, ?_⟩
  have hset : setH E flag C = .ok C := by
    unfold setH
    rcases hE with h | h
    · simp [h]
    · simp [h]
  simp [getH, hset, h2, bind, Except.bind]

/-- **C77 does not hold for two systems with the same dof handler**: the boundary values of the first (here 5 at dof 0) are imposed on the second. -/
theorem C77_boundary_violated : ∃ C, history (F := ℚ) envA [.sys none, .dir [⟨0, [], 5⟩], .sys none, .dir [⟨0, [], 7⟩]] = .ok (envA, C) ∧
    ∀ U, ¬ Feasible C.cons U := by
  have hA : setH envA none (⟨[("default", [conA])], [conA, ⟨0, [], 5⟩]⟩ : Cache ℚ) = .ok ⟨_, [conA, ⟨0, [], 5⟩]⟩ := setH_eq (H := [conA]) rfl rfl (by decide +kernel)
  refine ⟨⟨_, [conA, ⟨0, [], 5⟩, ⟨0, [], 7⟩]⟩, by
    simp only [history, List.foldlM_cons, List.foldlM_nil, evStep, setA_new, List.cons_append, List.nil_append, hA, Except.map, bind, Except.bind]; rfl, fun U hU => ?_⟩
  have h1 := hU ⟨0, [], 5⟩ (by simp)
  have h2 := hU ⟨0, [], 7⟩ (by simp)
  simp only [List.map_nil, List.sum_nil, zero_add] at h1 h2
  rw [h1] at h2
  norm_num at h2

/-- The same mesh with all flags on the initial cells. -/
def envC : Env ℚ := ⟨false, .Q1, wit1, fun _ c => decide (c.2 = []), witD1⟩

/-- **C77 does not hold for different submeshes**: a system on the coarse mesh (flag on the two initial cells: nothing hangs) is given the hanging nodes of the whole mesh. -/
theorem C77_submesh_violated : ∃ (E : Env ℚ) (C : Cache ℚ), E.s = wit1 ∧ E.D = witD1 ∧ E.marks "coarse" = (fun c => decide (c.2 = [])) ∧
    E.now ℚ (some "coarse") = some [] ∧ history E [.sys none, .sys (some "coarse")] = .ok (E, C) ∧ C.cons ≠ [] := by
  have h1 : setH envC none ({} : Cache ℚ) = .ok ⟨[("default", [conA])], [conA]⟩ := setH_eq rfl rfl (by decide +kernel)
  have h2 : setH envC (some "coarse") (⟨[("default", [conA])], [conA]⟩ : Cache ℚ) = .ok ⟨_, [conA]⟩ := setH_eq (H := []) rfl rfl (by decide +kernel)
  exact ⟨envC, ⟨_, [conA]⟩, rfl, rfl, rfl, by decide +kernel, by
    simp only [history, List.foldlM_cons, List.foldlM_nil, evStep, h1, h2, Except.map, bind, Except.bind]; rfl, by simp⟩

/-- **C77 does not hold for the flag 'default'**, which shares its key with the whole mesh. -/
theorem C77_default_violated : ∃ (E : Env ℚ) (C : Cache ℚ) (t : _) (C' : _), E.s = wit1 ∧ E.D = witD1 ∧ E.now ℚ none = some [⟨8, [(2, 1 / 2), (1, 1 / 2)], 0⟩] ∧
    history E [.sys (some "default")] = .ok (E, C) ∧ getH E none C = .ok (t, C') ∧ t = [] := by
  have h1 : setH envC (some "default") ({} : Cache ℚ) = .ok ⟨[("default", [])], []⟩ := setH_eq rfl rfl (by decide +kernel)
  exact ⟨envC, ⟨[("default", [])], []⟩, [], _, rfl, rfl, by decide +kernel, by
    simp only [history, List.foldlM_cons, List.foldlM_nil, evStep, h1, Except.map, bind, Except.bind]; rfl, getH_again rfl, rfl⟩

/-- **`has_hanging_nodes` is wrong in both directions**: `False` on a mesh with a hanging node before the first call, `True` on a mesh without any after it. -/
theorem C77_has_violated : ∃ C C' : Cache ℚ, history envA [] = .ok (envA, C) ∧ hasH envA none C = false ∧ envA.now ℚ none ≠ some [] ∧
    history envB [.set none] = .ok (envB, C') ∧ hasH envB none C' = true ∧ envB.now ℚ none = some [] :=
  ⟨{}, ⟨[("default", [])], []⟩, rfl, by decide +kernel, by decide +kernel, by
    have h1 : setH envB none ({} : Cache ℚ) = .ok ⟨[("default", [])], []⟩ := setH_eq rfl rfl (by decide +kernel)
    simp only [history, List.foldlM_cons, List.foldlM_nil, evStep, h1, Except.map, bind, Except.bind]; rfl, by decide +kernel, by decide +kernel⟩

/-- **C77** (`has_hanging_nodes`), what holds: never `True` for intervals, and `True` after `set_hanging_nodes` for this flag on a two-dimensional mesh with hanging nodes. -/
theorem C77_has_partial {K F : Type} [Field K] [Field F] (E : Env K) (flag : Option String) (C : Cache F) :
    (E.dim1 = true → hasH E flag C = false) ∧
    ∀ C', setH E flag C = .ok C' → E.now F flag ≠ some [] → torn E.e = false → hasH E flag C' = true := by
  refine ⟨fun h => by simp [hasH, h], fun C' h hn ht => ?_⟩
  have h1 : E.dim1 = false := by
    by_contra hc
    exact hn (by simp [Env.now, Bool.eq_true_of_not_eq_false hc])
  obtain ⟨H, h2, h3⟩ := setH_lookup h h1 ht
  have h4 := h3 (key flag)
  rw [if_pos rfl] at h4
  have h5 : C'.tabs.isEmpty = false := by
    cases hc : C'.tabs with
    | nil => rw [hc] at h4; cases h4
    | cons => rfl
  unfold hasH
  simp only [h1, h5, Bool.false_eq_true, if_false]
  cases flag with
  | none => rfl
  | some f => show (C'.tabs.lookup f).isSome = true; rw [show f = key (some f) from rfl, h4]; rfl

end Verif.Dof
