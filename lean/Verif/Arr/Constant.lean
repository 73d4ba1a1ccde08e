import Verif.Arr.Props

/-! # Constant functions and the constructor of `Map`: C95

`Constant` (function.py 2374-2462) is the kernel of every form for which the user gives a
number or nothing (assembler.py 1066-1090). -/

namespace Verif.Arr

variable {K S : Type}

/-- What may be passed as `data`. -/
inductive Data (S : Type) where
  | number (c : S)
  | array (a : Nd S)
  | other

/-- `Constant.set_data(data)` (function.py 2400-2422). -/
def setData : Data S → Except Err (List S)
  | .number c => .ok [c]
  | .array ⟨[_], l⟩ => .ok l
  | .array _ => .error .assertion
  | .other => .error .assertion

/-- `Constant(data, n_variables)` (function.py 2378-2397): `Map.__init__` with
`symmetric=True` asserts that there are at most two variables (function.py 147-150); then
the data are stored.  The result is the list of values, one per sample. -/
def mkConstant (data : Data S) (nVars : Nat) : Except Err (List S) :=
  if nVars ≤ 2 then setData data else .error .assertion

/-- What `eval` is called with: one argument, a tuple of arguments.  A tuple of numbers is
also one argument. -/
inductive CallArg (K : Type) where
  | one (x : Inp K)
  | several (xs : List (Inp K))

/-- `Map.parse_x(x)` with the distinction of one and several variables (function.py
236-258). -/
def parseCall (dim : Option Nat) (nVars : Nat) : CallArg K → Except Err (List (Out K))
  | .one x => if nVars ≤ 1 then parseX dim [x] else .error .assertion
  | .several xs => if 1 < nVars ∧ xs.length = nVars then parseX dim xs else .error .assertion

/-- `Constant.eval(x)` (function.py 2439-2462): `np.ones((n_points, n_sample)) * data` or
`np.outer(np.ones(n_points), data)`; the rows of the result.  `Constant` passes no dimension
to `Map`. -/
def constEval (vals : List S) (nVars : Nat) (x : CallArg K) : Except Err (List (List S)) := do
  let xx ← parseCall none nVars x
  match xx with
  | [] => .error .assertion
  | y :: _ => do
    let n ← rows y
    .ok (List.replicate n vals)

/-! ## Constant functions -/

/-- A number or a one-dimensional array gives a function with one value per sample. -/
theorem C95_construct (nVars : Nat) (h : nVars ≤ 2) (c : S) (l : List S) :
    mkConstant (.number c) nVars = .ok [c] ∧
    mkConstant (.array ⟨[l.length], l⟩) nVars = .ok l := by
  simp [mkConstant, setData, h]

/-- Everything else is rejected. -/
theorem C95_reject (nVars : Nat) (data : Data S) (vals : List S)
    (h : mkConstant data nVars = .ok vals) :
    (∃ c, data = .number c ∧ vals = [c]) ∨ ∃ n, data = .array ⟨[n], vals⟩ := by
  unfold mkConstant at h
  split at h
  · rcases data with c | ⟨⟨⟩ | ⟨n, ⟨⟩ | ⟨m, s⟩⟩, l⟩ | _ <;> simp [setData] at h
    · exact .inl ⟨c, rfl, h.symm⟩
    · subst h; exact .inr ⟨n, rfl⟩
  · cases h

/-- One variable: for points in any documented format (see C74 for the exceptions) the
value at every point, in every sample, is the constant of this sample. -/
theorem C95_eval_partial (vals : List S) {x : Inp K} {d : Nat} {ps : List (List K)}
    (hm : Means none x d ps) (hd : d = 1 ∨ d = 2) (hg : Good x) :
    constEval vals 1 (.one x) = .ok (List.replicate ps.length vals) := by
  have h := C74_parse_partial (K := K) (dim := none) (d := d) (.inl rfl) hd [(x, ps)]
    (by intro y hy; simp only [List.mem_singleton] at hy; subst hy; exact ⟨hm, hg⟩)
  simp only [List.map_cons, List.map_nil, List.mem_singleton, forall_eq, if_true] at h
  simp only [constEval, parseCall, Nat.le_refl, if_true, h]
  rfl

/-- Two variables: the same if both arguments have the same number of points; otherwise
the call is rejected. -/
theorem C95_eval_two_partial (vals : List S) {x y : Inp K} {d : Nat} {ps qs : List (List K)}
    (hx : Means none x d ps) (hy : Means none y d qs) (hd : d = 1 ∨ d = 2)
    (gx : Good x) (gy : Good y) :
    constEval vals 2 (.several [x, y]) =
      if ps.length = qs.length then .ok (List.replicate ps.length vals)
      else .error .assertion := by
  have h := C74_parse_partial (K := K) (dim := none) (d := d) (.inl rfl) hd [(x, ps), (y, qs)]
    (by
      intro z hz
      simp only [List.mem_cons, List.not_mem_nil, or_false] at hz
      rcases hz with rfl | rfl
      · exact ⟨hx, gx⟩
      · exact ⟨hy, gy⟩)
  simp only [List.map_cons, List.map_nil, List.mem_cons, List.not_mem_nil, or_false,
    forall_eq_or_imp, forall_eq] at h
  have e : constEval vals 2 (.several [x, y]) =
      (parseX none [x, y] >>= fun xx => match xx with
        | [] => .error .assertion
        | z :: _ => do
          let n ← rows z
          .ok (List.replicate n vals)) := by
    simp [constEval, parseCall]
  rw [e, h]
  by_cases hl : ps.length = qs.length
  · rw [if_pos (by simp [hl]), if_pos hl]; rfl
  · rw [if_neg (by simp [hl]), if_neg hl]; rfl

/-- A function of two variables must be given a tuple of two arguments, a function of one
variable a single one. -/
theorem C95_arity (vals : List S) (nVars : Nat) (x : CallArg K) (v : List (List S))
    (h : constEval vals nVars x = .ok v) :
    match x with
    | .one _ => nVars ≤ 1
    | .several xs => 1 < nVars ∧ xs.length = nVars := by
  unfold constEval at h
  cases x with
  | one x =>
    simp only [parseCall] at h ⊢
    by_contra hc
    rw [if_neg hc] at h
    cases h
  | several xs =>
    simp only [parseCall] at h ⊢
    by_contra hc
    rw [if_neg hc] at h
    cases h

/-- `n_variables` may be any integer according to the documentation, but constant functions
of three variables cannot be constructed. -/
theorem C95_variables_violated (c : S) : mkConstant (.number c) 3 = .error .assertion := rfl

/-- Points given as a list of numbers raise (see `C74_numbers_violated`). -/
theorem C95_numbers_violated (vals : List S) (x : K) :
    Means none (.list [.num x]) 1 [[x]] ∧
      constEval vals 1 (.one (.list [.num x])) = .error .exception :=
  ⟨.numbers [x], rfl⟩

example : ∃ x : Inp ℕ, Means none x 2 [[1, 2], [3, 4]] ∧ Good x ∧
    constEval [7, 8] 1 (.one x) = .ok [[7, 8], [7, 8]] := by
  refine ⟨.list [.tuple [1, 2], .tuple [3, 4]], .tuples [[1, 2], [3, 4]] (by decide +kernel), ?_, rfl⟩
  refine ⟨by simp, ?_, ?_⟩
  · rintro ⟨y, hy⟩; cases hy
  · rintro ⟨y, l, hy⟩; simp at hy

/-! ## The constructor of `Map` -/

/-- What the arguments of `Map(basis, mesh, element, dofhandler, subforest_flag, dim)` say
about the domain.  `M`: meshes, `E`: elements, `G`: flags. -/
structure MapArgs (M E G : Type) where
  basis : Option ((M × E) × Option G)
  mesh : Option M
  element : Option E
  dofhandler : Option (M × E)
  subforest : Option G

/-- What the function answers later: `mesh()`, `dofhandler()`, `subforest_flag()`. -/
structure MapDomain (M E G : Type) where
  mesh : Option M
  dofhandler : Option (M × E)
  subforest : Option G
deriving DecidableEq

/-- `Map.__init__` (function.py 50-113) followed by `mesh()`, `dofhandler()` and
`subforest_flag()` (function.py 190-211): the flag is overwritten by that of the basis, or
by None; the mesh is that of the basis; the dofhandler is the argument or made from mesh and
element.  A dofhandler is given by its mesh and its element. -/
def mapInit {M E G : Type} (a : MapArgs M E G) : MapDomain M E G where
  mesh := a.basis.map (fun b => b.1.1)
  dofhandler := match a.dofhandler, a.mesh, a.element with
    | some d, _, _ => some d
    | none, some m, some e => some (m, e)
    | none, _, _ => none
  subforest := match a.basis with
    | none => none
    | some b => b.2

/-- The domain the arguments describe: each argument that is given is answered. -/
structure Describes {M E G : Type} (a : MapArgs M E G) (r : MapDomain M E G) : Prop where
  mesh : ∀ m, (a.mesh = some m ∨ (∃ e, a.dofhandler = some (m, e)) ∨
    ∃ e g, a.basis = some ((m, e), g)) → r.mesh = some m
  subforest : ∀ g, (a.subforest = some g ∨ ∃ d, a.basis = some (d, some g)) →
    r.subforest = some g

/-- If only a basis is given the function knows mesh and submesh (what is missing: all
functions defined by mesh, element, dofhandler or subforest flag). -/
theorem C95_map_partial {M E G : Type} (b : (M × E) × Option G) :
    Describes ⟨some b, none, none, none, none⟩ (mapInit ⟨some b, none, none, none, none⟩) := by
  constructor
  · rintro m (h | ⟨e, h⟩ | ⟨e, g, h⟩)
    · cases h
    · cases h
    · cases h; rfl
  · rintro g (h | ⟨d, h⟩)
    · cases h
    · cases h; rfl

/-- The dofhandler given, or the one for the given mesh and element, is kept. -/
theorem C95_map_dofhandler {M E G : Type} (a : MapArgs M E G) (m : M) (e : E) :
    (a.dofhandler = some (m, e) → (mapInit a).dofhandler = some (m, e)) ∧
    (a.dofhandler = none → a.mesh = some m → a.element = some e →
      (mapInit a).dofhandler = some (m, e)) := by
  constructor
  · intro h; simp [mapInit, h]
  · intro h1 h2 h3; simp [mapInit, h1, h2, h3]

/-- A function that is defined on a mesh, an element and a submesh forgets the mesh and the
flag. -/
theorem C95_map_violated {M E G : Type} (m : M) (e : E) (g : G) :
    (mapInit ⟨none, some m, some e, none, some g⟩).mesh = none ∧
    (mapInit ⟨none, some m, some e, none, some g⟩).subforest = none ∧
    ¬ Describes ⟨none, some m, some e, none, some g⟩
      (mapInit ⟨none, some m, some e, none, some g⟩) :=
  ⟨rfl, rfl, fun h => by
    have h1 := h.mesh m (Or.inl rfl)
    cases h1⟩

end Verif.Arr
