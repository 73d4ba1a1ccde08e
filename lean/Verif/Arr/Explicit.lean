import Mathlib.Data.List.Basic
import Mathlib.Data.List.Nodup
import Mathlib.Tactic.Common

/-!
# Model: explicit functions

The class `Explicit` (function.py 1346-1580) with the Python lists it stores.  `R`: rules, `P`: dictionaries of parameters (never modified by the code).
Lists have an identity: the heap `rl` of lists of rules, the heap `pl` of lists of parameters.
-/

namespace Verif.Arr.Exp

/-- Exceptions. -/
inductive Err where
  | assertion
  | index
  | attribute
  | name
  deriving DecidableEq, Repr

/-- Lists, lists the user has a reference to, and `Explicit` objects (`__f`, `__parameters`). -/
structure St (R P : Type) where
  rl : List (List R)
  pl : List (List P)
  ownR : List Nat
  ownP : List Nat
  fs : List (Nat × Nat)
  deriving DecidableEq, Repr

/-- No lists, no functions. -/
def St.new (R P : Type) : St R P := ⟨[], [], [], [], []⟩

/-- An argument: a single rule, a list made for this call, or a list the user has. -/
inductive Arg (α : Type) where
  | one (a : α)
  | lit (l : List α)
  | var (i : Nat)
  deriving DecidableEq, Repr

/-- What the user does. -/
inductive Op (R P : Type) where
  | mkR (l : List R)
  | mkP (l : List P)
  | appR (i : Nat) (r : R)
  | new (f : Arg R) (p : Arg P)
  | setRules (k : Nat) (f : Arg R) (p : Arg P)
  | setRule (k : Nat) (f : R) (p : P) (pos : Nat)
  | addRule (k : Nat) (f : R) (p : P)
  | setPars (k : Nat) (p : P)
  | setPar (k : Nat) (p : P) (pos : Nat)
  deriving DecidableEq, Repr

variable {R P : Type}

/-- A heap and the position of the argument in it (function.py 1458-1483: `f = [f]`, `parameters = [parameters]`). -/
def load {α : Type} (h : List (List α)) (own : List Nat) : Arg α → Except Err (List (List α) × Nat)
  | .one a => .ok (h ++ [[a]], h.length)
  | .lit l => .ok (h ++ [l], h.length)
  | .var i => match own[i]? with
    | some j => .ok (h, j)
    | none => .error .name

/-- `set_rules(f, parameters)`: the lists to be stored (function.py 1454-1511). -/
def pair (s : St R P) (f : Arg R) (p : Arg P) : Except Err (St R P × Nat × Nat) := do
  let (rl, a) ← load s.rl s.ownR f
  let (pl, b) ← load s.pl s.ownP p
  let F := rl.getD a []
  let Q := pl.getD b []
  if 1 < F.length ∧ 1 < Q.length then
    if F.length = Q.length then .ok ({ s with rl, pl }, a, b) else .error .assertion
  else if 1 < F.length then
    match Q[0]? with
    | some q => .ok ({ s with rl, pl := pl ++ [F.map (fun _ => q)] }, a, pl.length)
    | none => .error .index
  else if 1 < Q.length then
    match F[0]? with
    | some g => .ok ({ s with rl := rl ++ [Q.map (fun _ => g)], pl }, rl.length, b)
    | none => .error .index
  else .ok ({ s with rl, pl }, a, b)

/-- One step (function.py 1350-1536).  `set_rules(..., pos)` reads `self.n_sample`, which does not exist. -/
def step (s : St R P) : Op R P → Except Err (St R P)
  | .mkR l => .ok { s with rl := s.rl ++ [l], ownR := s.ownR ++ [s.rl.length] }
  | .mkP l => .ok { s with pl := s.pl ++ [l], ownP := s.ownP ++ [s.pl.length] }
  | .appR i r => match s.ownR[i]? with
    | some j => .ok { s with rl := s.rl.modify j (· ++ [r]) }
    | none => .error .name
  | .new f p => do
    let (t, a, b) ← pair s f p
    .ok { t with fs := t.fs ++ [(a, b)] }
  | .setRules k f p => match s.fs[k]? with
    | some _ => do
      let (t, a, b) ← pair s f p
      .ok { t with fs := t.fs.set k (a, b) }
    | none => .error .name
  | .setRule k _ _ _ => match s.fs[k]? with
    | some _ => .error .attribute
    | none => .error .name
  | .addRule k f p => match s.fs[k]? with
    | some (a, b) => .ok { s with rl := s.rl.modify a (· ++ [f]), pl := s.pl.modify b (· ++ [p]) }
    | none => .error .name
  | .setPars k p => match s.fs[k]? with
    | some (a, b) => .ok { s with pl := s.pl ++ [(s.pl.getD b []).map (fun _ => p)], fs := s.fs.set k (a, s.pl.length) }
    | none => .error .name
  | .setPar k p pos => match s.fs[k]? with
    | some (a, b) =>
      if pos < (s.rl.getD a []).length then
        if pos < (s.pl.getD b []).length then .ok { s with pl := s.pl.modify b (·.set pos p) } else .error .index
      else .error .assertion
    | none => .error .name

/-- A history; a call that raises changes nothing. -/
def run (s : St R P) : List (Op R P) → St R P
  | [] => s
  | o :: ops => run (match step s o with | .ok t => t | .error _ => s) ops

/-- `n_samples()` (function.py 1388-1392). -/
def nSamples (s : St R P) (k : Nat) : Option Nat := (s.fs[k]?).map (fun ab => (s.rl.getD ab.1 []).length)

/-- `eval(x)` (function.py 1538-1580): the columns of the result.  `app f p x`: the value of the rule at a point; rules are applied to all points at
once, which must give one value for each. -/
def eval {X Y : Type} (app : R → P → X → Y) (s : St R P) (k : Nat) (xs : List X) : Except Err (List (List Y)) :=
  match s.fs[k]? with
  | none => .error .name
  | some (a, b) =>
    let F := s.rl.getD a []
    let Q := s.pl.getD b []
    (List.range (if 1 < F.length then F.length else 1)).mapM (fun i => match F[i]?, Q[i]? with
      | some f, some p => .ok (xs.map (app f p))
      | _, _ => .error .index)

/-! ## Specification: a function is a list of rules with parameters, an argument is a value -/

/-- The user's lists and functions. -/
structure Sp (R P : Type) where
  rules : List (List R)
  pars : List (List P)
  funs : List (List (R × P))
  deriving DecidableEq, Repr

/-- The value of an argument. -/
def Arg.value {α : Type} (own : List (List α)) : Arg α → Option (List α)
  | .one a => some [a]
  | .lit l => some l
  | .var i => own[i]?

/-- Rules and parameters are matched one by one; a single one goes with all of the other kind; other lengths are rejected. -/
def match_ (F : List R) (Q : List P) : Option (List (R × P)) :=
  match F, Q with
  | F, [q] => some (F.map (fun f => (f, q)))
  | [f], Q => some (Q.map (fun q => (f, q)))
  | F, Q => if F.length = Q.length then some (F.zip Q) else none

/-- What a call should do; `none`: it is rejected. -/
def spec (s : Sp R P) : Op R P → Option (Sp R P)
  | .mkR l => some { s with rules := s.rules ++ [l] }
  | .mkP l => some { s with pars := s.pars ++ [l] }
  | .appR i r => if i < s.rules.length then some { s with rules := s.rules.modify i (· ++ [r]) } else none
  | .new f p => (f.value s.rules).bind fun F => (p.value s.pars).bind fun Q => (match_ F Q).map fun z => { s with funs := s.funs ++ [z] }
  | .setRules k f p => if k < s.funs.length then
      (f.value s.rules).bind fun F => (p.value s.pars).bind fun Q => (match_ F Q).map fun z => { s with funs := s.funs.set k z }
    else none
  | .setRule k f p pos => (s.funs[k]?).bind fun l => if pos < l.length then some { s with funs := s.funs.set k (l.set pos (f, p)) } else none
  | .addRule k f p => if k < s.funs.length then some { s with funs := s.funs.modify k (· ++ [(f, p)]) } else none
  | .setPars k p => if k < s.funs.length then some { s with funs := s.funs.modify k (·.map fun z => (z.1, p)) } else none
  | .setPar k p pos => (s.funs[k]?).bind fun l => (l[pos]?).map fun z => { s with funs := s.funs.set k (l.set pos (z.1, p)) }

/-- A history according to the specification. -/
def specRun (s : Sp R P) : List (Op R P) → Sp R P
  | [] => s
  | o :: ops => specRun ((spec s o).getD s) ops

/-- The columns of the values. -/
def columns {X Y : Type} (app : R → P → X → Y) (l : List (R × P)) (xs : List X) : List (List Y) := l.map (fun z => xs.map (app z.1 z.2))

/-- An argument that is not one of the user's lists and not an empty list. -/
def Arg.fresh {α : Type} : Arg α → Prop
  | .one _ => True
  | .lit l => l ≠ []
  | .var _ => False

/-- A call without shared or empty lists, and not `set_rules` with a position. -/
def Op.fresh : Op R P → Prop
  | .new f p => f.fresh ∧ p.fresh
  | .setRules _ f p => f.fresh ∧ p.fresh
  | .setRule _ _ _ _ => False
  | _ => True

end Verif.Arr.Exp
