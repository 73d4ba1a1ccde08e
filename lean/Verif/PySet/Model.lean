import Mathlib.Data.List.Basic

/-!
# `list(set(l))` for lists of dofs

`/repo` renumbers dofs through `list(set(dofs))` (assembler.py 4353, 2905-2906, 2938) and takes the last entry for
the largest.  What that list is depends on the interpreter.  This is CPython's set of small integers (Objects/setobject.c, the same in versions
3.7 to 3.13: `set_add_entry`, `set_table_resize`, `set_insert_clean`, `setiter_iternext`): open addressing, the hash of an integer is
itself, linear probes, table of a power of two.  Nothing is ever removed here, so `fill = used`.  Simplification: integers are below `2^60`, machine
words do not overflow.
-/

namespace Verif.PySet

/-- The hash table `so->table`; its length is `so->mask + 1`. -/
abbrev Table := List (Option ℕ)

/-- The entry at `i` is unused, or holds `x`. -/
def fits (t : Table) (x i : ℕ) : Bool := decide (t.getD i none = none) || decide (t.getD i none = some x)

/-- The inner loop `do { .. entry++; } while (probes--)`: the first of the entries `i`, .., `i+n` that is unused or holds `x`. -/
def scan (t : Table) (x : ℕ) : ℕ → ℕ → Option ℕ
  | 0, i => if fits t x i then some i else none
  | n + 1, i => if fits t x i then some i else scan t x n (i + 1)

/-- `probes = (i + LINEAR_PROBES <= mask) ? LINEAR_PROBES : 0`, with `LINEAR_PROBES` 9. -/
def probes (t : Table) (i : ℕ) : ℕ := if i + 9 ≤ t.length - 1 then 9 else 0

/-- The outer loop of `set_add_entry` and `set_insert_clean`: `perturb >>= 5; i = (i*5 + 1 + perturb) & mask`. -/
def find (t : Table) (x : ℕ) : ℕ → ℕ → ℕ → Option ℕ
  | 0, _, _ => none
  | f + 1, i, p =>
    match scan t x (probes t i) i with
    | some j => some j
    | none => find t x f ((i * 5 + 1 + p / 32) % t.length) (p / 32)

/-- The entry where `x` is or goes: `i = hash & mask`, `perturb = hash`.  The bound on the number of rounds suffices (`slot_some`). -/
def slot (t : Table) (x : ℕ) : Option ℕ := find t x (x + t.length + 1) (x % t.length) x

/-- `so->used`. -/
def used (t : Table) : ℕ := (t.filter Option.isSome).length

/-- `set_insert_clean`: store `x`, which is not there, in its entry. -/
def store (t : Table) (x : ℕ) : Table :=
  match slot t x with
  | some j => t.set j (some x)
  | none => t

/-- `newsize = 8; while (newsize <= minused) newsize <<= 1`, at most `f` rounds. -/
def newSize (m : ℕ) : ℕ → ℕ → ℕ
  | 0, n => n
  | f + 1, n => if n ≤ m then newSize m f (n * 2) else n

/-- `set_table_resize(so, minused)`: the entries are stored, in the order of the old table, in an empty one. -/
def resize (t : Table) (m : ℕ) : Table := (t.filterMap id).foldl store (List.replicate (newSize m m 8) none)

/-- `set_add_entry`: nothing happens if the entry found holds `x`; otherwise `x` is stored there, and the table grows if `fill*5 >= mask*3`, to
more than `used*4` entries, or `used*2` if there are more than 50000. -/
def add (t : Table) (x : ℕ) : Table :=
  match slot t x with
  | none => t
  | some j =>
    if t.getD j none = some x then t
    else
      let t' := t.set j (some x)
      if used t' * 5 < (t.length - 1) * 3 then t'
      else resize t' (if 50000 < used t' then used t' * 2 else used t' * 4)

/-- `set(l)`. -/
def ofList (l : List ℕ) : Table := l.foldl add (List.replicate 8 none)

/-- `list(set(l))`: the entries in the order of the table. -/
def pySet (l : List ℕ) : List ℕ := (ofList l).filterMap id

end Verif.PySet
