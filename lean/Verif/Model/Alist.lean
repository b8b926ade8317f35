import Verif.Model.Base
/-!
# Association lists and tables (analyze/alist.c, analyze/table.c)

Simplifications: memory from `HALLOC` is a list of cells, a pointer to a cell is its number and
`none` is NULL (that `HALLOC` gives fresh memory is C13); keys and values, `void *` in C, are
numbers, NULL being 0. `ub` is an access to a cell that does not exist.
-/
namespace Aps.Alist

/-- `struct alist`, analyze/alist.c:5-8. -/
structure Cell where
  next : Option Nat
  key : Nat
  value : Nat
  deriving Repr, DecidableEq

/-- `acons`, analyze/alist.c:10-16. -/
def acons (key value : Nat) (rest : Option Nat) (m : List Cell) : Option Nat × List Cell :=
  (some m.length, m ++ [⟨rest, key, value⟩])

/-- `assoc`, analyze/alist.c:18-24; at most `fuel` rounds of the loop. -/
def assoc (m : List Cell) (key : Nat) : Nat → Option Nat → Res Nat
  | _, none => .ok 0
  | 0, some _ => .nofuel
  | f + 1, some a =>
    match m[a]? with
    | none => .ub
    | some c => if c.key = key then .ok c.value else assoc m key f c.next

/-- `rassoc`, analyze/alist.c:26-32. -/
def rassoc (m : List Cell) (value : Nat) : Nat → Option Nat → Res Nat
  | _, none => .ok 0
  | 0, some _ => .nofuel
  | f + 1, some a =>
    match m[a]? with
    | none => .ub
    | some c => if c.value = value then .ok c.key else rassoc m value f c.next

/-- `setassoc`, analyze/alist.c:34-43: whether it returned `OK`, and the memory. -/
def setassoc (key value : Nat) : Nat → Option Nat → List Cell → Res (Bool × List Cell)
  | _, none, m => .ok (false, m)
  | 0, some _, _ => .nofuel
  | f + 1, some a, m =>
    match m[a]? with
    | none => .ub
    | some c =>
      if c.key = key then .ok (true, m.set a { c with value := value })
      else setassoc key value f c.next m

/-- Cells, and the tables (`struct table`, analyze/table.c:8-10, the field `alist`). -/
structure Mem where
  cells : List Cell
  tables : List (Option Nat)
  deriving Repr, DecidableEq

/-- `new_table`, analyze/table.c:12-16. -/
def newTable (m : Mem) : Nat × Mem := (m.tables.length, { m with tables := m.tables ++ [none] })

/-- `get` and `table_get`, analyze/table.c:18-23. -/
def tableGet (fuel : Nat) (t key : Nat) (m : Mem) : Res Nat :=
  match m.tables[t]? with
  | none => .ub
  | some l => assoc m.cells key fuel l

/-- `set` and `table_set`, analyze/table.c:25-32. -/
def tableSet (fuel : Nat) (t key value : Nat) (m : Mem) : Res Mem :=
  match m.tables[t]? with
  | none => .ub
  | some l =>
    match setassoc key value fuel l m.cells with
    | .ok (true, cs) => .ok { m with cells := cs }
    | .ok (false, cs) =>
      let (p, cs) := acons key value l cs
      .ok { cells := cs, tables := m.tables.set t p }
    | .ub => .ub
    | .stop => .stop
    | .nofuel => .nofuel

end Aps.Alist
