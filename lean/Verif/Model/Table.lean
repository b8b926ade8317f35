import Verif.Model.Base

/-!
# Tables

C++: `base/cpp/table.handcode.h`, with `TABLE` values as pointers into a heap because `v_combine`
updates a full table in place.  Scala: `base/scala/table.handcode.scala`, where a table is an
immutable map.

Simplifications: debug output is not modelled (it only prints); a `std::map` / `TreeMap` is the list
of its entries in key order; a `std::map` compares keys only with `v_less`, so two keys are the same
when neither is less than the other.
-/
namespace Aps.Table

open Aps

variable {K V : Type}

/-- `std::map`: two keys are equivalent when neither is less than the other. -/
def eqv (lt : K → K → Bool) (a b : K) : Bool := !lt a b && !lt b a

/-- `std::map::find`. -/
def lookup (lt : K → K → Bool) (k : K) : List (K × V) → Option V
  | [] => none
  | (k', v) :: m => if eqv lt k k' then some v else lookup lt k m

/-- `entries[k] = v`: an existing entry keeps its key and gets the new value, otherwise an entry is
inserted at its place in the order. -/
def tinsert (lt : K → K → Bool) (k : K) (v : V) : List (K × V) → List (K × V)
  | [] => [(k, v)]
  | (k', v') :: m =>
    if eqv lt k k' then (k', v) :: m
    else if lt k k' then (k, v) :: (k', v') :: m
    else (k', v') :: tinsert lt k v m

/-- The operations of the key and value types a table uses. -/
structure Ops (K V : Type) where
  /-- `t_KeyType->v_less` -/
  lt : K → K → Bool
  /-- `t_KeyType->v_equal` -/
  eq : K → K → Bool
  /-- `t_ValueType->v_initial` -/
  initial : V
  /-- `t_ValueType->v_combine` -/
  combine : V → V → V

/-- `table.handcode.h:59-70` (`V_full_table::get`): a missing key is entered with the initial
value. -/
def tget (o : Ops K V) (m : List (K × V)) (k : K) : List (K × V) × V :=
  match lookup o.lt k m with
  | some v => (m, v)
  | none => (tinsert o.lt k o.initial m, o.initial)

/-- `table.handcode.h:71-76` (`V_full_table::add`). -/
def add (o : Ops K V) (m : List (K × V)) (k : K) (v : V) : List (K × V) :=
  let (m', old) := tget o m k
  tinsert o.lt k (o.combine old v) m'

/-- `table.handcode.h:26-30, 40-49, 84-91, 98-116`: the three kinds of table. -/
inductive Obj (K V : Type) where
  | empty
  | entry (key : K) (val : V)
  | full (entries : List (K × V))

/-- `table.handcode.h:50-57` (full), `:90` (empty), `:113-115` (entry): `add_to`.  When a full table
is added to itself every entry is read just before it is replaced and no entry is created, so
reading the entries beforehand gives the same result. -/
def addTo (o : Ops K V) (src : Obj K V) (m : List (K × V)) : List (K × V) :=
  match src with
  | .empty => m
  | .entry k v => add o m k v
  | .full es => es.foldl (fun m e => add o m e.1 e.2) m

abbrev Heap (K V : Type) := List (Obj K V)

/-- `table.handcode.h:127-135` (`v_combine`). -/
def combine (o : Ops K V) (h : Heap K V) (p1 p2 : Nat) : Res (Heap K V × Nat) :=
  match h[p1]?, h[p2]? with
  | some (.full m), some t2 => .ok (h.set p1 (.full (addTo o t2 m)), p1)
  | some t1, some t2 => .ok (h ++ [.full (addTo o t2 (addTo o t1 []))], h.length)
  | _, _ => .ub

/-- `table.handcode.h:136-145` (`v_select`). -/
def select (o : Ops K V) (h : Heap K V) (p : Nat) (k : K) : Res (Heap K V × Nat) :=
  match h[p]? with
  | some (.full m) =>
      let (m', v) := tget o m k
      .ok (h.set p (.full m') ++ [.entry k v], h.length)
  | some (.entry k' v') =>
      if o.eq k k' then .ok (h, p) else .ok (h ++ [.entry k o.initial], h.length)
  | some .empty => .ok (h ++ [.entry k o.initial], h.length)
  | none => .ub

/-- `table.handcode.h:119-124` (`v_table_entry`). -/
def tableEntry (h : Heap K V) (k : K) (v : V) : Heap K V × Nat := (h ++ [.entry k v], h.length)

/-- The expressions a client can write without naming an intermediate table; `initial` is the one
object `v_initial` (`table.handcode.h:126, 159`), at address 0. -/
inductive Expr (K V : Type) where
  | initial
  | entry (k : K) (v : V)
  | combine (a b : Expr K V)
  | select (a : Expr K V) (k : K)

/-- Evaluation of an expression, left argument first. -/
def eval (o : Ops K V) : Expr K V → Heap K V → Res (Heap K V × Nat)
  | .initial, h => .ok (h, 0)
  | .entry k v, h => .ok (tableEntry h k v)
  | .combine a b, h => do
      let (h1, p1) ← eval o a h
      let (h2, p2) ← eval o b h1
      combine o h2 p1 p2
  | .select a k, h => do
      let (h1, p1) ← eval o a h
      select o h1 p1 k

/-! ## Scala -/

/-- The operations the Scala tables use; keys are compared with
`table.handcode.scala:33-39`. -/
structure SOps (K V : Type) where
  lt : K → K → Bool
  initial : V
  combine : V → V → V
  meet : V → V → V
  /-- `v_compare_equal` of the value lattice. -/
  le : V → V → Bool
  /-- `==` of the values. -/
  eq : V → V → Bool

/-- `table.handcode.scala:33-39` (`key_ordering.compare`): equal keys first, then `v_less`. -/
def scalaCmp (eq lt : K → K → Bool) (x y : K) : Int :=
  if eq x y then 0 else if lt x y then -1 else 1

/-- `table.handcode.scala:45-47` (`f_table_entry`). -/
def sEntry (k : K) (v : V) : List (K × V) := [(k, v)]

/-- `table.handcode.scala:62-73` (`f_combine`). -/
def sCombine (o : SOps K V) (t1 t2 : List (K × V)) : List (K × V) :=
  t2.foldl (fun r e =>
    match lookup o.lt e.1 r with
    | some old => tinsert o.lt e.1 (o.combine old e.2) r
    | none => tinsert o.lt e.1 e.2 r) t1

/-- `table.handcode.scala:75-81` (`f_select`). -/
def sSelect (o : SOps K V) (t : List (K × V)) (k : K) : List (K × V) :=
  match lookup o.lt k t with
  | some v => sEntry k v
  | none => sEntry k o.initial

/-- `table.handcode.scala:98-106` (`f_meet`). -/
def sMeet (o : SOps K V) (t1 t2 : List (K × V)) : List (K × V) :=
  t2.foldl (fun r e =>
    match lookup o.lt e.1 t1 with
    | some v1 => tinsert o.lt e.1 (o.meet v1 e.2) r
    | none => r) []

/-- `table.handcode.scala:113` (`v_compare_equal`). -/
def sCompareEqual (o : SOps K V) (x y : List (K × V)) : Bool :=
  (x.all (fun e => (lookup o.lt e.1 y).isSome)) &&
  (x.all (fun e =>
    match lookup o.lt e.1 y with
    | some v => o.le e.2 v
    | none => true))

/-- `v_equal` on tables: the two maps have the same keys with equal values. -/
def sEqual (o : SOps K V) (x y : List (K × V)) : Bool :=
  decide (x.length = y.length) &&
  (x.all (fun e =>
    match lookup o.lt e.1 y with
    | some v => o.eq e.2 v
    | none => false))

/-- `table.handcode.scala:110-111` (`v_compare`). -/
def sCompare (o : SOps K V) (x y : List (K × V)) : Bool := sCompareEqual o x y && !sEqual o x y

end Aps.Table
