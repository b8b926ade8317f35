import Verif.Model.Base
/-!
# utilities/hashtable.c

Simplifications.
* `void*` keys and values are natural numbers; key `0` is `NULL`.
* `hashf key` is the value *after* `& LONG_MAX` (hashtable.c:18), i.e. a natural number.
* `next_twin_prime` is passed in as `ntp : Nat → Res Nat` (instantiated with
  `Aps.Prime.nextTwinPrime` in the property file); overflow of `int` capacities is not modelled.
* `calloc` succeeds; `free` has no observable effect.
* The probe loop gets `capacity` rounds of fuel.
-/
namespace Aps.HashTable

/-- utilities/hashtable.h:14-17 -/
structure Entry where
  key : Nat
  value : Nat
  deriving Repr, DecidableEq

/-- utilities/hashtable.h:10-11 — the two function pointers stored in a table. -/
structure Ops where
  hashf : Nat → Nat
  equalf : Nat → Nat → Bool

/-- utilities/hashtable.h:19-25 (without the function pointers, see `Ops`). -/
structure HT where
  size : Nat
  capacity : Nat
  table : List Entry
  deriving Repr, DecidableEq

/-- utilities/hashtable.c:22-29 and hashcons.c:35-43 — the `while (true)` probe loop: `stop i` is the
test on slot `i` of the loop body. -/
def probe (stop : Nat → Bool) (cap step : Nat) : Nat → Nat → Option Nat
  | 0, _ => none
  | fuel + 1, i => if stop i then some i else probe stop cap step fuel ((i + step) % cap)

/-- The key stored in slot `i`. Slots are only read at `i < capacity`. -/
def keyAt (t : HT) (i : Nat) : Nat := (t.table[i]?.getD ⟨0, 0⟩).key

/-- The value stored in slot `i`. -/
def valueAt (t : HT) (i : Nat) : Nat := (t.table[i]?.getD ⟨0, 0⟩).value

/-- utilities/hashtable.c:17-30. `% capacity` and `% (capacity - 2)` by zero are undefined. -/
def candidateIndex (o : Ops) (t : HT) (key : Nat) : Res Nat :=
  if t.capacity = 0 ∨ t.capacity = 2 then .ub else
  let hash := o.hashf key
  let index := hash % t.capacity
  let step := hash % (t.capacity - 2) + 1
  match probe (fun i => keyAt t i == 0 || o.equalf (keyAt t i) key) t.capacity step t.capacity index with
  | some i => .ok i
  | none => .nofuel

/-- utilities/hashtable.c:39-46 -/
def insertAt (t : HT) (key value index : Nat) : HT :=
  { t with table := t.table.set index ⟨key, value⟩, size := t.size + 1 }

/-- utilities/hashtable.c:130-140 -/
def create (ntp : Nat → Res Nat) (cap : Nat) : Res HT := do
  let c ← ntp cap
  return { size := 0, capacity := c, table := List.replicate c ⟨0, 0⟩ }

/-- utilities/hashtable.c:85-93 -/
def get (o : Ops) (t : HT) (key : Nat) : Res Nat := do
  let i ← candidateIndex o t key
  return if o.equalf (keyAt t i) key then valueAt t i else 0

/-- utilities/hashtable.c:178-186 -/
def contains (o : Ops) (t : HT) (key : Nat) : Res Bool := do
  let i ← candidateIndex o t key
  return if o.equalf (keyAt t i) key then true else false

/-- utilities/hashtable.c:69-75 — the loop of `hash_table_resize` over the old slots, where `add` is
`hash_table_add_or_update`. -/
def reinsert (add : HT → Nat → Nat → Res HT) : List Entry → HT → Res HT
  | [], t => .ok t
  | e :: es, t => do
    let t ← if e.key ≠ 0 then add t e.key e.value else .ok t
    reinsert add es t

/-- utilities/hashtable.c:102-122 with `hash_table_resize` (64-77) inlined. `size + 1 > capacity * 0.5`
is compared exactly. The first argument bounds the mutual recursion between the two. -/
def addOrUpdate (o : Ops) (ntp : Nat → Res Nat) : Nat → HT → Nat → Nat → Res HT
  | 0, _, _, _ => .nofuel
  | depth + 1, t, key, value =>
    if key = 0 then .stop else do
    let t ←
      if t.capacity < 2 * (t.size + 1) then do
        let c ← ntp (2 * t.capacity + 1)
        let t' ← create ntp c
        reinsert (addOrUpdate o ntp depth) t.table t'
      else .ok t
    let i ← candidateIndex o t key
    if o.equalf (keyAt t i) key then
      return { t with table := t.table.set i ⟨keyAt t i, value⟩ }
    else
      return insertAt t key value i

/-- utilities/hashtable.c:149-159 — only the key of the slot is cleared. -/
def remove (o : Ops) (t : HT) (key : Nat) : Res (Bool × HT) := do
  let i ← candidateIndex o t key
  if o.equalf (keyAt t i) key then
    return (true, { t with table := t.table.set i ⟨0, valueAt t i⟩, size := t.size - 1 })
  else
    return (false, t)

/-- utilities/hashtable.c:166-170 -/
def clear (_t : HT) : HT := { size := 0, capacity := 0, table := [] }

/-- utilities/hashtable.c:193-195 (`& LONG_MAX` of a 64-bit address). -/
def ptrHashf (v : Nat) : Nat := v % 2 ^ 63

/-- utilities/hashtable.c:203-205 -/
def ptrEqualf (a b : Nat) : Bool := a == b

/-- The pair of functions every client in the repository passes (scc.c:109, the tests). -/
def ptrOps : Ops := ⟨ptrHashf, ptrEqualf⟩

end Aps.HashTable
