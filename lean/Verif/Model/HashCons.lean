import Verif.Model.HashTable
/-!
# utilities/hashcons.c

Simplifications.
* The objects an address points to are values of a type `ι`; `heap[a-1]` is the object at address `a`
  and `0` is `NULL`. `malloc` + `memcpy` appends to the heap (so a new block has an address that
  is not in use). Objects are not modified after being hash-consed (no code in the repository does).
* `hashf` is taken after `& LONG_MAX`; capacities do not overflow; `next_twin_prime` is a parameter.
* The probe loop gets `capacity` rounds of fuel.
-/
namespace Aps.HashCons
open Aps.HashTable (probe)

/-- utilities/hashcons.h:7-8 -/
structure Ops (ι : Type) where
  hashf : ι → Nat
  equalf : ι → ι → Bool

/-- utilities/hashcons.h:10-16, with the heap its entries point into. `table = []` is `table == NULL`. -/
structure HC (ι : Type) where
  size : Nat
  capacity : Nat
  table : List Nat
  heap : List ι

/-- A table as statically initialised (e.g. hashcons.c:181): `table` NULL. -/
def HC.init (ι : Type) : HC ι := ⟨0, 0, [], []⟩

variable {ι : Type}

/-- the object at an address -/
def load (t : HC ι) (a : Nat) : Option ι := if a = 0 then none else t.heap[a - 1]?

/-- the address in a slot -/
def addrAt (t : HC ι) (i : Nat) : Nat := t.table[i]?.getD 0

/-- utilities/hashcons.c:7 -/
def initialBaseSize : Nat := 61

/-- utilities/hashcons.c:16-21 -/
def hcInitialize (t : HC ι) (capacity : Nat) : HC ι :=
  { t with capacity := capacity, table := List.replicate capacity 0, size := 0 }

/-- utilities/hashcons.c:37 — the test of the probe loop on a slot. -/
def slotStop (o : Ops ι) (t : HC ι) (item : ι) (i : Nat) : Bool :=
  match load t (addrAt t i) with
  | none => true
  | some x => o.equalf x item

/-- utilities/hashcons.c:29-44 -/
def candidateIndex (o : Ops ι) (t : HC ι) (item : ι) : Res Nat :=
  if t.capacity = 0 ∨ t.capacity = 2 then .ub else
  let hash := o.hashf item
  match probe (slotStop o t item) t.capacity (hash % (t.capacity - 2) + 1) t.capacity (hash % t.capacity) with
  | some i => .ok i
  | none => .nofuel

/-- utilities/hashcons.c:51-55 -/
def insertAt (t : HC ι) (a : Nat) (i : Nat) : HC ι :=
  { t with table := t.table.set i a, size := t.size + 1 }

/-- utilities/hashcons.c:62-67 -/
def insert (o : Ops ι) (t : HC ι) (a : Nat) : Res (HC ι) :=
  match load t a with
  | none => .ub
  | some item => do
    let i ← candidateIndex o t item
    return insertAt t a i

/-- utilities/hashcons.c:93-100 -/
def reinsert (o : Ops ι) : List Nat → HC ι → Res (HC ι)
  | [], t => .ok t
  | a :: as, t => do
    let t ← if a ≠ 0 then insert o t a else .ok t
    reinsert o as t

/-- utilities/hashcons.c:87-103 -/
def resize (o : Ops ι) (t : HC ι) (capacity : Nat) : Res (HC ι) :=
  reinsert o t.table (hcInitialize t capacity)

/-- utilities/hashcons.c:112-138. Returns the address and the new table. -/
def hashConsGet (o : Ops ι) (ntp : Nat → Res Nat) (t : HC ι) (item : ι) : Res (Nat × HC ι) := do
  let t := if t.table = [] then hcInitialize t initialBaseSize else t
  let i ← candidateIndex o t item
  if addrAt t i ≠ 0 then
    return (addrAt t i, t)
  else
    let a := t.heap.length + 1
    let t := { t with heap := t.heap ++ [item] }
    let t := insertAt t a i
    if t.capacity < 2 * t.size then
      let c ← ntp (2 * t.capacity + 1)
      let t ← resize o t c
      return (a, t)
    else
      return (a, t)

/-! ## Hash-consed sets: an object is the array of its elements (addresses, i.e. 64-bit words). -/

/-- utilities/hashcons.c:145-154 (after `& LONG_MAX`) -/
def setHash (s : List Nat) : Nat := (s.foldl (· ||| ·) 17) % 2 ^ 63

/-- utilities/hashcons.c:170-173 — the element loop -/
def setEqualLoop : List Nat → List Nat → Bool
  | [], _ => true
  | _ :: _, [] => true
  | a :: as, b :: bs => if a ≠ b then false else setEqualLoop as bs

/-- utilities/hashcons.c:162-176 -/
def setEqual (a b : List Nat) : Bool :=
  if a.length ≠ b.length then false else setEqualLoop a b

/-- utilities/hashcons.c:181 -/
def setOps : Ops (List Nat) := ⟨setHash, setEqual⟩

/-- a pointer converted to `long` -/
def toLong (p : Nat) : Int := if p < 2 ^ 63 then p else (p : Int) - 2 ^ 64

/-- utilities/hashcons.c:199-208 — moving the elements that are greater (as `long`) one place to
the right and storing the key: the sorted prefix is kept reversed (largest first), so that the scan
from the right end is a scan of the list from its head. -/
def insertDesc (key : Nat) : List Nat → List Nat
  | [] => [key]
  | x :: xs => if toLong x > toLong key then x :: insertDesc key xs else key :: x :: xs

/-- utilities/hashcons.c:195-209 — the sorted copy of the array. -/
def sortElements (s : List Nat) : List Nat := (s.foldl (fun acc x => insertDesc x acc) []).reverse

/-- utilities/hashcons.c:189-213 -/
def newSet (ntp : Nat → Res Nat) (t : HC (List Nat)) (s : List Nat) : Res (Nat × HC (List Nat)) :=
  hashConsGet setOps ntp t (sortElements s)

/-- utilities/hashcons.c:219-225 -/
def emptySet (ntp : Nat → Res Nat) (t : HC (List Nat)) : Res (Nat × HC (List Nat)) :=
  hashConsGet setOps ntp t []

/-- utilities/hashcons.c:257-284 — merging the two arrays (pointer comparison is unsigned); the first
argument only makes the recursion structural. -/
def mergeLoop : Nat → List Nat → List Nat → List Nat
  | 0, _, _ => []
  | _ + 1, [], bs => bs
  | _ + 1, as, [] => as
  | n + 1, a :: as, b :: bs =>
    if a = b then a :: mergeLoop n as bs
    else if a < b then a :: mergeLoop n as (b :: bs)
    else b :: mergeLoop n (a :: as) bs

/-- utilities/hashcons.c:257-284 -/
def mergeElements (a b : List Nat) : List Nat := mergeLoop (a.length + b.length + 1) a b

/-- utilities/hashcons.c:249-288, on the contents of the two sets -/
def unionSet (ntp : Nat → Res Nat) (t : HC (List Nat)) (a b : List Nat) : Res (Nat × HC (List Nat)) :=
  hashConsGet setOps ntp t (mergeElements a b)

/-- utilities/hashcons.c:233-241 -/
def addSet (ntp : Nat → Res Nat) (t : HC (List Nat)) (item : Nat) (s : List Nat) :
    Res (Nat × HC (List Nat)) :=
  unionSet ntp t [item] s

/-- utilities/hashcons.c:315-321, on 64-bit words (wrapping; signed overflow is undefined in C but
compiled as wrapping) -/
def hashMix (h1 h2 : BitVec 64) : BitVec 64 := (17 * 31 + h1) * 31 + h2

/-- utilities/hashcons.c:296-307 -/
def hashString (s : List (BitVec 64)) : BitVec 64 := s.foldl (fun h c => (h <<< 5) + h + c) 5381

end Aps.HashCons
