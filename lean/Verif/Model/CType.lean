import Verif.Model.HashCons
/-!
# analyze/canonical-type.c: hashing, equality, construction and ordering of canonical types

Simplifications.
* Objects live in the memory `mem` of the hash-cons table: `mem[a-1]` is the object at address `a`, `0` is
  `NULL` (as in `Verif.Model.HashCons`). A declaration is a number (its address).
* The recursive functions get the number of objects plus one as fuel (canonical types are built from
  existing ones, so the recursion is never deeper).
* `canonical_type_hash` of the object being looked up reads only objects that existed before the
  call, so the memory before the call is used throughout one `hash_cons_get`.
* Line numbers are non-negative `int`s, so their differences do not overflow.
* The derived operations on types (`canonical_type_base_type`, `canonical_type_join`) are in `Verif.Model.CanonTy`.
-/
namespace Aps.CType
open Aps.HashCons

/-- analyze/canonical-type.h:15-34 -/
inductive Node
  | use (decl : Nat)
  | qual (decl : Nat) (source : Nat)
  | func (ret : Nat) (params : List Nat)
  deriving DecidableEq

/-- analyze/canonical-type.h:4-6 -/
def Node.key : Node → Nat
  | .func .. => 0
  | .use .. => 1
  | .qual .. => 2

/-- the object at an address -/
def at? (mem : List Node) (a : Nat) : Option Node := if a = 0 then none else mem[a - 1]?

/-- analyze/canonical-type.c:31-57 — the body, with the recursive calls as a parameter -/
def nodeHash (child : Nat → BitVec 64) : Node → BitVec 64
  | .use d => hashMix 1 (BitVec.ofNat 64 d)
  | .qual d s => hashMix 2 (hashMix (BitVec.ofNat 64 d) (child s))
  | .func r ps =>
    hashMix 0 (hashMix (BitVec.ofNat 64 ps.length)
      (hashMix (ps.foldl (fun h p => hashMix h (child p)) 0) (child r)))

/-- analyze/canonical-type.c:21-58 -/
def typeHash (mem : List Node) : Nat → Nat → BitVec 64
  | 0, _ => 0
  | f + 1, a =>
    match at? mem a with
    | none => 0
    | some n => nodeHash (typeHash mem f) n

/-- analyze/canonical-type.c:108-111 — the loop over the parameters -/
def paramsEqual (child : Nat → Nat → Bool) : List Nat → List Nat → Bool
  | p :: ps, q :: qs => if child p q then paramsEqual child ps qs else false
  | _, _ => true

/-- analyze/canonical-type.c:76-118 — the body, with the recursive calls as a parameter -/
def nodeEqual (child : Nat → Nat → Bool) : Node → Node → Bool
  | .use d, .use e => d = e
  | .qual d s, .qual e t => d = e ∧ s = t
  | .func r ps, .func s qs =>
    if ps.length ≠ qs.length then false else paramsEqual child ps qs && r = s
  | _, _ => false

/-- analyze/canonical-type.c:66-119 -/
def typeEqual (mem : List Node) : Nat → Nat → Nat → Bool
  | 0, _, _ => false
  | f + 1, a, b =>
    match at? mem a, at? mem b with
    | some x, some y => nodeEqual (typeEqual mem f) x y
    | _, _ => false

/-- analyze/canonical-type.c:188, hashcons.c:31 (`& LONG_MAX`) -/
def typeOps (mem : List Node) : Ops Node :=
  ⟨fun n => (nodeHash (typeHash mem (mem.length + 1)) n).toNat % 2 ^ 63,
   nodeEqual (typeEqual mem (mem.length + 1))⟩

/-- analyze/canonical-type.c:218, 231, 476, 628, 686 — hash-consing an object -/
def newType (ntp : Nat → Res Nat) (t : HC Node) (n : Node) : Res (Nat × HC Node) :=
  hashConsGet (typeOps t.heap) ntp t n

/-- analyze/canonical-type.c:1054-1061 — the loop over the parameters -/
def paramsCompare (child : Nat → Nat → Res Int) : List Nat → List Nat → Res Int
  | p :: ps, q :: qs => do
    let c ← child p q
    if c ≠ 0 then return c else paramsCompare child ps qs
  | _, _ => .ok 0

/-- analyze/canonical-type.c:1017-1068 — the body, with the recursive calls as a parameter -/
def nodeCompare (line : Nat → Int) (child : Nat → Nat → Res Int) : Node → Node → Res Int
  | .use d, .use e => .ok (line d - line e)
  | .qual d s, .qual e t => if line d ≠ line e then .ok (line d - line e) else child s t
  | .func r ps, .func s qs =>
    if ps.length ≠ qs.length then
      .ok (if (ps.length : Int) - qs.length > 0 then 1 else -1)
    else do
      let c ← child r s
      if c ≠ 0 then return c else paramsCompare child ps qs
  | x, y => .ok ((x.key : Int) - y.key)

/-- analyze/canonical-type.c:1009-1069. Dereferencing `NULL` is undefined. -/
def typeCompare (line : Nat → Int) (mem : List Node) : Nat → Nat → Nat → Res Int
  | 0, _, _ => .nofuel
  | f + 1, a, b =>
    match at? mem a, at? mem b with
    | some x, some y => nodeCompare line (typeCompare line mem f) x y
    | _, _ => .ub

end Aps.CType
