import Verif.Model.CType
/-!
# analyze/canonical-signature.c: hashing, equality, construction, order and printing of canonical signatures

Simplifications.
* The actuals of a signature are addresses of canonical types; a class is a number (the address of its declaration).
* `canonical_type_hash` of an existing type is a parameter (it does not change when more types are made).
* The order of the elements of a set is the order of their addresses, here just the order of the list.
* What is printed for a type and the names of classes are parameters.
-/
namespace Aps.CSig
open Aps.HashCons Aps.CType

/-- analyze/canonical-signature.h:4-12 -/
structure SigObj where
  input : Bool
  var : Bool
  cls : Nat
  actuals : List Nat
  deriving DecidableEq

/-- a C `bool` as an `int` -/
def bit (b : Bool) : Int := if b then 1 else 0

/-- analyze/canonical-signature.c:121-131 -/
def hashTypes (th : Nat → BitVec 64) (l : List Nat) : BitVec 64 := l.foldl (fun h a => hashMix h (th a)) 17

/-- analyze/canonical-signature.c:138-156 -/
def sigHash (th : Nat → BitVec 64) (s : SigObj) : BitVec 64 :=
  hashMix (if s.input then 1 else 0) (hashMix (if s.var then 1 else 0) (hashMix (BitVec.ofNat 64 s.cls) (hashTypes th s.actuals)))

/-- analyze/canonical-signature.c:174-179 — the loop -/
def actualsEqual : List Nat → List Nat → Bool
  | a :: as, b :: bs => if a = b then actualsEqual as bs else false
  | _, _ => true

/-- analyze/canonical-signature.c:164-182 -/
def sigEqual (s u : SigObj) : Bool :=
  if s.actuals.length ≠ u.actuals.length then false
  else actualsEqual s.actuals u.actuals && s.input = u.input && s.var = u.var && s.cls = u.cls

/-- analyze/canonical-signature.c:184, hashcons.c:31 -/
def sigOps (th : Nat → BitVec 64) : Ops SigObj := ⟨fun s => (sigHash th s).toNat % 2 ^ 63, sigEqual⟩

/-- analyze/canonical-signature.c:195-213 -/
def newSignature (th : Nat → BitVec 64) (ntp : Nat → Res Nat) (t : HC SigObj) (input var : Bool) (cls : Nat) (actuals : List Nat) :
    Res (Nat × HC SigObj) :=
  hashConsGet (sigOps th) ntp t ⟨input, var, cls, actuals⟩

/-- analyze/canonical-signature.c:365-374 — the loop -/
def actualsCompare (tc : Nat → Nat → Res Int) : List Nat → List Nat → Res Int
  | a :: as, b :: bs => do
    let c ← tc a b
    if c ≠ 0 then return c else actualsCompare tc as bs
  | _, _ => .ok 0

/-- analyze/canonical-signature.c:343-377 -/
def sigCompare (line : Nat → Int) (tc : Nat → Nat → Res Int) (s u : SigObj) : Res Int :=
  if s.input ≠ u.input then .ok (bit s.input - bit u.input)
  else if s.var ≠ u.var then .ok (bit s.var - bit u.var)
  else if line s.cls ≠ line u.cls then .ok (line s.cls - line u.cls)
  else if s.actuals.length ≠ u.actuals.length then .ok ((s.actuals.length : Int) - u.actuals.length)
  else actualsCompare tc s.actuals u.actuals

/-- analyze/canonical-signature.c:86-93 — one round of the insertion sort. The sorted part is kept with its last element first. -/
def insertSorted (cmp : SigObj → SigObj → Res Int) (item : SigObj) : List SigObj → Res (List SigObj)
  | [] => .ok [item]
  | s :: rest => do
    let c ← cmp s item
    if c > 0 then
      let rest ← insertSorted cmp item rest
      return s :: rest
    else return item :: s :: rest

/-- analyze/canonical-signature.c:81-95 — the loop over the elements -/
def sortLoop (cmp : SigObj → SigObj → Res Int) : List SigObj → List SigObj → Res (List SigObj)
  | [], sorted => .ok sorted
  | item :: items, sorted => do
    let sorted ← insertSorted cmp item sorted
    sortLoop cmp items sorted

/-- analyze/canonical-signature.c:22-54 -/
def printSig (name : Nat → String) (tyText : Nat → String) (s : SigObj) : String :=
  name s.cls ++ "[" ++ String.intercalate "," (s.actuals.map tyText) ++ "]"

/-- analyze/canonical-signature.c:61-113 -/
def printSet (name tyText : Nat → String) (line : Nat → Int) (tc : Nat → Nat → Res Int) (set : List SigObj) : Res String := do
  let sorted ← sortLoop (sigCompare line tc) set []
  return "{" ++ String.intercalate "," (sorted.reverse.map (printSig name tyText)) ++ "}"

end Aps.CSig
