import Verif.Model.Base

/-!
# Collections of the C++ runtime (`base/cpp/basic.handcode.h`)

`LIST`, `SEQUENCE`, `BAG` and `SET` values are trees of `append`, `single` and `none` nodes
(`base/basic.aps:446-448`, `:470-472`, `:487-489`).  A C++ `int` is an `Int` together with a check
that the result of every addition and subtraction is representable: a signed overflow is
undefined behaviour (`Res.ub`).  A thrown exception (`std::out_of_range`) is `Res.stop`.

Simplifications: a value is a tree, not a pointer (the "return `n` itself if nothing was cut off"
shortcut of `subseq` returns an equal tree and is not modelled); a node whose constructor is none
of the three (`throw stub_error`, "Really strange error!!") does not exist.
-/
namespace Aps.Coll

open Aps

/-- `base/basic.aps:487-489` (and SEQUENCE, BAG): the constructors of a collection. -/
inductive Coll (α : Type _) where
  | append (l1 l2 : Coll α)
  | single (x : α)
  | none
  deriving Repr, DecidableEq

/-- The largest `int`. -/
def intMax : Int := 2147483647
/-- The smallest `int`. -/
def intMin : Int := -2147483648

/-- The result of an `int` operation: undefined on overflow. -/
def int32 (x : Int) : Res Int := if intMin ≤ x ∧ x ≤ intMax then .ok x else .ub

variable {α : Type _}

/-- `basic.handcode.h:234-245` (`COLL::length`). -/
def length : Coll α → Res Int
  | .append l1 l2 => do
      let a ← length l1
      let b ← length l2
      int32 (a + b)
  | .single _ => .ok 1
  | .none => .ok 0

/-- `basic.handcode.h:247-257` (`COLL::empty`). -/
def empty : Coll α → Bool
  | .append l1 l2 => empty l1 && empty l2
  | .single _ => false
  | .none => true

/-- `basic.handcode.h:122-139` (`COLL::nth`). -/
def nth (i : Int) : Coll α → Res α
  | .append l1 l2 => do
      let n1 ← length l1
      if n1 > i then nth i l1
      else do
        let j ← int32 (i - n1)
        nth j l2
  | .single x => if i = 0 then .ok x else .stop
  | .none => .stop

/-- `basic.handcode.h:140-157` (`COLL::nth_from_end`). -/
def nthFromEnd (i : Int) : Coll α → Res α
  | .append l1 l2 => do
      let n2 ← length l2
      if n2 > i then nthFromEnd i l2
      else do
        let j ← int32 (i - n2)
        nthFromEnd j l1
  | .single x => if i = 0 then .ok x else .stop
  | .none => .stop

/-- `basic.handcode.h:158-168` (`COLL::position`); `eq x y` is `element_type->v_equal(x,y)`. -/
def position (eq : α → α → Bool) (x : α) : Coll α → Res Int
  | .append l1 l2 => do
      let p1 ← position eq x l1
      if p1 ≥ 0 then .ok p1
      else do
        let p2 ← position eq x l2
        if p2 ≥ 0 then do
          let n1 ← length l1
          int32 (p2 + n1)
        else .ok (-1)
  | .single y => if eq x y then .ok 0 else .ok (-1)
  | .none => .ok (-1)

/-- `basic.handcode.h:169-173` (`COLL::position_from_end`). -/
def positionFromEnd (eq : α → α → Bool) (x : α) (l : Coll α) : Res Int := do
  let i ← position eq x l
  if i = -1 then .ok (-1)
  else do
    let n ← length l
    int32 (n - 1 - i)

/-- `basic.handcode.h:174-176` (`COLL::member`). -/
def member (eq : α → α → Bool) (x : α) (l : Coll α) : Res Bool := do
  let p ← position eq x l
  .ok (decide (p ≥ 0))

mutual
/-- `basic.handcode.h:177-199` (`COLL::subseq`); the sharing shortcut of line 192 is not
modelled. -/
def subseq (l : Coll α) (s f : Int) : Res (Coll α) :=
  if s = f then .ok .none
  else match l with
  | .append l1 l2 => do
      let n1 ← length l1
      if s ≥ n1 then do
        let s' ← int32 (s - n1)
        let f' ← int32 (f - n1)
        subseq l2 s' f'
      else if f ≤ n1 then
        if f = n1 then butsubseq l1 0 s else subseq l1 s f
      else do
        let r1 ← butsubseq l1 0 s
        let f' ← int32 (f - n1)
        let r2 ← subseq l2 0 f'
        .ok (.append r1 r2)
  | .single x => if s = 0 then .ok (.single x) else .ok .none
  | .none => if s = 0 then .ok .none else .ok .none

/-- `basic.handcode.h:204-228` (`COLL::butsubseq`). -/
def butsubseq (l : Coll α) (s f : Int) : Res (Coll α) :=
  if s ≥ f then .ok l
  else match l with
  | .append l1 l2 => do
      let n1 ← length l1
      if s ≥ n1 then do
        let s' ← int32 (s - n1)
        let f' ← int32 (f - n1)
        let r ← butsubseq l2 s' f'
        .ok (.append l1 r)
      else if f ≤ n1 then
        if s = 0 ∧ f = n1 then .ok l2
        else do
          let r ← butsubseq l1 s f
          .ok (.append r l2)
      else do
        let r1 ← subseq l1 0 s
        let f' ← int32 (f - n1)
        let r2 ← butsubseq l2 0 f'
        .ok (.append r1 r2)
  | .single x => if s = 0 then .ok .none else .ok (.single x)
  | .none => .ok .none
end

/-- `basic.handcode.h:229-232` (`COLL::butsubseq_from_end`). -/
def butsubseqFromEnd (l : Coll α) (s f : Int) : Res (Coll α) := do
  let n ← length l
  let a ← int32 (n - f)
  let b ← int32 (n - s)
  butsubseq l a b

/-- `basic.handcode.h:107-121` (`COLL::equal`); `&&` evaluates its right operand only if the left
one is true. -/
def equal (eq : α → α → Bool) : Coll α → Coll α → Res Bool
  | .append a b, l2 => do
      let n1 ← length a
      let p ← subseq l2 0 n1
      let r ← equal eq a p
      if r then do
        let q ← butsubseq l2 0 n1
        equal eq b q
      else .ok false
  | .single x, l2 => do
      let n2 ← length l2
      if n2 = 1 then do
        let y ← nth 0 l2
        .ok (eq x y)
      else .ok false
  | .none, l2 => do
      let n ← length l2
      .ok (decide (n = 0))

/-- Number of constructors of a collection: bounds the rounds of the loop of `to_string`. -/
def size : Coll α → Nat
  | .append l1 l2 => size l1 + size l2 + 1
  | .single _ => 1
  | .none => 1

/-- `basic.handcode.h:86-101`: the loop of `to_string`.  `stack` has its top first. -/
def strLoop (str : α → String) : Nat → List (Coll α) → Nat → String → Res (List (Coll α) × String)
  | 0, _, _, _ => .nofuel
  | fuel + 1, stack, printed, res =>
    match stack with
    | [] => .ok ([], res)
    | l :: rest =>
      if printed < 5 then
        match l with
        | .append l1 l2 => strLoop str fuel (l1 :: l2 :: rest) printed res
        | .single x =>
            strLoop str fuel rest (printed + 1) ((if printed ≠ 0 then res ++ "," else res) ++ str x)
        | .none => strLoop str fuel rest printed res
      else .ok (l :: rest, res)

/-- `basic.handcode.h:82-105` (`COLL::to_string`). -/
def toString (str : α → String) (l : Coll α) : Res String := do
  let (stack, res) ← strLoop str (size l + 1) [l] 0 "{"
  .ok ((if stack.isEmpty then res else res ++ "...") ++ "}")

/-! ## The functions of `basic.aps` built on these -/

/-- `basic.aps:410` and `basic.handcode.h:286` (`first`). -/
def first (l : Coll α) : Res α := nth 0 l
/-- `basic.aps:411` and `basic.handcode.h:289` (`last`). -/
def last (l : Coll α) : Res α := nthFromEnd 0 l
/-- `basic.aps:418` (`firstn`). -/
def firstn (n : Int) (l : Coll α) : Res (Coll α) := subseq l 0 n
/-- `basic.aps:420` (`butfirst`). -/
def butfirst (l : Coll α) : Res (Coll α) := butsubseq l 0 1
/-- `basic.aps:421` (`butlast`). -/
def butlast (l : Coll α) : Res (Coll α) := butsubseqFromEnd l 0 1
/-- `basic.aps:422` (`butfirstn`). -/
def butfirstn (n : Int) (l : Coll α) : Res (Coll α) := butsubseq l 0 n
/-- `basic.aps:423` (`butlastn`). -/
def butlastn (n : Int) (l : Coll α) : Res (Coll α) := butsubseqFromEnd l 0 n
/-- `basic.aps:424` (`butnth`). -/
def butnth (n : Int) (l : Coll α) : Res (Coll α) := do
  let m ← int32 (n + 1)
  butsubseq l n m
/-- `basic.aps:486` (`LIST$cons`). -/
def cons (x : α) (l : Coll α) : Coll α := .append (.single x) l

/-- `basic.aps:682-691` (the function `..` on integers), with `{x}` a `single`, `{}` a `none`,
`++` an `append`, and C++ integer arithmetic: `/` truncates toward zero
(`basic.handcode.h:31`).  The recursion is bounded by fuel: it does not always end. -/
def range : Nat → Int → Int → Res (Coll Int)
  | 0, _, _ => .nofuel
  | fuel + 1, x, y =>
    if x = y then .ok (.single x)
    else if x > y then .ok .none
    else do
      let sum ← int32 (x + y)
      let mid := Int.tdiv sum 2
      let a ← range fuel x mid
      let m1 ← int32 (mid + 1)
      let b ← range fuel m1 y
      .ok (.append a b)

/-! ## Sets -/

/-- `base/basic.aps:457-469` (`BAG$member`), called by `C_SET::v_member`
(`basic.handcode.h:415-417`). -/
def setMember (eq : α → α → Bool) (e : α) : Coll α → Bool
  | .none => false
  | .single v => eq v e
  | .append l1 l2 => setMember eq e l1 || setMember eq e l2

/-- `basic.handcode.h:391-405` (`C_SET::v_less_equal`). -/
def setLe (eq : α → α → Bool) : Coll α → Coll α → Bool
  | .append a b, s2 => setLe eq a s2 && setLe eq b s2
  | .single x, s2 => setMember eq x s2
  | .none, _ => true

/-- `basic.handcode.h:383-385` (`C_SET::v_equal`). -/
def setEqual (eq : α → α → Bool) (s1 s2 : Coll α) : Bool := setLe eq s1 s2 && setLe eq s2 s1

/-- `basic.handcode.h:387-389` (`C_SET::v_less`). -/
def setLess (eq : α → α → Bool) (s1 s2 : Coll α) : Bool := setLe eq s1 s2 && !setLe eq s2 s1

/-- `basic.handcode.h:419-442` (`C_SET::v_union`). -/
def union (eq : α → α → Bool) : Coll α → Coll α → Coll α
  | .append a b, s2 => union eq a (union eq b s2)
  | .single x, s2 => if setMember eq x s2 then s2 else .append (.single x) s2
  | .none, s2 => s2

/-- `basic.handcode.h:444-467` (`C_SET::v_intersect`). -/
def intersect (eq : α → α → Bool) : Coll α → Coll α → Coll α
  | .append a b, s2 => .append (intersect eq a s2) (intersect eq b s2)
  | .single x, s2 => if setMember eq x s2 then .single x else .none
  | .none, _ => .none

/-- `basic.handcode.h:469-492` (`C_SET::v_difference`). -/
def difference (eq : α → α → Bool) : Coll α → Coll α → Coll α
  | .append a b, s2 => .append (difference eq a s2) (difference eq b s2)
  | .single x, s2 => if setMember eq x s2 then .none else .single x
  | .none, _ => .none

/-- The expressions a client can build a `SET` with: `SET` is declared `private BAG`, so the raw
`append` constructor is hidden and `append = union` (`basic.aps:525-546`). -/
inductive SetExpr (α : Type _) where
  | none
  | single (x : α)
  | union (a b : SetExpr α)
  | intersect (a b : SetExpr α)
  | difference (a b : SetExpr α)
  | without (a : SetExpr α) (x : α)

/-- The value of a set expression; `without` is the operator `\` (`basic.aps:521-523`). -/
def SetExpr.value (eq : α → α → Bool) : SetExpr α → Coll α
  | .none => .none
  | .single x => .single x
  | .union a b => Coll.union eq (a.value eq) (b.value eq)
  | .intersect a b => Coll.intersect eq (a.value eq) (b.value eq)
  | .difference a b => Coll.difference eq (a.value eq) (b.value eq)
  | .without a x => Coll.difference eq (a.value eq) (.single x)

end Aps.Coll
