import Verif.Model.Coll

/-!
# Integers, characters and strings of the C++ runtime

`base/cpp/basic.handcode.h`, `base/cpp/basic.handcode.cpp`, `base/cpp/aps-impl.h:395-419`.
A `std::string` is the list of its bytes.  `size_t` is 64 bits wide: an `int` passed where a
`size_t` is expected becomes its value modulo 2^64.  An exception (`std::out_of_range`) is
`Res.stop`; signed overflow is `Res.ub`.
-/
namespace Aps.Str

open Aps Aps.Coll

abbrev Byte := UInt8

/-! ## Printing integers -/

/-- `basic.handcode.cpp:22-25`: the loop that collects the digits of a positive number, lowest
digit first.  A digit is the byte `'0' + (x % 10)`.  The fuel bounds the number of rounds. -/
def digitLoop : Nat → Int → List Byte → Res (List Byte)
  | 0, _, _ => .nofuel
  | fuel + 1, x, rev =>
    if x ≠ 0 then
      digitLoop fuel (Int.tdiv x 10) (rev ++ [UInt8.ofNat (48 + (Int.tmod x 10).toNat)])
    else .ok rev

/-- `basic.handcode.cpp:21-30`: the digits of a positive number, highest first. -/
def posString (x : Int) : Res (List Byte) := do
  let rev ← digitLoop 12 x []
  .ok rev.reverse

/-- `basic.handcode.cpp:17-31` (`C_INTEGER::v_string`).  Negating the smallest `int` overflows. -/
def intString (x : Int) : Res (List Byte) :=
  if x = 0 then .ok [48]
  else if x < 0 then do
    let y ← int32 (-x)
    let s ← posString y
    .ok (45 :: s)
  else posString x

/-! ## Strings -/

/-- An `int` converted to `size_t`. -/
def toSize (i : Int) : Nat := (i % 18446744073709551616).toNat

/-- `std::string::substr(pos, len)`. -/
def substr (l : List Byte) (pos len : Nat) : Res (List Byte) :=
  if pos > l.length then .stop else .ok ((l.drop pos).take len)

/-- `std::string::at(i)`. -/
def strAt (l : List Byte) (i : Nat) : Res Byte :=
  match l[i]? with
  | some c => .ok c
  | none => .stop

/-- `aps-impl.h:405` (`v_member`): `l.find(x) < l.size()`; `find` gives `npos` (never less than the
size) when the character does not occur. -/
def member (x : Byte) (l : List Byte) : Bool :=
  match l.findIdx? (fun y => x == y) with
  | some i => decide (i < l.length)
  | none => false

/-- `aps-impl.h:406` (`v_nth`). -/
def nth (i : Int) (l : List Byte) : Res Byte := strAt l (toSize i)

/-- `aps-impl.h:407` (`v_nth_from_end`): the subtraction is done in `size_t`. -/
def nthFromEnd (i : Int) (l : List Byte) : Res Byte :=
  strAt l (toSize ((l.length : Int) - (toSize i : Int) - 1))

/-- `aps-impl.h:408` (`v_position`): `npos` becomes -1 as an `int`. -/
def position (x : Byte) (l : List Byte) : Int :=
  match l.findIdx? (fun y => x == y) with
  | some i => i
  | none => -1

/-- `aps-impl.h:409` (`v_position_from_end`): `rfind` gives the last occurrence, as an index from
the start. -/
def positionFromEnd (x : Byte) (l : List Byte) : Int :=
  match l.reverse.findIdx? (fun y => x == y) with
  | some i => (l.length : Int) - 1 - i
  | none => -1

/-- `aps-impl.h:410` (`v_subseq`). -/
def subseq (l : List Byte) (s f : Int) : Res (List Byte) := substr l (toSize s) (toSize f)

/-- `basic.handcode.cpp:55-58` (`v_subseq_from_end`). -/
def subseqFromEnd (l : List Byte) (s f : Int) : Res (List Byte) :=
  substr l (toSize ((l.length : Int) - f - 1)) (toSize ((l.length : Int) - s - 1))

/-- `basic.handcode.cpp:59-61` (`v_butsubseq`). -/
def butsubseq (l : List Byte) (s f : Int) : Res (List Byte) := do
  let a ← substr l 0 (toSize s)
  let b ← substr l (toSize f) l.length
  .ok (a ++ b)

/-- `basic.handcode.cpp:62-65` (`v_butsubseq_from_end`). -/
def butsubseqFromEnd (l : List Byte) (s f : Int) : Res (List Byte) := do
  let a ← substr l 0 (toSize ((l.length : Int) - f - 1))
  let b ← substr l (toSize ((l.length : Int) - s - 1)) l.length
  .ok (a ++ b)

/-- `basic.aps:418` (`firstn`) on strings. -/
def firstn (n : Int) (l : List Byte) : Res (List Byte) := subseq l 0 n
/-- `basic.aps:419` (`lastn`) on strings. -/
def lastn (n : Int) (l : List Byte) : Res (List Byte) := subseqFromEnd l 0 n
/-- `basic.aps:420` (`butfirst`) on strings. -/
def butfirst (l : List Byte) : Res (List Byte) := butsubseq l 0 1
/-- `basic.aps:421` (`butlast`) on strings. -/
def butlast (l : List Byte) : Res (List Byte) := butsubseqFromEnd l 0 1

/-! ## Characters -/

/-- `basic.handcode.h:58` (`v_char_code`): a plain `char` is signed on the usual platforms, so its
value as an `int` is negative above 127. -/
def charCode (c : Byte) : Int := if c.toNat < 128 then c.toNat else (c.toNat : Int) - 256

/-- `basic.handcode.h:59` (`v_int_char`): conversion to `char` keeps the low eight bits. -/
def intChar (i : Int) : Byte := UInt8.ofNat (i % 256).toNat

/-- `basic.handcode.h:54` (`C_CHARACTER::v_less`): compares the (signed) characters. -/
def charLess (a b : Byte) : Bool := decide (charCode a < charCode b)

/-- `aps-impl.h:414` (`C_STRING::v_less`): `std::string::operator<` is lexicographic and compares
characters as unsigned bytes (`char_traits<char>::lt`). -/
def less : List Byte → List Byte → Bool
  | [], [] => false
  | [], _ :: _ => true
  | _ :: _, [] => false
  | a :: l, b :: m => if a.toNat < b.toNat then true else if b.toNat < a.toNat then false else less l m

/-- `aps-impl.h:415` (`C_STRING::v_less_equal`): `x <= y` is `!(y < x)`. -/
def lessEqual (x y : List Byte) : Bool := !less y x

/-! ## Powers -/

/-- `basic.aps:142-154` (the function `^`), for any numeric type given by its operations; `odd` is
the runtime's `odd` function (C++: `basic.handcode.h:50`; Scala: `basic.handcode.scala:38`).
`y/2` and `-y` are on mathematical integers (their C++ overflow at the smallest `int` is not
modelled).  The fuel bounds the recursion. -/
def power {T : Type _} (one : T) (times divide : T → T → T) (odd : Int → Bool) :
    Nat → T → Int → Res T
  | 0, _, _ => .nofuel
  | fuel + 1, x, y =>
    if y = 0 then .ok one
    else if y < 0 then do
      let d ← power one times divide odd fuel x (-y)
      .ok (divide one d)
    else if y = 1 then .ok x
    else if odd y then do
      let r ← power one times divide odd fuel x (y - 1)
      .ok (times x r)
    else power one times divide odd fuel (times x x) (Int.tdiv y 2)

/-- `basic.handcode.h:50` (`v_odd`): `x & 1`. -/
def oddCpp (x : Int) : Bool := decide (x % 2 = 1)

/-- `basic.handcode.scala:38` (`f_odd`): `(x & 1) == 0`. -/
def oddScala (x : Int) : Bool := decide (x % 2 = 0)

/-- `basic.aps:69-75` (`abs`) on the C++ integers: negating the smallest `int` overflows. -/
def absInt (x : Int) : Res Int := if x < 0 then int32 (-x) else .ok x

end Aps.Str
