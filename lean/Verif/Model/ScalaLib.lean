import Verif.Model.Coll

/-!
# The Scala library: lists, bags, multisets, sequences, strings, tuple lattices, ranges

`base/scala/basic.handcode.scala`.  A Scala `List` is a `List`; a `String` is the list of its
characters.  An exception is `Res.stop`, a recursion that did not end in the given number of steps
is `Res.nofuel`.  JVM integer arithmetic wraps around (`wrap`); lengths are not bounded by the size
of an `Int` (a `List` or `String` that long does not fit in memory).
-/
namespace Aps.ScalaLib

open Aps

variable {α : Type _}

/-- 32-bit two's complement arithmetic of the JVM. -/
def wrap (x : Int) : Int := (x + 2147483648) % 4294967296 - 2147483648

/-! ## Patterns -/

/-- `basic.handcode.scala:754-761, 766-772, 775-780` (`u_append`, `u_single`, `u_none` of `I_BAG`),
tried in any order: at most one matches. -/
inductive View (α : Type _) where
  | none
  | single (x : α)
  | append (l1 l2 : List α)

/-- Which of the three patterns a list matches. -/
def view : List α → View α
  | [] => .none
  | [x] => .single x
  | x1 :: x2 :: l => .append [x1] (x2 :: l)

/-- `basic.handcode.scala:1387-1394` (`f_length` of `M__basic_22`): by patterns.  The fuel bounds the
recursion. -/
def length : Nat → List α → Res Int
  | 0, _ => .nofuel
  | fuel + 1, l =>
    match view l with
    | .none => .ok 0
    | .single _ => .ok 1
    | .append l1 l2 => do
        let a ← length fuel l1
        let b ← length fuel l2
        .ok (wrap (a + b))

/-! ## Lists -/

/-- `List.apply` / `String.charAt`: throws outside the range. -/
def at' (l : List α) (i : Int) : Res α :=
  if i < 0 then .stop
  else match l[i.toNat]? with
    | some x => .ok x
    | none => .stop

/-- `List.indexOf`. -/
def indexOf (p : α → Bool) (l : List α) : Int :=
  match l.findIdx? p with
  | some i => i
  | none => -1

/-- `List.slice(from, until)`: negative bounds count as 0. -/
def slice (l : List α) (s f : Int) : List α := (l.drop s.toNat).take (f.toNat - s.toNat)

/-- `basic.handcode.scala:811` (`f_nth` of `I_LIST`). -/
def nth (i : Int) (l : List α) : Res α := at' l i
/-- `basic.handcode.scala:813-814` (`f_nth_from_end`). -/
def nthFromEnd (i : Int) (l : List α) : Res α := at' l.reverse i
/-- `basic.handcode.scala:816-817` (`f_position`); `eq` is Scala's `==`. -/
def position (eq : α → α → Bool) (x : α) (l : List α) : Int := indexOf (eq x) l
/-- `basic.handcode.scala:819-820` (`f_position_from_end`): searches for the *list* `v_l` among the
elements; `eqList y l` is `y == l` of an element and a list. -/
def positionFromEnd (eqList : α → List α → Bool) (_x : α) (l : List α) : Int :=
  indexOf (fun y => eqList y l) l.reverse
/-- `basic.handcode.scala:822-823` (`f_subseq`). -/
def subseq (l : List α) (s f : Int) : Res (List α) := .ok (slice l s f)
/-- `basic.handcode.scala:825-826` (`f_subseq_from_end`): not supported. -/
def subseqFromEnd (_l : List α) (_s _f : Int) : Res (List α) := .stop
/-- `basic.handcode.scala:828-829` (`f_butsubseq`). -/
def butsubseq (l : List α) (s f : Int) : Res (List α) := .ok (slice l 0 s ++ l.drop f.toNat)
/-- `basic.handcode.scala:831-832` (`f_butsubseq_from_end`): not supported. -/
def butsubseqFromEnd (_l : List α) (_s _f : Int) : Res (List α) := .stop

/-- `basic.handcode.scala:596` (`f_firstn`). -/
def firstn (n : Int) (l : List α) : Res (List α) := subseq l 0 n
/-- `basic.handcode.scala:598` (`f_lastn`). -/
def lastn (n : Int) (l : List α) : Res (List α) := subseqFromEnd l 0 n
/-- `basic.handcode.scala:600` (`f_butfirst`). -/
def butfirst (l : List α) : Res (List α) := butsubseq l 0 1
/-- `basic.handcode.scala:602` (`f_butlast`). -/
def butlast (l : List α) : Res (List α) := butsubseqFromEnd l 0 1
/-- `basic.handcode.scala:604` (`f_butfirstn`). -/
def butfirstn (n : Int) (l : List α) : Res (List α) := butsubseq l 0 n
/-- `basic.handcode.scala:608` (`f_butnth`). -/
def butnth (n : Int) (l : List α) : Res (List α) := butsubseq l n (wrap (n + 1))

/-! ## Bags and multisets -/

/-- `basic.handcode.scala:734` (`f_equal` of `I_BAG`): equality of Scala lists. -/
def bagEqual (eq : α → α → Bool) : List α → List α → Bool
  | [], [] => true
  | x :: l, y :: m => eq x y && bagEqual eq l m
  | _, _ => false

/-- `basic.handcode.scala:752, 782-784` (`f_append`, `f_combine` of `I_BAG`). -/
def bagCombine (l1 l2 : List α) : List α := l1 ++ l2

/-- `basic.handcode.scala:976-982` (`f_count`). -/
def count (eq : α → α → Bool) (v : α) : List α → Nat
  | x :: r => (if eq v x then 1 else 0) + count eq v r
  | [] => 0

/-- `basic.handcode.scala:967-973` (`f_less_equal`). -/
def msLessEqual (eq : α → α → Bool) : List α → List α → Bool
  | [], _ => true
  | x :: r, l2 => decide (count eq x (x :: r) ≤ count eq x l2) && msLessEqual eq r l2

/-- `basic.handcode.scala:960-961` (`f_equal` of `M_MULTISET`). -/
def msEqual (eq : α → α → Bool) (l1 l2 : List α) : Bool :=
  msLessEqual eq l1 l2 && msLessEqual eq l2 l1

/-- `basic.handcode.scala:964-965` (`f_less`). -/
def msLess (eq : α → α → Bool) (l1 l2 : List α) : Bool :=
  msLessEqual eq l1 l2 && !msLessEqual eq l2 l1

/-- `basic.handcode.scala:985-993` (`f_union`). -/
def msUnion (eq : α → α → Bool) : List α → List α → List α
  | x :: r, l2 =>
    let rp := msUnion eq r l2
    if count eq x r ≥ count eq x l2 then x :: rp else rp
  | [], l2 => l2

/-- `basic.handcode.scala:996-1004` (`f_intersect`). -/
def msIntersect (eq : α → α → Bool) : List α → List α → List α
  | x :: r, l2 =>
    let rp := msIntersect eq r l2
    if count eq x r < count eq x l2 then x :: rp else rp
  | [], _ => []

/-- `basic.handcode.scala:1007-1015` (`f_difference`). -/
def msDifference (eq : α → α → Bool) : List α → List α → List α
  | x :: r, l2 =>
    let rp := msDifference eq r l2
    if count eq x r ≥ count eq x l2 then x :: rp else rp
  | [], _ => []

/-! ## Sequences -/

/-- `basic.handcode.scala:632, 674, 691` (`size`), cached in each `append` node. -/
def seqSize : Coll.Coll α → Int
  | .append a b => seqSize a + seqSize b
  | .single _ => 1
  | .none => 0

/-- `basic.handcode.scala:633-635, 675-676, 692-693` (`nth`). -/
def seqNth (i : Int) : Coll.Coll α → Res α
  | .append a b => if i < seqSize a then seqNth i a else seqNth (i - seqSize a) b
  | .single x => if i = 0 then .ok x else .stop
  | .none => .stop

/-- `basic.handcode.scala:646-650` (`toList`). -/
def seqToList : Coll.Coll α → List α
  | .append a b => seqToList a ++ seqToList b
  | .single x => [x]
  | .none => []

/-- `basic.handcode.scala:659-660` (`f_nth_from_end`). -/
def seqNthFromEnd (i : Int) (l : Coll.Coll α) : Res α := at' (seqToList l).reverse i
/-- `basic.handcode.scala:662-663` (`f_position`). -/
def seqPosition (eq : α → α → Bool) (x : α) (l : Coll.Coll α) : Int := indexOf (eq x) (seqToList l)
/-- `basic.handcode.scala:665-666` (`f_position_from_end`). -/
def seqPositionFromEnd (eq : α → α → Bool) (x : α) (l : Coll.Coll α) : Int :=
  indexOf (eq x) (seqToList l).reverse
/-- `basic.handcode.scala:668-669` (`f_member`). -/
def seqMember (eq : α → α → Bool) (x : α) (l : Coll.Coll α) : Bool := (seqToList l).any (eq x)

/-! ## Strings -/

/-- `String.substring(s, f)`. -/
def substring (l : List α) (s f : Int) : Res (List α) :=
  if s < 0 ∨ f > l.length ∨ s > f then .stop
  else .ok ((l.drop s.toNat).take (f.toNat - s.toNat))

/-- `String.indexOf(String)`: the first place where `p` occurs in `l`. -/
def indexOfString [BEq α] (p : List α) : List α → Nat → Int
  | [], i => if p.isEmpty then i else -1
  | x :: l, i => if p.isPrefixOf (x :: l) then i else indexOfString p l (i + 1)

/-- `basic.handcode.scala:1316-1317` (`f_member` of `M_STRING`). -/
def strMember (eq : α → α → Bool) (x : α) (l : List α) : Bool := decide (indexOf (eq x) l ≠ -1)
/-- `basic.handcode.scala:1351` (`f_nth`). -/
def strNth (i : Int) (l : List α) : Res α := at' l i
/-- `basic.handcode.scala:1353-1354` (`f_nth_from_end`). -/
def strNthFromEnd (i : Int) (l : List α) : Res α := at' l (wrap (l.length - 1 - i))
/-- `basic.handcode.scala:1356-1357` (`f_position`): searches the string for itself. -/
def strPosition [BEq α] (_x : α) (l : List α) : Int := indexOfString l l 0
/-- `basic.handcode.scala:1359-1360` (`f_position_from_end`). -/
def strPositionFromEnd [BEq α] (_x : α) (l : List α) : Int := indexOfString l l.reverse 0
/-- `basic.handcode.scala:1362-1363` (`f_subseq`). -/
def strSubseq (l : List α) (s f : Int) : Res (List α) := substring l s f
/-- `basic.handcode.scala:1368-1369` (`f_butsubseq`); `substring(f)` runs to the end. -/
def strButsubseq (l : List α) (s f : Int) : Res (List α) := do
  let a ← substring l 0 s
  let b ← substring l f l.length
  .ok (a ++ b)

/-! ## Tuple lattices -/

/-- `basic.handcode.scala:1444-1459` (`f_combine` of `M_TUPLE_LATTICE`) over Scala lists.  The fuel
bounds the recursion. -/
def tupleCombine (join : α → α → α) : Nat → List α → List α → Res (List α)
  | 0, _, _ => .nofuel
  | fuel + 1, t1, t2 =>
    match view t1 with
    | .none => .ok t2
    | .single x =>
      match view t2 with
      | .none => .ok t1
      | .single y => .ok [join x y]
      | .append ly1 ly2 => do
          let a ← tupleCombine join fuel t1 ly1
          .ok (a ++ ly2)
    | .append lx1 lx2 =>
      match view t2 with
      | .none => .ok t1
      | .single _ => do
          let a ← tupleCombine join fuel lx1 t2
          .ok (a ++ lx2)
      | .append ly1 ly2 => do
          let a ← tupleCombine join fuel lx1 ly1
          let b ← tupleCombine join fuel lx2 ly2
          .ok (a ++ b)

/-- `basic.handcode.scala:1461-1476` (`f_meet`). -/
def tupleMeet (meet : α → α → α) : Nat → List α → List α → Res (List α)
  | 0, _, _ => .nofuel
  | fuel + 1, t1, t2 =>
    match view t1 with
    | .none => .ok t1
    | .single x =>
      match view t2 with
      | .none => .ok t2
      | .single y => .ok [meet x y]
      | .append ly1 _ => tupleMeet meet fuel t1 ly1
    | .append lx1 lx2 =>
      match view t2 with
      | .none => .ok t2
      | .single _ => tupleMeet meet fuel lx1 t2
      | .append ly1 ly2 => do
          let a ← tupleMeet meet fuel lx1 ly1
          let b ← tupleMeet meet fuel lx2 ly2
          .ok (a ++ b)

/-- `basic.handcode.scala:1482` (`v_compare_equal`). -/
def tupleCompareEqual (eq : α → α → Bool) (join : α → α → α) (fuel : Nat) (x y : List α) : Res Bool := do
  let c ← tupleCombine join fuel x y
  .ok (bagEqual eq c y)

/-- `basic.handcode.scala:1479` (`v_compare`). -/
def tupleCompare (eq : α → α → Bool) (join : α → α → α) (fuel : Nat) (x y : List α) : Res Bool := do
  let b ← tupleCompareEqual eq join fuel x y
  .ok (b && !bagEqual eq x y)

/-! ## Ranges -/

/-- `basic.handcode.scala:98-121` (`f__op_vv`), with wrapping arithmetic and truncating division. -/
def range : Nat → Int → Int → Res (List Int)
  | 0, _, _ => .nofuel
  | fuel + 1, x, y =>
    if x = y then .ok [x]
    else if x > y then .ok []
    else do
      let mid := Int.tdiv (wrap (x + y)) 2
      let a ← range fuel x mid
      let b ← range fuel (wrap (mid + 1)) y
      .ok (a ++ b)

end Aps.ScalaLib
