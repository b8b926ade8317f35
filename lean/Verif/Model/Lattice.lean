import Verif.Model.Coll

/-!
# The lattice modules of the APS library

`base/basic.aps:270-355, 636-640`, `base/flat.aps`, and the hand-written Scala counterparts
(`base/scala/basic.handcode.scala:440-530`).
-/
namespace Aps.Lattice

open Aps

/-- `basic.aps:275-303` (`COMPLETE_PARTIAL_ORDER`, `LATTICE`) with `COMBINABLE`: what a lattice type
offers. -/
structure Ops (L : Type _) where
  initial : L
  combine : L → L → L
  bottom : L
  compare : L → L → Bool
  compareEqual : L → L → Bool
  join : L → L → L
  meet : L → L → L

/-- `basic.aps:309-324` (`MAKE_LATTICE`), Scala `basic.handcode.scala:456-467`. -/
def makeLattice {L : Type _} (default : L) (comparef compareEqualf : L → L → Bool)
    (joinf meetf : L → L → L) : Ops L where
  initial := default
  combine := joinf
  bottom := default
  compare := comparef
  compareEqual := compareEqualf
  join := joinf
  meet := meetf

/-! ## Booleans -/

/-- `basic.aps:326` (`cand`). -/
def cand (x y : Bool) : Bool := !x && y
/-- `basic.aps:327` (`implies`). -/
def implies (x y : Bool) : Bool := !x || y
/-- `basic.aps:328` (`andc`). -/
def andc (x y : Bool) : Bool := x && !y
/-- `basic.aps:329` (`revimplies`). -/
def revimplies (x y : Bool) : Bool := x || !y

/-- `basic.aps:331` (`OrLattice`). -/
def orLattice : Ops Bool := makeLattice false cand implies or and
/-- `basic.aps:332` (`AndLattice`). -/
def andLattice : Ops Bool := makeLattice true andc revimplies and or

/-! ## Ordered types -/

/-- `basic.aps:26-35`: an ordered type's `less` and `less_equal`. -/
structure Ord (T : Type _) where
  less : T → T → Bool
  lessEqual : T → T → Bool

/-- `basic.aps:34` (`>`). -/
def Ord.greater {T : Type _} (o : Ord T) (x y : T) : Bool := o.less y x
/-- `basic.aps:35` (`>=`). -/
def Ord.greaterEqual {T : Type _} (o : Ord T) (x y : T) : Bool := o.lessEqual y x

/-- `basic.aps:335-341` (`max`). -/
def Ord.max {T : Type _} (o : Ord T) (x y : T) : T := if o.greater x y then x else y
/-- `basic.aps:342-348` (`min`). -/
def Ord.min {T : Type _} (o : Ord T) (x y : T) : T := if o.less x y then x else y

/-- `basic.aps:351-352` (`MAX_LATTICE`). -/
def maxLattice {T : Type _} (o : Ord T) (minElement : T) : Ops T :=
  makeLattice minElement o.less o.lessEqual o.max o.min
/-- `basic.aps:353-354` (`MIN_LATTICE`). -/
def minLattice {T : Type _} (o : Ord T) (maxElement : T) : Ops T :=
  makeLattice maxElement o.greater o.greaterEqual o.min o.max

/-! ## Sets -/

/-- `basic.aps:636-637` (`UNION_LATTICE`) over the C++ `SET` (`Model/Coll.lean`). -/
def unionLattice {α : Type _} (eq : α → α → Bool) : Ops (Coll.Coll α) :=
  makeLattice .none (Coll.setLess eq) (Coll.setLe eq) (Coll.union eq) (Coll.intersect eq)
/-- `basic.aps:638-639` (`INTERSECTION_LATTICE`); `>` and `>=` are the swapped `<` and `<=`. -/
def intersectionLattice {α : Type _} (eq : α → α → Bool) (univ : Coll.Coll α) :
    Ops (Coll.Coll α) :=
  makeLattice univ (fun x y => Coll.setLess eq y x) (fun x y => Coll.setLe eq y x)
    (Coll.intersect eq) (Coll.union eq)

/-! ## Flat lattices -/

/-- `flat.aps:4-6`: the constructors of a flat lattice. -/
inductive Flat (E : Type _) where
  | fbottom
  | ftop
  | normal (value : E)
  deriving DecidableEq, Repr

/-- How a runtime represents the values of a flat lattice: the constructor a value was made with,
its equality (`=`), the two constants `bottom` and `top` (`flat.aps:8-9`), and the constructor
`normal`. -/
structure Rep (N E : Type _) where
  shape : N → Flat E
  eq : N → N → Bool
  bottom : N
  top : N
  normal : E → N

variable {N E : Type _}

/-- `flat.aps:25-36` (`compare`). -/
def Rep.compare (r : Rep N E) (v1 v2 : N) : Bool :=
  match r.shape v1 with
  | .fbottom => !r.eq v2 v1
  | .normal _ => r.eq v2 r.top
  | .ftop => false

/-- `flat.aps:38-49` (`compare_equal`). -/
def Rep.compareEqual (r : Rep N E) (v1 v2 : N) : Bool :=
  match r.shape v1 with
  | .ftop => r.eq v1 v2
  | .normal _ => r.eq v1 v2 || r.eq v2 r.top
  | .fbottom => true

/-- `flat.aps:51-65` (`join`). -/
def Rep.join (r : Rep N E) (v1 v2 : N) : N :=
  match r.shape v1 with
  | .fbottom => v2
  | .normal _ => if r.eq v2 r.bottom || r.eq v2 v1 then v1 else r.top
  | .ftop => r.top

/-- `flat.aps:67-81` (`meet`). -/
def Rep.meet (r : Rep N E) (v1 v2 : N) : N :=
  match r.shape v1 with
  | .ftop => v2
  | .normal _ => if r.eq v2 r.top || r.eq v2 v1 then v1 else r.bottom
  | .fbottom => r.bottom

/-- `flat.aps:83` (`lift`). -/
def Rep.lift (r : Rep N E) (e : E) : N := r.normal e

/-- `flat.aps:99-107` (`applyf1`). -/
def Rep.applyf1 (r : Rep N E) (base : E → E) (x : N) : N :=
  match r.shape x with
  | .normal v => r.normal (base v)
  | _ => x

/-- `flat.aps:109-126` (`applyf2`). -/
def Rep.applyf2 (r : Rep N E) (base : E → E → E) (x1 x2 : N) : N :=
  match r.shape x1 with
  | .normal v1 =>
    match r.shape x2 with
    | .normal v2 => r.normal (base v1 v2)
    | _ => x2
  | _ => if r.eq x2 r.bottom then x2 else x1

/-- `flat.aps:11-23` (`string`). -/
def Rep.string (r : Rep N E) (str : E → String) (x : N) : String :=
  match r.shape x with
  | .fbottom => "BOT"
  | .ftop => "TOP"
  | .normal v => "LIFT(" ++ str v ++ ")"

/-- `flat.aps:1-2, 128-129`: the flat lattice as a lattice type. -/
def flatLattice (r : Rep N E) : Ops N where
  initial := r.bottom
  combine := r.join
  bottom := r.bottom
  compare := r.compare
  compareEqual := r.compareEqual
  join := r.join
  meet := r.meet

/-- Scala: constructors are case classes and `f_equal` is `equals`
(`base/scala/aps-impl.scala:93-94`): values are equal when built alike from `==` elements. -/
def scalaRep (eqE : E → E → Bool) : Rep (Flat E) E where
  shape := id
  eq := fun a b =>
    match a, b with
    | .fbottom, .fbottom => true
    | .ftop, .ftop => true
    | .normal x, .normal y => eqE x y
    | _, _ => false
  bottom := .fbottom
  top := .ftop
  normal := .normal

/-- C++: a value is a pointer to a node and `v_equal` is pointer equality
(`base/basic.aps:85-86`, `base/cpp/basic.handcode.h:11`).  A node is its address with its contents;
`bottom` and `top` are the nodes at addresses 0 and 1, and `addr` is the address at which the next
`normal` node is made. -/
def cppRep (E : Type _) (addr : Nat) : Rep (Nat × Flat E) E where
  shape := Prod.snd
  eq := fun a b => a.1 == b.1
  bottom := (0, .fbottom)
  top := (1, .ftop)
  normal := fun e => (addr, .normal e)

end Aps.Lattice
