import Verif.Model.Base
/-!
# Start: the defaults of attributes and variables in generated classes

The class that both generators print for an attribute (`dump_some_attribute`), and the classes of the run-time systems that it
extends, with methods resolved by the linearization of Scala and by `virtual` in C++; and the setter of an input variable.

Simplifications.  One instance of an attribute, outside of cycles (so a circular one that is part of none).  The code of the module that is printed into the class (`compute`)
is not: values come by calls of `set`, from visit procedures or from the outside.  Expressions of defaults are values.  The trait
`StaticCircularEvaluation` is left out.  An exception (`UndefinedAttributeException`, `TooLateError`) is `stop`.
-/
namespace Aps.Start

/-- The default of a declaration; `:> i` without a combination has `no_expr` for it (`parse/aps.y:714`), that the type checker
accepts (`analyze/aps-type.c:790`).  To generate code for it is an error (`dump-scala.cc:2345`, `dump-cpp.cc:2153`). -/
inductive Dflt (V : Type) where
  | none
  | simple (e : V)
  | composite (i : V) (c : Option (V → V → V))

/-- A declaration: whether it is a local attribute (`i` is not empty), its direction, its default, and what its type provides. -/
structure Decl (V : Type) where
  loc : Bool
  col : Bool
  cir : Bool
  dflt : Dflt V
  vInitial : V
  vBottom : V
  vCombine : V → V → V
  vEqual : V → V → Bool

inductive Status where
  | uninitialized
  | unevaluated
  | evaluated
  | assigned
  deriving DecidableEq

/-- An instance. -/
structure Inst (V : Type) where
  status : Status
  value : V

/-- What is done with an instance. -/
inductive Op (V : Type) where
  | set (v : V)
  | get

/-- A sequence of operations, with the results of `get`. -/
def runOps {V : Type} (set : Inst V → V → Res (Inst V)) (get : Inst V → Res (Inst V × V)) : Inst V → List (Op V) → Res (List V)
  | _, [] => .ok []
  | s, .set v :: ops => (set s v).bind fun s => runOps set get s ops
  | s, .get :: ops => (get s).bind fun r => (runOps set get r.1 ops).bind fun vs => .ok (r.2 :: vs)

/-! ### Scala -/

/-- The class `E_name`: its traits and the methods that are printed into it. -/
structure Cls (V : Type) where
  col : Bool
  cir : Bool
  getDefault : Option V
  initial : Option V
  combine : Option (V → V → V)

/-- `aps2scala/dump-scala.cc:711-757`.  An `override` of `initial` without the trait that has it does not compile. -/
def dumpScala {V : Type} (d : Decl V) : Res (Cls V) :=
  match d.dflt with
  | .none =>
    if d.col then .ok ⟨d.col, d.cir, .none, some d.vInitial, some d.vCombine⟩
    else .ok ⟨d.col, d.cir, .none, .none, .none⟩
  | .simple e =>
    .ok ⟨d.col, d.cir, if d.loc then .none else some e, .none, if d.col then some d.vCombine else .none⟩
  | .composite _ none => .stop
  | .composite i (some c) => if d.col then .ok ⟨d.col, d.cir, .none, some i, some c⟩ else .stop

/-- `base/scala/aps-impl.scala:290-292, 458`: `getDefault` of `Evaluation`, or of `CircularEvaluation`. -/
def baseDefault {V : Type} (d : Decl V) (C : Cls V) : Res V := if C.cir then .ok d.vBottom else .stop

/-- `aps-impl.scala:359`: `initial`; the class before `CollectionEvaluation` is `CircularEvaluation`, if it is there. -/
def initialOf {V : Type} (d : Decl V) (C : Cls V) : Res V :=
  match C.initial with
  | some v => .ok v
  | none => baseDefault d C

/-- `aps-impl.scala:362-363`: `getDefault`. -/
def defaultOf {V : Type} (d : Decl V) (C : Cls V) : Res V :=
  match C.getDefault with
  | some v => .ok v
  | none => if C.col then initialOf d C else baseDefault d C

/-- `aps-impl.scala:365-370`. -/
def initStep {V : Type} (d : Decl V) (C : Cls V) (s : Inst V) : Res (Inst V) :=
  if C.col = true ∧ s.status = .uninitialized then (initialOf d C).bind fun v => .ok ⟨.unevaluated, v⟩ else .ok s

/-- `aps-impl.scala:236-262, 372-375`: `get`; not in a cycle, so that the status is `EVALUATED` after `compute`. -/
def scalaGet {V : Type} (d : Decl V) (C : Cls V) (s : Inst V) : Res (Inst V × V) :=
  (initStep d C s).bind fun s =>
    if s.status = .uninitialized ∨ s.status = .unevaluated then (defaultOf d C).bind fun v => .ok (⟨.evaluated, v⟩, v)
    else .ok (s, s.value)

/-- `aps-impl.scala:271-277`: `set` of `Evaluation`. -/
def plainSet {V : Type} (s : Inst V) (v : V) : Res (Inst V) := if s.status = .evaluated then .stop else .ok ⟨.assigned, v⟩

/-- `aps-impl.scala:504-515`: `set` of `CircularEvaluation`.  Outside of cycles `inCycle` is null, and `inCycle.helper` an exception. -/
def circSet {V : Type} (d : Decl V) (C : Cls V) (s : Inst V) (v : V) : Res (Inst V) :=
  if C.cir = true ∧ d.vEqual s.value v = false then .stop else plainSet s v

/-- `aps-impl.scala:382-385`.  A class with the trait and without `combine` does not compile. -/
def scalaSet {V : Type} (d : Decl V) (C : Cls V) (s : Inst V) (v : V) : Res (Inst V) :=
  if C.col then
    (initStep d C s).bind fun s =>
      match C.combine with
      | some c => circSet d C s (c s.value v)
      | none => .stop
  else circSet d C s v

/-- A new instance; its value is what null stands for. -/
def scalaRun {V : Type} (d : Decl V) (null : V) (ops : List (Op V)) : Res (List V) :=
  (dumpScala d).bind fun C => runOps (scalaSet d C) (scalaGet d C) ⟨.uninitialized, null⟩ ops

/-! ### C++, for collections -/

/-- `apscpp/dump-cpp.cc:963-976`: the actual for `init`. -/
def cppInit {V : Type} (d : Decl V) : V :=
  match d.dflt with
  | .simple e => e
  | .composite i _ => i
  | .none => d.vInitial

/-- `dump-cpp.cc:906-925`: `combine`. -/
def cppCombine {V : Type} (d : Decl V) : V → V → V :=
  match d.dflt with
  | .composite _ (some c) => c
  | _ => d.vCombine

/-- `dump-cpp.cc:920-945`: `combine` can be printed. -/
def cppPrints {V : Type} (d : Decl V) : Bool :=
  match d.dflt with
  | .composite _ none => false
  | _ => true

/-- `base/cpp/aps-impl.h:242-249, 388-390`: `get`. -/
def cppGet {V : Type} (d : Decl V) (s : Inst V) : Res (Inst V × V) :=
  if s.status = .uninitialized then .ok (⟨.unevaluated, cppInit d⟩, cppInit d) else .ok (s, s.value)

/-- `aps-impl.h:236-241, 383-385`: `set`. -/
def cppSet {V : Type} (d : Decl V) (s : Inst V) (v : V) : Res (Inst V) :=
  (cppGet d s).bind fun r => .ok ⟨.assigned, cppCombine d r.2 v⟩

def cppRun {V : Type} (d : Decl V) (null : V) (ops : List (Op V)) : Res (List V) :=
  if cppPrints d then runOps (cppSet d) (cppGet d) ⟨.uninitialized, null⟩ ops else .stop

/-! ### Input variables in Scala -/

/-- `dump-scala.cc:1869-1886`: what `v_name` is at first; and whether its setter can be printed. -/
def varInit {V : Type} (d : Decl V) : Res V :=
  match d.dflt with
  | .simple e => .ok e
  | .composite i none => if d.col then .stop else .ok i
  | .composite i (some _) => .ok i
  | .none => if d.col then .ok d.vInitial else .stop

/-- `dump-scala.cc:1888-1905`: `s_name`. -/
def varSet {V : Type} (d : Decl V) (now v : V) : V :=
  if d.col then
    match d.dflt with
    | .composite _ (some c) => c now v
    | _ => d.vCombine now v
  else v

/-- `v_name` after calls of `s_name`. -/
def varRun {V : Type} (d : Decl V) (vs : List V) : Res V := (varInit d).bind fun v => .ok (vs.foldl (varSet d) v)

end Aps.Start
