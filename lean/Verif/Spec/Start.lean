import Verif.Model.Start
/-! # Specification: what an attribute or variable is -/
namespace Aps.Start

/-- The value before anything is assigned: what the declaration says, or else what the type says. -/
def first {V : Type} (d : Decl V) : Option V :=
  match d.dflt with
  | .simple e => some e
  | .composite i _ => some i
  | .none => if d.col then some d.vInitial else if d.cir then some d.vBottom else none

/-- How the values of a collection are combined: as the declaration says, or else as the type says. -/
def joined {V : Type} (d : Decl V) : V → V → V :=
  match d.dflt with
  | .composite _ (some c) => c
  | _ => d.vCombine

/-- The value after the values `vs` were assigned, in this order. -/
def after {V : Type} (d : Decl V) (vs : List V) : Option V :=
  if d.col then (first d).map fun v => vs.foldl (joined d) v
  else match vs.getLast? with
    | some v => some v
    | none => first d

/-- The results of `get`, in a sequence of operations, after the values `sofar`.  `late`: whether a value that was read before
anything was assigned is final; then a `set` stops, as does a `get` if there is no value. -/
def watch {V : Type} (d : Decl V) (late : Bool) : List V → Bool → List (Op V) → Res (List V)
  | _, _, [] => .ok []
  | sofar, final, .set v :: ops => if final = true then .stop else watch d late (sofar ++ [v]) final ops
  | sofar, final, .get :: ops =>
    match after d sofar with
    | none => .stop
    | some v => (watch d late sofar (final || (late && sofar.isEmpty)) ops).bind fun vs => .ok (v :: vs)

end Aps.Start
