import Verif.Model.Func
import Verif.Spec.DynGen
/-! # Specification: what a function returns -/
namespace Aps.Func
open Aps.DynGen
variable {V : Type}

/-- The variables of a call: each formal is the argument at its place. -/
def argsEnv (formals : List Nat) (args : List V) (ρ : Env V) : Env V := fun y =>
  match (formals.zip args).find? (fun b => b.1 == y) with
  | some b => b.2
  | none => ρ y

/-- What the result starts from: the default given; a collection without one has the initial value of its type.  (A
combiner is given for collections only.) -/
def Result.dflt (r : Result V) (ρ : Env V) : Option V :=
  match r.col, r.deft with
  | _, .simple e => some (e ρ)
  | true, .composite e => some (e ρ)
  | true, .none => some r.initial
  | false, _ => none

/-- The value the statements of the body give to the result, when the formals are the arguments; if they give none, the
default of the result.  A collection combines all the values given with its initial value. -/
def Decl.value (W : World V) (anode : V) (d : Decl V) (ρ : Env V) (args : List V) : Res V :=
  match d.results with
  | [r] =>
    let ρ1 := argsEnv d.formals args ρ
    match DynGen.value { W with combine := r.combine } r.col (r.dflt ρ1)
        (active { W with combine := r.combine } r.id anode d.body ρ1) with
    | some v => .ok v
    | none => .stop
  | _ => .stop

/-- The default of the result is given. -/
def Result.given (r : Result V) : Bool :=
  match r.deft with
  | .none => false
  | _ => true

/-- The program says what the function returns: there is a body, or a default.  Otherwise it is left to native code. -/
def Decl.defined (d : Decl V) : Bool := !d.body.isEmpty || d.results.any Result.given

/-- What a function returns; `nat`: native code. -/
def Decl.means (W : World V) (anode : V) (nat : List V → Res V) (d : Decl V) (ρ : Env V) (args : List V) : Res V :=
  if d.defined then d.value W anode ρ args else nat args

end Aps.Func
