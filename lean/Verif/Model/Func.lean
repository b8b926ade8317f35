import Verif.Model.DynGen
/-!
# Functions (`KEYfunction_decl`, `implement_function_body` of the dynamic implementation)

What is compiled for a function declaration, and calls of it.  The expressions of a program may call functions: they are
given for any interpretation `Φ` of these, and `depth` unfolds it.
-/
namespace Aps.Func
open Aps.DynGen

variable {V : Type}

/-- `parse/aps-tree.aps` (`Default`): for a composite the combiner is in `Result.combine`. -/
inductive Deft (V : Type) where
  | none
  | simple (e : Ex V)
  | composite (e : Ex V)

/-- A result.  `initial`: `v_initial` of its type; `combine`: its combiner, or `v_combine` of its type. -/
structure Result (V : Type) where
  id : Nat
  col : Bool
  deft : Deft V
  initial : V
  combine : V → V → V

/-- A function declaration (sequence formals are not modelled). -/
structure Decl (V : Type) where
  formals : List Nat
  results : List (Result V)
  body : List (Stmt V)

/-- What is printed: a body (of type `C`), one expression, or nothing (native code). -/
inductive Target (V C : Type) where
  | whole (r : Result V) (body : C)
  | simple (e : Ex V)
  | native

/-- `apscpp/dump-cpp.cc:151-180, 1619-1670`, `aps2scala/dump-scala.cc:220-247, 1908-1956`, with `implement_function_body`
(`apscpp/dyn-impl.cc:655-675`, `aps2scala/dyn-impl.cc:656-672`).  The flag says whether an error is reported.  Without a
result `value_decl_direction(0)` reads through a null pointer. -/
def compile (lang : Lang) (pr : Printer V) (d : Decl V) : Res (Target V (List (Tok V)) × Bool) :=
  let err := decide (d.results.length > 1)
  if d.body.isEmpty then
    match d.results.head? with
    | some r =>
      match r.deft with
      | .simple e => .ok (.simple e, err)
      | _ => .ok (.native, err)
    | none => .ok (.native, err)
  else
    match d.results.head? with
    | some r =>
      let g := dumpBlock lang pr r.id d.body Gen.start
      .ok (.whole r g.out, err || g.err)
    | none => .ub

/-- What is printed for code with the structure that braces give it. -/
def Target.text : Target V (List (Code V)) → Target V (List (Tok V))
  | .whole r cs => .whole r (renders cs)
  | .simple e => .simple e
  | .native => .native

/-- The variables of a function: the arguments of a call. -/
def bindArgs : List Nat → List V → Env V → Env V
  | x :: xs, v :: vs, ρ => bindArgs xs vs fun y => if y = x then v else ρ y
  | _, _, ρ => ρ

/-- `dump_vd_Default` (`dump-cpp.cc`, `aps2scala/dump-scala.cc:2207-2230`) for a collection; otherwise the value returned at the end
(`dump_default_return`, `apscpp/dyn-impl.cc:325-337`). -/
def Result.start (r : Result V) (ρ : Env V) : Option V :=
  match r.deft with
  | .simple e => some (e ρ)
  | .composite e => if r.col then some (e ρ) else none
  | .none => if r.col then some r.initial else none

/-- A call.  `anode` stands for the variable of this name, which does not exist here (no attribute is assigned in a function);
`nat` is native code.  The default is evaluated with the arguments only: no local has the name of anything it uses. -/
def callTarget (W : World V) (lang : Lang) (native : Pat V → V → Env V → Option (Env V)) (anode : V)
    (nat : List V → Res V) (formals : List Nat) (t : Target V (List (Code V))) (ρ : Env V) (args : List V) : Res V :=
  let ρ1 := bindArgs formals args ρ
  match t with
  | .whole r cs =>
    (execs { W with combine := r.combine } lang native ⟨r.col, anode⟩ cs ρ1 ((r.start ρ1).getD anode)).bind
      (finish ⟨r.col, anode⟩ (r.start ρ1))
  | .simple e => .ok (e ρ1)
  | .native => nat args

/-- Interpretations of functions. -/
abbrev Interp (V : Type) := Nat → List V → V

/-- The value of a call that returns. -/
def settle (v : V) : Res V → V
  | .ok w => w
  | _ => v

/-- Calls nested to a depth less than `n`: a deeper one, or one that fails, may give anything (`bot`).  So `v` is the
value of a call if for some `n` this is `.ok v` for every `bot`. -/
def depth (call : Interp V → Nat → List V → Res V) (bot : Interp V) : Nat → Nat → List V → Res V
  | 0, _, _ => .nofuel
  | n + 1, f, args => call (fun g as => settle (bot g as) (depth call bot n g as)) f args

end Aps.Func
