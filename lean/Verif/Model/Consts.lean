import Verif.Model.Base
/-!
# Constants: the order in which the members of a module get their values

The constructor of the class of a module, as both generators print it: members get their values one after the other.

Simplifications.  Members are constants, renamings of values, types and renamings of types; attributes, variables, functions and
nested modules are not (their values are computed later).  Values are of one type.  Functions have no parameters, and their bodies
are expressions.  Members that are inherited, and those from service transfers, count as formals.
-/
namespace Aps.Consts

/-- Expressions; `op` is any operation on values. -/
inductive Exp (V : Type) where
  | lit (v : V)
  | use (n : Nat)
  | op (f : V → V → V) (a b : Exp V)
  | call (g : Nat)

/-- A member: its name, whether it is a `type_decl`, `phylum_decl` or `type_renaming`, and the expression of its value. -/
structure Member (V : Type) where
  name : Nat
  isType : Bool
  init : Exp V

/-- The members so far. -/
abbrev Env (V : Type) := Nat → Option V

/-- Running the code of an expression, where `bad` is what reading a member that has no value yet does. -/
def eval {V : Type} (fns : Nat → Exp V) (bad : Res V) : Nat → Env V → Exp V → Res V
  | 0, _, _ => .nofuel
  | _ + 1, _, .lit v => .ok v
  | _ + 1, env, .use n =>
    match env n with
    | some v => .ok v
    | none => bad
  | fuel + 1, env, .op f a b =>
    (eval fns bad fuel env a).bind fun x => (eval fns bad fuel env b).bind fun y => .ok (f x y)
  | fuel + 1, env, .call g => eval fns bad fuel env (fns g)

def bindName {V : Type} (env : Env V) (n : Nat) (v : V) : Env V := fun k => if k = n then some v else env k

/-- The initializers, in order. -/
def initAll {V : Type} (fns : Nat → Exp V) (bad : Res V) (fuel : Nat) : Env V → List (Member V) → Res (Env V)
  | env, [] => .ok env
  | env, m :: ms => (eval fns bad fuel env m.init).bind fun v => initAll fns bad fuel (bindName env m.name v) ms

/-- `apscpp/dump-cpp.cc:1225-1254`: types come first.  Members are initialized in the order in which they are declared in the class,
formals first (1168-1180, 1364-1376); this is the order of both `hs` and `is`. -/
def cppOrder {V : Type} (ms : List (Member V)) : List (Member V) := ms.filter (·.isType) ++ ms.filter (! ·.isType)

/-- C++: to read a member that is not initialized is undefined. -/
def initCpp {V : Type} (fns : Nat → Exp V) (fuel : Nat) (formals : Env V) (ms : List (Member V)) : Res (Env V) :=
  initAll fns .ub fuel formals (cppOrder ms)

/-- `aps2scala/dump-scala.cc:1641-1650, 1862-1886, 1987-2004`: Scala `val`s in the order of the module, that are null (or 0) at first. -/
def initScala {V : Type} (fns : Nat → Exp V) (null : V) (fuel : Nat) (formals : Env V) (ms : List (Member V)) : Res (Env V) :=
  initAll fns (.ok null) fuel formals ms

end Aps.Consts
