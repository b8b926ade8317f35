import Verif.Model.Base
/-!
# Top-level values in Scala

Every file becomes an object `FILE_implicit` whose `val`s are the values that are declared at top level
(`aps2scala/dump-scala.cc:134-170`, and `value_decl` 1862-1886).  Scala initializes an object when it is first used, and while an object
is being initialized those of its `val`s that have not been reached are null (or 0).

Simplifications.  Values are of one type, functions have no parameters, and types are not modelled.  There is one thread.
-/
namespace Aps.Objects

/-- Expressions: a value `x` of file `f`, any operation, and a function `g` of file `f`. -/
inductive Exp (V : Type) where
  | lit (v : V)
  | use (f x : Nat)
  | op (o : V → V → V) (a b : Exp V)
  | call (f g : Nat)

/-- A program: the values of each file, in order, and the bodies of functions. -/
structure Prog (V : Type) where
  files : Nat → List (Nat × Exp V)
  fns : Nat → Nat → Exp V

/-- Objects whose initialization was started, and the `val`s that were set. -/
structure St (V : Type) where
  started : List Nat
  env : Nat → Nat → Option V

def setVal {V : Type} (s : St V) (f x : Nat) (v : V) : St V :=
  { s with env := fun f' x' => if f' = f ∧ x' = x then some v else s.env f' x' }

/-- The body of an object. -/
def initVals {V : Type} (ev : St V → Exp V → Res (St V × V)) (f : Nat) : St V → List (Nat × Exp V) → Res (St V)
  | s, [] => .ok s
  | s, m :: ms => (ev s m.2).bind fun r => initVals ev f (setVal r.1 f m.1 r.2) ms

/-- The use of an object. -/
def touch {V : Type} (p : Prog V) (ev : St V → Exp V → Res (St V × V)) (s : St V) (f : Nat) : Res (St V) :=
  if f ∈ s.started then .ok s else initVals ev f { s with started := f :: s.started } (p.files f)

def eval {V : Type} (p : Prog V) (null : V) : Nat → St V → Exp V → Res (St V × V)
  | 0, _, _ => .nofuel
  | _ + 1, s, .lit v => .ok (s, v)
  | fuel + 1, s, .use f x => (touch p (eval p null fuel) s f).bind fun s' => .ok (s', (s'.env f x).getD null)
  | fuel + 1, s, .op o a b =>
    (eval p null fuel s a).bind fun r => (eval p null fuel r.1 b).bind fun q => .ok (q.1, o r.2 q.2)
  | fuel + 1, s, .call f g => (touch p (eval p null fuel) s f).bind fun s' => eval p null fuel s' (p.fns f g)

/-- A program that uses objects one after the other. -/
def touchAll {V : Type} (p : Prog V) (null : V) (fuel : Nat) : St V → List Nat → Res (St V)
  | s, [] => .ok s
  | s, f :: fs => (touch p (eval p null fuel) s f).bind fun s' => touchAll p null fuel s' fs

def empty {V : Type} : St V := ⟨[], fun _ _ => none⟩

end Aps.Objects
