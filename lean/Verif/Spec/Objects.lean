import Verif.Model.Objects
/-! # Specification: values of files as equations -/
namespace Aps.Objects

/-- The value of an expression, where the values of files are `env`. -/
inductive Means {V : Type} (p : Prog V) (env : Nat → Nat → Option V) : Exp V → V → Prop where
  | lit (v) : Means p env (.lit v) v
  | use {f x v} : env f x = some v → Means p env (.use f x) v
  | op {o a b x y} : Means p env a x → Means p env b y → Means p env (.op o a b) (o x y)
  | call {f g v} : Means p env (p.fns f g) v → Means p env (.call f g) v

/-- All values of the file are those of their expressions. -/
def Solved {V : Type} (p : Prog V) (env : Nat → Nat → Option V) (f : Nat) : Prop :=
  ∀ m ∈ p.files f, ∃ v, env f m.1 = some v ∧ Means p env m.2 v

/-- The expression uses the value, itself or in a function that is called. -/
inductive Uses {V : Type} (p : Prog V) : Exp V → Nat → Nat → Prop where
  | use (f x) : Uses p (.use f x) f x
  | left {o a b f x} : Uses p a f x → Uses p (.op o a b) f x
  | right {o a b f x} : Uses p b f x → Uses p (.op o a b) f x
  | call {h g f x} : Uses p (p.fns h g) f x → Uses p (.call h g) f x

/-- The expression calls a function of the file, itself or in a function that is called. -/
inductive Calls {V : Type} (p : Prog V) : Exp V → Nat → Prop where
  | left {o a b f} : Calls p a f → Calls p (.op o a b) f
  | right {o a b f} : Calls p b f → Calls p (.op o a b) f
  | here (f g) : Calls p (.call f g) f
  | call {h g f} : Calls p (p.fns h g) f → Calls p (.call h g) f

/-- An expression of file `f` uses only what was `seen` in its file, and files of lower rank. -/
def Safe {V : Type} (p : Prog V) (rank : Nat → Nat) (f : Nat) (seen : List Nat) (e : Exp V) : Prop :=
  (∀ f' x, Uses p e f' x → (f' = f ∧ x ∈ seen) ∨ (rank f' < rank f ∧ x ∈ (p.files f').map (·.1))) ∧
  ∀ f', Calls p e f' → f' = f ∨ rank f' < rank f

def InOrder {V : Type} (p : Prog V) (rank : Nat → Nat) (f : Nat) : List Nat → List (Nat × Exp V) → Prop
  | _, [] => True
  | seen, m :: ms => Safe p rank f seen m.2 ∧ InOrder p rank f (m.1 :: seen) ms

/-- Files do not need each other, and values use only what comes before them in their file. -/
def Ordered {V : Type} (p : Prog V) (rank : Nat → Nat) : Prop :=
  ∀ f, InOrder p rank f [] (p.files f) ∧ ((p.files f).map (·.1)).Nodup

end Aps.Objects

namespace Aps.Objects

/-- The calls of functions in the expression come to an end. -/
inductive Finite {V : Type} (p : Prog V) : Exp V → Prop where
  | lit (v) : Finite p (.lit v)
  | use (f x) : Finite p (.use f x)
  | op {o a b} : Finite p a → Finite p b → Finite p (.op o a b)
  | call {f g} : Finite p (p.fns f g) → Finite p (.call f g)

end Aps.Objects
