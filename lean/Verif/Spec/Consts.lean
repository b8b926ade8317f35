import Verif.Model.Consts
/-! # Specification: constants are equations -/
namespace Aps.Consts

/-- The value of an expression, where names have the values `env`. -/
inductive Means {V : Type} (fns : Nat → Exp V) (env : Env V) : Exp V → V → Prop where
  | lit (v) : Means fns env (.lit v) v
  | use {n v} : env n = some v → Means fns env (.use n) v
  | op {f a b x y} : Means fns env a x → Means fns env b y → Means fns env (.op f a b) (f x y)
  | call {g v} : Means fns env (fns g) v → Means fns env (.call g) v

/-- Every member has the value of its expression, and formals have theirs. -/
def Solves {V : Type} (fns : Nat → Exp V) (formals : Env V) (ms : List (Member V)) (env : Env V) : Prop :=
  (∀ m ∈ ms, ∃ v, env m.name = some v ∧ Means fns env m.init v) ∧ ∀ n v, formals n = some v → env n = some v

/-- The expression uses the name, itself or in a function that is called. -/
inductive Uses {V : Type} (fns : Nat → Exp V) : Exp V → Nat → Prop where
  | use (n) : Uses fns (.use n) n
  | left {f a b n} : Uses fns a n → Uses fns (.op f a b) n
  | right {f a b n} : Uses fns b n → Uses fns (.op f a b) n
  | call {g n} : Uses fns (fns g) n → Uses fns (.call g) n

/-- Members use only formals and what comes before them. -/
def Before {V : Type} (fns : Nat → Exp V) (formals : Env V) (ms : List (Member V)) : Prop :=
  ∀ (l r : List (Member V)) m, ms = l ++ m :: r → ∀ n, Uses fns m.init n → (∃ v, formals n = some v) ∨ ∃ m' ∈ l, m'.name = n

/-- Names are different, and not those of formals. -/
def Distinct {V : Type} (formals : Env V) (ms : List (Member V)) : Prop :=
  (ms.map (·.name)).Nodup ∧ ∀ m ∈ ms, formals m.name = none

end Aps.Consts

namespace Aps.Consts

/-- The calls of functions in the expression come to an end. -/
inductive Finite {V : Type} (fns : Nat → Exp V) : Exp V → Prop where
  | lit (v) : Finite fns (.lit v)
  | use (n) : Finite fns (.use n)
  | op {f a b} : Finite fns a → Finite fns b → Finite fns (.op f a b)
  | call {g} : Finite fns (fns g) → Finite fns (.call g)

end Aps.Consts
