import Verif.Model.ExprGen
/-!
# What expressions mean (specification for C94)
-/
namespace Aps.ExprGen

variable {V : Type}

/-- The value of decimal digits. -/
def decimalValue (tok : List Char) : Option Int :=
  if tok = [] ∨ tok.any (fun c => (digit c).isNone) then none
  else some (Int.ofNat (tok.foldl (fun acc c => acc * 10 + (digit c).getD 0) 0))

mutual
/-- `Means A ρ e v`: the value of `e` is `v`. -/
inductive Means (A : Alg V) (ρ : Nat → V) : Exp → V → Prop
  | int {tok n} : decimalValue tok = some n → Means A ρ (.int tok) (A.num n)
  | real {tok} : Means A ρ (.real tok) (A.real tok)
  | str {tok} : Means A ρ (.str tok) (A.str tok)
  | use {x} : Means A ρ (.use x) (ρ x)
  | call {f sq as g vs} : Means A ρ f g → MeansAll A ρ as vs → Means A ρ (.call f sq as) (A.apply g vs)
  | coll {t as cs} : Parts A ρ t as cs → Means A ρ (.coll t as) (cs.foldr (A.append t) (A.none t))
  | typed {e v} : Means A ρ e v → Means A ρ (.typed e) v
/-- The values of the actuals of a call, in the order of the text. -/
inductive MeansAll (A : Alg V) (ρ : Nat → V) : Acts → List V → Prop
  | nil : MeansAll A ρ .nil []
  | one {e v} : Means A ρ e v → MeansAll A ρ (.one e) [v]
  | app {l r a b} : MeansAll A ρ l a → MeansAll A ρ r b → MeansAll A ρ (.app l r) (a ++ b)
/-- What a collection is put together from, in the order of the text: one element each, or all of another collection. -/
inductive Parts (A : Alg V) (ρ : Nat → V) : Nat → Acts → List V → Prop
  | nil {t} : Parts A ρ t .nil []
  | elem {t e v} : Means A ρ e v → Parts A ρ t (.one e) [A.single t v]
  | all {t e u v} : Means A ρ e v → Parts A ρ t (.one (.rep e u)) [v]
  | app {t l r a b} : Parts A ρ t l a → Parts A ρ t r b → Parts A ρ t (.app l r) (a ++ b)
end

/-- Appending is associative, and nothing appended changes nothing. -/
structure Monoidal (A : Alg V) : Prop where
  assoc : ∀ t a b c, A.append t (A.append t a b) c = A.append t a (A.append t b c)
  left : ∀ t a, A.append t (A.none t) a = a
  right : ∀ t a, A.append t a (A.none t) = a

mutual
/-- Every integer literal satisfies `P`, and no function called takes a sequence of actuals. -/
def Simple (P : List Char → Prop) : Exp → Prop
  | .int tok => P tok
  | .call f sq as => Simple P f ∧ sq = 0 ∧ SimpleAll P as
  | .coll _ as => SimpleAll P as
  | .typed e => Simple P e
  | .rep e _ => Simple P e
  | _ => True
/-- All of them. -/
def SimpleAll (P : List Char → Prop) : Acts → Prop
  | .nil => True
  | .one e => Simple P e
  | .app l r => SimpleAll P l ∧ SimpleAll P r
end

/-- A literal as one usually writes it: decimal digits without `0` in front, at most `2147483647`. -/
def Usual (tok : List Char) : Prop :=
  (tok = ['0'] ∨ tok.head? ≠ some '0') ∧ ∃ n, decimalValue tok = some n ∧ n < 2 ^ 31

mutual
/-- The expressions for which code can be generated: no characters, and `e...` only in a collection, of the same type. -/
def Covered (same : Nat → Nat → Bool) : Exp → Prop
  | .int _ => True
  | .real _ => True
  | .str _ => True
  | .char _ => False
  | .use _ => True
  | .call f _ as => Covered same f ∧ CoveredAll same as
  | .coll t as => CoveredColl same t as
  | .typed e => Covered same e
  | .rep _ _ => False
  | .other => False
/-- The actuals of a call. -/
def CoveredAll (same : Nat → Nat → Bool) : Acts → Prop
  | .nil => True
  | .one e => Covered same e
  | .app l r => CoveredAll same l ∧ CoveredAll same r
/-- Those of a collection. -/
def CoveredColl (same : Nat → Nat → Bool) (t : Nat) : Acts → Prop
  | .nil => True
  | .one (.rep e u) => same u t = true ∧ Covered same e
  | .one e => Covered same e
  | .app l r => CoveredColl same t l ∧ CoveredColl same t r
end

/-- The elements a collection should have, in the order of the text: one for each expression, and all those of
a collection that is put in with `...`.  `P e v`: the value of `e` is `v`. -/
inductive Elements (elems : V → List V) (P : Exp → V → Prop) : Acts → List V → Prop
  | nil : Elements elems P .nil []
  | elem {e v} : (∀ s u, e ≠ .rep s u) → P e v → Elements elems P (.one e) [v]
  | all {e u v} : P e v → Elements elems P (.one (.rep e u)) (elems v)
  | app {l r a b} : Elements elems P l a → Elements elems P r b → Elements elems P (.app l r) (a ++ b)

end Aps.ExprGen
