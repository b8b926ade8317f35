import Verif.Model.Base
/-!
# Code for expressions (`apscpp/dump-cpp.cc:2025-2156`, `aps2scala/dump-scala.cc:2232-2347`)

`dump_Expression` and `dump_collect_Actuals` of the two generators differ only in `->` and `.`, and in how a
function used as a value is checked (not modelled).  What is printed is a tree here (`TExp`): every call
is printed as `f(a,b,...)`, so that there are no precedences.

Simplifications: layout; what `dump_Use`, `implement_value_use` and `dump_Type_value` print is a variable or a type;
an `aps_error` is `none`.
-/
namespace Aps.ExprGen

/-- Which target language. -/
inductive Lang where
  | cpp | scala
  deriving DecidableEq

mutual
/-- Expressions of the source (`parse/aps-tree.aps`, phylum `Expression`).  `coll t as`: a call of `{}` whose inferred type is
`t`; `call f sq as`: `sq` is the number of formals of `f` that stand for a sequence of actuals; `rep e t`:
`e...`, where `t` is the inferred type of `e`; `other`: the remaining forms. -/
inductive Exp where
  | int (tok : List Char)
  | real (tok : List Char)
  | str (tok : List Char)
  | char (tok : List Char)
  | use (x : Nat)
  | call (f : Exp) (sq : Nat) (as : Acts)
  | coll (t : Nat) (as : Acts)
  | typed (e : Exp)
  | rep (e : Exp) (t : Nat)
  | other
/-- Actuals: the trees that `xcons_Actuals` and the others build (`parse/aps-tree.gen.xcons.h:32`). -/
inductive Acts where
  | nil
  | one (e : Exp)
  | app (l r : Acts)
end

/-- Expressions printed.  `none t`: `t.v_none()`, and so on. -/
inductive TExp where
  | lit (tok : List Char)
  | real (tok : List Char)
  | str (tok : List Char)
  | var (x : Nat)
  | call (f : TExp) (as : List TExp)
  | none (t : Nat)
  | single (t : Nat) (e : TExp)
  | append (t : Nat) (a b : TExp)

/-- The argument that is printed for each formal that stands for a sequence (`dump-cpp.cc:2110-2115`, `dump-scala.cc:2319-2324`). -/
def stopper : TExp := .lit ['0']

mutual
/-- `dump-cpp.cc:2084-2156`, `dump-scala.cc:2293-2347` (`dump_Expression`).  `same`: `base_type_equal`. -/
def dump (same : Nat → Nat → Bool) : Exp → Option TExp
  | .int tok => some (.lit tok)
  | .real tok => some (.real tok)
  | .str tok => some (.str tok)
  | .char _ => none
  | .use x => some (.var x)
  | .call f sq as => (dump same f).bind fun g => (dumpArgs same as).map fun bs => .call g (bs ++ List.replicate sq stopper)
  | .coll t as => dumpColl same t as
  | .typed e => dump same e
  | .rep _ _ => none
  | .other => none
/-- `FOR_SEQUENCE(Expression,arg,Actuals,...)`, `dump-cpp.cc:2106-2109`, `dump-scala.cc:2315-2318`. -/
def dumpArgs (same : Nat → Nat → Bool) : Acts → Option (List TExp)
  | .nil => some []
  | .one e => (dump same e).map fun t => [t]
  | .app l r => (dumpArgs same l).bind fun a => (dumpArgs same r).map fun b => a ++ b
/-- `dump-cpp.cc:2049-2082`, `dump-scala.cc:2258-2291` (`dump_collect_Actuals`). -/
def dumpColl (same : Nat → Nat → Bool) (t : Nat) : Acts → Option TExp
  | .nil => some (.none t)
  | .one e =>
    match e with
    | .rep s u => if same u t then dump same s else none
    | e => (dump same e).map fun x => .single t x
  | .app l r => (dumpColl same t l).bind fun a => (dumpColl same t r).map fun b => .append t a b
end

/-! ### What is printed means -/

/-- What the target program computes with.  `num`: an integer; `apply`: a call. -/
structure Alg (V : Type) where
  num : Int → V
  real : List Char → V
  str : List Char → V
  apply : V → List V → V
  none : Nat → V
  single : Nat → V → V
  append : Nat → V → V → V

/-- The value of a digit. -/
def digit (c : Char) : Option Nat :=
  if '0' ≤ c ∧ c ≤ '9' then some (c.toNat - '0'.toNat) else none

/-- A number in the given base, from the digits read so far. -/
def number (base : Nat) : List Char → Nat → Option Nat
  | [], acc => some acc
  | c :: cs, acc => (digit c).bind fun d => if d < base then number base cs (acc * base + d) else none

/-- What a C++ `int` gets from a literal that is too large for it (two's complement). -/
def wrap (n : Nat) : Int := (n + 2 ^ 31 : Int) % 2 ^ 32 - 2 ^ 31

/-- What an integer literal means.  C++ (lex.icon): octal if it starts with `0`; Scala: decimal, no `0` in front, and it must fit.
`none`: rejected (literals with letters are not looked at). -/
def literal (lang : Lang) (tok : List Char) : Option Int :=
  if tok = [] then .none
  else
    match lang with
    | .cpp => if tok.head? = some '0' then (number 8 tok 0).map wrap else (number 10 tok 0).map wrap
    | .scala =>
      if tok.head? = some '0' ∧ tok ≠ ['0'] then .none
      else (number 10 tok 0).bind fun n => if n < 2 ^ 31 then some (Int.ofNat n) else .none

variable {V : Type}

mutual
/-- The value of a printed expression; `none`: the compiler rejects it. -/
def eval (A : Alg V) (lang : Lang) (ρ : Nat → V) : TExp → Option V
  | .lit tok => (literal lang tok).map A.num
  | .real tok => some (A.real tok)
  | .str tok => some (A.str tok)
  | .var x => some (ρ x)
  | .call f as => (eval A lang ρ f).bind fun g => (evals A lang ρ as).map fun vs => A.apply g vs
  | .none t => some (A.none t)
  | .single t e => (eval A lang ρ e).map (A.single t)
  | .append t a b => (eval A lang ρ a).bind fun x => (eval A lang ρ b).map fun y => A.append t x y
/-- Arguments. -/
def evals (A : Alg V) (lang : Lang) (ρ : Nat → V) : List TExp → Option (List V)
  | [] => some []
  | e :: es => (eval A lang ρ e).bind fun v => (evals A lang ρ es).map fun vs => v :: vs
end

end Aps.ExprGen
