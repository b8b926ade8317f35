import Verif.Model.Layout
import Mathlib.Logic.Relation
/-! # Specification: which declarations a file has to contain -/
namespace Aps.Layout

/-- The token for the name of a program. -/
def quoted (n : Str) : Str := '"' :: (n ++ ['"'])

/-- The program stored as `n` says `with "m"`. -/
def Withs (progs : Str → Option Prog) (n m : Str) : Prop := ∃ p, progs n = some p ∧ .with (quoted m) ∈ p.units

/-- There is a chain of `with`s from one program to the other. -/
def Uses (progs : Str → Option Prog) : Str → Str → Prop := Relation.ReflTransGen (Withs progs)

/-- The declarations among the units of the program stored as `n`. -/
def declsOf (n : Str) (us : List Item) : List (Str × Nat) := us.filterMap fun u =>
  match u with
  | .decl d => some (n, d)
  | _ => none

/-- Those of the program `n` in a text. -/
def own (n : Str) (out : List (Str × Nat)) : List (Str × Nat) := out.filter fun x => x.1 = n

/-- All files have been generated: for every program in use there is its header, with a guard that is a macro of its own. -/
structure Installed (progs : Str → Option Prog) (files : Str → Option (List Line)) (R : Str → Prop) : Prop where
  found : ∀ n, R n → ∃ p, progs n = some p ∧ files (dotH n) = some (header n p)
  closed : ∀ n m, R n → Withs progs n m → R m
  quotes : ∀ n p t, R n → progs n = some p → .with t ∈ (p : Prog).units → ∃ m, t = quoted m
  valid : ∀ n p, R n → progs n = some p → (macroOf (guardText p.name)).isSome = true
  apart : ∀ n m p q, R n → R m → progs n = some p → progs m = some q →
    macroOf (guardText p.name) = macroOf (guardText q.name) → n = m
  finite : ∃ l : List Str, ∀ n, R n → n ∈ l

end Aps.Layout
