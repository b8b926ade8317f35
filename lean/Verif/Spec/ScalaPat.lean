import Verif.Spec.DynGen
import Verif.Model.ScalaPat
/-!
# What C93 needs to say about patterns of the source
-/
namespace Aps.ScalaPat
open Aps.DynGen

variable {V : Type}

mutual
/-- A pattern made of variables, typed variables, constructors with one pattern for each formal, sequences (perhaps
with `...` at the end) and conjunctions of such. -/
def plain (ar : Nat → Nat) : Pat V → Prop
  | .typed _ (.var _) => True
  | .typed _ .wild => True
  | .typed _ _ => False
  | .call c ps => ps.length = ar c ∧ plainAll ar ps
  | .seq ps => plainSeq ar ps
  | .and p q => plain ar p ∧ plain ar q
  | .var _ => True
  | .wild => True
  | .cond _ => False
  | .rest => False
/-- All of them. -/
def plainAll (ar : Nat → Nat) : List (Pat V) → Prop
  | [] => True
  | p :: ps => plain ar p ∧ plainAll ar ps
/-- The patterns of a sequence. -/
def plainSeq (ar : Nat → Nat) : List (Pat V) → Prop
  | [] => True
  | [.rest] => True
  | p :: ps => plain ar p ∧ plainSeq ar ps
end

/-- A plain pattern, perhaps with one condition at the very end. -/
def Supported (ar : Nat → Nat) : Pat V → Prop
  | .and p (.cond _) => plain ar p
  | p => plain ar p

mutual
/-- No variable without a name. -/
def named : Pat V → Prop
  | .typed _ p => named p
  | .call _ ps => namedAll ps
  | .seq ps => namedAll ps
  | .and p q => named p ∧ named q
  | .wild => False
  | _ => True
/-- All of them. -/
def namedAll : List (Pat V) → Prop
  | [] => True
  | p :: ps => named p ∧ namedAll ps
end

/-- Each variable of the pattern is used under the name it is bound by, no other variable is used under that
name, and no variable is used under a name that a nameless one gets. -/
def Apart (nm : Names) (p : Pat V) : Prop :=
  (∀ x ∈ patVars p, ∀ y, nm.used y = nm.bound x ↔ y = x) ∧ ∀ y k, nm.used y ≠ numbered k

/-- A variable, with or without a name. -/
def isVar : Pat V → Prop
  | .var _ => True
  | .wild => True
  | _ => False

/-- The patterns printed: `at_ p` is what the counter is when `p` is printed. -/
def printed (W : World V) (nm : Names) (at_ : Pat V → Nat) (p : Pat V) (v : V) (ρ : Env V) : Option (Env V) :=
  match dumpP nm p false (at_ p) with
  | some r => smatchTop W nm r.1 v ρ
  | none => none

/-- What is printed for `p` is legal, and its names are kept apart. -/
def legalAt (ar : Nat → Nat) (nm : Names) (at_ : Pat V → Nat) (p : Pat V) : Prop :=
  Apart nm p ∧ ∃ s k', dumpP nm p false (at_ p) = some (s, k') ∧ Legal ar s

end Aps.ScalaPat
