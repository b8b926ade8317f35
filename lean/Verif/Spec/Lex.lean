import Verif.Model.Lex
/-!
# What a user expects of the scanner
-/
namespace Aps.Lex

/-- the text of a source file, from its pieces -/
def textOf (is : List Item) : List Nat := (is.map Item.text).flatten

/-- the texts of the tokens, a blank after each -/
def reprint (is : List Item) : List Nat := (is.filter fun i => i.tok.isSome).flatMap fun i => i.text ++ [32]

/-- letters -/
def IsLetter (c : Nat) : Prop := (65 ≤ c ∧ c ≤ 90) ∨ (97 ≤ c ∧ c ≤ 122)
/-- letters, digits and the underscore -/
def IsWord (c : Nat) : Prop := IsLetter c ∨ (48 ≤ c ∧ c ≤ 57) ∨ c = 95

instance (c : Nat) : Decidable (IsLetter c) := by unfold IsLetter; infer_instance
instance (c : Nat) : Decidable (IsWord c) := by unfold IsWord; infer_instance

/-- what is between the quotes `q` of a constant: no newline and no `q` unless a backslash is before it -/
inductive Body (q : Nat) : List Nat → Prop
  | nil : Body q []
  | plain {c : Nat} {w : List Nat} : c ≠ 10 → c ≠ 92 → c ≠ q → Body q w → Body q (c :: w)
  | escaped {c : Nat} {w : List Nat} : Body q w → Body q (92 :: c :: w)

/-- a character or string constant, or one without its end -/
def Item.Const (i : Item) : Prop := i.act = .char ∨ i.act = .badChar ∨ i.act = .string ∨ i.act = .badString

instance (i : Item) : Decidable i.Const := by unfold Item.Const; infer_instance

/-- a constant without its end -/
def Item.Unterminated (i : Item) : Prop := i.act = .badChar ∨ i.act = .badString

instance (i : Item) : Decidable i.Unterminated := by unfold Item.Unterminated; infer_instance

/-- a comment: two hyphens and more on the line, no token -/
def Item.Comment (i : Item) : Prop := i.tok = none ∧ ∃ c, i.text = 45 :: 45 :: c ∧ 10 ∉ c

/-- lines ended in a text -/
def newlines (s : List Nat) : Nat := s.count 10

/-- lines ended within constants -/
def constNewlines (is : List Item) : Nat := newlines (textOf (is.filter fun i => decide i.Const))

/-- the numbers given to the wildcards, in order -/
def wilds (is : List Item) : List Nat := is.filterMap fun i => match i.tok with
  | some (.wild n) => some n
  | _ => none

end Aps.Lex
