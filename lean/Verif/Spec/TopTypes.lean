import Verif.Model.TopTypes
/-! # Specification: what the variables of top-level types have to point to -/
namespace Aps.TopTypes

/-- The declaration makes an object of its own. -/
def Makes : Def → Prop
  | .noType => True
  | .inst _ _ => True
  | _ => False

/-- The object at the address is what the declaration says, where the variables `t` point to the objects of the types. -/
def Denotes (heap : List Obj) (t : Nat → Option Nat) (a : Nat) : Def → Prop
  | .noType => heap[a]? = some ⟨none, []⟩
  | .same k => t k = some a
  | .inst m args => ∃ as, heap[a]? = some ⟨some m, as⟩ ∧ args.map t = as.map some
  | .renames k => t k = some a

/-- All types have objects, those that are declared; and no two declarations share an object that they make. -/
def Good (defs : Nat → Option Def) (heap : List Obj) (t : Nat → Option Nat) : Prop :=
  (∀ k d, defs k = some d → ∃ a, t k = some a ∧ Denotes heap t a d) ∧
  ∀ k k' d d' a, defs k = some d → defs k' = some d' → Makes d → Makes d' → t k = some a → t k' = some a → k = k'

/-- The names in the declaration. -/
def refs : Def → List Nat
  | .noType => []
  | .same k => [k]
  | .inst _ args => args
  | .renames k => [k]

/-- Names are those of declared types with a definition, and no type needs itself. -/
def Ranked (defs : Nat → Option Def) (rank : Nat → Nat) : Prop :=
  ∀ k d, defs k = some d → (∀ j, d ≠ .renames j) ∧
    ∀ j ∈ refs d, rank j < rank k ∧ ∃ d', defs j = some d' ∧ d' ≠ .noType

end Aps.TopTypes
