import Verif.Model.TopVals
import Verif.Spec.Consts
/-! # Specification: values that are in order -/
namespace Aps.TopVals
open Aps.Consts

/-- Each value uses only what is `known` and what comes before it in the file. -/
def InOrder {V : Type} (fns : Nat → Exp V) (known : Nat → Prop) : List (Member V) → Prop
  | [] => True
  | m :: ms => (∀ n, Uses fns m.init n → known n) ∧ InOrder fns (fun n => known n ∨ n = m.name) ms

/-- What is known in every file: native values, and numbers that have a name, in any file. -/
def Known {V : Type} (native : Env V) (files : List (List (Member V))) (n : Nat) : Prop :=
  (∃ v, native n = some v) ∨ ∃ f ∈ files, ∃ m ∈ f, m.name = n ∧ ∃ v, m.init = .lit v

end Aps.TopVals
