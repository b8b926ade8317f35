import Verif.Model.SigInfer
import Mathlib.Data.List.Forall2
/-!
# The signatures of an instance

Specification for C87: replacing the formals of a module by actuals, all at once.
-/
namespace Aps.SigInfer
open Aps.CType Aps.CanonTy

/-- The declaration that the type is a use of (after the last `$`). -/
def Names (c : Ty) (d : Nat) : Prop := c = .use d ∨ ∃ s, c = .qual s d

/-- `c'` is `c`, or, if `c` is the formal number `i`, the actual number `i`. -/
inductive Replaced (fs : List Nat) (bs : List Ty) : Ty → Ty → Prop
  | formal {i f b} : fs[(i : Nat)]? = some f → bs[i]? = some b → Replaced fs bs (.use f) b
  | other {c} : (∀ f ∈ fs, ¬ Names c f) → Replaced fs bs c c

/-- The same in each actual of a signature. -/
def SigReplaced (fs : List Nat) (bs : List Ty) (s s' : Sig) : Prop :=
  s'.input = s.input ∧ s'.var = s.var ∧ s'.cls = s.cls ∧ List.Forall₂ (Replaced fs bs) s.actuals s'.actuals

/-- The types do not use any of the formals (and are not function types). -/
def Apart (fs : List Nat) (cs : List Ty) : Prop := ∀ c ∈ cs, ∀ f ∈ fs, ¬ Names c f

/-- The formals are used only as such, not after a `$`. -/
def Plain (fs : List Nat) (cs : List Ty) : Prop := ∀ c ∈ cs, ∀ f ∈ fs, ∀ s, c ≠ .qual s f

end Aps.SigInfer
