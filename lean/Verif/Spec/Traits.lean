import Verif.Model.Traits
import Verif.Spec.Service
/-!
# Specification: what an instance must define

Without reference to the record: the declarations of the public classes of a type, and the members that the traits of
these classes leave abstract.
-/
namespace Aps.Traits
open Aps.Bind (Kind)
open Aps.Service

/-- `d` is declared in a public class that the type is an instance of. -/
def Declared (csigs : List Csig) (d : Decl) : Prop :=
  ∃ c ∈ csigs, c.isPublic = true ∧ d ∈ c.contents

/-- One of the traits of the instance requires the member `m` with name `n`. -/
def Requires (csigs : List Csig) (n : String) (m : Pre) : Prop :=
  ∃ d, Declared csigs d ∧ d.name = n ∧ m ∈ traitMembers d.kind

/-- The module that is instantiated defines the member itself. -/
def Has (own : List Decl) (n : String) (m : Pre) : Prop :=
  ∃ d ∈ own, d.name = n ∧ m ∈ Defines d.kind

end Aps.Traits
