import Verif.Model.Read
/-!
# What files are needed
-/
namespace Aps.Read

/-- `basic`, the files named, and those they are `with` -/
inductive Needed (W : Name → Option File) (args : List Name) : Name → Prop
  | arg {n : Name} : n ∈ args → Needed W args n
  | basic {n : Name} : n ∈ args → Needed W args Read.basic
  | with {m n : Name} {f : File} : Needed W args m → W m = some f → n ∈ f.withs → Needed W args n

/-- no directories in names -/
def Plain (W : Name → Option File) (args : List Name) : Prop :=
  (∀ n ∈ args, 47 ∉ n) ∧ ∀ m f, W m = some f → ∀ n ∈ f.withs, 47 ∉ n

end Aps.Read
