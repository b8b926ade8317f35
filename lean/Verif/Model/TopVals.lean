import Verif.Model.Consts
/-!
# Top-level values in C++

`value_decl` at top level: a global variable `v_x` of the C++ file (`apscpp/dump-cpp.cc:1591-1621`).

Simplifications.  Values are of one type.  Native values (1606-1608: those without a default) count as formals.  Renamings are not
modelled.  `lit` is a number; a string is an operation on it (it is a `std::string`, which is made when the program runs).
-/
namespace Aps.TopVals
open Aps.Consts

def isLit {V : Type} (m : Member V) : Bool :=
  match m.init with
  | .lit _ => true
  | _ => false

/-- The order in which C++ initializes global variables: first those whose initializers are constants, then the others in the order of
the file; the linker gives the order of files. -/
def order {V : Type} (files : List (List (Member V))) : List (Member V) :=
  files.flatten.filter (isLit ·) ++ (files.map fun f => f.filter (! isLit ·)).flatten

/-- The start of the program.  Before it all global variables are `zero`. -/
def start {V : Type} (fns : Nat → Exp V) (zero : V) (fuel : Nat) (native : Env V) (files : List (List (Member V))) : Res (Env V) :=
  initAll fns (.ok zero) fuel native (order files)

end Aps.TopVals
