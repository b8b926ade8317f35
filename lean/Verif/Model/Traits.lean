import Verif.Model.Service
/-!
# The traits of an instance, in the Scala backend (`aps2scala/dump-scala.cc:896-1103`)

`type T := M[…]` becomes `val t_T = new M_M[…](…) with C_A[…] with C_B[…] { … }`: the classes that the type is an
instance of become traits, and what these traits require is taken from the value of the base type.

Simplifications.  The canonical signatures are those that `infer_canonical_signatures` gave with
the class as its name, whether it is public, and its contents; actual parameters and the base type are their text
(`dump_CanonicalType`).  A declaration has a name and a kind; the type of a member is left out.
-/
namespace Aps.Traits
open Aps.Bind (Kind)
open Aps.Service

/-- A canonical signature; `actuals` are the texts of the actual parameters. -/
structure Csig where
  isPublic : Bool
  cls : String
  actuals : List String
  contents : List Decl

/-- `dump-scala.cc:1047-1100`: the abstract members that the trait of a class has for a declaration in its contents.
`default`: a warning and nothing. -/
def traitMembers : Kind → List Pre
  | .phylumDecl | .typeDecl | .typeRenaming => [.T, .t]
  | .valueRenaming => [.v]
  | .constructorDecl => [.p, .v]
  | .valueDecl => [.v]
  | .attributeDecl | .functionDecl => [.v]
  | .patternDecl => [.p]
  | _ => []

/-- `with C_A[T_base, …]`: the name of the class and the type arguments. -/
structure With where
  cls : String
  args : List String
  deriving DecidableEq, Repr

/-- The state of the loop: the record and what is missing (`sr`, `sv`), and the text so far. -/
structure TSt where
  st : Service.St
  withs : List With

/-- `dump-scala.cc:934-969`: one round of the loop over the signatures.  The declarations in `sv` are printed after the
loop, in order (`:974-1011`, the same `switch` as in `dump_Class_service_transfers`), here as they are found. -/
def round (P : Prog) (base : String) (s : TSt) (c : Csig) : TSt :=
  if c.isPublic = false then s
  else ⟨c.contents.foldl (step P ("t_" ++ base)) s.st,
    s.withs ++ [⟨"C_" ++ c.cls, ("T_" ++ base) :: c.actuals.map fun a => "T_" ++ a⟩]⟩

/-- `dump-scala.cc:896-1015` (`dump_TypeDecl_Traits`).  `none`: nothing is printed. -/
def traits (P : Prog) (generating : Bool) (own : List Decl) (base : String) (csigs : List Csig) :
    Option (List With × List Line) :=
  if generating then none
  else
    let s := csigs.foldl (round P base) ⟨⟨own.foldl addRec fun _ => 0, [], 0⟩, []⟩
    some (s.withs, s.st.out)

end Aps.Traits
