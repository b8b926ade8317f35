import Verif.Model.Service
/-!
# Specification: the services of a type

What a type offers, as a relation without any order of search: a class or module offers what it declares, what its
parent signature offers and, a module, what its result type offers.  `Names`: the type declarations named on the way.
`Defines`: the members that the generated Scala code for a declaration has.
-/
namespace Aps.Service
open Aps.Bind (Kind)

/-- `Offers P j d`: `d` is a service of the class, signature or type `j`. -/
inductive Offers (P : Prog) : Job → Decl → Prop where
  | own {c C d} : P.cls c = some C → d ∈ C.contents → Offers P (.cls c) d
  | parent {c C d} : P.cls c = some C → Offers P (.sig C.parent) d → Offers P (.cls c) d
  | result {c C d} : P.cls c = some C → C.isModule = true → Offers P (.ty C.resultIsPhylum C.result) d →
      Offers P (.cls c) d
  | sigDecl {s t d} : P.sig s = .decl t → Offers P (.sig t) d → Offers P (.sig (.use s)) d
  | sigRenaming {s t d} : P.sig s = .renaming t → Offers P (.sig t) d → Offers P (.sig (.use s)) d
  | left {s t d} : Offers P (.sig s) d → Offers P (.sig (.mult s t)) d
  | right {s t d} : Offers P (.sig t) d → Offers P (.sig (.mult s t)) d
  | sigInst {c d} : Offers P (.cls c) d → Offers P (.sig (.inst c)) d
  | plainType {c d} : findBasic P "TYPE" = some c → Offers P (.cls c) d → Offers P (.ty false .noType) d
  | plainPhylum {c d} : findBasic P "PHYLUM" = some c → Offers P (.cls c) d → Offers P (.ty true .noType) d
  | remote {b t d} : Offers P (.ty true t) d → Offers P (.ty b (.remote t)) d
  | priv {b t d} : Offers P (.ty b t) d → Offers P (.ty b (.priv t)) d
  | inst {b m d} : Offers P (.cls m) d → Offers P (.ty b (.inst m)) d
  | typeDecl {b u t d} : P.tdef u = .typeDecl t → Offers P (.ty false t) d → Offers P (.ty b (.use u)) d
  | phylumDecl {b u t d} : P.tdef u = .phylumDecl t → Offers P (.ty true t) d → Offers P (.ty b (.use u)) d
  | typeFormal {b u s d} : P.tdef u = .typeFormal s → Offers P (.sig s) d → Offers P (.ty b (.use u)) d
  | phylumFormal {b u s d} : P.tdef u = .phylumFormal s → Offers P (.sig s) d → Offers P (.ty b (.use u)) d
  | typeRenaming {b u t d} : P.tdef u = .renaming t → Offers P (.ty b t) d → Offers P (.ty b (.use u)) d

/-- `Names P j u`: the type declaration or parameter `u` is named in the type, in the definition of one that is named
there, or in the result type of a module that is, and so on. -/
inductive Names (P : Prog) : Job → Nat → Prop where
  | self {b u} : Names P (.ty b (.use u)) u
  | typeDecl {b u t v} : P.tdef u = .typeDecl t → Names P (.ty false t) v → Names P (.ty b (.use u)) v
  | phylumDecl {b u t v} : P.tdef u = .phylumDecl t → Names P (.ty true t) v → Names P (.ty b (.use u)) v
  | typeFormal {b u s v} : P.tdef u = .typeFormal s → Names P (.sig s) v → Names P (.ty b (.use u)) v
  | phylumFormal {b u s v} : P.tdef u = .phylumFormal s → Names P (.sig s) v → Names P (.ty b (.use u)) v
  | typeRenaming {b u t v} : P.tdef u = .renaming t → Names P (.ty b t) v → Names P (.ty b (.use u)) v
  | remote {b t v} : Names P (.ty true t) v → Names P (.ty b (.remote t)) v
  | priv {b t v} : Names P (.ty b t) v → Names P (.ty b (.priv t)) v
  | inst {b m v} : Names P (.cls m) v → Names P (.ty b (.inst m)) v
  | plain {b : Bool} {c v} : findBasic P (if b then "PHYLUM" else "TYPE") = some c → Names P (.cls c) v →
      Names P (.ty b .noType) v
  | parent {c C v} : P.cls c = some C → Names P (.sig C.parent) v → Names P (.cls c) v
  | result {c C v} : P.cls c = some C → C.isModule = true → Names P (.ty C.resultIsPhylum C.result) v →
      Names P (.cls c) v
  | sigDecl {s t v} : P.sig s = .decl t → Names P (.sig t) v → Names P (.sig (.use s)) v
  | sigRenaming {s t v} : P.sig s = .renaming t → Names P (.sig t) v → Names P (.sig (.use s)) v
  | left {s t v} : Names P (.sig s) v → Names P (.sig (.mult s t)) v
  | right {s t v} : Names P (.sig t) v → Names P (.sig (.mult s t)) v
  | sigInst {c v} : Names P (.cls c) v → Names P (.sig (.inst c)) v

/-- The members a declaration has in the generated class. -/
def Defines : Kind → List Pre
  | .patternDecl | .patternRenaming => [.p]
  | .constructorDecl => [.p, .v]
  | .valueDecl | .valueRenaming | .functionDecl | .attributeDecl | .procedureDecl | .formal => [.v]
  | .typeDecl | .phylumDecl | .typeRenaming | .typeFormal | .phylumFormal => [.T, .t]
  | .moduleDecl | .moduleRenaming => [.T, .t]
  | _ => []

/-- The kinds that are transferred. -/
def Transferred : Kind → Prop
  | .patternDecl | .constructorDecl | .valueDecl | .valueRenaming | .functionDecl | .attributeDecl
  | .typeDecl | .phylumDecl | .typeRenaming => True
  | _ => False

/-- The module `TYPE` of `basic.aps` is the only module of that name, and it extends an empty module whose result is
the plain type again. -/
structure TypeOk (P : Prog) : Prop where
  type : ∀ c C, P.cls c = some C → C.isModule = true → C.name = "TYPE" → findBasic P "TYPE" = some c ∧
    ∃ m M, C.result = .inst m ∧ P.cls m = some M ∧ M.name ≠ "TYPE" ∧ M.contents = [] ∧ M.isModule = true ∧
      M.resultIsPhylum = false ∧ M.result = .noType ∧ ∀ d, ¬ Offers P (.sig M.parent) d

/-- The services of the first are defined with the services of the second.  A module called `TYPE` does not count as
an extension. -/
inductive Needs (P : Prog) : Job → Job → Prop where
  | parent {c C} : P.cls c = some C → Needs P (.cls c) (.sig C.parent)
  | result {c C} : P.cls c = some C → C.isModule = true → C.name ≠ "TYPE" →
      Needs P (.cls c) (.ty C.resultIsPhylum C.result)
  | sigDecl {s t} : P.sig s = .decl t → Needs P (.sig (.use s)) (.sig t)
  | sigRenaming {s t} : P.sig s = .renaming t → Needs P (.sig (.use s)) (.sig t)
  | left {s t} : Needs P (.sig (.mult s t)) (.sig s)
  | right {s t} : Needs P (.sig (.mult s t)) (.sig t)
  | sigInst {c} : Needs P (.sig (.inst c)) (.cls c)
  | plain {b : Bool} {c} : findBasic P (if b then "PHYLUM" else "TYPE") = some c → Needs P (.ty b .noType) (.cls c)
  | remote {b t} : Needs P (.ty b (.remote t)) (.ty true t)
  | priv {b t} : Needs P (.ty b (.priv t)) (.ty b t)
  | inst {b m} : Needs P (.ty b (.inst m)) (.cls m)
  | typeDecl {b u t} : P.tdef u = .typeDecl t → Needs P (.ty b (.use u)) (.ty false t)
  | phylumDecl {b u t} : P.tdef u = .phylumDecl t → Needs P (.ty b (.use u)) (.ty true t)
  | typeFormal {b u s} : P.tdef u = .typeFormal s → Needs P (.ty b (.use u)) (.sig s)
  | phylumFormal {b u s} : P.tdef u = .phylumFormal s → Needs P (.ty b (.use u)) (.sig s)
  | typeRenaming {b u t} : P.tdef u = .renaming t → Needs P (.ty b (.use u)) (.ty b t)

/-- The class exists; the basic module that a plain type or phylum stands for exists. -/
def Found (P : Prog) : Job → Prop
  | .cls c => P.cls c ≠ none
  | .ty b .noType => findBasic P (if b then "PHYLUM" else "TYPE") ≠ none
  | _ => True

/-- Of the declarations in `ds`, a constructor shares its name only with constructors, among values and patterns. -/
def Apart (ds : Decl → Prop) : Prop :=
  ∀ d e, ds d → ds e → d.name = e.name → d.kind = .constructorDecl → (.p ∈ Defines e.kind ∨ .v ∈ Defines e.kind) →
    e.kind = .constructorDecl

end Aps.Service
