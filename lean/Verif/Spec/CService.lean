import Verif.Model.CService
/-! # Specification: the types that a type parameter has -/
namespace Aps.CService
open Aps.Bind (Kind)
open Aps.Service (Decl Sig Ty SigDecl TDef)

/-- The type is the parameter `u` with signature `s`, under whatever name. -/
inductive Stands (P : Prog) : Ty → Nat → Sig → Prop where
  | typeFormal {u s} : P.tdef u = .typeFormal s → Stands P (.use u) u s
  | phylumFormal {u s} : P.tdef u = .phylumFormal s → Stands P (.use u) u s
  | remote {t u s} : Stands P t u s → Stands P (.remote t) u s
  | priv {t u s} : Stands P t u s → Stands P (.priv t) u s
  | typeDecl {v t u s} : P.tdef v = .typeDecl t → Stands P t u s → Stands P (.use v) u s
  | phylumDecl {v t u s} : P.tdef v = .phylumDecl t → Stands P t u s → Stands P (.use v) u s
  | typeRenaming {v t u s} : P.tdef v = .renaming t → Stands P t u s → Stands P (.use v) u s

mutual
/-- What every type of a signature has: what its classes and modules declare, their parents' services, and those of what the modules
extend. -/
inductive Offers (P : Prog) : Sig → CDecl → Prop where
  | own {c C d} : P.cls c = some C → d ∈ (C : Class).contents → Offers P (.inst c) d
  | parent {c C d} : P.cls c = some C → Offers P C.parent d → Offers P (.inst c) d
  | result {c C d} : P.cls c = some C → C.isModule = true → Has P C.result d → Offers P (.inst c) d
  | sigDecl {s t d} : P.sig s = .decl t → Offers P t d → Offers P (.use s) d
  | sigRenaming {s t d} : P.sig s = .renaming t → Offers P t d → Offers P (.use s) d
  | left {s t d} : Offers P s d → Offers P (.mult s t) d
  | right {s t d} : Offers P t d → Offers P (.mult s t) d
/-- The services of a type. -/
inductive Has (P : Prog) : Ty → CDecl → Prop where
  | plain {c d} : c ∈ P.basic → Offers P (.inst c) d → Has P .noType d
  | inst {m d} : Offers P (.inst m) d → Has P (.inst m) d
  | remote {t d} : Has P t d → Has P (.remote t) d
  | priv {t d} : Has P t d → Has P (.priv t) d
  | typeDecl {u t d} : P.tdef u = .typeDecl t → Has P t d → Has P (.use u) d
  | phylumDecl {u t d} : P.tdef u = .phylumDecl t → Has P t d → Has P (.use u) d
  | typeRenaming {u t d} : P.tdef u = .renaming t → Has P t d → Has P (.use u) d
  | typeFormal {u s d} : P.tdef u = .typeFormal s → Offers P s d → Has P (.use u) d
  | phylumFormal {u s d} : P.tdef u = .phylumFormal s → Offers P s d → Has P (.use u) d
end

/-- Declarations of types. -/
def IsType : Kind → Prop
  | .typeDecl | .phylumDecl | .typeRenaming => True
  | _ => False

/-- Declarations whose name is that of a type: also parameters and modules. -/
def NamesType : Kind → Prop
  | .typeDecl | .phylumDecl | .typeRenaming | .typeFormal | .phylumFormal | .moduleDecl | .moduleRenaming => True
  | _ => False

/-- All that the signature is made of is defined, and not in terms of itself. -/
inductive SigDefined (P : Prog) : Sig → Prop where
  | none : SigDefined P .none
  | fixed : SigDefined P .fixed
  | sigDecl {s t} : P.sig s = .decl t → SigDefined P t → SigDefined P (.use s)
  | sigRenaming {s t} : P.sig s = .renaming t → SigDefined P t → SigDefined P (.use s)
  | mult {s t} : SigDefined P s → SigDefined P t → SigDefined P (.mult s t)
  | inst {c C} : P.cls c = some C → SigDefined P (C : Class).parent → SigDefined P (.inst c)

/-- The same for a type. -/
inductive TyDefined (P : Prog) : Ty → Prop where
  | noType : TyDefined P .noType
  | func : TyDefined P .func
  | inst {m} : TyDefined P (.inst m)
  | remote {t} : TyDefined P t → TyDefined P (.remote t)
  | priv {t} : TyDefined P t → TyDefined P (.priv t)
  | typeDecl {u t} : P.tdef u = .typeDecl t → TyDefined P t → TyDefined P (.use u)
  | phylumDecl {u t} : P.tdef u = .phylumDecl t → TyDefined P t → TyDefined P (.use u)
  | typeRenaming {u t} : P.tdef u = .renaming t → TyDefined P t → TyDefined P (.use u)
  | typeFormal {u s} : P.tdef u = .typeFormal s → SigDefined P s → TyDefined P (.use u)
  | phylumFormal {u s} : P.tdef u = .phylumFormal s → SigDefined P s → TyDefined P (.use u)

end Aps.CService
