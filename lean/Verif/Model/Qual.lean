import Verif.Model.Bind
/-!
# The services of a type: what `T$x` can mean (`analyze/aps-bind.c:244-443`)

A scope (`SCOPE`) is a list of declarations, the latest first.

Simplifications.  A use is the declaration it is bound to (`none`: not bound yet).  The type environments that the
entries carry are left out, and with them the errors for duplicates within one class.  The memo `binding_temporary` of a
type is left out: a call is made with what is bound at that time.  Errors that do not stop the compiler are left out.
The public declarations of a class or module (`get_public_bindings`) are given in the order of the text.
-/
namespace Aps.Qual
open Aps.Bind (Info answers)

inductive Sig where
  | none
  | use (d : Nat)
  | fixed
  | mult (s1 s2 : Sig)
  | inst (c : Option Nat)
  deriving DecidableEq

inductive Ty where
  | noType
  | remote (t : Ty)
  | priv (t : Ty)
  | func
  | inst (m : Option Nat)
  | use (d : Option Nat)
  deriving DecidableEq

/-- What a use of a signature name is bound to. -/
inductive SigDecl where
  | decl (s : Sig)
  | «renaming» (old : Sig)
  | other

/-- What a use of a type name is bound to. -/
inductive TDef where
  | typeDecl (t : Ty)
  | phylumDecl (t : Ty)
  | formal (s : Sig)
  | «renaming» (old : Ty)
  | other

/-- A type parameter of a class or module: whether it is a phylum, whether the module extends it, and its signature. -/
structure Formal where
  phylum : Bool
  extended : Bool
  sig : Sig

/-- A class or module.  `resultIsType`: the result is a `type_decl`.  The parent signature is not read
(`aps-bind.c:277-281`, commented out). -/
structure Class where
  formals : List Formal
  parent : Sig
  resultIsType : Bool
  result : Ty
  contents : List Info

/-- `cls c = none`: a renaming.  `done c`: the module has been bound, so that the parameter it extends is marked
(`aps-bind.c:603-612`).  `moduleTYPE`, `modulePHYLUM`: the variables of these names. -/
structure Prog where
  cls : Nat → Option Class
  done : Nat → Bool
  sig : Nat → SigDecl
  tdef : Nat → TDef
  moduleTYPE : Option Nat
  modulePHYLUM : Option Nat

inductive Job where
  | inst (c : Option Nat)
  | sig (s : Sig)
  | formals (fs : List Formal)
  | result (isType : Bool) (t : Ty)
  | ty (t : Ty)

/-- The public declarations of a block added one by one (`aps-bind.c:302`). -/
def addPublic (is : List Info) (sc : List Info) : List Info := is.foldl (fun sc i => i :: sc) sc

/-- `aps-bind.c:254-306` (`inst_services`), `:308-341` (`signature_services`), `:344-438` (`type_services`; `sc` is then
empty). -/
def go (P : Prog) : Nat → Job → List Info → Res (List Info)
  | 0, _, _ => .nofuel
  | _ + 1, .inst none, _ => .ub
  | fuel + 1, .inst (some c), sc =>
    match P.cls c with
    | none => .stop     -- push_type_contour called with bad declaration
    | some C =>
      (go P fuel (.formals (if P.done c then C.formals else [])) sc).bind fun sc =>
      (go P fuel (.result C.resultIsType C.result) sc).bind fun sc =>
      .ok (addPublic C.contents sc)
  | _ + 1, .formals [], sc => .ok sc
  | fuel + 1, .formals (f :: fs), sc =>
    -- `type_formal_sig` of a `phylum_formal` is an error
    if f.extended then
      (if f.phylum then .stop else go P fuel (.sig f.sig) sc).bind (go P fuel (.formals fs))
    else go P fuel (.formals fs) sc
  | fuel + 1, .result true (.inst m), sc => go P fuel (.inst m) sc
  | _ + 1, .result _ _, sc => .ok sc
  | fuel + 1, .sig (.use d), sc =>
    match P.sig d with
    | .decl s => go P fuel (.sig s) sc
    | .renaming s => go P fuel (.sig s) sc
    | .other => .ok sc
  | fuel + 1, .sig (.inst (some c)), sc => go P fuel (.inst (some c)) sc
  | _ + 1, .sig (.inst none), _ => .stop   -- falls into the case of `mult_sig`
  | fuel + 1, .sig (.mult s1 s2), sc => (go P fuel (.sig s1) sc).bind (go P fuel (.sig s2))
  | _ + 1, .sig .fixed, sc => .ok sc
  | _ + 1, .sig .none, sc => .ok sc
  | _ + 1, .ty (.use none), sc => .ok sc
  | fuel + 1, .ty (.use (some d)), sc =>
    match P.tdef d with
    | .typeDecl .noType => go P fuel (.inst P.moduleTYPE) sc
    | .typeDecl (.inst none) => .ok sc
    | .typeDecl (.inst (some m)) => go P fuel (.inst (some m)) sc
    | .typeDecl t => go P fuel (.ty t) sc
    | .phylumDecl .noType => go P fuel (.inst P.modulePHYLUM) sc
    | .phylumDecl (.inst m) => go P fuel (.inst m) sc
    | .phylumDecl t => go P fuel (.ty t) sc
    | .renaming t => go P fuel (.ty t) sc
    | .formal s => go P fuel (.sig s) sc
    | .other => .ok sc
  | _ + 1, .ty (.inst _), sc => .ok sc
  | fuel + 1, .ty (.remote t), sc => go P fuel (.ty t) sc
  | fuel + 1, .ty (.priv t), sc => go P fuel (.ty t) sc
  | _ + 1, .ty .func, sc => .ok sc
  | _ + 1, .ty .noType, sc => .ok sc

/-- `type_services(t)`. -/
def services (P : Prog) (fuel : Nat) (t : Ty) : Res (List Info) := go P fuel (.ty t) []

end Aps.Qual
