import Verif.Model.Bind
/-!
# Service transfers of the Scala backend (`aps2scala/dump-scala.cc:462-660`)

A module that `extends` a type gets, in the generated Scala class, a member for each service of that type that it does
not declare itself.

Simplifications.  Types and signatures are those after the binder: a use is the number of the declaration it was
bound to.  `type_subst` and `sig_subst` (the actual type parameters of a use of a declaration) are the identity: a
declaration is taken together with the parameters it is used with, so that a declaration in a module that is used in
two instances has two numbers.  `get_code_name` is a function `code` of the name.  A declaration has a name and a kind.
The text of a line is its four parts.
-/
namespace Aps.Service
open Aps.Bind (Kind)

/-- A declaration in the body of a class or module. -/
structure Decl where
  name : String
  kind : Kind
  deriving DecidableEq

/-- Signatures (`aps-tree.aps`); `use` has the number of the signature declaration, `inst` that of the class. -/
inductive Sig where
  | none
  | use (d : Nat)
  | fixed
  | mult (s1 s2 : Sig)
  | inst (c : Nat)
  deriving DecidableEq, Repr

/-- Types; `use` has the number of the type declaration, `inst` that of the module. -/
inductive Ty where
  | noType
  | remote (t : Ty)
  | priv (t : Ty)
  | func
  | inst (m : Nat)
  | use (d : Nat)
  deriving DecidableEq, Repr

/-- What a use of a signature name is bound to. -/
inductive SigDecl where
  | decl (s : Sig)
  | «renaming» (old : Sig)
  | other

/-- What a use of a type name is bound to. -/
inductive TDef where
  | typeDecl (t : Ty)
  | phylumDecl (t : Ty)
  | typeFormal (s : Sig)
  | phylumFormal (s : Sig)
  | «renaming» (old : Ty)
  | other

/-- A `class_decl` or `module_decl`; `result` is the type of `module_decl_result_type`. -/
structure Class where
  name : String
  isModule : Bool
  parent : Sig
  resultIsPhylum : Bool
  result : Ty
  contents : List Decl

/-- The declarations of a program.  `cls c = none`: a renaming of a class or module.  `basic`: the declarations of
`basic.aps` in order, those with a name. -/
structure Prog where
  cls : Nat → Option Class
  sig : Nat → SigDecl
  tname : Nat → String
  tdef : Nat → TDef
  basic : List (String × Nat)
  code : String → String

/-- The prefixes of the members of a generated class: `val p_`, `val v_`, `type T_`, `val t_`. -/
inductive Pre where
  | p | v | T | t
  deriving DecidableEq, Repr

/-- A line of the generated class: `val p_n = src.p_n;` and so on. -/
structure Line where
  pre : Pre
  name : String
  src : String
  deriving DecidableEq, Repr

/-- The `ServiceRecord` (`dump-scala.cc:487-503`), a map from symbols to masks of namespaces with 0 for what is not in
it; the lines printed; the number of calls of `aps_error`. -/
structure St where
  rec_ : String → Nat
  out : List Line
  errors : Nat

/-- `dump-scala.cc:489-495` (`ServiceRecord::add`). -/
def addRec (r : String → Nat) (d : Decl) : String → Nat :=
  if Bind.namespaces d.kind = 0 then r
  else fun n => if n = d.name then r n ||| Bind.namespaces d.kind else r n

/-- `dump-scala.cc:496-501` (`ServiceRecord::missing`): `namespaces & ~(*this)[name]`. -/
def missing (r : String → Nat) (d : Decl) : Nat :=
  (Bind.namespaces d.kind) ^^^ (Bind.namespaces d.kind &&& r d.name)

/-- `dump-scala.cc:540-563`: the `switch` on the kind of a declaration that is missing. -/
def lines (n src : String) : Kind → List Line
  | .patternDecl => [⟨.p, n, src⟩]
  | .constructorDecl => [⟨.p, n, src⟩, ⟨.v, n, src⟩]
  | .valueDecl | .valueRenaming | .functionDecl | .attributeDecl => [⟨.v, n, src⟩]
  | .typeDecl | .phylumDecl | .typeRenaming => [⟨.T, n, src⟩, ⟨.t, n, src⟩]
  | _ => []

/-- `dump-scala.cc:536-564`: one round of the loop over the contents. -/
def step (P : Prog) (src : String) (st : St) (d : Decl) : St :=
  if missing st.rec_ d = 0 then st
  else { st with rec_ := addRec st.rec_ d, out := st.out ++ lines (P.code d.name) src d.kind }

/-- The three functions that call each other. -/
inductive Job where
  | cls (c : Nat)
  | sig (s : Sig)
  | ty (isPhylum : Bool) (t : Ty)
  deriving DecidableEq

/-- `dump-scala.cc:463-482` (`find_basic_decl`): the first declaration of `basic.aps` with the name. -/
def findBasic (P : Prog) (n : String) : Option Nat :=
  (P.basic.find? fun x => x.1 = n).map _root_.Prod.snd

def err (st : St) : St := { st with errors := st.errors + 1 }

/-- `dump-scala.cc:520-565` (`dump_Class_service_transfers`), `:567-605` (`dump_Signature_service_transfers`) and
`:607-680` (`dump_Type_service_transfers`).  A class that cannot be found in `basic.aps` is a NULL dereference after
the error; `some_class_decl_parent` of a renaming stops with an error. -/
def go (P : Prog) : Nat → Job → String → St → Res St
  | 0, _, _, _ => .nofuel
  | fuel + 1, .cls c, src, st =>
    match P.cls c with
    | none => .stop
    | some C =>
      (go P fuel (.sig C.parent) src st).bind fun st =>
      (if C.isModule ∧ C.name ≠ "TYPE" then go P fuel (.ty C.resultIsPhylum C.result) src st else .ok st).bind fun st =>
      .ok (C.contents.foldl (step P src) st)
  | _ + 1, .sig .none, _, st => .ok st
  | fuel + 1, .sig (.use d), src, st =>
    match P.sig d with
    | .decl s => go P fuel (.sig s) src st
    | .renaming s => (go P fuel (.sig s) src st).bind fun st => .ok (err st)   -- falls through to `default`
    | .other => .ok (err st)
  | _ + 1, .sig .fixed, _, st => .ok st
  | fuel + 1, .sig (.mult s1 s2), src, st => (go P fuel (.sig s1) src st).bind (go P fuel (.sig s2) src)
  | fuel + 1, .sig (.inst c), src, st => go P fuel (.cls c) src st
  | fuel + 1, .ty ph .noType, src, st =>
    match findBasic P (if ph then "PHYLUM" else "TYPE") with
    | none => .ub
    | some c => go P fuel (.cls c) src st
  | fuel + 1, .ty _ (.remote t), src, st => go P fuel (.ty true t) src st
  | fuel + 1, .ty ph (.priv t), src, st => go P fuel (.ty ph t) src st
  | _ + 1, .ty _ .func, _, st => .ok st
  | fuel + 1, .ty _ (.inst m), src, st => go P fuel (.cls m) src st
  | fuel + 1, .ty ph (.use d), _, st =>
    match P.tdef d with
    | .typeDecl t => go P fuel (.ty false t) ("t_" ++ P.tname d) st
    | .phylumDecl t => go P fuel (.ty true t) ("t_" ++ P.tname d) st
    | .typeFormal s => go P fuel (.sig s) ("t_" ++ P.tname d) st
    | .phylumFormal s => go P fuel (.sig s) ("t_" ++ P.tname d) st
    | .renaming t => go P fuel (.ty ph t) ("t_" ++ P.tname d) st
    | .other => .ok (err st)

/-- `dump-scala.cc:1617-1630`: the transfers of a module whose body declares `own` and which extends the use `t` of a
type whose value is written `val` (`result_typeval`). -/
def transfers (P : Prog) (fuel : Nat) (own : List Decl) (isPhylum : Bool) (t : Ty) (val : String) : Res St :=
  go P fuel (.ty isPhylum t) val ⟨own.foldl addRec fun _ => 0, [], 0⟩

end Aps.Service
