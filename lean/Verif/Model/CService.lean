import Verif.Model.Service
/-!
# Service transfers of the C++ backend (`apscpp/dump-cpp.cc:565-623, 698-851, 1216-1234`)

The C++ class of a module inherits from that of the type it extends; if this is a parameter of the template, the names of
its types are not seen, and so there are typedefs for them.

Simplifications.  Types and signatures are as in `Service`: a use is the number of the declaration it was bound to, taken
together with the actual parameters of the use.  `dump_TypeEnvironment`, which prints the class around a local name, and the
type actuals of an instance are left out of the texts.
-/
namespace Aps.CService
open Aps.Bind (Kind)
open Aps.Service (Decl Sig Ty SigDecl TDef addRec missing)

/-- A declaration in the body of a class or module; `pub`: `def_is_public`. -/
structure CDecl where
  decl : Decl
  pub : Bool
  deriving DecidableEq

/-- A `class_decl` or `module_decl`; `result` is the type of `module_decl_result_type`. -/
structure Class where
  parent : Sig
  isModule : Bool
  result : Ty
  contents : List CDecl

/-- The declarations of a program.  `cls c = none`: a renaming of a class or module.  `basic`: the modules `TYPE` and `PHYLUM`
(not read by this code). -/
structure Prog where
  cls : Nat → Option Class
  cname : Nat → String
  sig : Nat → SigDecl
  tname : Nat → String
  tdef : Nat → TDef
  basic : List Nat

/-- The prefixes of the names that are defined for a type. -/
inductive Tag where
  | C | T
  deriving DecidableEq, Repr

/-- `typedef typename src::C_name C_name;` and the same with `T_`. -/
structure Typedef where
  tag : Tag
  name : String
  src : String
  deriving DecidableEq, Repr

/-- The `ServiceRecord`, the typedefs printed, the number of calls of `aps_error`. -/
structure St where
  rec_ : String → Nat
  out : List Typedef
  errors : Nat

/-- `dump-cpp.cc:770-783`: the `switch` on the kind of a declaration that is missing. -/
def typedefs (n src : String) : Kind → List Typedef
  | .typeDecl | .phylumDecl | .typeRenaming => [⟨.C, n, src⟩, ⟨.T, n, src⟩]
  | _ => []

/-- `dump-cpp.cc:763-785`: one round of the loop over the contents. -/
def step (src : String) (st : St) (d : CDecl) : St :=
  if missing st.rec_ d.decl = 0 then st
  else if d.pub = false then st
  else { st with rec_ := addRec st.rec_ d.decl, out := st.out ++ typedefs d.decl.name src d.decl.kind }

def err (st : St) : St := { st with errors := st.errors + 1 }

/-- `dump-cpp.cc:718-788` (`dump_Signature_service_transfers`); `src` is the text for `from`. -/
def goSig (P : Prog) : Nat → Sig → String → St → Res St
  | 0, _, _, _ => .nofuel
  | _ + 1, .none, _, st => .ok st
  | fuel + 1, .use d, src, st =>
    match P.sig d with
    | .decl s => goSig P fuel s src st
    | .renaming s => (goSig P fuel s src st).bind fun st => .ok (err st)   -- falls through to `default`
    | .other => .ok (err st)
  | _ + 1, .fixed, _, st => .ok st
  | fuel + 1, .mult s1 s2, src, st => (goSig P fuel s1 src st).bind (goSig P fuel s2 src)
  | fuel + 1, .inst c, src, st =>
    match P.cls c with
    | none => .stop
    | some C => (goSig P fuel C.parent src st).bind fun st => .ok (C.contents.foldl (step src) st)

/-- `dump-cpp.cc:791-851` (`dump_Type_service_transfers`).  `from` is read for a formal only, and then it is the use of it. -/
def goTy (P : Prog) : Nat → Ty → St → Res St
  | 0, _, _ => .nofuel
  | _ + 1, .noType, st => .ok st
  | fuel + 1, .remote t, st => goTy P fuel t st
  | fuel + 1, .priv t, st => goTy P fuel t st
  | _ + 1, .func, st => .ok st
  | _ + 1, .inst _, st => .ok st
  | fuel + 1, .use u, st =>
    match P.tdef u with
    | .typeDecl t => goTy P fuel t st
    | .phylumDecl t => goTy P fuel t st
    | .typeFormal s => goSig P fuel s ("C_" ++ P.tname u) st
    | .phylumFormal s => goSig P fuel s ("C_" ++ P.tname u) st
    | .renaming t => goTy P fuel t st
    | .other => .ok (err st)

/-- `dump-cpp.cc:1228-1234`: the transfers of a module whose body declares `own` and which extends the type `t`. -/
def transfers (P : Prog) (fuel : Nat) (own : List Decl) (t : Ty) : Res St :=
  goTy P fuel t ⟨own.foldl addRec fun _ => 0, [], 0⟩

/-- `dump-cpp.cc:565-623` (`dump_Type_superclass`): the class that the generated class inherits from. -/
def superclass (P : Prog) : Nat → Bool → Ty → Res String
  | 0, _, _ => .nofuel
  | _ + 1, ph, .noType => .ok (if ph then "C_PHYLUM" else "C_TYPE")
  | fuel + 1, _, .remote t => superclass P fuel false t
  | fuel + 1, ph, .priv t => superclass P fuel ph t
  | _ + 1, _, .func => .ok "Module"
  | _ + 1, _, .inst m => .ok ("C_" ++ P.cname m)
  | fuel + 1, _, .use u =>
    match P.tdef u with
    | .typeDecl t => superclass P fuel false t
    | .phylumDecl t => superclass P fuel true t
    | .typeFormal _ => .ok ("C_" ++ P.tname u)
    | .phylumFormal _ => .ok ("C_" ++ P.tname u)
    | .renaming t => superclass P fuel true t
    | .other => .ok "Module"

end Aps.CService
