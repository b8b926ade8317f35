import Verif.Model.Base
/-!
# Name binding (`analyze/aps-bind.c`)

The syntax tree is reduced to what matters for binding: uses of names, declarations and the constructs that
open a scope.  Every other node is `other` (or `stmt`, a declaration without a name such as an assignment, an `if` or
a pragma).  A use has a number that identifies it, and so has a declaration.

Simplifications.  The services of a type (`type_services`, `aps-bind.c:340-440`) and the declarations that an extended
type formal brings in (`add_ext_sig`, `:155-200`) are given (`Services`), not computed.  A qualified use `T$x` has a plain
type use `T`; the memo of services in the type node (`binding_temporary`) is left out.  The missing-actuals check and
`instance_index` are left out.  `HALLOC`/`release` are left out.
-/
namespace Aps.Bind

/-- `aps-bind.h:27-30`. -/
def nameSignature : Nat := 1
def nameType : Nat := 2
def namePattern : Nat := 4
def nameValue : Nat := 8

/-- Kinds of named declarations. -/
inductive Kind where
  | classDecl | classRenaming | moduleDecl | moduleRenaming | signatureDecl | signatureRenaming
  | typeDecl | phylumDecl | typeFormal | phylumFormal | typeRenaming
  | patternDecl | patternRenaming | constructorDecl
  | attributeDecl | functionDecl | procedureDecl | valueDecl | valueRenaming | formal
  | polymorphic | inheritance
  deriving DecidableEq

/-- `aps-bind.c:9-35` (`decl_namespaces`). -/
def namespaces : Kind → Nat
  | .classDecl | .classRenaming => nameSignature
  | .moduleDecl | .moduleRenaming => nameType ||| nameSignature
  | .signatureDecl | .signatureRenaming => nameSignature
  | .typeDecl | .phylumDecl | .typeFormal | .phylumFormal | .typeRenaming => nameType
  | .patternDecl | .patternRenaming => namePattern
  | .constructorDecl => namePattern ||| nameValue
  | .attributeDecl | .functionDecl | .procedureDecl | .valueDecl | .valueRenaming | .formal => nameValue
  | .polymorphic | .inheritance => 0

/-- A declaration with a `Def`.  `name = none`: no name, or `_`. -/
structure Info where
  id : Nat
  name : Option Nat
  kind : Kind
  pub : Bool
  deriving DecidableEq

/-- Nodes of the tree. -/
inductive Node where
  /-- `type_use`, `value_use`, `sig_use`, `class_use`, `module_use` or `pattern_use` of a plain name. -/
  | use (u ns nm : Nat)
  /-- The same with a qualified name `T$x`; `fu` is the use of `T`, whose name is `fnm`. -/
  | qual (u ns nm fu fnm : Nat)
  | other (cs : List Node)
  | stmt (cs : List Node)
  | block (ds : List Node)
  | mtch (pat : Node) (rest : List Node)
  | decl (i : Info) (cs : List Node)
  | cls (i : Info) (formals : List Node) (ri : Info) (rest : List Node)
  /-- A module: type formals, parent, value formals, result type (its declaration `ri` and the nodes of its signature), the type
  it is defined as if that is a plain use, the nodes of that type otherwise, and the contents. -/
  | modul (i : Info) (formals : List Node) (parent : List Node) (vformals : List Node) (ri : Info) (rsig : List Node)
      (ext : Option (Nat × Nat)) (rtype : List Node) (contents : List Node)
  | func (i : Info) (formals returns rest : List Node)
  | poly (i : Info) (formals body : List Node)
  | forIn (formal seq body : Node)
  | ctrl (expr formal set : Node)

/-- What is not computed: the services of a type declaration, the declarations an extended type formal brings in, and the
symbol `Result`. -/
structure Services where
  svc : Nat → List Info
  ext : Nat → List Info
  result : Nat

/-- The services of a declaration, if there is one. -/
def Services.svcOf (C : Services) : Option Nat → List Info
  | some t => C.svc t
  | none => []

/-- What a declaration brings into a module that extends it, if there is one. -/
def Services.extOf (C : Services) : Option Nat → List Info
  | some t => C.ext t
  | none => []

/-- `struct env_item`; `env` is `type_env` (0: none). -/
structure Item where
  info : Info
  env : Nat
  deriving DecidableEq

/-- Errors reported. -/
inductive Err where
  | dup (d old : Nat)
  | unbound (u : Nat)
  | privateResult (u : Nat)
  deriving DecidableEq

/-- `use_decl` of the uses (latest first), the errors, and a counter for type contours. -/
structure St where
  bound : List (Nat × Nat)
  errs : List Err
  next : Nat

/-- `Use_info(u)->use_decl`. -/
def St.decl (st : St) (u : Nat) : Option Nat := (st.bound.find? fun b => b.1 == u).map (·.2)

/-- Whether a declaration answers to a name in some namespaces. -/
def answers (nm ns : Nat) (i : Info) : Bool := i.name == some nm && (namespaces i.kind &&& ns) != 0

/-- `aps-bind.c:113-147` (`add_env_item`); `cur` is `current_type_env`. -/
def addItem (cur : Nat) (i : Info) (s : List Item × St) : List Item × St :=
  match i.name with
  | none => s
  | some nm =>
    (⟨i, cur⟩ :: s.1,
      { s.2 with errs := s.2.errs ++
        ((s.1.takeWhile fun o => o.env == cur).filter fun o => answers nm (namespaces i.kind) o.info).map fun o => .dup i.id o.info.id })

mutual
/-- `aps-bind.c:486-520` (`get_bindings`). -/
def getB (cur : Nat) : Node → List Item × St → List Item × St
  | .use _ _ _, s => s
  | .qual _ _ _ _ _, s => s
  | .other cs, s => getBs cur cs s
  | .stmt _, s => s
  | .block ds, s => getBs cur ds s
  | .mtch pat rest, s => getBs cur rest (getB cur pat s)
  | .decl i _, s => addItem cur i s
  | .cls i _ _ _, s => addItem cur i s
  | .modul i _ _ _ _ _ _ _ _, s => addItem cur i s
  | .func i _ _ _, s => addItem cur i s
  | .poly i _ body, s =>
    let s := addItem cur i s
    getBs s.2.next body (s.1, { s.2 with next := s.2.next + 1 })
  | .forIn _ _ _, s => s
  | .ctrl expr formal set, s => getB cur set (getB cur formal (getB cur expr s))
/-- All nodes of a list. -/
def getBs (cur : Nat) : List Node → List Item × St → List Item × St
  | [], s => s
  | n :: ns, s => getBs cur ns (getB cur n s)
end

mutual
/-- `aps-bind.c:522-545` (`get_public_bindings`). -/
def pubB (cur : Nat) : Node → List Item × St → List Item × St
  | .use _ _ _, s => s
  | .qual _ _ _ _ _, s => s
  | .other cs, s => pubBs cur cs s
  | .stmt cs, s => pubBs cur cs s
  | .block ds, s => pubBs cur ds s
  | .mtch pat rest, s => pubBs cur rest (pubB cur pat s)
  | .decl i _, s => if i.pub then addItem cur i s else s
  | .cls i _ _ _, s => if i.pub then addItem cur i s else s
  | .modul i _ _ _ _ _ _ _ _, s => if i.pub then addItem cur i s else s
  | .func i _ _ _, s => if i.pub then addItem cur i s else s
  | .poly i _ body, s =>
    if i.pub then
      let s := addItem cur i s
      pubBs s.2.next body (s.1, { s.2 with next := s.2.next + 1 })
    else s
  | .forIn formal seq body, s => pubB cur body (pubB cur seq (pubB cur formal s))
  | .ctrl expr formal set, s => pubB cur set (pubB cur formal (pubB cur expr s))
/-- All nodes of a list. -/
def pubBs (cur : Nat) : List Node → List Item × St → List Item × St
  | [], s => s
  | n :: ns, s => pubBs cur ns (pubB cur n s)
end

/-- `aps-bind.c:445-455` (`bind_Use_by_name`). -/
def bindName (u ns nm : Nat) (sc : List Info) (st : St) : St :=
  match sc.find? (answers nm ns) with
  | some i => { st with bound := (u, i.id) :: st.bound }
  | none => st

/-- `aps-bind.c:716-725`: the check on every use. -/
def check (u : Nat) (st : St) : St :=
  match st.decl u with
  | some _ => st
  | none => { st with errs := st.errs ++ [.unbound u] }

/-- The declarations of a scope. -/
abbrev infos (sc : List Item) : List Info := sc.map (·.info)

/-- A list of declarations added with `add_env_item` in a new contour (`aps-bind.c:174-182`). -/
def addAll (cur : Nat) : List Info → List Item × St → List Item × St
  | [], s => s
  | i :: is, s => addAll cur is (addItem cur i s)

mutual
/-- `aps-bind.c:547-728` (`do_bind`, with the traversal). -/
def bindN (C : Services) (sc : List Item) : Node → St → St
  | .use u ns nm, st => check u (bindName u ns nm (infos sc) st)
  | .qual u ns nm fu fnm, st =>
    -- aps-bind.c:462-481
    let st := bindName fu nameType fnm (infos sc) st
    let st := if nm = C.result then { st with errs := st.errs ++ [.privateResult u] } else st
    let st := bindName u ns nm (C.svcOf (st.decl fu)).reverse st
    -- the check, and then the traversal of the type
    let st := check u st
    check fu (bindName fu nameType fnm (infos sc) st)
  | .other cs, st => bindNs C sc cs st
  | .stmt cs, st => bindNs C sc cs st
  | .block ds, st =>
    let r := getBs 0 ds (sc, st)
    bindNs C r.1 ds r.2
  | .mtch pat rest, st =>
    let r := getB 0 pat (sc, st)
    bindNs C r.1 rest (bindN C r.1 pat r.2)
  | .decl _ cs, st => bindNs C sc cs st
  | .cls _ fs ri rest, st =>
    let r := getBs 0 fs (sc, st)
    let st := bindNs C r.1 fs r.2
    let r := addItem 0 ri (r.1, st)
    bindNs C r.1 rest (bindNs C r.1 fs r.2)
  | .modul _ fs parent vfs ri rsig ext rtype contents, st =>
    let r := getBs 0 fs (sc, st)
    let st := bindNs C r.1 fs r.2
    let st := bindNs C r.1 parent st
    let r := getBs 0 vfs (r.1, st)
    let st := bindNs C r.1 vfs r.2
    let r := addItem 0 ri (r.1, st)
    let st := bindNs C r.1 rsig r.2
    match ext with
    | some (u, nm) =>
      let st := check u (bindName u nameType nm (infos r.1) st)
      let r := addAll st.next (C.extOf (st.decl u)) (r.1, { st with next := st.next + 1 })
      -- the contents are a block
      let r := getBs 0 contents r
      bindNs C r.1 contents r.2
    | none =>
      let st := bindNs C r.1 rtype st
      let r := getBs 0 contents (r.1, st)
      bindNs C r.1 contents r.2
  | .func _ fs rs rest, st =>
    let r := getBs 0 fs (sc, st)
    let st := bindNs C r.1 fs r.2
    let r := getBs 0 rs (r.1, st)
    let st := bindNs C r.1 rs r.2
    -- traverse_Declaration_skip: the type (again) and the rest
    bindNs C r.1 rest (bindNs C r.1 rs (bindNs C r.1 fs st))
  | .poly _ fs body, st =>
    let r := getBs 0 fs (sc, st)
    let st := bindNs C r.1 fs r.2
    let st := bindNs C r.1 fs st
    let r := getBs 0 body (r.1, st)
    bindNs C r.1 body r.2
  | .forIn formal seq body, st =>
    let st := bindN C sc seq st
    let r := getB 0 formal (sc, st)
    bindN C r.1 body (bindN C r.1 formal r.2)
  | .ctrl expr formal set, st =>
    let st := bindN C sc set st
    let r := getB 0 formal (sc, st)
    bindN C r.1 expr (bindN C r.1 formal r.2)
/-- All nodes of a list. -/
def bindNs (C : Services) (sc : List Item) : List Node → St → St
  | [], st => st
  | n :: ns, st => bindNs C sc ns (bindN C sc n st)
end

/-- A unit of a program: `with "p"` (here: the nodes of `p`), or a declaration. -/
inductive Unit where
  | withU (p : List Node)
  | declU (d : Node)

/-- `traverse_Program(get_bindings,...)`, `aps-bind.c:496-512`. -/
def getU : List Unit → List Item × St → List Item × St
  | [], s => s
  | .withU p :: us, s => getU us (pubBs 0 p s)
  | .declU d :: us, s => getU us (getB 0 d s)

/-- `traverse_Program(do_bind,...)`. -/
def bindU (C : Services) (sc : List Item) : List Unit → St → St
  | [], st => st
  | .withU _ :: us, st => bindU C sc us st
  | .declU d :: us, st => bindU C sc us (bindN C sc d st)

/-- `aps-bind.c:202-228` (`bind_Program`) for a program other than `basic`.  The traversal stops at once if the scope is
`NULL` (`aps-traverse.c:13`: the argument returned is the scope). -/
def bindProgram (C : Services) (basic : List Node) (us : List Unit) : St :=
  let r := getU us (pubBs 0 basic ([], ⟨[], [], 1⟩))
  if r.1.isEmpty then r.2 else bindU C r.1 us r.2

end Aps.Bind
