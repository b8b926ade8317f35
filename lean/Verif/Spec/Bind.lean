import Verif.Model.Bind
/-!
# The scope rules of APS (specification for C58)

A *frame* is the list of declarations of one scope in program order; a *chain* is the list of the frames around a place, innermost
first.  A use stands for the last declaration of the innermost frame that declares its name.
-/
namespace Aps.Bind

abbrev Frame := List Info
abbrev Chain := List Frame

/-- The declarations that a use in a signature, a type, a pattern or an expression can stand for. -/
def signatureKinds : List Kind := [.classDecl, .classRenaming, .moduleDecl, .moduleRenaming, .signatureDecl, .signatureRenaming]
def typeKinds : List Kind := [.moduleDecl, .moduleRenaming, .typeDecl, .phylumDecl, .typeFormal, .phylumFormal, .typeRenaming]
def patternKinds : List Kind := [.patternDecl, .patternRenaming, .constructorDecl]
def valueKinds : List Kind :=
  [.constructorDecl, .attributeDecl, .functionDecl, .procedureDecl, .valueDecl, .valueRenaming, .formal]

/-- `d` is what the name `nm` stands for: some frame `f` has the declaration, none inside it has one, and none follows in
`f`. -/
def Resolves (ch : Chain) (nm ns d : Nat) : Prop :=
  ∃ inner f outer, ch = inner ++ f :: outer ∧ (∀ g ∈ inner, ∀ i ∈ g, answers nm ns i = false) ∧
    ∃ before i after, f = before ++ i :: after ∧ answers nm ns i = true ∧ i.id = d ∧ ∀ k ∈ after, answers nm ns k = false

mutual
/-- The declarations that a node adds to the scope it is in. -/
def decls : Node → Frame
  | .use _ _ _ => []
  | .qual _ _ _ _ _ => []
  | .other cs => declsL cs
  | .stmt _ => []
  | .block ds => declsL ds
  | .mtch pat rest => decls pat ++ declsL rest
  | .decl i _ => [i]
  | .cls i _ _ _ => [i]
  | .modul i _ _ _ _ _ _ _ _ => [i]
  | .func i _ _ _ => [i]
  | .poly i _ body => i :: declsL body
  | .forIn _ _ _ => []
  | .ctrl expr formal set => decls expr ++ decls formal ++ decls set
/-- Those of a list of nodes. -/
def declsL : List Node → Frame
  | [] => []
  | n :: ns => decls n ++ declsL ns
end

mutual
/-- The public declarations of a node. -/
def pubs : Node → Frame
  | .use _ _ _ => []
  | .qual _ _ _ _ _ => []
  | .other cs => pubsL cs
  | .stmt cs => pubsL cs
  | .block ds => pubsL ds
  | .mtch pat rest => pubs pat ++ pubsL rest
  | .decl i _ => if i.pub then [i] else []
  | .cls i _ _ _ => if i.pub then [i] else []
  | .modul i _ _ _ _ _ _ _ _ => if i.pub then [i] else []
  | .func i _ _ _ => if i.pub then [i] else []
  | .poly i _ body => if i.pub then i :: pubsL body else []
  | .forIn formal seq body => pubs formal ++ pubs seq ++ pubs body
  | .ctrl expr formal set => pubs expr ++ pubs formal ++ pubs set
/-- Those of a list of nodes. -/
def pubsL : List Node → Frame
  | [] => []
  | n :: ns => pubs n ++ pubsL ns
end

/-- A use and the frames around it; `from`: the name of the type for a qualified use. -/
structure UseAt where
  u : Nat
  ns : Nat
  nm : Nat
  qualifier : Option Nat
  chain : Chain

/-- What a use stands for. -/
def UseAt.Means (C : Services) (x : UseAt) (d : Nat) : Prop :=
  match x.qualifier with
  | none => Resolves x.chain x.nm x.ns d
  | some fnm => ∃ t, Resolves x.chain fnm nameType t ∧ Resolves [C.svc t] x.nm x.ns d

/-- What a module that extends the type called `nm` sees of it. -/
noncomputable def extFrame (C : Services) (ch : Chain) (nm : Nat) : Frame :=
  open Classical in if h : ∃ d, Resolves ch nm nameType d then C.ext h.choose else []

mutual
/-- All uses below a node with the frames around them.  With `full` set: everything the construct declares is visible in all its
parts.  Without: the types of formals do not see the results, and the formals of a class do not see its result type. -/
noncomputable def uses (C : Services) (full : Bool) : Node → Chain → List UseAt
  | .use u ns nm, ch => [⟨u, ns, nm, none, ch⟩]
  | .qual u ns nm fu fnm, ch => [⟨u, ns, nm, some fnm, ch⟩, ⟨fu, nameType, fnm, none, ch⟩]
  | .other cs, ch => usesL C full cs ch
  | .stmt cs, ch => usesL C full cs ch
  | .block ds, ch => usesL C full ds (declsL ds :: ch)
  | .mtch pat rest, ch => uses C full pat (decls pat :: ch) ++ usesL C full rest (decls pat :: ch)
  | .decl _ cs, ch => usesL C full cs ch
  | .cls _ fs ri rest, ch =>
    usesL C full fs (if full then [ri] :: declsL fs :: ch else declsL fs :: ch) ++
    usesL C full rest ([ri] :: declsL fs :: ch)
  | .modul _ fs parent vfs ri rsig ext rtype contents, ch =>
    let ch1 := declsL fs :: ch
    let ch2 := declsL vfs :: ch1
    let ch3 := [ri] :: ch2
    usesL C full fs ch1 ++ (usesL C full parent ch1 ++ (usesL C full vfs ch2 ++ (usesL C full rsig ch3 ++
      match ext with
      | some (u, nm) => ⟨u, nameType, nm, none, ch3⟩ :: usesL C full contents (declsL contents :: extFrame C ch3 nm :: ch3)
      | none => usesL C full rtype ch3 ++ usesL C full contents (declsL contents :: ch3))))
  | .func _ fs rs rest, ch =>
    let ch1 := declsL fs :: ch
    let ch2 := declsL rs :: ch1
    usesL C full fs (if full then ch2 else ch1) ++ (usesL C full rs ch2 ++ usesL C full rest ch2)
  | .poly _ fs body, ch =>
    usesL C full fs (declsL fs :: ch) ++ usesL C full body (declsL body :: declsL fs :: ch)
  | .forIn formal seq body, ch =>
    uses C full seq ch ++ (uses C full formal (decls formal :: ch) ++ uses C full body (decls formal :: ch))
  | .ctrl expr formal set, ch =>
    uses C full set ch ++ (uses C full formal (decls formal :: ch) ++ uses C full expr (decls formal :: ch))
/-- Those of a list of nodes. -/
noncomputable def usesL (C : Services) (full : Bool) : List Node → Chain → List UseAt
  | [], _ => []
  | n :: ns, ch => uses C full n ch ++ usesL C full ns ch
end

mutual
/-- The numbers of all uses below a node. -/
def ids : Node → List Nat
  | .use u _ _ => [u]
  | .qual u _ _ fu _ => [u, fu]
  | .other cs => idsL cs
  | .stmt cs => idsL cs
  | .block ds => idsL ds
  | .mtch pat rest => ids pat ++ idsL rest
  | .decl _ cs => idsL cs
  | .cls _ fs _ rest => idsL fs ++ idsL rest
  | .modul _ fs parent vfs _ rsig ext rtype contents =>
    idsL fs ++ (idsL parent ++ (idsL vfs ++ (idsL rsig ++
      match ext with
      | some (u, _) => u :: idsL contents
      | none => idsL rtype ++ idsL contents)))
  | .func _ fs rs rest => idsL fs ++ (idsL rs ++ idsL rest)
  | .poly _ fs body => idsL fs ++ idsL body
  | .forIn formal seq body => ids seq ++ (ids formal ++ ids body)
  | .ctrl expr formal set => ids set ++ (ids formal ++ ids expr)
/-- Those of a list of nodes. -/
def idsL : List Node → List Nat
  | [] => []
  | n :: ns => ids n ++ idsL ns
end

mutual
/-- No scope is opened below the node (formals are like that: a name with a type or a signature). -/
def flat : Node → Prop
  | .use _ _ _ => True
  | .qual _ _ _ _ _ => True
  | .other cs => flatL cs
  | .stmt cs => flatL cs
  | .decl _ cs => flatL cs
  | _ => False
/-- A list of nodes. -/
def flatL : List Node → Prop
  | [] => True
  | n :: ns => flat n ∧ flatL ns
end

mutual
/-- Formals and results of functions, and formals of classes and polymorphic scopes, open no scopes. -/
def wf : Node → Prop
  | .use _ _ _ => True
  | .qual _ _ _ _ _ => True
  | .other cs => wfL cs
  | .stmt cs => wfL cs
  | .block ds => wfL ds
  | .mtch pat rest => wf pat ∧ wfL rest
  | .decl _ cs => wfL cs
  | .cls _ fs _ rest => flatL fs ∧ wfL rest
  | .modul _ fs parent vfs _ rsig _ rtype contents => wfL fs ∧ wfL parent ∧ wfL vfs ∧ wfL rsig ∧ wfL rtype ∧ wfL contents
  | .func _ fs rs rest => flatL fs ∧ flatL rs ∧ wfL rest
  | .poly _ fs body => flatL fs ∧ wfL body
  | .forIn formal seq body => wf formal ∧ wf seq ∧ wf body
  | .ctrl expr formal set => wf expr ∧ wf formal ∧ wf set
/-- A list of nodes. -/
def wfL : List Node → Prop
  | [] => True
  | n :: ns => wf n ∧ wfL ns
end

mutual
/-- The lists of nodes whose declarations form a scope of their own. -/
def opened : Node → List (List Node)
  | .use _ _ _ => []
  | .qual _ _ _ _ _ => []
  | .other cs => openedL cs
  | .stmt cs => openedL cs
  | .block ds => ds :: openedL ds
  | .mtch pat rest => [pat] :: (opened pat ++ openedL rest)
  | .decl _ cs => openedL cs
  | .cls _ fs _ rest => fs :: (openedL fs ++ openedL rest)
  | .modul _ fs parent vfs _ rsig ext rtype contents =>
    fs :: vfs :: contents :: (openedL fs ++ (openedL parent ++ (openedL vfs ++ (openedL rsig ++
      ((match ext with | some _ => [] | none => openedL rtype) ++ openedL contents)))))
  | .func _ fs rs rest => fs :: rs :: (openedL fs ++ (openedL rs ++ openedL rest))
  | .poly _ fs body => fs :: body :: (openedL fs ++ openedL body)
  | .forIn formal seq body => [formal] :: (opened formal ++ (opened seq ++ opened body))
  | .ctrl expr formal set => [formal] :: (opened formal ++ (opened set ++ opened expr))
/-- Those of a list of nodes. -/
def openedL : List Node → List (List Node)
  | [] => []
  | n :: ns => opened n ++ openedL ns
end

/-- Those of a program. -/
def openedU : List Unit → List (List Node)
  | [] => []
  | .withU _ :: us => openedU us
  | .declU d :: us => opened d ++ openedU us

mutual
/-- None of the declarations of a node (as listed by `decls`) is in a polymorphic scope. -/
def noPoly : Node → Prop
  | .other cs => noPolyL cs
  | .block ds => noPolyL ds
  | .mtch pat rest => noPoly pat ∧ noPolyL rest
  | .poly _ _ _ => False
  | .ctrl expr formal set => noPoly expr ∧ noPoly formal ∧ noPoly set
  | .use _ _ _ | .qual _ _ _ _ _ | .stmt _ | .decl _ _ | .cls _ _ _ _ | .modul _ _ _ _ _ _ _ _ _ | .func _ _ _ _ | .forIn _ _ _ => True
/-- A list of nodes. -/
def noPolyL : List Node → Prop
  | [] => True
  | n :: ns => noPoly n ∧ noPolyL ns
end

/-- Two declarations of the same name in a common namespace. -/
def Clash (a b : Info) : Prop := ∃ nm, a.name = some nm ∧ b.name = some nm ∧ namespaces a.kind &&& namespaces b.kind ≠ 0

/-- The frame of a program: what it declares and what the programs it names with `with` export. -/
def unitFrame : List Unit → Frame
  | [] => []
  | .withU p :: us => pubsL p ++ unitFrame us
  | .declU d :: us => decls d ++ unitFrame us

/-- The uses in a program. -/
noncomputable def unitUses (C : Services) (full : Bool) : List Unit → Chain → List UseAt
  | [], _ => []
  | .withU _ :: us, ch => unitUses C full us ch
  | .declU d :: us, ch => uses C full d ch ++ unitUses C full us ch

/-- Their numbers. -/
def unitIds : List Unit → List Nat
  | [] => []
  | .withU _ :: us => unitIds us
  | .declU d :: us => ids d ++ unitIds us

end Aps.Bind
