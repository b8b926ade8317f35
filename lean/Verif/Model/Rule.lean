import Verif.Model.Ast
/-!
# Parents of nodes and the parts of a rule (`analyze/aps-info.c`, `analyze/aps-ag-util.c`)

Simplifications.  A pointer to a node is the node with its address; the fields of the `info` area that are used here
are functions of the address.  `fatal_error` does not return.
-/
namespace Aps.Rule
open Aps.Ast

/-- The `parent` fields (aps-info.c:9-10), `none` being NULL. -/
abbrev Parents := Nat → Option Val

/-- aps-info.c:33-46 (`set_parent`), the callback of the traversal; it returns the node. -/
def setParent (s : Parents) (parent : Val) : Val → Res (Option Val × Parents)
  | .node a op line kids =>
    .ok (some (.node a op line kids), fun b => if b = a then some parent else s b)
  | _ => .ub

/-- aps-info.c:47-53 (`set_tnode_parent`). -/
def setTnodeParent (fuel : Nat) (s : Parents) (p : Val) : Res Parents :=
  (traverse setParent fuel .Program s p p).bind fun s =>
    match p with
    | .node a _ _ _ => .ok fun b => if b = a then none else s b
    | _ => .ub

/-- The fields of the `info` area: `parent`, `next_pattern_actual` and `use_decl`. -/
structure Info where
  parent : Parents
  nextPat : Nat → Option Val
  useDecl : Nat → Option Val

/-- Reading a field of the `info` area of a node. -/
def field (f : Nat → Option Val) : Val → Res (Option Val)
  | .node a _ _ _ => .ok (f a)
  | _ => .ub

/-- aps-ag-util.c:15-33 (`match_lhs_decl`). -/
def matchLhsDecl (m : Val) : Res (Option Val) := do
  let pat ← get .matcher_pat m
  let k ← key .Pattern pat
  if k = .pattern_call then .ok none
  else if k = .and_pattern then do
    let p1 ← get .and_pattern_p1 pat
    let k1 ← key .Pattern p1
    if k1 = .pattern_var then do
      let d ← get .pattern_var_formal p1
      .ok (some d)
    else .stop
  else .stop

/-- aps-ag-util.c:40-50 and 85-93: the pattern itself, or the second part of a conjunction. -/
def mainPattern (m : Val) : Res Val := do
  let pat ← get .matcher_pat m
  let k ← key .Pattern pat
  if k = .pattern_call then .ok pat
  else if k = .and_pattern then get .and_pattern_p2 pat
  else .stop

/-- aps-ag-util.c:39-63 (`match_constructor_use`). -/
def matchConstructorUse (m : Val) : Res Val := do
  let pat ← mainPattern m
  let k ← key .Pattern pat
  if k = .pattern_call then do
    let f ← get .pattern_call_func pat
    let kf ← key .Pattern f
    if kf = .pattern_use then get .pattern_use_use f else .stop
  else .stop

/-- aps-ag-util.c:69-78 (`match_constructor_decl`). -/
def matchConstructorDecl (I : Info) (m : Val) : Res Val := do
  let u ← matchConstructorUse m
  let d ← field I.useDecl u
  match d with
  | none => .stop
  | some d => do
    let k ← key .Declaration d
    if k = .constructor_decl then .ok d else .stop

/-- aps-bind.c (`first_PatternActual`): the first element of the sequence, or NULL. -/
def firstPatternActual : Nat → Val → Res (Option Val)
  | 0, _ => .nofuel
  | fuel + 1, l => do
    let k ← key .PatternActuals l
    if k = .list_PatternActuals then do
      let x ← get .list_PatternActuals_elem l
      .ok (some x)
    else if k = .append_PatternActuals then do
      let l1 ← get .append_PatternActuals_l1 l
      let first ← firstPatternActual fuel l1
      match first with
      | some x => .ok (some x)
      | none => do
        let l2 ← get .append_PatternActuals_l2 l
        firstPatternActual fuel l2
    else .ok none

/-- aps-ag-util.c:97-104 and 112-118: the formal of a pattern variable; NULL gives NULL. -/
def varFormal : Option Val → Res (Option Val)
  | none => .ok none
  | some pat => do
    let k ← key .Pattern pat
    if k = .pattern_var then do
      let d ← get .pattern_var_formal pat
      .ok (some d)
    else .stop

/-- aps-ag-util.c:84-107 (`match_first_rhs_decl`). -/
def matchFirstRhsDecl (fuel : Nat) (m : Val) : Res (Option Val) := do
  let pat ← mainPattern m
  let k ← key .Pattern pat
  if k = .pattern_call then do
    let as ← get .pattern_call_actuals pat
    let first ← firstPatternActual fuel as
    varFormal first
  else .stop

/-- aps-ag-util.c:109-119 (`next_rhs_decl`).  The parent is cast to `Pattern`. -/
def nextRhsDecl (I : Info) (d : Val) : Res (Option Val) := do
  let p ← field I.parent d
  match p with
  | none => .ub
  | some pat => do
    let n ← field I.nextPat pat
    varFormal n

/-- The loop `for (d = first; d != NULL; d = next_rhs_decl(d))` of the callers (aps-fiber.c:2078-2080): the
declarations it goes through. -/
def rhsLoop (I : Info) : Nat → Option Val → Res (List Val)
  | 0, _ => .nofuel
  | _ + 1, none => .ok []
  | fuel + 1, some d => do
    let n ← nextRhsDecl I d
    let ds ← rhsLoop I fuel n
    .ok (d :: ds)

def rhsDecls (I : Info) (fuel : Nat) (m : Val) : Res (List Val) := do
  let d ← matchFirstRhsDecl fuel m
  rhsLoop I fuel d

end Aps.Rule
