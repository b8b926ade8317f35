import Verif.Model.Base
/-!
# analyze/aps-fiber.c: object sets and use sets

Before fibers are built, `fiber_module` computes for every declaration the set of objects it may hold (`oset`) and the
set of uses (field references and uses of shared variables inside rules) its value may reach (`uset`), by repeating a
traversal of the module until nothing changes.

Simplifications.
* A declaration is a number. `DECL_IS_LOCAL`, `DECL_IS_SHARED`, `DECL_IS_SYNTAX`, the formals, the result and the shared
  info attribute of a function are given by `Prog`. (Functions count as phyla, aps-dnc.c:2269-2303, so each has one.)
* `local_type_p(infer_expr_type(e))` is the flag `lt` of the expression or pattern.
* An expression in a use set is a record of what is looked up about it: its identity, `uitem_field` (1380-1388), and the
  assignment of which it is the left-hand side, if `EXPR_IS_LHS`.
* The shared info attribute of the node responsible for a place (`responsible_node_shared_info`) is passed down the
  traversal.
* Sets are lists as in the code; a list is never changed in place, so the comparison of pointers that detects a change is
  a comparison of lists. `aps_error` and `aps_warning` only print. `fatal_error` is `stop`, using a NULL pointer is `ub`.
* Types, pragmas, procedure calls and the signature part of declarations are left out: they have no expressions the
  traversal acts on (the combiner of a collection is an `expr` node).
-/
namespace Aps.Points

/-- an expression that is in use sets; aps-fiber.h:111-116 -/
structure Use where
  id : Nat
  field : Option Nat
  lhsOf : Option Nat
  deriving DecidableEq, Repr

/-- expressions, as `doOU` tells them apart (aps-fiber.c:1678-1841); `lt` is `local_type_p` of the type. -/
inductive Expr
  | const
  | other
  | rep (lt : Bool) (e : Expr)
  | use (id : Nat) (lt : Bool) (d : Nat)
  | attrRef (lt : Bool) (a : Nat)
  | fieldRef (id : Nat) (lt : Bool) (f : Nat) (w : Expr)
  | call (lt : Bool) (g : Nat) (args : List Expr)
  | prim (lt : Bool) (args : List Expr)

/-- patterns, as `doUOp` tells them apart (aps-fiber.c:1612-1663) -/
inductive Pat
  | other
  | none
  | and (lt : Bool) (p q : Pat)
  | var (lt : Bool) (d : Nat)
  | call (lt : Bool) (args : List Pat)
  | rest (lt : Bool) (p : Pat)
  | cond (e : Expr)

/-- declarations and statements; `mtch` is a match of a case statement followed by the other matches. `value` has the
flag whether it declares an object (`object_decl_p`), and its default; `rule` is a top-level match with the shared info
attributes of the phylum of its left-hand side and of its children. -/
inductive Node
  | skip
  | seq (a b : Node)
  | value (d : Nat) (isNew : Bool) (init : Option Expr)
  | attr (d : Nat) (init : Option Expr)
  | expr (e : Expr)
  | assign (d : Nat) (lhs rhs : Expr)
  | ifs (c : Expr) (t e : Node)
  | forIn (formal : Nat) (s : Expr) (body : Node)
  | cases (e : Expr) (ms dflt : Node)
  | mtch (p : Pat) (body next : Node)
  | rule (si : Nat) (kids : List Nat) (p : Pat) (body : Node)
  | func (si : Nat) (body : Node)

structure Prog where
  isLocal : Nat → Bool
  isShared : Nat → Bool
  isSyntax : Nat → Bool
  formals : Nat → List Nat
  result : Nat → Nat
  siOf : Nat → Nat
  module : Nat
  startSi : Nat
  body : Node

/-- the sets of all declarations, and the flag `done` (aps-fiber.c:1421) -/
structure St where
  O : Nat → List Nat
  U : Nat → List Use
  done : Bool

/-- aps-fiber.c:1484-1532 (`oset_union`, `uset_union`) -/
def union {α : Type} [DecidableEq α] (a b : List α) : List α :=
  if a = [] then b else b.foldl (fun a x => if x ∈ a then a else x :: a) a

/-- aps-fiber.c:1453-1479 -/
def addO (d : Nat) (os : List Nat) (st : St) : St :=
  let n := union (st.O d) os
  if n = st.O d then st else { st with O := fun x => if x = d then n else st.O x, done := false }

/-- aps-fiber.c:1426-1451 -/
def addU (d : Nat) (us : List Use) (st : St) : St :=
  let n := union (st.U d) us
  if n = st.U d then st else { st with U := fun x => if x = d then n else st.U x, done := false }

/-- aps-fiber.c:1543, 1611, 1674: the set passed in is dropped if the type is not local. -/
def cut {α : Type} (lt : Bool) (s : List α) : List α := if lt then s else []

/-- aps-fiber.c:1783-1793 — the uses `q` of one object. -/
def readUses (f : Nat) (us : List Use) : List Use → List Nat → St → List Nat × St
  | [], acc, st => (acc, st)
  | q :: qs, acc, st =>
    match q.lhsOf with
    | none => readUses f us qs acc st
    | some a =>
      if q.field = some f then
        readUses f us qs (union acc ((addU a us st).O a)) (addU a us st)
      else readUses f us qs acc st

/-- aps-fiber.c:1779-1795 -/
def readObjs (f : Nat) (us : List Use) : List Nat → List Nat → St → List Nat × St
  | [], acc, st => (acc, st)
  | o :: os, acc, st =>
    readObjs f us os (readUses f us (st.U o) acc st).1 (readUses f us (st.U o) acc st).2

/-- aps-fiber.c:1707-1721 — a shared variable used inside a rule is a use of the shared info. -/
def noteShared (P : Prog) (rsi : Option Nat) (u : Use) (d : Nat) (st : St) : St :=
  if P.isShared d then
    match rsi with
    | some r => addU r [u] st
    | none => st
  else st

/-- aps-fiber.c:1803-1813 — a call passes the shared info of the caller to the function. -/
def noteCall (P : Prog) (rsi : Option Nat) (g : Nat) (st : St) : St :=
  match rsi with
  | some r => addU r ((addO (P.siOf g) (st.O r) st).U (P.siOf g)) (addO (P.siOf g) (st.O r) st)
  | none => st

mutual
/-- aps-fiber.c:1672-1842 (`doOU`) -/
def doOU (P : Prog) (rsi : Option Nat) : Expr → List Use → St → Res (List Nat × St)
  | .const, _, st => .ok ([], st)
  | .other, _, st => .ok ([], st)
  | .rep lt e, us, st => doOU P rsi e (cut lt us) st
  | .use id lt d, us, st =>
    if P.isLocal d = false then .ok ([], st)
    else
      let st := addU d (cut lt us) (noteShared P rsi ⟨id, some d, none⟩ d st)
      .ok (st.O d, st)
  | .attrRef lt a, us, st =>
    let st := addU a (cut lt us) st
    .ok (st.O a, st)
  | .fieldRef id lt f w, us, st => do
    let r ← doOU P rsi w [⟨id, some f, none⟩] st
    .ok (readObjs f (cut lt us) r.1 [] r.2)
  | .call lt g args, us, st => do
    let st ← doActuals P rsi (P.formals g) args (noteCall P rsi g st)
    let st := addU (P.result g) (cut lt us) st
    .ok (st.O (P.result g), st)
  | .prim lt args, us, st => doPrims P rsi args (cut lt us) [] st
/-- aps-fiber.c:1816-1830 — the actuals of a local call; a missing formal is a fatal error (499-514). -/
def doActuals (P : Prog) (rsi : Option Nat) : List Nat → List Expr → St → Res St
  | _, [], st => .ok st
  | [], _ :: _, _ => .stop
  | f :: fs, a :: as, st => do
    let r ← doOU P rsi a (st.U f) st
    doActuals P rsi fs as (addO f r.1 r.2)
/-- aps-fiber.c:1832-1839 — the actuals of any other call. -/
def doPrims (P : Prog) (rsi : Option Nat) : List Expr → List Use → List Nat → St → Res (List Nat × St)
  | [], _, acc, st => .ok (acc, st)
  | a :: as, us, acc, st => do
    let r ← doOU P rsi a us st
    doPrims P rsi as us (union acc r.1) r.2
end

/-- aps-fiber.c:1542-1607 (`doUO`), for the left-hand side of the assignment `a` -/
def doUO (P : Prog) (rsi : Option Nat) (a : Nat) (os : List Nat) (st : St) : Expr → Res (List Use × St)
  | .use id lt d =>
    if P.isLocal d = false then .ok ([], st)
    else if P.isShared d then
      match rsi with
      | none => .ub
      | some r =>
        let st := addO d (cut lt os) (addU r [⟨id, some d, some a⟩] st)
        .ok (st.U d, st)
    else if P.isSyntax d then .stop
    else
      let st := addO d (cut lt os) st
      .ok (st.U d, st)
  | .attrRef lt b =>
    let st := addO b (cut lt os) st
    .ok (st.U b, st)
  | .fieldRef id _ f w => do
    let r ← doOU P rsi w [⟨id, some f, some a⟩] st
    .ok ([], r.2)
  | .call _ _ _ => .stop
  | .prim _ _ => .stop
  | .const => .ok ([], st)
  | .other => .ok ([], st)
  | .rep _ _ => .ok ([], st)

mutual
/-- aps-fiber.c:1610-1663 (`doUOp`) -/
def doUOp : Pat → List Nat → St → List Use × St
  | .other, _, st => ([], st)
  | .none, _, st => ([], st)
  | .and lt p q, os, st =>
    let r := doUOp p (cut lt os) st
    let s := doUOp q (cut lt os) r.2
    (union r.1 s.1, s.2)
  | .var lt d, os, st =>
    let st := addO d (cut lt os) st
    (st.U d, st)
  | .call lt args, os, st => doUOps args (cut lt os) [] st
  | .rest lt p, os, st => doUOp p (cut lt os) st
  | .cond _, _, st => ([], st)
/-- aps-fiber.c:1646-1648 -/
def doUOps : List Pat → List Nat → List Use → St → List Use × St
  | [], _, acc, st => (acc, st)
  | p :: ps, os, acc, st => doUOps ps os (union acc (doUOp p os st).1) (doUOp p os st).2
end

mutual
/-- the expressions the traversal finds in a pattern -/
def Pat.conds : Pat → List Expr
  | .and _ p q => p.conds ++ q.conds
  | .call _ args => Pat.condsL args
  | .rest _ p => p.conds
  | .cond e => [e]
  | .other => []
  | .none => []
  | .var _ _ => []
def Pat.condsL : List Pat → List Expr
  | [] => []
  | p :: ps => p.conds ++ Pat.condsL ps
end

/-- aps-fiber.c:2154-2161 — `compute_OU` at an expression. -/
def visitE (P : Prog) (rsi : Option Nat) (e : Expr) (st : St) : Res St := do
  let r ← doOU P rsi e [] st
  .ok r.2

/-- the traversal of the conditions of a pattern -/
def visitEs (P : Prog) (rsi : Option Nat) : List Expr → St → Res St
  | [], st => .ok st
  | e :: es, st => do
    let st ← visitE P rsi e st
    visitEs P rsi es st

/-- aps-fiber.c:2141-2144 — the loop over the matches of a case statement. -/
def casePats (P : Prog) (rsi : Option Nat) (e : Expr) (os : List Nat) : Node → St → Res St
  | .mtch p _ next, st => do
    let r := doUOp p os st
    let s ← doOU P rsi e r.1 r.2
    casePats P rsi e os next s.2
  | _, st => .ok st

/-- aps-fiber.c:2078-2089 — the loop over the children of a rule. -/
def ruleKids (si : Nat) : List Nat → St → St
  | [], st => st
  | k :: ks, st => ruleKids si ks (addU si ((addO k (st.O si) st).U k) (addO k (st.O si) st))

/-- an optional default, as the traversal visits it after the declaration -/
def visitO (P : Prog) (rsi : Option Nat) : Option Expr → St → Res St
  | none, st => .ok st
  | some e, st => visitE P rsi e st

/-- aps-fiber.c:2063-2164 (`compute_OU`) with the traversal of parse/aps-traverse.c. An assignment is not traversed
further. -/
def computeOU (P : Prog) : Option Nat → Node → St → Res St
  | _, .skip, st => .ok st
  | r, .seq a b, st => do
    let st ← computeOU P r a st
    computeOU P r b st
  | _, .value _ _ none, st => .ok st
  | r, .value d _ (some e), st => do
    let x ← doOU P r e (st.U d) st
    visitE P r e (addO d x.1 x.2)
  | r, .attr _ init, st => visitO P r init st
  | r, .expr e, st => visitE P r e st
  | r, .assign d lhs rhs, st => do
    let x ← doOU P r rhs (st.U d) st
    let st := addO d x.1 x.2
    let y ← doUO P r d (st.O d) st lhs
    .ok (addU d y.1 y.2)
  | r, .ifs c t e, st => do
    let st ← visitE P r c st
    let st ← computeOU P r t st
    computeOU P r e st
  | r, .forIn formal s body, st => do
    let x ← doOU P r s [] st
    let st := addO formal x.1 x.2
    let y ← doOU P r s (st.U formal) st
    let st ← visitE P r s y.2
    computeOU P r body st
  | r, .cases e ms dflt, st => do
    let x ← doOU P r e [] st
    let st ← casePats P r e x.1 ms x.2
    let st ← visitE P r e st
    let st ← computeOU P r ms st
    computeOU P r dflt st
  | r, .mtch p body next, st => do
    let st ← visitEs P r p.conds st
    let st ← computeOU P r body st
    computeOU P r next st
  | _, .rule si kids p body, st => do
    let st ← visitEs P (some si) p.conds (ruleKids si kids st)
    computeOU P (some si) body st
  | _, .func si body, st => computeOU P (some si) body st

/-- the declarations of objects (aps-fiber.c:908-921) -/
def Node.objs : Node → List Nat
  | .value d true _ => [d]
  | .seq a b => a.objs ++ b.objs
  | .ifs _ t e => t.objs ++ e.objs
  | .forIn _ _ b => b.objs
  | .cases _ ms d => ms.objs ++ d.objs
  | .mtch _ b n => b.objs ++ n.objs
  | .rule _ _ _ b => b.objs
  | .func _ b => b.objs
  | .value _ false _ => []
  | .skip => []
  | .attr _ _ => []
  | .expr _ => []
  | .assign _ _ _ => []

/-- aps-fiber.c:899-921, 3211-3218: the sets before the first traversal. -/
def start (P : Prog) : St :=
  addO P.startSi [P.module] (addO P.module [P.module]
    { O := fun d => if d ∈ P.body.objs then [d] else [], U := fun _ => [], done := false })

/-- aps-fiber.c:3229-3231 — one round of the loop. -/
def pass (P : Prog) (st : St) : Res St := do
  let st ← computeOU P none P.body { st with done := true }
  .ok (addU P.module (st.U P.startSi) st)

/-- aps-fiber.c:3227-3232 -/
def loop (P : Prog) : Nat → St → Res St
  | 0, _ => .nofuel
  | n + 1, st => do
    let st ← pass P st
    if st.done then .ok st else loop P n st

def analyze (P : Prog) (fuel : Nat) : Res St := loop P fuel (start P)

end Aps.Points
