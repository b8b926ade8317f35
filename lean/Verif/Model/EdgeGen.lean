import Verif.Model.Dnc
import Verif.Model.Oag
/-!
# analyze/aps-dnc.c: from equations to edges of the dependency graph

`get_edges` walks the body of a rule and records the dependencies of every declaration, assignment, test and call.

Simplifications.
* A declaration (or match) is a number. What the code looks up about declarations is in `Env` (instances, fibers,
  conditionals) or in the syntax (`UseOf`: which of the three cases of a use applies; the node responsible for a place
  in the source; the shared info attributes).
* The functions here return the list of the calls of `add_edges_to_graph` in the order the code makes them, and
  `runCalls` performs them; the code performs each at once. The graph is not read in between.
* `aps_error` and `aps_warning` only print (`vertex_is_input`, `vertex_is_output` and `def_is_constant` are used only for
  them). `fatal_error` is `stop`.
* `set_value_for` (1329-1332) is not modelled here.
* `decl_cond` is passed along the traversal as `init_decl_cond` passes it when it stores it (see
  `Verif/Model/IfCond.lean`, and `C62_numbered` in `Verif/Props/EdgeGen.lean` for the agreement). The formals of
  patterns in case statements are never reached by `init_decl_cond`; their `decl_cond` is zero.
-/
namespace Aps.Gen
open Aps.Dnc Aps.Oag

/-- analyze/aps-dnc.h:41-46 -/
def dependency : Dep := SOME ||| NOT_JUST_FIBER ||| MAYBE_CARRYING ||| MAYBE_DIRECT
/-- analyze/aps-dnc.h:45 -/
def controlDependency : Dep := SOME ||| NOT_JUST_FIBER ||| MAYBE_DIRECT
/-- analyze/aps-dnc.h:46 -/
def fiberDependency : Dep := SOME ||| MAYBE_CARRYING ||| MAYBE_DIRECT

/-- analyze/aps-dnc.h:20-24: an instance; NULL is `none`. -/
structure Key where
  attr : Nat
  fiber : Option Nat
  node : Option Nat
  deriving DecidableEq, Repr

/-- What is looked up: the instances of the graph, `instance_index`, `base_fiber`, the fibers of the analysis, the
`longer` lists of fibers, `fiber_is_reverse`, `reverse_field`, `decl_is_circular` and the conditionals with
`if_rule_cond`. -/
structure Env where
  keys : List Key
  start : Nat → Nat
  base : Nat
  fibers : List Nat
  longer : Nat → Nat → Option Nat
  isReverse : Nat → Bool
  reverseField : Nat → Nat
  circular : Nat → Bool
  ifRules : List (Nat × Cond)

/-- analyze/aps-dnc.c:1001-1020 (`VERTEX`); the chain of modifiers is a list. -/
structure Vertex where
  attr : Nat
  node : Option Nat
  mods : List Nat
  deriving DecidableEq, Repr

/-- analyze/aps-dnc.c:1007-1014 -/
def modFiber (env : Env) : List Nat → Nat → Option Nat
  | [], f => some f
  | m :: ms, f =>
    match modFiber env ms f with
    | none => none
    | some f => env.longer f m

/-- analyze/aps-dnc.c:903-919 — the first instance that fits, from the start index. -/
def getInstance (env : Env) (attr fiber : Nat) (node : Option Nat) : Option Nat :=
  let start := env.start (node.getD attr)
  let fiber := if fiber = env.base then none else some fiber
  (List.range env.keys.length).find? fun i => decide (start ≤ i) && decide (env.keys[i]? = some ⟨attr, fiber, node⟩)

/-- analyze/aps-dnc.c:1024-1029 -/
def vertexInstance (env : Env) (v : Vertex) (f : Nat) : Option Nat :=
  match modFiber env v.mods f with
  | none => none
  | some f => getInstance env v.attr f v.node

/-- arguments of `add_edges_to_graph` -/
structure Call where
  src : Vertex
  snk : Vertex
  cond : Cond
  kind : Dep
  deriving DecidableEq, Repr

/-- analyze/aps-dnc.c:1137-1149 — the loop over the fibers. -/
def addFiberEdges (env : Env) (c : Call) (kind : Dep) : List Nat → Aug → Res Aug
  | [], g => .ok g
  | f :: fs, g =>
    match vertexInstance env c.src f, vertexInstance env c.snk f with
    | some i1, some i2 =>
      if f = env.base then addFiberEdges env c kind fs g
      else if env.isReverse f then do
        let g ← addEdgeToGraph i2 i1 c.cond kind g
        addFiberEdges env c kind fs g
      else do
        let g ← addEdgeToGraph i1 i2 c.cond kind g
        addFiberEdges env c kind fs g
    | _, _ => addFiberEdges env c kind fs g

/-- analyze/aps-dnc.c:1117-1128 — the edge between the values themselves. -/
def addBaseEdge (env : Env) (c : Call) (g : Aug) : Res Aug :=
  match vertexInstance env c.src env.base, vertexInstance env c.snk env.base with
  | some i, some j => addEdgeToGraph i j c.cond c.kind g
  | _, _ => .ok g

/-- analyze/aps-dnc.c:1102-1150 — `add_edges_to_graph`. -/
def addEdges (env : Env) (c : Call) (g : Aug) : Res Aug := do
  let g ← addBaseEdge env c g
  if c.kind &&& MAYBE_CARRYING = 0 then return g
  else addFiberEdges env c (c.kind &&& ~~~NOT_JUST_FIBER) env.fibers g

/-- all the calls, in order -/
def runCalls (env : Env) : List Call → Aug → Res Aug
  | [], g => .ok g
  | c :: cs, g => do
    let g ← addEdges env c g
    runCalls env cs g

/-- What is found about the declaration of a value used: unbound; a shared value used inside a rule (with the node
responsible there and the shared info attribute of its phylum, and whether the use is marked as a left-hand side); a
parameter or result (the node is the rule itself); anything else. -/
inductive UseOf
  | unbound
  | shared (decl resp sharedInfo : Nat) (isLhs : Bool)
  | param (decl rule : Nat)
  | plain (decl : Nat)
  deriving DecidableEq, Repr

/-- What is known about a call of a local function: the function, its (first) result, the proxy node of the call, its
formals, the node responsible, and the shared info attributes of the phylum of that node and of the function. -/
structure Callee where
  func : Nat
  result : Nat
  proxy : Nat
  formals : List Nat
  resp : Option Nat
  infoHere : Nat
  infoThere : Nat
  deriving DecidableEq, Repr

mutual
/-- Expressions, as classified by `record_expression_dependencies`: constants, repetitions, uses, attribute references
(`none`: the object is not a use), field references (marked as left-hand side or not), calls of local functions, other
calls, anything else. -/
inductive Ex
  | const
  | rep (e : Ex)
  | use (u : UseOf)
  | attrRef (attr : Nat) (node : Option Nat)
  | fieldRef (field : Nat) (isLhs : Bool) (object : Ex)
  | localCall (c : Callee) (args : Exs)
  | call (args : Exs)
  | other
/-- Actual parameters -/
inductive Exs
  | nil
  | cons (e : Ex) (es : Exs)
end

/-- `if (!decl_is_circular(decl)) new_kind |= DEPENDENCY_MAYBE_SIMPLE` -/
def simpleKind (env : Env) (decl : Nat) (k : Dep) : Dep := if env.circular decl then k else k ||| MAYBE_SIMPLE

/-- `kind & ~DEPENDENCY_MAYBE_CARRYING` -/
def noCarry (k : Dep) : Dep := k &&& ~~~MAYBE_CARRYING

mutual
/-- analyze/aps-dnc.c:1171-1302 — `record_expression_dependencies`. (Line 1283 uses `kind`, not `new_kind`.) -/
def recordExpr (env : Env) (sink : Vertex) (c : Cond) : Dep → List Nat → Ex → Res (List Call)
  | _, _, .const => .ok []
  | k, mods, .rep e => recordExpr env sink c k mods e
  | k, mods, .use u =>
    match u with
    | .unbound => .stop
    | .shared d resp info _ =>
      let nk := simpleKind env d k
      .ok [⟨⟨info, some resp, []⟩, sink, c, noCarry nk⟩, ⟨⟨info, some resp, d :: mods⟩, sink, c, nk⟩]
    | .param d rule => .ok [⟨⟨d, some rule, mods⟩, sink, c, simpleKind env d k⟩]
    | .plain d => .ok [⟨⟨d, none, mods⟩, sink, c, simpleKind env d k⟩]
  | k, mods, .attrRef a node =>
    match node with
    | none => .stop
    | some n => .ok [⟨⟨a, some n, mods⟩, sink, c, simpleKind env a k⟩]
  | k, mods, .fieldRef f _ o => do
    let nk := simpleKind env f k
    let r ← recordExpr env sink c (noCarry nk) [] o
    let q ← recordExpr env sink c nk (f :: mods) o
    return r ++ q
  | k, mods, .localCall f args =>
    if mods = [] then do
      let r ← recordArgs env sink c (noCarry (simpleKind env f.func k)) [] args
      return r ++ [⟨⟨f.result, some f.proxy, mods⟩, sink, c, k⟩]
    else .ok [⟨⟨f.result, some f.proxy, mods⟩, sink, c, k⟩]
  | k, mods, .call args => recordArgs env sink c k mods args
  | _, _, .other => .stop
/-- the loops over the actuals (1262-1266, 1290-1293) -/
def recordArgs (env : Env) (sink : Vertex) (c : Cond) : Dep → List Nat → Exs → Res (List Call)
  | _, _, .nil => .ok []
  | k, mods, .cons e es => do
    let r ← recordExpr env sink c k mods e
    let q ← recordArgs env sink c k mods es
    return r ++ q
end

/-- analyze/aps-dnc.c:1304-1327 — the loop over the conditionals. -/
def recordCondFrom (sink : Vertex) (c : Cond) : Nat → List (Nat × Cond) → List Call
  | _, [] => []
  | i, r :: rs =>
    if cmask i &&& (c.pos ||| c.neg) ≠ 0 then ⟨⟨r.1, none, []⟩, sink, r.2, controlDependency⟩ :: recordCondFrom sink c (i + 1) rs
    else recordCondFrom sink c (i + 1) rs

/-- analyze/aps-dnc.c:1304-1327 — `record_condition_dependencies`. -/
def recordCond (env : Env) (sink : Vertex) (c : Cond) : List Call := recordCondFrom sink c 0 env.ifRules

/-- analyze/aps-dnc.c:1410-1413 — what is recorded for a left-hand side that is a vertex. -/
def recordSink (env : Env) (c : Cond) (k : Dep) (rhs : Ex) (sink : Vertex) : Res (List Call) := do
  let r ← recordExpr env sink c k [] rhs
  return r ++ recordCond env sink c

mutual
/-- analyze/aps-dnc.c:1341-1466 — `record_lhs_dependencies`. Line 1448 passes the uninitialised variable `decl` to
`some_function_decl_result`. -/
def recordLhs (env : Env) (c : Cond) : Dep → List Nat → Ex → Ex → Res (List Call)
  | _, _, _, .const => .ok []
  | k, mods, rhs, .use u =>
    match u with
    | .unbound => .ub
    | .shared d resp info isLhs => recordSink env c k rhs ⟨info, some resp, (if isLhs then env.reverseField d else d) :: mods⟩
    | .param d rule => recordSink env c k rhs ⟨d, some rule, mods⟩
    | .plain d => recordSink env c k rhs ⟨d, none, mods⟩
  | k, mods, rhs, .fieldRef f isLhs o => do
    let m := (if isLhs then env.reverseField f else f) :: mods
    let r ← recordLhs env c k m rhs o
    let q ← recordLhs env c controlDependency m o o
    return r ++ q
  | k, mods, rhs, .attrRef a node =>
    match node with
    | none => .stop
    | some n => recordSink env c k rhs ⟨a, some n, mods⟩
  | _, _, _, .localCall _ _ => .ub
  | k, mods, rhs, .call args => recordLhsArgs env c k mods rhs args
  | _, _, _, .rep _ => .stop
  | _, _, _, .other => .stop
/-- the loop over the actuals (1459-1461) -/
def recordLhsArgs (env : Env) (c : Cond) : Dep → List Nat → Ex → Exs → Res (List Call)
  | _, _, _, .nil => .ok []
  | k, mods, rhs, .cons e es => do
    let r ← recordLhs env c k mods rhs e
    let q ← recordLhsArgs env c k mods rhs es
    return r ++ q
end

/-- analyze/aps-dnc.c:1692-1706 — the loop over the formals and the actuals; without an actual the code follows a null
pointer. -/
def formalCalls (env : Env) (c : Cond) (proxy : Nat) : List Nat → Exs → Res (List Call)
  | [], _ => .ok []
  | _ :: _, .nil => .ub
  | f :: fs, .cons a es => do
    let r ← recordExpr env ⟨f, some proxy, []⟩ c dependency [] a
    let q ← formalCalls env c proxy fs es
    return r ++ recordCond env ⟨f, some proxy, []⟩ c ++ q

mutual
/-- analyze/aps-dnc.c:1665-1728 — `get_edges` for the expressions below a declaration with condition `c`. -/
def exprCalls (env : Env) (c : Cond) : Ex → Res (List Call)
  | .const => .ok []
  | .rep e => exprCalls env c e
  | .use _ => .ok []
  | .attrRef _ _ => .ok []
  | .fieldRef _ _ o => exprCalls env c o
  | .localCall f args => do
    let r ← formalCalls env c f.proxy f.formals args
    match f.resp with
    | none => .ub
    | some rnode =>
      let info : Vertex := ⟨f.infoThere, some f.proxy, []⟩
      let q ← argsCalls env c args
      return recordCond env ⟨f.result, some f.proxy, []⟩ c ++ r ++
        (⟨⟨f.infoHere, some rnode, []⟩, info, c, dependency⟩ :: recordCond env info c) ++ q
  | .call args => argsCalls env c args
  | .other => .ok []
/-- the traversal of the actuals -/
def argsCalls (env : Env) (c : Cond) : Exs → Res (List Call)
  | .nil => .ok []
  | .cons e es => do
    let r ← exprCalls env c e
    let q ← argsCalls env c es
    return r ++ q
end

/-- the expressions of a list, in order -/
def listCalls (env : Env) (c : Cond) : List Ex → Res (List Call)
  | [] => .ok []
  | e :: es => do
    let r ← exprCalls env c e
    let q ← listCalls env c es
    return r ++ q

/-- Default of a value declaration: none, a simple value (if it is a constructor call, with the fields of the phylum of
the constructor), a composite with its initial value. -/
inductive Dflt
  | none
  | simple (e : Ex) (fields : Option (List Nat))
  | composite (e : Ex)

mutual
/-- Declarations in the body of a rule. A value declaration has the node responsible for its place and, if it is shared,
the module and the shared info attribute of the start phylum. `ix` is the `if_index`. -/
inductive St
  | value (decl : Nat) (resp : Option Nat) (shared : Option (Nat × Nat)) (dflt : Dflt)
  | assign (lhs rhs : Ex)
  | ifS (id ix : Nat) (test : Ex) (t f : Sts)
  | caseS (e : Ex) (ms : Mts) (dflt : Sts)
  | forS (e : Ex) (ms : Mts)
  | forIn (formal : Nat) (seq : Ex) (body : Sts)
  | skip
/-- blocks -/
inductive Sts
  | nil
  | cons (s : St) (rest : Sts)
/-- matches: identity, `if_index`, the variables and the conditions of the pattern, body -/
inductive Mts
  | nil
  | cons (id ix : Nat) (formals : List Nat) (conds : List Ex) (body : Sts) (rest : Mts)
end

/-- analyze/aps-dnc.c:1558-1581 — the dependencies between the fibers of a new object. -/
def fieldCalls (env : Env) (decl : Nat) (c : Cond) : List Nat → List Call
  | [] => []
  | f :: fs =>
    ⟨⟨decl, none, [env.reverseField f]⟩, ⟨decl, none, [f]⟩, c,
      if env.circular f then fiberDependency &&& ~~~MAYBE_SIMPLE else fiberDependency ||| MAYBE_SIMPLE⟩ :: fieldCalls env decl c fs

/-- analyze/aps-dnc.c:1536-1585 — the default of a value declaration. -/
def dfltCalls (env : Env) (c : Cond) (decl : Nat) (resp : Option Nat) : Dflt → Res (List Call)
  | .none => .ok []
  | .simple e fields => do
    let r1 ← recordExpr env ⟨decl, resp, []⟩ c dependency [] e
    let r2 ← recordExpr env ⟨decl, none, []⟩ c dependency [] e
    return r1 ++ r2 ++ fieldCalls env decl c (fields.getD [])
  | .composite e => recordExpr env ⟨decl, resp, []⟩ c dependency [] e

/-- analyze/aps-dnc.c:1586-1620 — the edges for a shared value. -/
def sharedCalls (env : Env) (c : Cond) (decl : Nat) : Option (Nat × Nat) → List Call
  | none => []
  | some (m, info) =>
    [⟨⟨info, some m, [env.reverseField decl]⟩, ⟨decl, none, []⟩, c, dependency⟩,
     ⟨⟨decl, none, []⟩, ⟨info, some m, [decl]⟩, c, dependency⟩]

/-- analyze/aps-dnc.c:1522-1622 — a value declaration. -/
def valueCalls (env : Env) (c : Cond) (decl : Nat) (resp : Option Nat) (shared : Option (Nat × Nat)) (dflt : Dflt) : Res (List Call) := do
  let r ← dfltCalls env c decl resp dflt
  return recordCond env ⟨decl, resp, []⟩ c ++ r ++ sharedCalls env c decl shared

/-- `get_edges` for the expression of a default -/
def dfltInner (env : Env) (c : Cond) : Dflt → Res (List Call)
  | .none => .ok []
  | .simple e _ => exprCalls env c e
  | .composite e => exprCalls env c e

/-- analyze/aps-dnc.c:1502-1516 — a formal in the pattern of a case statement on `e`; its condition is zero. -/
def formalsCalls (env : Env) (e : Ex) : List Nat → Res (List Call)
  | [] => .ok []
  | f :: fs => do
    let r ← recordExpr env ⟨f, none, []⟩ ⟨0, 0⟩ dependency [] e
    let q ← formalsCalls env e fs
    return recordCond env ⟨f, none, []⟩ ⟨0, 0⟩ ++ r ++ q

/-- analyze/aps-dnc.c:1645-1648 — the loop over the tests of a match -/
def testCalls (env : Env) (sink : Vertex) (c : Cond) : List Ex → Res (List Call)
  | [] => .ok []
  | e :: es => do
    let r ← recordExpr env sink c controlDependency [] e
    let q ← testCalls env sink c es
    return r ++ q

/-- analyze/aps-dnc.c:1634-1651 with 488-517 — the loop over the matches; `tests` is the chain of tests so far (the
conditions of earlier patterns and the case expression). -/
def matchCalls (env : Env) (c : Cond) : List Ex → Mts → Res (List Call)
  | _, .nil => .ok []
  | tests, .cons id _ _ conds _ rest => do
    let tests := conds.reverse ++ tests
    let r ← testCalls env ⟨id, none, []⟩ c tests
    let q ← matchCalls env c tests rest
    return recordCond env ⟨id, none, []⟩ c ++ r ++ q

mutual
/-- analyze/aps-dnc.c:1473-1735 — `get_edges`, with the traversal below; `c` is the `decl_cond` of the declaration. -/
def callsD (env : Env) (c : Cond) : St → Res (List Call)
  | .value d resp shared dflt => do
    let r ← valueCalls env c d resp shared dflt
    let q ← dfltInner env c dflt
    return r ++ q
  | .assign lhs rhs => do
    let r ← recordLhs env c dependency [] rhs lhs
    let ql ← exprCalls env c lhs
    let qr ← exprCalls env c rhs
    return r ++ ql ++ qr
  | .ifS id ix test t f => do
    let r ← recordExpr env ⟨id, none, []⟩ c controlDependency [] test
    let q ← exprCalls env c test
    let rt ← callsB env ⟨c.pos ||| cmask ix, c.neg⟩ t
    let rf ← callsB env ⟨c.pos, c.neg ||| cmask ix⟩ f
    return recordCond env ⟨id, none, []⟩ c ++ r ++ q ++ rt ++ rf
  | .caseS e ms dflt => do
    let r ← matchCalls env c [e] ms
    let q ← exprCalls env c e
    let rm ← callsCase env e c c ms
    let rd ← callsB env rm.2 dflt
    return r ++ q ++ rm.1 ++ rd
  | .forS e ms => do
    let r ← matchCalls env c [e] ms
    let q ← exprCalls env c e
    let rm ← callsFor env e c c ms
    return r ++ q ++ rm
  | .forIn formal seq body => do
    let r ← recordExpr env ⟨formal, none, []⟩ c dependency [] seq
    let q ← exprCalls env c seq
    let rb ← callsB env c body
    return recordCond env ⟨formal, none, []⟩ c ++ r ++ q ++ rb
  | .skip => .ok []
/-- the traversal of a block -/
def callsB (env : Env) (c : Cond) : Sts → Res (List Call)
  | .nil => .ok []
  | .cons s rest => do
    let r ← callsD env c s
    let q ← callsB env c rest
    return r ++ q
/-- the traversal of the matches of a case on `e`: patterns and bodies; `c` is the condition of the statement, `nc` is
`new_cond` (analyze/aps-dnc.c:598-605), whose last value is returned. -/
def callsCase (env : Env) (e : Ex) (c : Cond) : Cond → Mts → Res (List Call × Cond)
  | nc, .nil => .ok ([], nc)
  | nc, .cons _ ix formals conds body rest => do
    let r ← formalsCalls env e formals
    let q ← listCalls env c conds
    let c1 : Cond := ⟨nc.pos ||| cmask ix, nc.neg⟩
    let c2 : Cond := ⟨c1.pos &&& ~~~cmask ix, c1.neg ||| cmask ix⟩
    let rb ← callsB env c1 body
    let rr ← callsCase env e c c2 rest
    return (r ++ q ++ rb ++ rr.1, rr.2)
/-- the traversal of the matches of a for statement (618-625) -/
def callsFor (env : Env) (e : Ex) (c : Cond) : Cond → Mts → Res (List Call)
  | _, .nil => .ok []
  | nc, .cons _ ix formals conds body rest => do
    let r ← formalsCalls env e formals
    let q ← listCalls env c conds
    let c1 : Cond := ⟨nc.pos ||| cmask ix, nc.neg⟩
    let rb ← callsB env c1 body
    let rr ← callsFor env e c ⟨c1.pos &&& ~~~cmask ix, c1.neg⟩ rest
    return r ++ q ++ rb ++ rr
end

/-- analyze/aps-dnc.c:1988-2010 — the shared info of the left-hand side goes to that of the children; `lhs` and `kids`
are nodes with the shared info attribute of their phylum. -/
def infoCalls (lhs : Nat × Nat) : List (Nat × Nat) → List Call
  | [] => []
  | k :: ks => ⟨⟨lhs.2, some lhs.1, []⟩, ⟨k.2, some k.1, []⟩, ⟨0, 0⟩, dependency⟩ :: infoCalls lhs ks

/-- analyze/aps-dnc.c:1958-2010 — the edges of a rule: those of its body, those of its results (functions, 1973-1983),
and those of the shared info. -/
def ruleEdges (env : Env) (body results : Sts) (lhs : Nat × Nat) (kids : List (Nat × Nat)) (g : Aug) : Res Aug := do
  let r ← callsB env ⟨0, 0⟩ body
  let q ← callsB env ⟨0, 0⟩ results
  runCalls env (r ++ q ++ infoCalls lhs kids) g

end Aps.Gen
