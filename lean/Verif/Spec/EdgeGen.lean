import Verif.Model.EdgeGen
import Verif.Spec.IfCond
import Verif.Proofs.Cond
/-!
# What depends on what in the body of a rule

The equations of a rule and the places their right-hand sides read, independent of how edges are recorded.
-/
namespace Aps.Gen
open Aps.Dnc Aps.Oag

/-- A place that has a value: an attribute of a node, or (without a node) a local, a pattern variable or a test. -/
abbrev Place := Nat × Option Nat

mutual
/-- The places whose values the value of the expression is computed from. -/
def Ex.reads : Ex → List Place
  | .const => []
  | .rep e => e.reads
  | .use u =>
    match u with
    | .unbound => []
    | .shared _ resp info _ => [(info, some resp)]
    | .param d rule => [(d, some rule)]
    | .plain d => [(d, none)]
  | .attrRef a node =>
    match node with
    | none => []
    | some n => [(a, some n)]
  | .fieldRef _ _ o => o.reads
  | .localCall f args => args.reads ++ [(f.result, some f.proxy)]
  | .call args => args.reads
  | .other => []
/-- for parameters -/
def Exs.reads : Exs → List Place
  | .nil => []
  | .cons e es => e.reads ++ es.reads
end

mutual
/-- Where the objects come from that are found by following the fields `path` from the value of the expression: places
and paths. -/
def Ex.flows : Ex → List Nat → List Vertex
  | .const, _ => []
  | .rep e, path => e.flows path
  | .use u, path =>
    match u with
    | .unbound => []
    | .shared d resp info _ => [⟨info, some resp, d :: path⟩]
    | .param d rule => [⟨d, some rule, path⟩]
    | .plain d => [⟨d, none, path⟩]
  | .attrRef a node, path =>
    match node with
    | none => []
    | some n => [⟨a, some n, path⟩]
  | .fieldRef f _ o, path => o.flows (f :: path)
  | .localCall f _, path => [⟨f.result, some f.proxy, path⟩]
  | .call args, path => args.flows path
  | .other, _ => []
/-- for parameters -/
def Exs.flows : Exs → List Nat → List Vertex
  | .nil, _ => []
  | .cons e es, path => e.flows path ++ es.flows path
end

/-- Conditionals (by number) and their outcomes, on the way to a statement. -/
abbrev Way := List (Nat × Bool)

/-- the outcomes are as on the way -/
def Way.holds (σ : Nat → Bool) (w : Way) : Prop := ∀ x ∈ w, σ x.1 = x.2

/-- the place itself, no field of it -/
def vx (p : Place) : Vertex := ⟨p.1, p.2, []⟩

/-- An equation: what is computed (a place, or a field of the objects there), which way leads to it, from what. -/
structure Eqn where
  target : Vertex
  way : Way
  rhs : Ex
  /-- only the outcome of a test (or which object) is computed -/
  test : Bool
  /-- the target is a local declared here, inside a rule -/
  loc : Bool
  /-- the initial value of a collection -/
  init : Bool

mutual
/-- The equations of an assignment. For a field the objects assigned to are those the object expression yields, and which
these are also matters. `rev` is the inverse of a field, used for assignments (see the marks on fields). (For a call an
error is reported, but then the actuals are taken.) -/
def Ex.assigned (rev : Nat → Nat) (w : Way) : Ex → Bool → List Nat → Ex → List Eqn
  | .use u, test, path, rhs =>
    match u with
    | .unbound => []
    | .shared d resp info isLhs => [⟨⟨info, some resp, (if isLhs then rev d else d) :: path⟩, w, rhs, test, false, false⟩]
    | .param d rule => [⟨⟨d, some rule, path⟩, w, rhs, test, false, false⟩]
    | .plain d => [⟨⟨d, none, path⟩, w, rhs, test, false, false⟩]
  | .attrRef a node, test, path, rhs =>
    match node with
    | none => []
    | some n => [⟨⟨a, some n, path⟩, w, rhs, test, false, false⟩]
  | .fieldRef f isLhs o, test, path, rhs =>
    o.assigned rev w test ((if isLhs then rev f else f) :: path) rhs ++ o.assigned rev w true ((if isLhs then rev f else f) :: path) o
  | .call args, test, path, rhs => args.assigned rev w test path rhs
  | .const, _, _, _ => []
  | .rep _, _, _, _ => []
  | .localCall _ _, _, _, _ => []
  | .other, _, _, _ => []
/-- for parameters -/
def Exs.assigned (rev : Nat → Nat) (w : Way) : Exs → Bool → List Nat → Ex → List Eqn
  | .nil, _, _, _ => []
  | .cons e es, test, path, rhs => e.assigned rev w test path rhs ++ es.assigned rev w test path rhs
end

/-- formals and actuals -/
def passed (w : Way) (proxy : Nat) : List Nat → Exs → List Eqn
  | f :: fs, .cons a es => ⟨⟨f, some proxy, []⟩, w, a, false, false, false⟩ :: passed w proxy fs es
  | _, _ => []

mutual
/-- The equations for the parameters of the calls of local functions in an expression. The shared info is passed like a
parameter. The result is computed by the function itself. -/
def Ex.inner (w : Way) : Ex → List Eqn
  | .const => []
  | .rep e => e.inner w
  | .use _ => []
  | .attrRef _ _ => []
  | .fieldRef _ _ o => o.inner w
  | .localCall f args =>
    ⟨⟨f.result, some f.proxy, []⟩, w, .const, false, false, false⟩ ::
      ⟨⟨f.infoThere, some f.proxy, []⟩, w, .attrRef f.infoHere f.resp, false, false, false⟩ ::
      (passed w f.proxy f.formals args ++ args.inner w)
  | .call args => args.inner w
  | .other => []
/-- for parameters -/
def Exs.inner (w : Way) : Exs → List Eqn
  | .nil => []
  | .cons e es => e.inner w ++ es.inner w
end

/-- The equations of a declared value with the given expression (a constant if there is none): a local, or a result of
the function `resp`. -/
def declared (w : Way) (d : Nat) (resp : Option Nat) (init : Bool) (e : Ex) : List Eqn :=
  [⟨⟨d, none, []⟩, w, e, false, resp.isSome, init⟩, ⟨⟨d, resp, []⟩, w, e, false, false, init⟩]

/-- The tests of the matches of a case; `tests`: the case expression and the conditions of the patterns so far. -/
def Mts.tests (w : Way) : List Ex → Mts → List Eqn
  | _, .nil => []
  | tests, .cons id _ _ conds _ rest =>
    (conds ++ tests).map (fun e => ⟨⟨id, none, []⟩, w, e, true, false, false⟩) ++ rest.tests w (conds ++ tests)

/-- all matches failed -/
def Mts.failed : Mts → Way
  | .nil => []
  | .cons _ ix _ _ _ rest => (ix, false) :: rest.failed

mutual
/-- The equations of a declaration to which the given way leads. -/
def St.eqns (rev : Nat → Nat) (w : Way) : St → List Eqn
  | .value d resp _ dflt =>
    match dflt with
    | .none => declared w d resp false .const
    | .simple e _ => declared w d resp false e ++ e.inner w
    | .composite e => declared w d resp true e ++ e.inner w
  | .assign lhs rhs =>
    lhs.assigned rev w false [] rhs ++ lhs.inner w ++ rhs.inner w
  | .ifS id ix test t f =>
    ⟨⟨id, none, []⟩, w, test, true, false, false⟩ :: (test.inner w ++ t.eqns rev (w ++ [(ix, true)]) ++ f.eqns rev (w ++ [(ix, false)]))
  | .caseS e ms dflt =>
    ms.tests w [e] ++ e.inner w ++ ms.eqnsCase rev e w w ++ dflt.eqns rev (w ++ ms.failed)
  | .forS e ms => ms.tests w [e] ++ e.inner w ++ ms.eqnsFor rev e w
  | .forIn formal seq body =>
    ⟨⟨formal, none, []⟩, w, seq, false, false, false⟩ :: (seq.inner w ++ body.eqns rev w)
  | .skip => []
/-- the equations of a block -/
def Sts.eqns (rev : Nat → Nat) (w : Way) : Sts → List Eqn
  | .nil => []
  | .cons s rest => s.eqns rev w ++ rest.eqns rev w
/-- the equations of the patterns and bodies of the matches of a case; `w`: the way to the statement, `w'`: to the match -/
def Mts.eqnsCase (rev : Nat → Nat) (e : Ex) (w : Way) : Way → Mts → List Eqn
  | _, .nil => []
  | w', .cons _ ix formals conds body rest =>
    formals.map (fun f => ⟨⟨f, none, []⟩, [], e, false, false, false⟩) ++ conds.flatMap (·.inner w) ++
      body.eqns rev (w' ++ [(ix, true)]) ++ rest.eqnsCase rev e w (w' ++ [(ix, false)])
/-- the same for a for statement -/
def Mts.eqnsFor (rev : Nat → Nat) (e : Ex) (w : Way) : Mts → List Eqn
  | .nil => []
  | .cons _ ix formals conds body rest =>
    formals.map (fun f => ⟨⟨f, none, []⟩, [], e, false, false, false⟩) ++ conds.flatMap (·.inner w) ++
      body.eqns rev (w ++ [(ix, true)]) ++ rest.eqnsFor rev e w
end

/-- The equations of a rule: those of its body and its results, and the shared info of the children (nodes with the
attribute of their phylum), which is that of the left-hand side. -/
def ruleEqns (rev : Nat → Nat) (body results : Sts) (lhs : Nat × Nat) (kids : List (Nat × Nat)) : List Eqn :=
  body.eqns rev [] ++ results.eqns rev [] ++
    kids.map fun k => ⟨⟨k.2, some k.1, []⟩, [], .attrRef lhs.2 (some lhs.1), false, false, false⟩

/-- A conditional: the way to it, its identity, its number. -/
structure Cnd where
  way : Way
  id : Nat
  ix : Nat

mutual
/-- The conditionals in a declaration: if statements and the matches of case and for statements. -/
def St.ifs (w : Way) : St → List Cnd
  | .value _ _ _ _ => []
  | .assign _ _ => []
  | .ifS id ix _ t f => ⟨w, id, ix⟩ :: (t.ifs (w ++ [(ix, true)]) ++ f.ifs (w ++ [(ix, false)]))
  | .caseS _ ms dflt => ms.ifsCase w ++ dflt.ifs (w ++ ms.failed)
  | .forS _ ms => ms.ifsFor w
  | .forIn _ _ body => body.ifs w
  | .skip => []
/-- blocks -/
def Sts.ifs (w : Way) : Sts → List Cnd
  | .nil => []
  | .cons s rest => s.ifs w ++ rest.ifs w
/-- matches of a case -/
def Mts.ifsCase (w : Way) : Mts → List Cnd
  | .nil => []
  | .cons id ix _ _ body rest => ⟨w, id, ix⟩ :: (body.ifs (w ++ [(ix, true)]) ++ rest.ifsCase (w ++ [(ix, false)]))
/-- matches of a for statement -/
def Mts.ifsFor (w : Way) : Mts → List Cnd
  | .nil => []
  | .cons id ix _ _ body rest => ⟨w, id, ix⟩ :: (body.ifs (w ++ [(ix, true)]) ++ rest.ifsFor w)
end

mutual
/-- The conditionals have numbers below 32, different from those they are nested in (see C24). -/
def St.Fresh (used : List Nat) : St → Prop
  | .value _ _ _ _ => True
  | .assign _ _ => True
  | .ifS _ ix _ t f => ix < 32 ∧ ix ∉ used ∧ t.Fresh (ix :: used) ∧ f.Fresh (ix :: used)
  | .caseS _ ms dflt => ms.FreshCase used ∧ dflt.Fresh (ms.failed.map (·.1) ++ used)
  | .forS _ ms => ms.FreshFor used
  | .forIn _ _ body => body.Fresh used
  | .skip => True
/-- blocks -/
def Sts.Fresh (used : List Nat) : Sts → Prop
  | .nil => True
  | .cons s rest => s.Fresh used ∧ rest.Fresh used
/-- matches of a case -/
def Mts.FreshCase (used : List Nat) : Mts → Prop
  | .nil => True
  | .cons _ ix _ _ body rest => ix < 32 ∧ ix ∉ used ∧ body.Fresh (ix :: used) ∧ rest.FreshCase (ix :: used)
/-- matches of a for statement -/
def Mts.FreshFor (used : List Nat) : Mts → Prop
  | .nil => True
  | .cons _ ix _ _ body rest => ix < 32 ∧ ix ∉ used ∧ body.Fresh (ix :: used) ∧ rest.FreshFor used
end

mutual
/-- What the numbering of conditionals (see `Verif/Model/IfCond.lean`) looks at. -/
def St.erase : St → IfCond.Dcl
  | .value d _ _ _ => .plain d
  | .assign _ _ => .plain 0
  | .ifS id ix _ t f => .ifS id ix t.erase f.erase
  | .caseS _ ms dflt => .caseS 0 ms.erase dflt.erase
  | .forS _ ms => .forS 0 ms.erase
  | .forIn _ _ body => .group 0 body.erase
  | .skip => .plain 0
/-- blocks -/
def Sts.erase : Sts → IfCond.Blk
  | .nil => .nil
  | .cons s rest => .cons s.erase rest.erase
/-- matches -/
def Mts.erase : Mts → IfCond.Mats
  | .nil => .nil
  | .cons id ix _ _ body rest => .cons id ix body.erase rest.erase
end

/-- number of parameters -/
def Exs.length : Exs → Nat
  | .nil => 0
  | .cons _ es => es.length + 1

mutual
/-- An expression the analysis accepts: names are bound, attributes are of nodes, local functions get all parameters and
are called inside a rule. -/
def Ex.Bound : Ex → Prop
  | .const => True
  | .rep e => e.Bound
  | .use u => u ≠ .unbound
  | .attrRef _ node => node ≠ none
  | .fieldRef _ _ o => o.Bound
  | .localCall f args => f.resp ≠ none ∧ f.formals.length ≤ args.length ∧ args.Bound
  | .call args => args.Bound
  | .other => False
/-- for parameters -/
def Exs.Bound : Exs → Prop
  | .nil => True
  | .cons e es => e.Bound ∧ es.Bound
end

/-- A left-hand side: a name, an attribute of a node, or a field of such. -/
def Ex.Target : Ex → Prop
  | .use u => u ≠ .unbound
  | .attrRef _ node => node ≠ none
  | .fieldRef _ _ o => o.Target
  | _ => False

/-- the default of a declaration is accepted -/
def Dflt.Bound : Dflt → Prop
  | .none => True
  | .simple e _ => e.Bound
  | .composite e => e.Bound

mutual
/-- A declaration the analysis accepts -/
def St.Bound : St → Prop
  | .value _ _ _ dflt => dflt.Bound
  | .assign lhs rhs => lhs.Target ∧ rhs.Bound
  | .ifS _ _ test t f => test.Bound ∧ t.Bound ∧ f.Bound
  | .caseS e ms dflt => e.Bound ∧ ms.Bound ∧ dflt.Bound
  | .forS e ms => e.Bound ∧ ms.Bound
  | .forIn _ seq body => seq.Bound ∧ body.Bound
  | .skip => True
/-- blocks -/
def Sts.Bound : Sts → Prop
  | .nil => True
  | .cons s rest => s.Bound ∧ rest.Bound
/-- matches -/
def Mts.Bound : Mts → Prop
  | .nil => True
  | .cons _ _ _ conds body rest => (∀ e ∈ conds, e.Bound) ∧ body.Bound ∧ rest.Bound
end

/-- The table of conditionals is right for these. -/
def Env.Knows (env : Env) (l : List Cnd) : Prop :=
  ∀ x ∈ l, ∃ c, env.ifRules[x.ix]? = some (x.id, c) ∧ ∀ σ, Sat σ c ↔ x.way.holds σ

/-- Instance number `i` is the value at the place (not at a field of it). -/
def Env.Is (env : Env) (i : Nat) (p : Place) : Prop := env.keys[i]? = some ⟨p.1, none, p.2⟩

/-- Instance number `i` is, at the place of `v`, the fiber one gets from `f` by the path of `v`. -/
def Env.At (env : Env) (i : Nat) (v : Vertex) (f : Nat) : Prop :=
  ∃ h, modFiber env v.mods f = some h ∧ env.keys[i]? = some ⟨v.attr, if h = env.base then none else some h, v.node⟩

/-- The instances are numbered consistently: all are different, those of a node (or local) are found from its start
index; the base fiber is not longer than any fiber; there are at most 32 conditionals, with conditions that can hold. -/
structure Env.Ok (env : Env) : Prop where
  nodup : env.keys.Nodup
  start : ∀ (i : Nat) (k : Key), env.keys[i]? = some k → env.start (k.node.getD k.attr) ≤ i
  base : ∀ f m, env.longer f m ≠ some env.base
  rules : env.ifRules.length ≤ 32
  conds : ∀ r ∈ env.ifRules, ∃ σ, Sat σ r.2

end Aps.Gen
