import Verif.Model.Pipeline
import Verif.Model.IfCond
import Verif.Spec.EdgeGen
import Verif.Proofs.DncPaths
/-!
# From productions to dependency graphs

A production (`Prod`) names what it reads and assigns by the number of the instance. The dependency analysis
(`Verif/Model/EdgeGen.lean`) sees the same body with declarations: the left-hand side, the children, the locals and the
conditionals. This file gives the body in that form and the tables of the analysis for it, as
`init_augmented_dependency_graph` (analyze/aps-dnc.c:1838-2010) makes them.

Simplifications.
* An expression reads instances and computes a function of their values; to the analysis it is a call with what is read
  as actual parameters. Objects are not followed: the only fiber is the base fiber.
* Declarations have numbers: the left-hand side 2, child `c` 4c+6, local `a` 4a+1, conditional `r` 4r+4, attribute `a` 4a+3.
* A match of a case statement would be seen here like an if statement; only if statements are claimed to be right.
* `instance_index` of a conditional is 0 in the code (never set); here it is the index itself. The search from there finds
  the same.
-/
namespace Aps.Static

open Aps.Gen Aps.Oag Aps.Dnc

variable {V : Type}

/-- the declaration of the left-hand side -/
def lhsDecl : Nat := 2
/-- the declaration of a child -/
def kidDecl (c : Nat) : Nat := 4 * c + 6
/-- the declaration of a local -/
def locDecl (a : Nat) : Nat := 4 * a + 1
/-- the declaration of a conditional -/
def ifDecl (r : Nat) : Nat := 4 * r + 4
/-- the declaration of an attribute -/
def attrDecl (a : Nat) : Nat := 4 * a + 3

/-- analyze/aps-dnc.c:1945-1957 with 647-895 (`assign_instance`, `get_instances`) — the attribute and the node of
instance `i`. -/
def Inst.key (i : Nat) (inst : Inst V) : Gen.Key :=
  match inst.rule with
  | some _ => ⟨ifDecl i, none, none⟩
  | none =>
    match inst.ch with
    | some c => ⟨attrDecl inst.attr, none, some (kidDecl c)⟩
    | none => if inst.lhs then ⟨attrDecl inst.attr, none, some lhsDecl⟩ else ⟨locDecl inst.attr, none, none⟩

/-- the instances vector -/
def Prod.keys (P : Prod V) : List Gen.Key := P.insts.mapIdx fun i inst => inst.key i

/-- a name for the instance in an expression: an attribute reference, or the use of a local -/
def Prod.ref (P : Prod V) (i : Nat) : Ex :=
  match P.keys[i]? with
  | none => .other
  | some k =>
    match k.node with
    | some n => .attrRef k.attr (some n)
    | none => .use (.plain k.attr)

/-- what is read, as parameters -/
def Prod.refs (P : Prod V) : List Nat → Exs
  | [] => .nil
  | i :: l => .cons (P.ref i) (P.refs l)

/-- an expression -/
def Prod.exprOf (P : Prod V) (e : Expr V) : Ex := .call (P.refs e.reads)

/-- the condition of a conditional -/
def Prod.testOf (P : Prod V) (r : Nat) : Ex :=
  match (P.insts[r]?).bind (·.rule) with
  | none => .const
  | some rule => .call (P.refs rule.test.reads)

/-- the default of a local -/
def Prod.dfltOf (P : Prod V) (i : Nat) : Dflt :=
  match P.defaults[i]?.getD none with
  | none => .none
  | some e => .simple (P.exprOf e) none

/-- the declaration of a local -/
def Prod.declOf (P : Prod V) (i : Nat) : Nat := ((P.keys[i]?).map (·.attr)).getD 0

/-- the body, with declarations -/
def Prod.stsOf (P : Prod V) : Block V → Sts
  | .nil => .nil
  | .decl i rest => .cons (.value (P.declOf i) (some lhsDecl) none (P.dfltOf i)) (P.stsOf rest)
  | .assign i e rest => .cons (.assign (P.ref i) (P.exprOf e)) (P.stsOf rest)
  | .cond r t f rest => .cons (.ifS (ifDecl r) r (P.testOf r) (P.stsOf t) (P.stsOf f)) (P.stsOf rest)

/-- the conditionals of a block, in the order in which `count_if_rules` (analyze/aps-dnc.c:443-464) numbers them -/
def Block.rules : Block V → List Nat
  | .nil => []
  | .decl _ rest => rest.rules
  | .assign _ _ rest => rest.rules
  | .cond r t f rest => r :: (t.rules ++ f.rules ++ rest.rules)

/-- `decl_cond` (analyze/aps-dnc.c:1940-1942, `init_decl_cond`), zero for declarations not reached -/
def Prod.declCond (P : Prod V) (d : Nat) : Cond :=
  match (IfCond.condsB ⟨0, 0⟩ (P.stsOf P.body).erase).find? fun q => q.1 = d with
  | some q => q.2
  | none => ⟨0, 0⟩

/-- what the analysis looks up -/
def Prod.env (P : Prod V) : Env where
  keys := P.keys
  start d := P.keys.findIdx fun k => k.node.getD k.attr = d
  base := 0
  fibers := [0]
  longer _ _ := none
  isReverse _ := false
  reverseField f := f
  circular _ := false
  ifRules := (List.range P.body.rules.length).map fun r => (ifDecl r, P.declCond (ifDecl r))

/-- analyze/aps-oag.c:118-137 (`instance_condition`) and the number of the conditional (analyze/aps-dnc.c:443-464), for
every instance -/
def Prod.conds (P : Prod V) : List OInst :=
  P.insts.mapIdx fun i inst =>
    let k := inst.key i
    ⟨instanceCondition (k.node.map P.declCond) (some (P.declCond k.attr)), if inst.rule.isSome then some i else none⟩

/-- the nodes of the production with phyla, and where their instances begin -/
def Prod.links (P : Prod V) : List (Nat × Nat) :=
  (P.env.start lhsDecl, P.lhsPhy) ::
    (List.range P.kidPhy.length).filterMap fun c => ((P.kidPhy[c]?).bind id).map fun k => (P.env.start (kidDecl c), k)

/-- analyze/aps-dnc.c:1958-1968 — the graph before edges are added -/
def Prod.blank (P : Prod V) : Aug := emptyAug P.keys.length (P.insts.map (·.attr)) P.links

/-- the shared info attribute of a phylum -/
def infoAttr (phyla : List Phylum) (p : Nat) : Nat := ((phyla[p]?).bind fun q => (q.attrs[q.info]?).map attrDecl).getD 0

/-- analyze/aps-dnc.c:1838-2010 — the dependency graph of the production; the nodes with phyla get the shared info. -/
def Prod.graph (phyla : List Phylum) (P : Prod V) : Res Aug :=
  ruleEdges P.env (P.stsOf P.body) .nil (lhsDecl, infoAttr phyla P.lhsPhy)
    ((List.range P.kidPhy.length).filterMap fun c => ((P.kidPhy[c]?).bind id).map fun k => (kidDecl c, infoAttr phyla k)) P.blank

end Aps.Static
