import Verif.Model.Static
import Verif.Proofs.OagCto
import Verif.Spec.Oag
/-!
# What a static evaluator has to compute

Independent of the generator: the equations of a tree, which conditional statements and assignments are
active, and what is required of a schedule.
-/
namespace Aps.Static

open Aps.Oag Aps.Dnc

variable {V : Type}

/-! ## Equations -/

/-- The assignments that are active when the conditional with instance `r` has the outcome `σ r`. -/
def Block.active (σ : Nat → Bool) : Block V → List (Nat × Expr V)
  | .nil => []
  | .decl _ rest => rest.active σ
  | .assign i e rest => (i, e) :: rest.active σ
  | .cond r t f rest => (if σ r then t.active σ else f.active σ) ++ rest.active σ

/-- The conditionals that are reached. -/
def Block.tested (σ : Nat → Bool) : Block V → List Nat
  | .nil => []
  | .decl _ rest => rest.tested σ
  | .assign _ _ rest => rest.tested σ
  | .cond r t f rest => r :: ((if σ r then t.tested σ else f.tested σ) ++ rest.tested σ)

/-- The locals declared in active blocks. -/
def Block.locals (σ : Nat → Bool) : Block V → List Nat
  | .nil => []
  | .decl i rest => i :: rest.locals σ
  | .assign _ _ rest => rest.locals σ
  | .cond r t f rest => (if σ r then t.locals σ else f.locals σ) ++ rest.locals σ

/-- The expression that defines an instance: the active assignment, or else the default. -/
def Prod.rhs (P : Prod V) (σ : Nat → Bool) (i : Nat) : Option (Expr V) :=
  match (P.body.active σ).find? fun q => q.1 = i with
  | some q => some q.2
  | none => P.defaults[i]?.getD none

/-- An instance the production has to define: a synthesised attribute of its left-hand side, an inherited
attribute of a child, a local of an active block. Attributes that carry no value (implicit) are left out. -/
def Prod.Output (P : Prod V) (σ : Nat → Bool) (i : Nat) : Prop :=
  ∃ inst, P.insts[i]? = some inst ∧
    ((inst.lhs = true ∧ 0 < inst.ph ∧ inst.kind = .node false) ∨
     (inst.ch ≠ none ∧ inst.ph < 0 ∧ inst.kind = .node false) ∨
     (inst.kind = .loc false ∧ inst.rule = none ∧ i ∈ P.body.locals σ))

/-- the value of an instance, at the node with address `a` -/
def Prod.value (P : Prod V) (val : Slot → Option V) (a : Addr) (i : Nat) : Option V :=
  (P.insts[i]?).bind fun inst => val (inst.slot a)

/-- the value of an expression: all instances read have values -/
def Prod.eval (P : Prod V) (val : Slot → Option V) (a : Addr) (e : Expr V) : Option V :=
  (e.reads.mapM (P.value val a)).map e.fn

/-- the outcome of a conditional -/
def Prod.outcome (P : Prod V) (val : Slot → Option V) (a : Addr) (r : Nat) : Option Bool :=
  match (P.insts[r]?).bind (·.rule) with
  | none => none
  | some rule =>
    match rule.test with
    | .ifs reads fn => (reads.mapM (P.value val a)).map fn
    | .mat _ e pat => (P.eval val a e).map pat

/-- `val` solves the equations of production `P` at the node with address `a`: there are outcomes such that every
conditional reached has its outcome, and every instance the production has to define has the value of the
expression that defines it. -/
def Prod.Solved (P : Prod V) (val : Slot → Option V) (a : Addr) : Prop :=
  ∃ σ, (∀ r ∈ P.body.tested σ, P.outcome val a r = some (σ r)) ∧
    ∀ i, P.Output σ i → ∃ e v, P.rhs σ i = some e ∧ P.eval val a e = some v ∧ P.value val a i = some v

/-- `s` is the subtree at address `a` of `t` -/
inductive At (t : Tree) : Addr → Tree → Prop
  | root : At t [] t
  | kid {a : Addr} {p c : Nat} {kids : List Tree} {s : Tree} : At t a (.node p kids) → kids[c]? = some s → At t (c :: a) s

/-- All equations of the tree hold. -/
def Solves (prods : List (Prod V)) (t : Tree) (val : Slot → Option V) : Prop :=
  ∀ a p kids, At t a (.node p kids) → ∃ P, prods[p]? = some P ∧ P.Solved val a

/-! ## Grammars -/

/-- The attributes of a phylum with their phases (`+k`: synthesised in visit `k`, `-k`: inherited for visit `k`)
and whether they are implicit, and the number of visits. -/
structure Phyla where
  sched : Nat → Nat → Option Int
  implicit : Nat → Nat → Bool
  visits : Nat → Nat

/-- Trees of the grammar. -/
inductive HasTy (prods : List (Prod V)) : Tree → Option Nat → Prop
  | leaf : HasTy prods .leaf none
  | node {p : Nat} {kids : List Tree} {P : Prod V} : prods[p]? = some P → kids.length = P.kidPhy.length →
      (∀ (c : Nat) (k : Tree) (o : Option Nat), kids[c]? = some k → P.kidPhy[c]? = some o → HasTy prods k o) →
      HasTy prods (.node p kids) (some P.lhsPhy)

/-- height of a tree -/
def Tree.height : Tree → Nat
  | .leaf => 1
  | .node _ kids => 1 + ((kids.attach.map fun k => k.1.height).foldr max 0)
termination_by t => sizeOf t
decreasing_by
  have := List.sizeOf_lt_of_mem k.2
  simp; omega

/-! ## Schedules -/

/-- the instance is the test of a conditional -/
def Prod.IsRule (P : Prod V) (i : Nat) : Prop := ∃ inst, P.insts[i]? = some inst ∧ inst.rule.isSome

/-- the order in which the total order lists the instances, for outcomes `σ` -/
def Prod.path (P : Prod V) (σ : Nat → Bool) : List Nat := P.cto.path (fun i => some i) σ

/-- the instance has a value that can be read -/
def Prod.Stored (P : Prod V) (i : Nat) : Prop :=
  ∃ inst, P.insts[i]? = some inst ∧ inst.rule = none ∧ (inst.kind = .node false ∨ inst.kind = .loc false)

/-- the instances read by a test -/
def Test.reads : Test V → List Nat
  | .ifs reads _ => reads
  | .mat _ e _ => e.reads

/-- a conditional occurs in a block, with its two branches -/
inductive Block.Has : Block V → Nat → Block V → Block V → Prop
  | here {r t f rest} : Has (.cond r t f rest) r t f
  | decl {i rest r t f} : Has rest r t f → Has (.decl i rest) r t f
  | assign {i e rest r t f} : Has rest r t f → Has (.assign i e rest) r t f
  | rest {r' t' f' rest r t f} : Has rest r t f → Has (.cond r' t' f' rest) r t f
  | inTrue {r' t' f' rest r t f} : Has t' r t f → Has (.cond r' t' f' rest) r t f
  | inFalse {r' t' f' rest r t f} : Has f' r t f → Has (.cond r' t' f' rest) r t f

/-- the assignments directly in a block -/
def Block.own : Block V → List (Nat × Expr V)
  | .nil => []
  | .decl _ rest => rest.own
  | .assign i e rest => (i, e) :: rest.own
  | .cond _ _ _ rest => rest.own

/-- The instances of a production are described consistently. -/
structure Described (ph : Phyla) (P : Prod V) : Prop where
  /-- every instance has a default or none -/
  defaults : P.defaults.length = P.insts.length
  /-- a conditional is neither an attribute nor a local -/
  rule : ∀ (i : Nat) (inst : Inst V), P.insts[i]? = some inst → inst.rule.isSome → inst.lhs = false ∧ inst.ch = none
  /-- the others are attributes of the left-hand side, attributes of a child, or locals -/
  lhs : ∀ (i : Nat) (inst : Inst V), P.insts[i]? = some inst → inst.lhs = true → inst.ch = none ∧
    ph.sched P.lhsPhy inst.attr = some inst.ph ∧ inst.kind = .node (ph.implicit P.lhsPhy inst.attr) ∧
    (inst.inward = true ↔ inst.ph < 0)
  ch : ∀ (i : Nat) (inst : Inst V) (c : Nat), P.insts[i]? = some inst → inst.ch = some c → ∃ k, P.kidPhy[c]? = some (some k) ∧
    ph.sched k inst.attr = some inst.ph ∧ inst.kind = .node (ph.implicit k inst.attr) ∧ (inst.inward = true ↔ 0 < inst.ph)
  loc : ∀ (i : Nat) (inst : Inst V), P.insts[i]? = some inst → inst.rule = none → inst.lhs = false → inst.ch = none →
    inst.kind = .loc false ∧ inst.inward = false
  /-- different instances are different attributes or locals -/
  inj : ∀ (i j : Nat) (a b : Inst V), P.insts[i]? = some a → P.insts[j]? = some b → a.rule = none → b.rule = none → a.lhs = b.lhs →
    a.ch = b.ch → a.attr = b.attr → i = j
  /-- the conditionals are those of the body -/
  body : ∀ r t f, P.body.Has r t f → ∃ (inst : Inst V) (rule : Rule V), P.insts[r]? = some inst ∧ inst.rule = some rule ∧
    rule.ifTrue = t ∧ (rule.ifFalse = some f ∨ rule.ifFalse = none ∧ f.own = [])
  /-- only instances of the production are assigned -/
  assigned : ∀ (σ : Nat → Bool) q, q ∈ P.body.active σ → q.1 < P.insts.length
  /-- at most one active assignment for an instance -/
  unique : ∀ σ : Nat → Bool, ((P.body.active σ).map (·.1)).Nodup

/-- The phases of a phylum: numbered from 1 to the number of visits, in every visit something is synthesised. -/
structure Phased (ph : Phyla) : Prop where
  range : ∀ p x s, ph.sched p x = some s → s ≠ 0 ∧ s.natAbs ≤ ph.visits p
  syn : ∀ p k, 1 ≤ k → k ≤ ph.visits p → ∃ x, ph.sched p x = some (k : Int)

/-- the case expression of the last first match among the instances -/
def Prod.caseExpr (P : Prod V) : List Nat → Option (Expr V)
  | [] => none
  | i :: l =>
    match P.caseExpr l with
    | some e => some e
    | none =>
      match (P.insts[i]?).bind (·.rule) with
      | some ⟨.mat true e _, _, _⟩ => some e
      | _ => none

/-- The nodes of the total order that branch are those of the conditionals. -/
def Prod.Shaped (P : Prod V) : Cto → Prop
  | .nil => True
  | .node i next => ¬ P.IsRule i ∧ P.Shaped next
  | .ifs i f t => P.IsRule i ∧ P.Shaped f ∧ P.Shaped t

/-- What is required of the total order of a production, for all outcomes of the conditionals. -/
structure Scheduled (ph : Phyla) (P : Prod V) : Prop where
  shaped : P.Shaped P.cto
  /-- instances are listed once -/
  nodup : ∀ σ : Nat → Bool, (P.path σ).Nodup
  known : ∀ σ : Nat → Bool, ∀ i ∈ P.path σ, i < P.insts.length
  /-- all attributes are listed -/
  lhs : ∀ (σ : Nat → Bool) x s, ph.sched P.lhsPhy x = some s → ∃ i ∈ P.path σ, ∃ inst : Inst V, P.insts[i]? = some inst ∧ inst.lhs = true ∧
    inst.attr = x
  ch : ∀ (σ : Nat → Bool) (c : Nat) k x s, P.kidPhy[c]? = some (some k) → ph.sched k x = some s → ∃ i ∈ P.path σ, ∃ inst : Inst V,
    P.insts[i]? = some inst ∧ inst.ch = some c ∧ inst.attr = x
  /-- the conditionals listed are those reached -/
  tested : ∀ (σ : Nat → Bool) r, r ∈ P.body.tested σ ↔ r ∈ P.path σ ∧ P.IsRule r
  /-- the locals listed are those of active blocks -/
  locals : ∀ (σ : Nat → Bool) (i : Nat) (inst : Inst V), P.insts[i]? = some inst → inst.kind = .loc false → inst.rule = none →
    (i ∈ P.body.locals σ ↔ i ∈ P.path σ)
  /-- phases in order -/
  phases : ∀ σ : Nat → Bool, (P.path σ).Pairwise fun i j => ∀ (a b : Inst V), P.insts[i]? = some a → P.insts[j]? = some b →
    (a.lhs = true ∧ b.lhs = true ∨ a.ch ≠ none ∧ a.ch = b.ch) → place a.ph ≤ place b.ph
  /-- the first thing that is not a conditional is an attribute of the left-hand side -/
  starts : ∀ (σ : Nat → Bool) pre i post, P.path σ = pre ++ i :: post → (∀ j ∈ pre, P.IsRule j) → ¬ P.IsRule i →
    ∃ inst : Inst V, P.insts[i]? = some inst ∧ inst.lhs = true
  /-- what a test reads comes before it -/
  tests : ∀ (σ : Nat → Bool) pre r post, P.path σ = pre ++ r :: post → ∀ (inst : Inst V) (rule : Rule V), P.insts[r]? = some inst → inst.rule = some rule →
    ∀ j ∈ rule.test.reads, j ∈ pre ∧ P.Stored j
  /-- what defines an instance comes before it: the instances read, and the conditional that makes the
  assignment active -/
  reads : ∀ (σ : Nat → Bool) pre i post, P.path σ = pre ++ i :: post → ∀ e, P.rhs σ i = some e → ∀ j ∈ e.reads, j ∈ pre ∧ P.Stored j
  guards : ∀ (σ : Nat → Bool) pre i post, P.path σ = pre ++ i :: post → ¬ P.IsRule i → ∀ r ∈ P.body.tested σ, ∀ t f, P.body.Has r t f →
    (∃ e, (i, e) ∈ (if σ r then t else f).own) → r ∈ pre
  /-- what has to be defined is defined -/
  defined : ∀ (σ : Nat → Bool) i, P.Output σ i → P.rhs σ i ≠ none
  /-- the matches of one case statement are not interrupted by another case statement -/
  cases : ∀ (σ : Nat → Bool) pre r post, P.path σ = pre ++ r :: post → ∀ (inst : Inst V) (e : Expr V) (pat : V → Bool) (t : Block V) (f : Option (Block V)), P.insts[r]? = some inst →
    inst.rule = some ⟨.mat false e pat, t, f⟩ → P.caseExpr pre = some e

/-! ## Dependency graphs -/

/-- outcomes by instance, as outcomes by number of the conditional -/
def byRule (oi : List OInst) (σ : Nat → Bool) (k : Nat) : Bool :=
  (List.range oi.length).any fun i => (ruleOf oi i == some k) && σ i

/-- the instance is active: its condition holds -/
def Active (oi : List OInst) (σ : Nat → Bool) (i : Nat) : Prop := Sat (byRule oi σ) (condOf oi i)

/-- The augmented dependency graph `g` of a production, with the conditions `oi` of its instances, has all
dependencies of the production. -/
structure Graphed (ph : Phyla) (P : Prod V) (g : Aug) (oi : List OInst) : Prop where
  size : oi.length = g.n
  same : P.insts.length = g.n
  /-- the conditionals are the same, numbered differently -/
  rule : ∀ i, (ruleOf oi i).isSome ↔ P.IsRule i
  range : ∀ i k, ruleOf oi i = some k → k < 32
  inj : ∀ a b k, ruleOf oi a = some k → ruleOf oi b = some k → a = b
  /-- an instance depends on the conditionals it is nested in -/
  nested : InstsGuarded g oi
  /-- attributes are always active, conditionals and locals if their block is -/
  attrs : ∀ (i : Nat) (inst : Inst V), P.insts[i]? = some inst → (inst.lhs = true ∨ inst.ch ≠ none) → condOf oi i = ⟨0, 0⟩
  tested : ∀ (σ : Nat → Bool) r, P.IsRule r → (r ∈ P.body.tested σ ↔ Active oi σ r)
  locals : ∀ (σ : Nat → Bool) (i : Nat) (inst : Inst V), P.insts[i]? = some inst → inst.kind = .loc false → inst.rule = none →
    (i ∈ P.body.locals σ ↔ Active oi σ i)
  /-- all attributes have instances -/
  lhs : ∀ x s, ph.sched P.lhsPhy x = some s → ∃ (i : Nat) (inst : Inst V), P.insts[i]? = some inst ∧ inst.lhs = true ∧ inst.attr = x
  ch : ∀ (c : Nat) k x s, P.kidPhy[c]? = some (some k) → ph.sched k x = some s → ∃ (i : Nat) (inst : Inst V),
    P.insts[i]? = some inst ∧ inst.ch = some c ∧ inst.attr = x
  /-- dependencies between phases -/
  phases : ∀ (i j : Nat) (a b : Inst V), P.insts[i]? = some a → P.insts[j]? = some b →
    (a.lhs = true ∧ b.lhs = true ∨ a.ch ≠ none ∧ a.ch = b.ch) → place a.ph < place b.ph → ∀ τ, DepUnder g τ i j
  /-- numbering: conditionals first, then the attributes of the left-hand side, one of which depends on nothing -/
  first : ∃ (i₀ : Nat), i₀ < g.n ∧ (∀ j, g.cell j i₀ = []) ∧ condOf oi i₀ = ⟨0, 0⟩ ∧ ¬ P.IsRule i₀ ∧
    ∀ i ≤ i₀, ¬ P.IsRule i → ∃ (inst : Inst V), P.insts[i]? = some inst ∧ inst.lhs = true
  /-- dependencies of tests, of defining expressions, and on the conditionals that make them the defining ones -/
  tests : ∀ (σ : Nat → Bool) r (inst : Inst V) (rule : Rule V), P.insts[r]? = some inst → inst.rule = some rule → Active oi σ r →
    ∀ j ∈ rule.test.reads, P.Stored j ∧ Active oi σ j ∧ DepUnder g (byRule oi σ) j r
  reads : ∀ (σ : Nat → Bool) i e, P.rhs σ i = some e → Active oi σ i →
    ∀ j ∈ e.reads, P.Stored j ∧ Active oi σ j ∧ DepUnder g (byRule oi σ) j i
  guards : ∀ (σ : Nat → Bool) i, ¬ P.IsRule i → Active oi σ i → ∀ r ∈ P.body.tested σ, ∀ t f, P.body.Has r t f →
    (∃ e, (i, e) ∈ (if σ r then t else f).own) → DepUnder g (byRule oi σ) r i

/-- the grammar -/
structure Valid (ph : Phyla) (prods : List (Prod V)) : Prop where
  phased : Phased ph
  visited : ∀ P ∈ prods, 1 ≤ ph.visits P.lhsPhy
  described : ∀ P ∈ prods, Described ph P
  scheduled : ∀ P ∈ prods, Scheduled ph P

end Aps.Static
