import Verif.Model.SccGen
import Verif.Spec.Static
/-!
# What a static evaluator with circular attributes has to do

Total orders without conditionals, as plans: what is done in the visits, chunk by chunk; what a plan has to be like so
that it can compute circular attributes.
-/
namespace Aps.SccGen
open Aps.Static

variable {V : Type}

/-! ## The printed code -/

/-- there is no loop -/
def Code.NoLoop : Code V → Prop
  | .done => True
  | .visit _ _ rest => rest.NoLoop
  | .assign _ _ rest => rest.NoLoop
  | .loop _ _ _ => False
  | .letNode _ rest => rest.NoLoop
  | .ifs _ _ t f rest => t.NoLoop ∧ f.NoLoop ∧ rest.NoLoop
  | .mat _ t f rest => t.NoLoop ∧ f.NoLoop ∧ rest.NoLoop

/-- no loop in a loop, and no empty loop -/
def Code.Flat : Code V → Prop
  | .done => True
  | .visit _ _ rest => rest.Flat
  | .assign _ _ rest => rest.Flat
  | .loop _ body rest => body.NoLoop ∧ body.render ≠ [] ∧ rest.Flat
  | .letNode _ rest => rest.Flat
  | .ifs _ _ t f rest => t.Flat ∧ f.Flat ∧ rest.Flat
  | .mat _ t f rest => t.Flat ∧ f.Flat ∧ rest.Flat

/-- The place of an instance, as the scheduler sees it: phase and child, child -1 for the left-hand side. -/
def placeOf (x : Inst V) : Int × Int :=
  (x.ph, if x.lhs then -1 else match x.ch with
    | some c => (c : Int)
    | none => 0)

/-- The total order is the one the scheduler makes of `I`, and `I` describes the production: its instances, and all
dependencies. -/
structure SProd.From (P : SProd V) (I : Chunk.Input) : Prop where
  order : ∃ fuel, Chunk.schedule fuel I = .ok P.order
  chunks : ∀ cs, Chunk.collectChunks I = .ok cs → ∀ (k : Nat) (c : Chunk.Chunk), cs[k]? = some c → P.chunkCirc k = c.circular
  parent : (∀ q, P.cyclic q = I.parent.circ q) ∧ P.maxPhase = I.parent.maxPhase
  insts : P.base.insts.map placeOf = I.insts.map fun x => (x.ph, x.ch)
  edges : ∀ (i : Nat) (e : Expr V) (j : Nat), P.base.rhs (fun _ => false) i = some e → j ∈ e.reads → I.kind j i ≠ 0

/-- The total order fits the production: its instances are known, the nodes that branch are its conditionals, and the
blocks of the conditionals assign known instances. -/
def SProd.Fits (P : SProd V) : Chunk.Tree → Prop
  | .nil => True
  | .inst i _ _ next => (∃ inst, P.base.insts[i]? = some inst ∧ inst.rule = none) ∧ P.Fits next
  | .mark _ _ _ _ next => P.Fits next
  | .ifs i _ _ t f => (∃ inst rule, P.base.insts[i]? = some inst ∧ inst.rule = some rule ∧ ((P.rules[i]?).getD none).isSome ∧
      (∀ q ∈ rule.ifTrue.own, q.1 < P.base.insts.length) ∧
      ∀ b, rule.ifFalse = some b → ∀ q ∈ b.own, q.1 < P.base.insts.length) ∧ P.Fits t ∧ P.Fits f

/-! ## Plans -/

/-- what is done: an instance is computed, a child is visited -/
inductive Step
  | inst (i : Nat)
  | visit (c p : Nat)
  deriving DecidableEq, Repr

/-- some steps of one chunk, without others between -/
structure Run where
  chunk : Nat
  steps : List Step
  deriving DecidableEq, Repr

/-- what is done in a visit: the runs, and the chunk of the mark that ends it -/
structure Visit where
  runs : List Run
  last : Nat
  deriving DecidableEq, Repr

/-- the steps of a visit -/
def Visit.steps (v : Visit) : List Step := v.runs.flatMap (·.steps)

/-- a step in a total order -/
def Step.tree (q k : Nat) (next : Chunk.Tree) : Step → Chunk.Tree
  | .inst i => .inst i q k next
  | .visit c p => .mark p c q k next

/-- the steps of visit `q`, of chunk `k` -/
def stepsTree (q k : Nat) (next : Chunk.Tree) : List Step → Chunk.Tree
  | [] => next
  | s :: l => s.tree q k (stepsTree q k next l)

/-- the runs of visit `q` -/
def runsTree (q : Nat) (next : Chunk.Tree) : List Run → Chunk.Tree
  | [] => next
  | r :: rs => stepsTree q r.chunk (runsTree q next rs) r.steps

/-- the total order, from visit `q` on -/
def planTree (q : Nat) : List Visit → Chunk.Tree
  | [] => .nil
  | v :: vs => runsTree q (.mark q (-1) q v.last (planTree (q + 1) vs)) v.runs

/-- a run of a circular chunk in a visit that is not circular, not the first of all -/
def SProd.Looped (P : SProd V) (q : Nat) (first : Bool) (r : Run) : Prop :=
  first = false ∧ P.chunkCirc r.chunk = true ∧ P.cyclic q = false

/-- The value of instance `j` is there in visit `q` after the steps `before`: it was handed down, computed, or handed up
by a child. -/
def Available (P : SProd V) (q : Nat) (before : List Step) (j : Nat) : Prop :=
  ∃ inst, P.base.insts[j]? = some inst ∧
    (inst.lhs = true ∧ inst.ph < 0 ∧ -(q : Int) ≤ inst.ph ∨
     inst.inward = false ∧ .inst j ∈ before ∨
     ∃ (c p : Nat), inst.ch = some c ∧ inst.ph = (p : Int) ∧ 0 < p ∧ .visit c p ∈ before)

/-- instance `j` gets its value in one of the steps -/
def Within (P : SProd V) (steps : List Step) (j : Nat) : Prop :=
  ∃ inst, P.base.insts[j]? = some inst ∧
    (inst.inward = false ∧ .inst j ∈ steps ∨
     ∃ (c p : Nat), inst.ch = some c ∧ inst.ph = (p : Int) ∧ 0 < p ∧ .visit c p ∈ steps)

/-- the key of an instance -/
def keyOf (P : SProd V) (j : Nat) : Option Key := (P.base.insts[j]?).map fun inst => (inst.slot []).2

/-- no conditionals: the outcomes do not matter -/
def SProd.rhs (P : SProd V) (i : Nat) : Option (Expr V) := P.base.rhs (fun _ => false) i

/-- A step of visit `q`, with the steps of earlier visits and of this one before it. -/
structure Occurs (plan : List Visit) (q : Nat) (first : Bool) (v : Visit) (r : Run) (before : List Step) (s : Step) : Prop where
  pos : ∃ (pre post : List Visit) (rpre rpost : List Run) (spre spost : List Step), plan = pre ++ v :: post ∧
    v.runs = rpre ++ r :: rpost ∧ r.steps = spre ++ s :: spost ∧ q = pre.length + 1 ∧
    before = pre.flatMap Visit.steps ++ rpre.flatMap (·.steps) ++ spre ∧ (first = true ↔ pre = [] ∧ rpre = [])

/-- What is required of a production without conditionals and its total order. `cyc` says which visits of which phyla are
circular. -/
structure Planned (ph : Phyla) (cyc : Nat → Nat → Bool) (A : Attrs V) (P : SProd V) (plan : List Visit) : Prop where
  order : P.order = planTree 1 plan
  /-- one part of the order for every visit -/
  visits : plan.length = ph.visits P.base.lhsPhy ∧ P.maxPhase = ph.visits P.base.lhsPhy
  flags : ∀ q, P.cyclic q = cyc P.base.lhsPhy q
  /-- chunks are not scattered -/
  nonempty : ∀ v ∈ plan, ∀ r ∈ v.runs, r.steps ≠ []
  nodup : (plan.flatMap fun v => v.runs.map (·.chunk)).Nodup
  last : plan.Pairwise fun v w => ∀ r ∈ w.runs, r.chunk ≠ v.last
  /-- no conditionals, no collections -/
  rules : ∀ (i : Nat) (inst : Inst V), P.base.insts[i]? = some inst → inst.rule = none
  conds : ∀ i : Nat, P.conds[i]?.getD (⟨0, 0⟩ : Dnc.Cond) = ⟨0, 0⟩
  coll : ∀ i, P.coll i = false
  known : ∀ v ∈ plan, ∀ i, .inst i ∈ v.steps → i < P.base.insts.length
  /-- all attributes of the left-hand side have instances, all locals are declared -/
  attrs : ∀ (x : Nat) (s : Int), ph.sched P.base.lhsPhy x = some s → ∃ (i : Nat) (inst : Inst V), P.base.insts[i]? = some inst ∧
    inst.lhs = true ∧ inst.attr = x
  locals : ∀ (σ : Nat → Bool) (i : Nat) (inst : Inst V), P.base.insts[i]? = some inst → inst.kind = .loc false → i ∈ P.base.body.locals σ
  /-- everything is done: what is handed up after a visit is computed in it, all visits of the children are made -/
  outputs : ∀ (i : Nat) (inst : Inst V), P.base.insts[i]? = some inst → inst.inward = false → ∃ v ∈ plan, .inst i ∈ v.steps
  syn : ∀ (i : Nat) (inst : Inst V) (q : Nat) (v : Visit), P.base.insts[i]? = some inst → inst.lhs = true → inst.ph = (q : Int) →
    1 ≤ q → plan[q - 1]? = some v → .inst i ∈ v.steps
  all : ∀ (c k p : Nat), P.base.kidPhy[c]? = some (some k) → 1 ≤ p → p ≤ ph.visits k → ∃ v ∈ plan, .visit c p ∈ v.steps
  /-- there are equations -/
  defined : ∀ (i : Nat) (inst : Inst V), P.base.insts[i]? = some inst → inst.inward = false → P.base.Stored i → P.rhs i ≠ none
  /-- a visit of a child: the earlier ones and what is handed down come before; it is circular exactly if it is repeated -/
  visit : ∀ q first v r before c p, Occurs plan q first v r before (.visit c p) → ∃ k, P.base.kidPhy[c]? = some (some k) ∧
    1 ≤ p ∧ p ≤ ph.visits k ∧ (∀ p', 1 ≤ p' → p' < p → .visit c p' ∈ before) ∧
    (∀ (x : Nat) (s : Int), ph.sched k x = some s → s < 0 → -s ≤ p → ph.implicit k x = false →
      ∃ (i : Nat) (inst : Inst V), P.base.insts[i]? = some inst ∧ inst.ch = some c ∧ inst.attr = x ∧ .inst i ∈ before) ∧
    (cyc k p = true ↔ P.cyclic q = true ∨ P.Looped q first r)
  /-- what an equation reads is there, or it is circular and in the same circular visit or the same repeated run -/
  reads : ∀ q first v r before i e, Occurs plan q first v r before (.inst i) → P.rhs i = some e → ∀ j ∈ e.reads,
    P.base.Stored j ∧ (Available P q before j ∨ ((keyOf P j).map A.circ = some true ∧
      (P.cyclic q = true ∧ Within P v.steps j ∨ P.Looped q first r ∧ Within P r.steps j)))

/-- A grammar whose productions are planned. -/
structure Grammar (ph : Phyla) (cyc : Nat → Nat → Bool) (A : Attrs V) (prods : List (SProd V)) (plans : Nat → List Visit) : Prop where
  phased : Phased ph
  described : ∀ (p : Nat) (P : SProd V), prods[p]? = some P → Described ph P.base
  planned : ∀ (p : Nat) (P : SProd V), prods[p]? = some P → Planned ph cyc A P (plans p)

/-- the productions without what the order says -/
abbrev bases (prods : List (SProd V)) : List (Static.Prod V) := prods.map (·.base)

/-- two lists of values are in order, place by place -/
inductive Pointwise (R : Key → V → V → Prop) : List Key → List V → List V → Prop
  | nil : Pointwise R [] [] []
  | cons {k : Key} {v w : V} {ks : List Key} {vs ws : List V} : R k v w → Pointwise R ks vs ws → Pointwise R (k :: ks) (v :: vs) (w :: ws)

/-- the key of an instance of a production -/
def SProd.key (P : SProd V) (j : Nat) : Key := (keyOf P j).getD (.loc 0)

/-- `R` orders the values of every attribute and local, bottom is the least value of a circular one, and all equations are
monotone. -/
structure Ordered (A : Attrs V) (R : Key → V → V → Prop) (prods : List (SProd V)) : Prop where
  refl : ∀ k v, R k v v
  trans : ∀ k u v w, R k u v → R k v w → R k u w
  bot : ∀ k, A.circ k = true → ∀ v, R k (A.bot k) v
  mono : ∀ (P : SProd V), P ∈ prods → ∀ (i : Nat) (e : Expr V), P.rhs i = some e → ∀ vs ws : List V,
    Pointwise R (e.reads.map P.key) vs ws → R (P.key i) (e.fn vs) (e.fn ws)

/-- The values of circular attributes have bounded height, and the comparison of the lattice is the order. -/
structure Bounded (A : Attrs V) (R : Key → V → V → Prop) : Prop where
  le : ∀ k, A.circ k = true → ∀ v w, R k v w → A.le k v w = true
  rank : ∃ (rank : Key → V → Nat) (H : Nat), ∀ k, A.circ k = true →
    (∀ v w, R k v w → v ≠ w → rank k v < rank k w) ∧ ∀ v, rank k v ≤ H

/-- the code of a procedure is what was printed -/
def Printed (P : SProd V) (codes : List (Code V)) : Prop := dumpVisits true true P = .ok (codes.map Code.render)

end Aps.SccGen
