import Verif.Spec.SccGen
import Verif.Spec.Chunk
/-!
# Dependency graphs the scheduler can make a circular evaluator of

What is required of the input of the chunk scheduler, and how it has to describe a production, so that the visit
procedures compute the circular attributes.
-/
namespace Aps.SccGen
open Aps.Static Aps.Dnc
open Aps.Chunk (Input Part Reach Direct Must Early)

variable {V : Type}

/-- the part is in a cycle with a circular phase of the left-hand side -/
structure InPhase (I : Input) (q : Nat) (a : Part) : Prop where
  range : 1 ≤ q ∧ q ≤ I.parent.maxPhase
  circ : I.parent.circ q = true
  fwd : Reach I (.left q) a
  back : Reach I a (.left q)

/-- the part is marked as circular: it belongs to a circular phase, or it is a local that depends on itself -/
def Circular (I : Input) : Part → Prop
  | .left q => I.parent.circ q = true
  | .right q => I.parent.circ q = true
  | .visit ch p => ∃ info, I.children[ch]? = some (some info) ∧ info.circ p = true
  | .loc i => I.kind i i ≠ 0

/-- there is something to do for the part -/
def Fills (I : Input) (a : Part) : Prop := (∃ ch p, a = .visit ch p) ∨ ∃ i, i < I.n ∧ I.part i = a

/-- Dependencies that can be scheduled for evaluation with loops. -/
structure Calm (I : Input) : Prop where
  /-- no conditionals -/
  plain : ∀ x ∈ I.insts, x.cond = ⟨0, 0⟩ ∧ x.rule = none
  /-- parts that depend directly on each other are in a circular phase of the left-hand side -/
  cycles : ∀ a b, a ≠ b → Relation.TransGen (Direct I) a b → Relation.TransGen (Direct I) b a → ∃ q, InPhase I q a
  /-- what uses results of a circular phase directly, and is needed for them, is needed directly -/
  closed : ∀ q y, InPhase I q y → Direct I (.right q) y → Relation.TransGen (Direct I) y (.right q)
  /-- an earlier visit of a child does not depend on a later one -/
  visits : ∀ ch p p', p < p' → ¬ Reach I (.visit ch p') (.visit ch p)
  /-- there is something to do before the first circular part, unless the first phase is circular -/
  first : I.parent.circ 1 = true ∨ ∀ y, I.Has y → Circular I y → (∀ q, y ≠ .left q ∧ y ≠ .right q) →
    ∃ a, Fills I a ∧ (a = .left 1 ∨ Must I a y)
  /-- everything is done by the end of the last phase -/
  complete : ∀ a, I.Has a → Early I a (I.parent.maxPhase + 1) ∨ ∃ q, InPhase I q a

/-- The input describes the production, and the dependencies of its equations are direct. -/
structure SProd.Linked (ph : Phyla) (cyc : Nat → Nat → Bool) (A : Attrs V) (P : SProd V) (I : Input) : Prop where
  source : P.From I
  /-- visits and circular visits of the left-hand side and of the children -/
  lhs : I.parent.maxPhase = ph.visits P.base.lhsPhy ∧ ∀ q, I.parent.circ q = cyc P.base.lhsPhy q
  kids : ∀ (c k : Nat), P.base.kidPhy[c]? = some (some k) → ∃ info, I.children[c]? = some (some info) ∧
    info.maxPhase = ph.visits k ∧ ∀ q, info.circ q = cyc k q
  kid : ∀ (c : Nat) (info : Chunk.PhInfo), I.children[c]? = some (some info) → ∃ k, P.base.kidPhy[c]? = some (some k)
  /-- no conditionals, no collections -/
  rules : ∀ (i : Nat) (inst : Inst V), P.base.insts[i]? = some inst → inst.rule = none
  conds : ∀ i : Nat, P.conds[i]?.getD (⟨0, 0⟩ : Dnc.Cond) = ⟨0, 0⟩
  coll : ∀ i, P.coll i = false
  /-- all attributes have instances, all locals are declared -/
  attrs : ∀ (x : Nat) (s : Int), ph.sched P.base.lhsPhy x = some s → ∃ (i : Nat) (inst : Inst V), P.base.insts[i]? = some inst ∧
    inst.lhs = true ∧ inst.attr = x
  kidAttrs : ∀ (c k x : Nat) (s : Int), P.base.kidPhy[c]? = some (some k) → ph.sched k x = some s →
    ∃ (i : Nat) (inst : Inst V), P.base.insts[i]? = some inst ∧ inst.ch = some c ∧ inst.attr = x
  locals : ∀ (σ : Nat → Bool) (i : Nat) (inst : Inst V), P.base.insts[i]? = some inst → inst.kind = .loc false → i ∈ P.base.body.locals σ
  zero : ∀ (i : Nat) (inst : Inst V), P.base.insts[i]? = some inst → inst.lhs = false → inst.ch = none → inst.ph = 0
  /-- there are equations -/
  defined : ∀ (i : Nat) (inst : Inst V), P.base.insts[i]? = some inst → inst.inward = false → P.base.Stored i → P.rhs i ≠ none
  /-- what equations read are direct dependencies -/
  reads : ∀ (i : Nat) (e : Expr V) (j : Nat), P.rhs i = some e → j ∈ e.reads → P.base.Stored j ∧ I.kind j i &&& MAYBE_DIRECT ≠ 0
  /-- inside a part that is not circular, instances are numbered in the order of their dependencies -/
  inner : ∀ (i : Nat) (e : Expr V) (j : Nat), P.rhs i = some e → j ∈ e.reads → I.part j = I.part i →
    I.group j = I.group i ∧ j < i ∨ Circular I (I.part i)
  /-- what is read in a direct cycle is declared circular -/
  circ : ∀ (i : Nat) (e : Expr V) (j : Nat), P.rhs i = some e → j ∈ e.reads → Relation.TransGen (Direct I) (I.part i) (I.part j) →
    I.part j = I.part i ∧ I.group j = I.group i ∧ j < i ∨ (keyOf P j).map A.circ = some true

/-- a grammar with the inputs of the scheduler -/
structure Schedulable (ph : Phyla) (cyc : Nat → Nat → Bool) (A : Attrs V) (prods : List (SProd V)) (inputs : Nat → Input) : Prop where
  phased : Phased ph
  described : ∀ (p : Nat) (P : SProd V), prods[p]? = some P → Described ph P.base
  wf : ∀ (p : Nat) (P : SProd V), prods[p]? = some P → Chunk.Wf (inputs p) ∧ Chunk.Ordered (inputs p) ∧ Chunk.Entry (inputs p) ∧
    Chunk.Sound (inputs p) ∧ Calm (inputs p)
  linked : ∀ (p : Nat) (P : SProd V), prods[p]? = some P → P.Linked ph cyc A (inputs p)

end Aps.SccGen
