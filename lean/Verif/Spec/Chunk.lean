import Verif.Model.Chunk
import Verif.Proofs.Cond
import Mathlib.Logic.Relation

/-!
# What the chunk scheduler should do

The parts of a visit: what the parent hands down in a phase, what it hands up, the visits to the children, the
local attributes; which part depends on which; what a path through the schedule does.
-/
namespace Aps.Chunk
open Aps.Dnc Aps.Oag

/-- The parts scheduled as a unit: the parent's inherited attributes of a phase, its synthesised attributes of a phase,
the visit of a child in one of its phases, a local attribute. -/
inductive Part
  | left (p : Nat)
  | right (p : Nat)
  | visit (ch p : Nat)
  | loc (i : Nat)
  deriving DecidableEq, Repr

/-- the part an instance belongs to -/
def Input.part (I : Input) (i : Nat) : Part :=
  let g := I.group i
  if g.1 = 0 ∧ g.2 = 0 then .loc i
  else if g.2 = -1 then (if g.1 < 0 then .left g.1.natAbs else .right g.1.natAbs)
  else .visit g.2.toNat g.1.natAbs

/-- the parts there are -/
def Input.Has (I : Input) : Part → Prop
  | .left p => 1 ≤ p ∧ p ≤ I.parent.maxPhase
  | .right p => 1 ≤ p ∧ p ≤ I.parent.maxPhase
  | .visit ch p => ∃ info, I.children[ch]? = some (some info) ∧ 1 ≤ p ∧ p ≤ info.maxPhase
  | .loc i => i < I.n ∧ I.group i = (0, 0)

/-- A proper input: a square matrix, every attribute of the parent or of a child in a phase of that phylum, the numbers
of the conditionals fit a word. -/
structure Wf (I : Input) : Prop where
  square : I.kinds.length = I.n * I.n
  group : ∀ i, i < I.n → I.group i = (0, 0) ∨ ((I.group i).1 ≠ 0 ∧ -1 ≤ (I.group i).2)
  has : ∀ i, i < I.n → I.Has (I.part i)
  rules : ∀ i r, I.rule i = some r → r < 32

/-- some branch assignment makes both conditions true -/
def Together (c d : Cond) : Prop := ∃ σ, Sat σ c ∧ Sat σ d

/-- the order of visits: a child's phases in order, the parent's inherited before its synthesised attributes of a phase,
these before the inherited ones of the next phase -/
def Guide : Part → Part → Prop
  | .visit ch p, .visit ch' p' => ch = ch' ∧ p < p'
  | .left p, .right p' => p = p'
  | .right p, .left p' => p + 1 = p'
  | _, _ => False

/-- an instance of `b` depends on one of `a`, or the order of visits says `a` before `b` -/
def Step (I : Input) (a b : Part) : Prop :=
  (∃ i j, i < I.n ∧ j < I.n ∧ I.part i = a ∧ I.part j = b ∧ I.kind i j ≠ 0 ∧ Together (I.cond i) (I.cond j)) ∨
  (I.Has a ∧ I.Has b ∧ Guide a b)

/-- some instance of `b` depends directly on one of `a` -/
def Direct (I : Input) (a b : Part) : Prop :=
  ∃ i j, i < I.n ∧ j < I.n ∧ I.part i = a ∧ I.part j = b ∧ I.kind i j &&& MAYBE_DIRECT ≠ 0 ∧
    Together (I.cond i) (I.cond j)

/-- `b` depends on `a`, perhaps through other parts -/
abbrev Reach (I : Input) : Part → Part → Prop := Relation.TransGen (Step I)

/-- `a` has to come before `b`: `b` depends on it but not conversely, or directly and there is no cycle of direct
dependencies. -/
def Must (I : Input) (a b : Part) : Prop :=
  (Reach I a b ∧ ¬ Reach I b a) ∨ (Direct I a b ∧ ¬ Relation.TransGen (Direct I) b a)

/-- an earlier phase of the parent does not depend on a later one -/
def Ordered (I : Input) : Prop :=
  ∀ p q, 1 ≤ p → p < q → q ≤ I.parent.maxPhase → ¬ Reach I (.left q) (.right p)

/-- `a` is sure to be done when phase `p` of the parent starts: it is needed for an earlier phase, or it is in a cycle
with the end of an earlier phase but does not wait for it directly (and the visits in this cycle are allowed in that
phase), or the (non-circular) end of an earlier phase does not need to wait for it but it need not wait for that
either. -/
def Early (I : Input) (a : Part) (p : Nat) : Prop :=
  ∃ q, 1 ≤ q ∧ q < p ∧ (a = .left q ∨ a = .right q ∨ Must I a (.right q) ∨
    (Reach I (.right q) a ∧ Reach I a (.right q) ∧ ¬ Relation.TransGen (Direct I) (.right q) a ∧
      (I.parent.circ q = false ∨ ∀ ch r info, Reach I (.right q) (.visit ch r) → Reach I (.visit ch r) (.right q) →
        I.children[ch]? = some (some info) → info.circ r = true)) ∨
    (I.parent.circ q = false ∧ (∀ b, Reach I (.right q) b → Reach I b (.right q) → b = .right q) ∧
      ¬ Reach I (.right q) a))

/-- Everything that has to come before the inherited attributes of a phase of the parent is sure to be done when it
starts. -/
def Entry (I : Input) : Prop :=
  ∀ p, 1 ≤ p → p ≤ I.parent.maxPhase → ∀ a, I.Has a → Must I a (.left p) → Early I a p

/-- A phase of the parent is not circular, or its two ends depend on each other and every child visit in the same
cycle is in a circular phase of the child. -/
def Sound (I : Input) : Prop :=
  ∀ p, 1 ≤ p → p ≤ I.parent.maxPhase → I.parent.circ p = false ∨
    (Reach I (.right p) (.left p) ∧ ∀ ch q info, Reach I (.left p) (.visit ch q) → Reach I (.visit ch q) (.left p) →
      I.children[ch]? = some (some info) → info.circ q = true)

/-- what happens along a schedule: an instance is computed, a child is visited, a visit to the parent ends -/
inductive Ev
  | inst (i : Nat)
  | visit (ch p : Nat)
  | finish (p : Nat)
  deriving DecidableEq, Repr

/-- what a marker means -/
def markEv (ph ch : Int) : Ev := if ch = -1 then .finish ph.natAbs else .visit ch.toNat ph.natAbs

/-- What happens along the path chosen by a branch assignment. -/
def Tree.path (rule : Nat → Option Nat) (σ : Nat → Bool) : Tree → List Ev
  | .nil => []
  | .inst i _ _ next => .inst i :: next.path rule σ
  | .ifs i _ _ t f => .inst i :: (if (rule i).map σ = some true then t.path rule σ else f.path rule σ)
  | .mark ph ch _ _ next => markEv ph ch :: next.path rule σ

/-- the part an event belongs to -/
def Input.evPart (I : Input) : Ev → Part
  | .inst i => I.part i
  | .visit ch p => .visit ch p
  | .finish p => .right p

/-- All of a part was done: every instance whose condition holds was computed, the child was visited, the visit of the
parent ended. -/
def Done (I : Input) (σ : Nat → Bool) (a : Part) (evs : List Ev) : Prop :=
  (∀ i, i < I.n → I.part i = a → Sat σ (I.cond i) → .inst i ∈ evs) ∧
  (∀ ch p, a = .visit ch p → .visit ch p ∈ evs) ∧
  (∀ p, a = .right p → .finish p ∈ evs)

/-- Every conditional an instance is nested in is a local part that has to come before it, under a condition implied by
its own. -/
def Guarded (I : Input) : Prop :=
  ∀ i, i < I.n → ∀ k, ((I.cond i).pos.getLsbD k = true ∨ (I.cond i).neg.getLsbD k = true) →
    ∃ j, I.Has (.loc j) ∧ I.rule j = some k ∧ (I.cond j).sub (I.cond i) ∧ Must I (.loc j) (I.part i)

/-- the visits to the parent that end, in order -/
def finishes (l : List Ev) : List Nat := l.filterMap fun e => match e with | .finish p => some p | _ => none

/-- The instances of a group in the order of their indexes: all those whose condition holds, perhaps others. -/
structure Block (I : Input) (σ : Nat → Bool) (g : Int × Int) (l : List Nat) : Prop where
  sorted : l.Pairwise (· < ·)
  group : ∀ i ∈ l, i < I.n ∧ I.group i = g
  all : ∀ i, i < I.n → I.group i = g → Sat σ (I.cond i) → i ∈ l

end Aps.Chunk
