/-!
# The Scala attribute runtime (`base/scala/aps-impl.scala`): demand evaluation with cycles

An attribute instance (an `Evaluation` object) is a number.  All instances have one value type `V`.
A generated `compute` function is a `Comp`: it reads other instances by `get` and then returns a
value or throws.  `pending` is the one global stack.

Simplifications: debug output is left out (with it the loop in `CircularHelper.addAll` that only
prints); instances exist from the start (`Attribute.checkNode` creates them on first use, in the
state in which they start); `CircularHelper` objects are identified with the instance that created
them (each instance creates at most one); `set` and `assign` are not modelled, except that an
instance may start out as assigned.
-/
namespace Aps.ScalaEval

variable {V : Type}

/-- `aps-impl.scala:181-187` (`EvalStatus`). -/
inductive Status where
  | uninit | uneval | cycle | evaluated | assigned
  deriving Repr, DecidableEq

/-- `aps-impl.scala:189-194` (exceptions) with assertion failures, null dereferences and an empty stack.
`skipped` is not in the code (see `Sys.guard`). -/
inductive Exc where
  | undefined | cyclic | nonMonotonic | assertion | nullPointer | emptyStack | skipped
  deriving Repr, DecidableEq

/-- A generated `compute` function. -/
inductive Comp (V : Type) where
  | ret (v : V)
  | undef
  | read (i : Nat) (k : V → Comp V)

/-- The attribute instances of a program and the operations of their value types.
`circular i`: the class of `i` has the trait `CircularEvaluation`.
`collection i = some v`: it has `CollectionEvaluation` with `initial = v`.
`bottom i`: `getDefault` of a circular instance.
`null i`: what the uninitialised field `value` reads as (`aps-impl.scala:227`:
`null.asInstanceOf[ValueType]`, unboxed when used).
`equal`, `less`: `v_equal` and `v_compare` of the lattice.
`guard`: not in the code, which is the case `guard = false`.  If it is set, evaluation stops with
`Exc.skipped` whenever `markPending` has left out an instance (see `guardMark`). -/
structure Sys (V : Type) where
  circular : Nat → Bool
  collection : Nat → Option V
  bottom : Nat → V
  null : Nat → V
  equal : Nat → V → V → Bool
  less : Nat → V → V → Bool
  compute : Nat → Comp V
  guard : Bool := false

/-- `aps-impl.scala:388-393` (`CircularHelper`). -/
structure Helper where
  cycleLast : Option Nat
  modified : Bool
  deriving Repr, DecidableEq

/-- The mutable fields of all instances (`aps-impl.scala:226-227, 431-437`) and `pending` (`:215`). -/
structure St (V : Type) where
  status : Nat → Status
  value : Nat → V
  parent : Nat → Option Nat
  next : Nat → Option Nat
  helper : Nat → Option Helper
  pending : List Nat

/-- Outcome: returned, threw, or out of fuel. -/
inductive Out (V α : Type) where
  | ok (a : α) (s : St V)
  | exc (e : Exc) (s : St V)
  | nofuel

/-- Sequencing. -/
def Out.bind {α β : Type} : Out V α → (α → St V → Out V β) → Out V β
  | .ok a s, f => f a s
  | .exc e s, _ => .exc e s
  | .nofuel, _ => .nofuel

/-- Assignment to one place. -/
def upd {α : Type} (f : Nat → α) (i : Nat) (a : α) : Nat → α := fun j => if j = i then a else f j

/-- `aps-impl.scala:231` and, for circular instances, `:439-445` (`inCycle`), with path
compression.  The fuel bounds the recursion. -/
def inCycle (S : Sys V) : Nat → Nat → St V → Out V (Option Nat)
  | 0, _, _ => .nofuel
  | f + 1, i, s =>
    if S.circular i then
      match s.parent i with
      | none => .ok none s
      | some p =>
        (if p ≠ i then inCycle S f p s else .ok (some p) s).bind fun q s =>
        if q ≠ s.parent i then .ok q { s with parent := upd s.parent i q } else .ok q s
    else .ok none s

/-- `aps-impl.scala:395-401` (`CircularHelper.add`), on the helper of `ce`. -/
def helperAdd (ce c : Nat) (s : St V) : Out V Unit :=
  match s.helper ce with
  | none => .exc .nullPointer s
  | some h =>
    match h.cycleLast with
    | none => .exc .assertion s
    | some l =>
      if s.next c = none then
        .ok () { s with next := upd s.next l (some c),
                        helper := upd s.helper ce (some { h with cycleLast := some c }) }
      else .exc .assertion s

/-- `aps-impl.scala:403-423` (`CircularHelper.addAll`), on the helper of `ce`. -/
def helperAddAll (ce c : Nat) (s : St V) : Out V Unit :=
  match s.helper ce with
  | none => .exc .nullPointer s
  | some h =>
    match s.helper c with
    | none => .exc .assertion s
    | some o =>
      if c = ce then .ok () s
      else
        match h.cycleLast, o.cycleLast with
        | some l, some l' =>
          if s.next l = none then
            .ok () { s with next := upd s.next l (some c),
                            helper := upd (upd s.helper ce (some ⟨some l', h.modified || o.modified⟩)) c
                              (some ⟨none, o.modified⟩) }
          else .exc .assertion s
        | _, _ => .exc .assertion s

/-- `aps-impl.scala:232-234` and `:447-456` (`setInCycle`). -/
def setInCycle (S : Sys V) (f : Nat) (e ce : Nat) (s : St V) : Out V Unit :=
  if S.circular e then
    match s.parent e with
    | none => helperAdd ce e { s with parent := upd s.parent e (some ce) }
    | some _ =>
      (inCycle S f e s).bind fun q s =>
      match q with
      | none => .exc .nullPointer s
      | some p =>
        (helperAddAll ce p s).bind fun _ s => .ok () { s with parent := upd s.parent p (some ce) }
  else .exc .cyclic s

/-- `aps-impl.scala:473-477`: the loop of `markPending` over the stack, top first. -/
def markLoop (S : Sys V) (f : Nat) (cycle : Nat) : List Nat → St V → Out V Unit
  | [], s => .ok () s
  | e :: es, s =>
    (inCycle S f e s).bind fun q s =>
    if q = some cycle then .ok () s
    else (setInCycle S f e cycle s).bind fun _ s => markLoop S f cycle es s

/-- Not in the code: throws `skipped` if on the stack some instance that is in the cycle lies below
one that is not (`out`: one that is not has been seen). -/
def guardMark (S : Sys V) (f : Nat) (cycle : Nat) : Bool → List Nat → St V → Out V Unit
  | _, [], s => .ok () s
  | out, e :: es, s =>
    match inCycle S f e s with
    | .ok q _ =>
      if q = some cycle then
        if out then .exc .skipped s else guardMark S f cycle out es s
      else guardMark S f cycle true es s
    | .exc e s => .exc e s
    | .nofuel => .nofuel

/-- `aps-impl.scala:471-478` (`markPending`). -/
def markPending (S : Sys V) (f : Nat) (i : Nat) (s : St V) : Out V Unit :=
  (inCycle S f i s).bind fun q s =>
  match q with
  | none => .exc .nullPointer s
  | some cycle =>
    (markLoop S f cycle s.pending s).bind fun _ s =>
    if S.guard then guardMark S f cycle false s.pending s else .ok () s

/-- `aps-impl.scala:284-286` and `:460-469` (`detectedCycle`). -/
def detectedCycle (S : Sys V) (f : Nat) (i : Nat) (s : St V) : Out V V :=
  if S.circular i then
    let s := match s.parent i with
      | none => { s with value := upd s.value i (S.bottom i), helper := upd s.helper i (some ⟨some i, false⟩),
                         parent := upd s.parent i (some i) }
      | some _ => s
    (markPending S f i s).bind fun _ s => .ok (s.value i) s
  else .exc .cyclic s

/-- A generated `compute` function runs; `rec` is `get`. -/
def runComp (rec : Nat → St V → Out V V) : Comp V → St V → Out V V
  | .ret v, s => .ok v s
  | .undef, s => .exc .undefined s
  | .read i k, s => (rec i s).bind fun v s => runComp rec (k v) s

/-- `aps-impl.scala:503-510` (`check`). -/
def check (S : Sys V) (f : Nat) (i : Nat) (v : V) (s : St V) : Out V Unit :=
  if S.equal i (s.value i) v then .ok () s
  else
    (inCycle S f i s).bind fun q s =>
    match q with
    | none => .exc .nullPointer s
    | some r =>
      match s.helper r with
      | none => .exc .nullPointer s
      | some h =>
        let s := { s with helper := upd s.helper r (some { h with modified := true }) }
        if S.less i (s.value i) v then .ok () s else .exc .nonMonotonic s

/-- `aps-impl.scala:517-521` (`recompute`). -/
def recompute (S : Sys V) (rec : Nat → St V → Out V V) (f : Nat) (i : Nat) (s : St V) : Out V Unit :=
  (runComp rec (S.compute i) s).bind fun v s =>
  (check S f i v s).bind fun _ s => .ok () { s with value := upd s.value i v }

/-- `aps-impl.scala:202-210` (`pop`). -/
def pop (s : St V) : Out V Unit :=
  match s.pending with
  | [] => .exc .emptyStack s
  | _ :: es => .ok () { s with pending := es }

/-- `aps-impl.scala:485-492`: one pass over the cycle led by `l`, from `c` on.  Returns whether `l`
is still in charge. -/
def pass (S : Sys V) (rec : Nat → St V → Out V V) (f : Nat) (l : Nat) :
    Nat → Nat → St V → Out V Bool
  | 0, _, _ => .nofuel
  | n + 1, c, s =>
    (recompute S rec f c { s with pending := c :: s.pending }).bind fun _ s =>
    (pop s).bind fun _ s =>
    if s.parent l ≠ some l then .ok false s
    else
      match s.next c with
      | none => .ok true s
      | some c' => pass S rec f l n c' s

/-- `aps-impl.scala:494-499`: freeze all values from `c` on. -/
def freeze : Nat → Nat → St V → Out V Unit
  | 0, _, _ => .nofuel
  | n + 1, c, s =>
    let s := { s with status := upd s.status c .evaluated }
    match s.next c with
    | none => .ok () s
    | some c' => freeze n c' s

/-- `aps-impl.scala:483-493`: the outer loop of `evaluateCycle`. -/
def cycleLoop (S : Sys V) (rec : Nat → St V → Out V V) (f : Nat) (l : Nat) :
    Nat → St V → Out V Unit
  | 0, _ => .nofuel
  | n + 1, s =>
    match s.helper l with
    | none => .exc .nullPointer s
    | some h =>
      (pass S rec f l f l { s with helper := upd s.helper l (some { h with modified := false }) }).bind
        fun inCharge s =>
      if inCharge then
        match s.helper l with
        | none => .exc .nullPointer s
        | some h => if h.modified then cycleLoop S rec f l n s else freeze f l s
      else .ok () s

/-- `aps-impl.scala:480-501` (`evaluateCycle`). -/
def evaluateCycle (S : Sys V) (rec : Nat → St V → Out V V) (f : Nat) (i : Nat) (s : St V) :
    Out V Unit :=
  if s.parent i = some i then cycleLoop S rec f i f s else .ok () s

/-- `aps-impl.scala:365-370` (`CollectionEvaluation.initialize`). -/
def initValue (S : Sys V) (i : Nat) (s : St V) : St V :=
  match S.collection i with
  | some v =>
    if s.status i = .uninit then
      { s with status := upd s.status i .uneval, value := upd s.value i v }
    else s
  | none => s

/-- `aps-impl.scala:236-253` (`doEvaluate`), after `:255-264, :372-375` (`get`).  The fuel bounds the
depth of calls, the number of passes and the length of the lists. -/
def get (S : Sys V) : Nat → Nat → St V → Out V V
  | 0, _, _ => .nofuel
  | f + 1, i, s0 =>
    let s := initValue S i s0
    match s.status i with
    | .cycle => detectedCycle S f i s
    | .uninit | .uneval =>
      (runComp (get S f) (S.compute i)
        { s with status := upd s.status i .cycle, pending := i :: s.pending }).bind fun v s =>
      (pop { s with value := upd s.value i v }).bind fun _ s =>
      (inCycle S f i s).bind fun q s =>
      if q ≠ none then
        (evaluateCycle S (get S f) f i s).bind fun _ s => .ok (s.value i) s
      else
        let s := { s with status := upd s.status i .evaluated }
        .ok (s.value i) s
    | .evaluated | .assigned => .ok (s.value i) s

/-- The state before any demand: instances are uninitialised, or assigned with a value. -/
def start (S : Sys V) (asg : Nat → Option V) : St V where
  status := fun i => if (asg i).isSome then .assigned else .uninit
  value := fun i => (asg i).getD (S.null i)
  parent := fun _ => none
  next := fun _ => none
  helper := fun _ => none
  pending := []

/-- A client demands the values of instances one after the other (and gets them). -/
inductive Demands (S : Sys V) : St V → List (Nat × V) → St V → Prop
  | nil (s) : Demands S s [] s
  | cons {s s1 s2 i v l} (fuel : Nat) : get S fuel i s = .ok v s1 → Demands S s1 l s2 →
      Demands S s ((i, v) :: l) s2

end Aps.ScalaEval
