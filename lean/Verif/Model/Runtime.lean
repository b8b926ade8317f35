/-!
# The C++ attribute runtime (base/cpp/aps-impl.h, base/cpp/aps-impl.cpp)

Attributes of nodes, evaluated on demand; assignment; collections; circular attributes.

Simplifications, common to all definitions: the `Debug` objects and strings of exceptions are
left out; the `int` indices and sizes are natural numbers (no overflow of `int`); all attributes
have one value type `V`; a node is its phylum and its index (nodes are never deleted, and their
indices are given by `Phylum::install`, so this names the node); a member function generated by
the compiler for an attribute (`compute`) is a `Comp`: it may read attributes of nodes through
`evaluate` and then return a value or throw `UndefinedAttributeException`.
-/
namespace Aps.Runtime

variable {A P V : Type}

/-- `enum EvalStatus`, base/cpp/aps-impl.h:120. -/
inductive Status where
  | uninit | uneval | cycle | evaluated | assigned
  deriving Repr, DecidableEq

/-- A node: base/cpp/aps-impl.h:73-80 (`cons->get_type()` and `index`). -/
structure Node (P : Type) where
  phylum : P
  index : Nat
  deriving Repr, DecidableEq

/-- The exceptions of base/cpp/aps-impl.h:122-143, and `std::invalid_argument` of `check_phylum`. -/
inductive Exc where
  | tooLate | undefined | cyclic | badPhylum
  deriving Repr, DecidableEq

/-- A generated `compute` member function (apscpp/dyn-impl.cc: `dump_attr_assign` and its callers):
it reads attributes by `evaluate`, then returns or throws undefined. -/
inductive Comp (A P V : Type) where
  | ret (v : V)
  | undef
  | read (a : A) (n : Node P) (k : V → Comp A P V)

/-- Attribute declarations and the operations of their value types.
`circular`: the class derives from `CircularAttribute` (aps-impl.h:342-368).
`initial = some v`: it is a `Collection<...>` constructed with `init = v` (aps-impl.h:370-393). -/
structure Lang (A P V : Type) where
  phylum : A → P
  circular : A → Bool
  initial : A → Option V
  combine : A → V → V → V
  bottom : A → V
  join : A → V → V → V
  equal : A → V → V → Bool
  compute : A → Node P → Comp A P V
  dflt : V

/-- The mutable members of `Attribute`, aps-impl.h:168-172. -/
structure Attr (V : Type) where
  started : Bool
  complete : Bool
  vals : List V
  stat : List Status
  deriving Repr

/-- `Phylum`, aps-impl.h:97-107: number of nodes installed, and `complete`. -/
structure Phylum where
  count : Nat
  complete : Bool
  deriving Repr

/-- The state: all attributes and phyla, `Circular::pending`, `CheckPending::num_checks`
(aps-impl.h:266-294); `log` is a ghost variable: the equations run so far. -/
structure St (A P V : Type) where
  attr : A → Attr V
  phyla : P → Phylum
  pending : List (A × Node P)
  checks : Nat
  log : List (A × Nat)

/-- Outcome: returned, threw, undefined behaviour, out of fuel. The state survives a throw. -/
inductive Out (A P V : Type) (α : Type) where
  | ok (a : α) (s : St A P V)
  | exc (e : Exc) (s : St A P V)
  | ub
  | nofuel

/-- Sequencing: a throw leaves the function. -/
def Out.bind {α β : Type} : Out A P V α → (α → St A P V → Out A P V β) → Out A P V β
  | .ok a s, f => f a s
  | .exc e s, _ => .exc e s
  | .ub, _ => .ub
  | .nofuel, _ => .nofuel

variable [DecidableEq A] [DecidableEq P]

/-- Update one attribute object. -/
def St.setAttr (s : St A P V) (a : A) (x : Attr V) : St A P V :=
  { s with attr := fun b => if b = a then x else s.attr b }

/-- `std::vector::resize(n)`: cut, or append value-initialised elements. -/
def resize {α : Type} (n : Nat) (d : α) (l : List α) : List α :=
  l.take n ++ List.replicate (n - l.length) d

/-- Constructor of all attributes (aps-impl.h:174-177) and phyla (aps-impl.cpp:186). -/
def init : St A P V :=
  { attr := fun _ => ⟨false, false, [], []⟩, phyla := fun _ => ⟨0, false⟩, pending := [],
    checks := 0, log := [] }

/-- `Phylum::install`, aps-impl.cpp:188-193, called by the constructor of a node
(aps-impl.cpp:160-162). -/
def newNode (p : P) (s : St A P V) : Out A P V Nat :=
  if (s.phyla p).complete then .exc .tooLate s
  else .ok (s.phyla p).count
    { s with phyla := fun q => if q = p then ⟨(s.phyla p).count + 1, false⟩ else s.phyla q }

/-- `Attribute::check_phylum`, aps-impl.h:231-238. A node with an index never given out by its
phylum does not exist: using it is `ub`. -/
def checkPhylum (L : Lang A P V) (a : A) (n : Node P) (s : St A P V) : Out A P V Unit :=
  if (s.phyla n.phylum).count ≤ n.index then .ub
  else if n.phylum ≠ L.phylum a then .exc .badPhylum s
  else
    let x := s.attr a
    if x.vals.length ≤ n.index then
      .ok () (s.setAttr a { x with vals := resize (n.index + 1) L.dflt x.vals,
                                   stat := resize (n.index + 1) .uninit x.stat })
    else .ok () s

/-- `value_array[i] = v`. -/
def writeVal (a : A) (i : Nat) (v : V) (s : St A P V) : Out A P V Unit :=
  let x := s.attr a
  if i < x.vals.length then .ok () (s.setAttr a { x with vals := x.vals.set i v }) else .ub

/-- `status_array[i] = t`. -/
def writeStat (a : A) (i : Nat) (t : Status) (s : St A P V) : Out A P V Unit :=
  let x := s.attr a
  if i < x.stat.length then .ok () (s.setAttr a { x with stat := x.stat.set i t }) else .ub

/-- `Attribute::set`, aps-impl.h:239-244. -/
def baseSet (L : Lang A P V) (a : A) (n : Node P) (v : V) (s : St A P V) : Out A P V Unit :=
  (checkPhylum L a n s).bind fun _ s =>
  (writeVal a n.index v s).bind fun _ s => writeStat a n.index .assigned s

/-- `get_default`, aps-impl.h:255-257 and, for collections, 388-390. -/
def getDefault (L : Lang A P V) (a : A) (s : St A P V) : Out A P V V :=
  match L.initial a with
  | some v => .ok v s
  | none => .exc .undefined s

/-- `return value_array[i]`. -/
def readVal (a : A) (i : Nat) (s : St A P V) : Out A P V V :=
  match (s.attr a).vals[i]? with
  | some v => .ok v s
  | none => .ub

/-- `Attribute::get`, aps-impl.h:245-252. -/
def get (L : Lang A P V) (a : A) (n : Node P) (s : St A P V) : Out A P V V :=
  (checkPhylum L a n s).bind fun _ s =>
  match (s.attr a).stat[n.index]? with
  | none => .ub
  | some .uninit =>
    (getDefault L a s).bind fun v s =>
    (writeVal a n.index v s).bind fun _ s =>
    (writeStat a n.index .uneval s).bind fun _ s => readVal a n.index s
  | some _ => readVal a n.index s

/-- The virtual `set`: `Attribute::set`, or for a collection `Collection::set`
(aps-impl.h:383-385). -/
def set (L : Lang A P V) (a : A) (n : Node P) (v : V) (s : St A P V) : Out A P V Unit :=
  match L.initial a with
  | none => baseSet L a n v s
  | some _ => (get L a n s).bind fun old s => baseSet L a n (L.combine a old v) s

/-- `Attribute::assign`, aps-impl.h:180-184. -/
def assign (L : Lang A P V) (a : A) (n : Node P) (v : V) (s : St A P V) : Out A P V Unit :=
  if (s.attr a).started then .exc .tooLate s else set L a n v s

/-- Run a generated `compute` function; `rec` is the virtual `evaluate`. -/
def runComp (rec : A → Node P → St A P V → Out A P V V) : Comp A P V → St A P V → Out A P V V
  | .ret v, s => .ok v s
  | .undef, s => .exc .undefined s
  | .read b m k, s => (rec b m s).bind fun w s => runComp rec (k w) s

/-- The virtual `cycle_evaluate`: `Attribute::cycle_evaluate` (aps-impl.h:227-229) throws;
`CircularAttribute::cycle_evaluate` (351-357) adds a pending object and returns bottom. -/
def cycleEvaluate (L : Lang A P V) (a : A) (n : Node P) (s : St A P V) : Out A P V V :=
  if L.circular a then
    (baseSet L a n (L.bottom a) { s with pending := s.pending ++ [(a, n)] }).bind fun _ s =>
    .ok (L.bottom a) s
  else .exc .cyclic s

/-- `Attribute::evaluate`, aps-impl.h:198-225. -/
def evalBase (L : Lang A P V) (rec : A → Node P → St A P V → Out A P V V) (a : A) (n : Node P)
    (s : St A P V) : Out A P V V :=
  (checkPhylum L a n s).bind fun _ s =>
  let s := s.setAttr a { s.attr a with started := true }
  match (s.attr a).stat[n.index]? with
  | none => .ub
  | some .cycle => cycleEvaluate L a n s
  | some .evaluated | some .assigned => get L a n s
  | some .uninit | some .uneval =>
    (writeStat a n.index .cycle s).bind fun _ s =>
    (runComp rec (L.compute a n) { s with log := s.log ++ [(a, n.index)] }).bind fun v s =>
    (writeVal a n.index v s).bind fun _ s =>
    (writeStat a n.index .evaluated s).bind fun _ s => get L a n s

/-- `TypedCircular::eval_changed`, aps-impl.h:305-314, with `CircularAttributeHelper` (335-337). -/
def evalChanged (L : Lang A P V) (rec : A → Node P → St A P V → Out A P V V) (a : A) (n : Node P)
    (s : St A P V) : Out A P V Bool :=
  (get L a n s).bind fun old s =>
  (runComp rec (L.compute a n) { s with log := s.log ++ [(a, n.index)] }).bind fun w s =>
  if L.equal a old (L.join a old w) then .ok false s
  else (set L a n (L.join a old w) s).bind fun _ s => .ok true s

/-- The `for` loop of `Circular::clear_pending`, aps-impl.cpp:240-241; returns how many did not
change. When `pending` grows under the loop the vector may be reallocated and the iterator is
invalid: `ub`. -/
def sweep (L : Lang A P V) (rec : A → Node P → St A P V → Out A P V V) :
    List (A × Node P) → Nat → St A P V → Out A P V Nat
  | [], k, s => .ok k s
  | (a, n) :: cs, k, s =>
    (evalChanged L rec a n s).bind fun ch s' =>
    if s'.pending.length ≠ s.pending.length then .ub
    else sweep L rec cs (if ch then k else k + 1) s'

/-- `Circular::clear_pending`, aps-impl.cpp:236-246; at most `fuel` rounds of the `do` loop. -/
def clearPending (L : Lang A P V) (rec : A → Node P → St A P V → Out A P V V) :
    Nat → St A P V → Out A P V Unit
  | 0, _ => .nofuel
  | f + 1, s =>
    (sweep L rec s.pending 0 s).bind fun k s =>
    if k < s.pending.length then clearPending L rec f s
    else .ok () { s with pending := [] }

/-- `~CheckPending`, aps-impl.h:286-288, run on return and on throw. -/
def Out.leave {α : Type} : Out A P V α → Out A P V α
  | .ok a s => .ok a { s with checks := s.checks - 1 }
  | .exc e s => .exc e { s with checks := s.checks - 1 }
  | .ub => .ub
  | .nofuel => .nofuel

/-- The virtual `evaluate`: `Attribute::evaluate` (aps-impl.h:198-225), or for circular attributes
`CircularAttribute::evaluate` (359-367). `fuel` bounds the depth of calls (and the rounds of
`clear_pending`). -/
def evaluate (L : Lang A P V) : Nat → A → Node P → St A P V → Out A P V V
  | 0, _, _, _ => .nofuel
  | f + 1, a, n, s =>
    if L.circular a then
      ((evalBase L (evaluate L f) a n { s with checks := s.checks + 1 }).bind fun v s =>
        if s.checks = 1 then
          (clearPending L (evaluate L f) f s).bind fun _ s => get L a n s
        else .ok v s).leave
    else evalBase L (evaluate L f) a n s

/-- The loop of `Attribute::finish`, aps-impl.h:191-193: evaluate the nodes `i, i+1, ...`. -/
def finishLoop (L : Lang A P V) (fuel : Nat) (a : A) : Nat → Nat → St A P V → Out A P V Unit
  | 0, _, s => .ok () s
  | k + 1, i, s =>
    (evaluate L fuel a ⟨L.phylum a, i⟩ s).bind fun _ s => finishLoop L fuel a k (i + 1) s

/-- `Attribute::finish`, aps-impl.h:186-196, with `Phylum::size` (aps-impl.cpp:200-204). -/
def finish (L : Lang A P V) (fuel : Nat) (a : A) (s : St A P V) : Out A P V Unit :=
  if (s.attr a).complete then .ok () s
  else
    let p := L.phylum a
    let n := (s.phyla p).count
    let s := { s with phyla := fun q => if q = p then ⟨n, true⟩ else s.phyla q }
    let x := s.attr a
    let s := s.setAttr a { x with vals := resize n L.dflt x.vals, stat := resize n .uninit x.stat }
    (finishLoop L fuel a n 0 s).bind fun _ s =>
    .ok () (s.setAttr a { s.attr a with complete := true })

/-- The calls a client makes. -/
inductive Op (A P V : Type) where
  | newNode (p : P)
  | assign (a : A) (n : Node P) (v : V)
  | get (a : A) (n : Node P)
  | evaluate (a : A) (n : Node P)
  | finish (a : A)

/-- The result a client sees. -/
inductive Ret (V : Type) where
  | unit
  | index (i : Nat)
  | value (v : V)
  deriving Repr, DecidableEq

def Out.map {α β : Type} (f : α → β) : Out A P V α → Out A P V β
  | .ok a s => .ok (f a) s
  | .exc e s => .exc e s
  | .ub => .ub
  | .nofuel => .nofuel

/-- One call. -/
def call (L : Lang A P V) (fuel : Nat) : Op A P V → St A P V → Out A P V (Ret V)
  | .newNode p, s => (Runtime.newNode p s).map Ret.index
  | .assign a n v, s => (Runtime.assign L a n v s).map fun _ => Ret.unit
  | .get a n, s => (Runtime.get L a n s).map Ret.value
  | .evaluate a n, s => (Runtime.evaluate L fuel a n s).map Ret.value
  | .finish a, s => (Runtime.finish L fuel a s).map fun _ => Ret.unit

/-- A history: calls made one after the other; a client may catch an exception and go on.
The calls must end without undefined behaviour, some amount of fuel being enough. -/
inductive History (L : Lang A P V) : St A P V → List (Op A P V) → St A P V → Prop
  | nil (s) : History L s [] s
  | ok {s s1 s2 op ops r} (fuel : Nat) : call L fuel op s = .ok r s1 → History L s1 ops s2 →
      History L s (op :: ops) s2
  | exc {s s1 s2 op ops e} (fuel : Nat) : call L fuel op s = .exc e s1 → History L s1 ops s2 →
      History L s (op :: ops) s2

end Aps.Runtime
