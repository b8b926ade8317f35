import Verif.Model.Dnc
/-!
# analyze/aps-oag.c and the direction functions of analyze/aps-dnc.c

Phases for the attributes of a phylum, the conditional total order of an augmented dependency graph,
and the ordered attribute grammar loop.

Simplifications.
* An instance is its index. For phyla the directions of the instances are given as a list; for
  augmented graphs each instance carries the conditions and the rule index that `instance_condition`,
  `if_rule_p` and `if_rule_index` would read off its declarations.
* The back link `cto_prev` and debugging output are not modelled. (The debugging loop at
  aps-oag.c:336 runs to `i <= n` and would read one instance too many; it is behind a debug flag.)
-/
namespace Aps.Oag
open Aps.Dnc

/-! ## Directions -/

/-- analyze/aps-dnc.h (`enum instance_direction`) -/
inductive Dir | inward | outward | loc
  deriving DecidableEq, Repr

/-- analyze/aps-fiber.c:59 -/
def FORWARD : Int := 2

/-- analyze/aps-fiber.c:69-74; a NULL fiber is `none`, otherwise its `dir` field. -/
def fiberIsReverse : Option Int → Bool
  | none => false
  | some d => d != FORWARD

/-- analyze/aps-info.h:46-55 -/
def LHS_FLAG : Word := 1
/-- analyze/aps-info.h:47 -/
def RHS_FLAG : Word := 2
/-- analyze/aps-info.h:50 -/
def SYN_FLAG : Word := 16
/-- analyze/aps-info.h:51 -/
def INH_FLAG : Word := 32
/-- analyze/aps-info.h:55 -/
def LOCAL_FLAG : Word := 512

/-- analyze/aps-dnc.c:22-38; `flags` are the `decl_flags` of the attribute. -/
def fiberedAttrDirection (flags : Word) (fiber : Option Int) : Dir :=
  if flags &&& SYN_FLAG ≠ 0 then (if fiberIsReverse fiber then .inward else .outward)
  else if flags &&& INH_FLAG ≠ 0 then (if fiberIsReverse fiber then .outward else .inward)
  else .loc

/-- analyze/aps-dnc.c:40-47 -/
def invertDirection : Dir → Dir
  | .inward => .outward
  | .outward => .inward
  | .loc => .loc

/-- analyze/aps-dnc.c:49-63; `node` are the `decl_flags` of the node, `none` is NULL. -/
def instanceDirection (node : Option Word) (flags : Word) (fiber : Option Int) : Res Dir :=
  let dir := fiberedAttrDirection flags fiber
  match node with
  | none => .ok dir
  | some nf =>
    if nf &&& LHS_FLAG ≠ 0 then .ok dir
    else if nf &&& RHS_FLAG ≠ 0 then .ok (invertDirection dir)
    else if nf &&& LOCAL_FLAG ≠ 0 then .ok .loc
    else .stop

/-! ## Phases of a phylum -/

/-- analyze/aps-dnc.h:48 -/
def indirectControl : Dep := SOME ||| NOT_JUST_FIBER

/-- The variables of `schedule_summary_dependency_graph`. -/
structure SumSt where
  m : List Dep
  sched : List Int
  done : Nat
  localDone : Nat
  deriving DecidableEq, Repr

/-- `phy_graph->summary_schedule[j]` -/
def sget (s : List Int) (j : Nat) : Int := s[j]?.getD 0

/-- analyze/aps-oag.c:26-31 (and 52-57) — the inner loop reached `j == n`. -/
def sumReady (n i : Nat) (st : SumSt) : Bool :=
  (List.range n).all fun j => !(sget st.sched j == 0 && mget n st.m j i != 0)

/-- analyze/aps-oag.c:34-38 (and 60-64) — force extra dependencies. -/
def forceDeps (n i : Nat) (val : Int) (sched : List Int) (m : List Dep) : List Dep :=
  (List.range n).foldl (fun m j =>
    let sch := sget sched j
    if sch ≠ 0 ∧ sch ≠ val then m.set (j * n + i) indirectControl else m) m

/-- analyze/aps-oag.c:22-45 (`want` inward, `val` is `-phase`) and 48-71 (outward, `phase`) — the body of
the loop over the instances. -/
def sumStep (n : Nat) (dirs : List Dir) (want : Dir) (val : Int) (st : SumSt) (i : Nat) : SumSt :=
  if dirs[i]? = some want ∧ sget st.sched i = 0 then
    if sumReady n i st then
      let sched := st.sched.set i val
      ⟨forceDeps n i val sched st.m, sched, st.done + 1, st.localDone + 1⟩
    else st
  else st

/-- analyze/aps-oag.c:20-71 — one phase. -/
def sumPhase (n : Nat) (dirs : List Dir) (phase : Nat) (st : SumSt) : SumSt :=
  let st := { st with localDone := 0 }
  let st := (List.range n).foldl (sumStep n dirs .inward (-(phase : Int))) st
  (List.range n).foldl (sumStep n dirs .outward (phase : Int)) st

/-- analyze/aps-oag.c:19-115 — the loop; `phase` is the number of phases so far. -/
def sumLoop (n : Nat) (dirs : List Dir) : Nat → Nat → SumSt → Res SumSt
  | 0, _, _ => .nofuel
  | fuel + 1, phase, st =>
    if st.done < n then
      let st := sumPhase n dirs (phase + 1) st
      if st.localDone = 0 then .stop else sumLoop n dirs fuel (phase + 1) st
    else .ok st

/-- analyze/aps-oag.c:8-116 — result: the matrix and the schedule. -/
def scheduleSummary (fuel n : Nat) (dirs : List Dir) (m : List Dep) : Res (List Dep × List Int) := do
  let st ← sumLoop n dirs fuel 0 ⟨m, List.replicate n 0, 0, 0⟩
  return (st.m, st.sched)

/-! ## The conditional total order -/

/-- What `schedule_rest` looks up for an instance: `instance_condition` and the index of the if-rule. -/
structure OInst where
  cond : Cond
  rule : Option Nat
  deriving DecidableEq, Repr

/-- analyze/aps-oag.c:118-137; `node`: the condition of the node (`none`: NULL), `attr`: the condition of
the attribute declaration or match (`none`: removed attribute). -/
def instanceCondition (node attr : Option Cond) : Cond :=
  match node with
  | some c => c
  | none =>
    match attr with
    | none => ⟨-1, -1⟩
    | some c => c

/-- analyze/aps-ag.h (`CTO_NODE`), NULL is `nil`. -/
inductive Cto
  | nil
  | node (i : Nat) (next : Cto)
  | ifs (i : Nat) (ifFalse ifTrue : Cto)
  deriving DecidableEq, Repr

/-- `aug_graph->schedule[i] != 0` -/
def bget (s : List Bool) (i : Nat) : Bool := s[i]?.getD false

/-- analyze/aps-oag.c:175-195 — the loop over the edges ends with `edges != 0`. -/
def edgeBlocks (c : Cond) (es : List Edge) : Bool :=
  es.any fun e => ((c.pos ||| e.cond.pos) &&& (c.neg ||| e.cond.neg)) == 0

/-- analyze/aps-oag.c:163-203 — the loop over the predecessors ends with `j == n`. -/
def restReady (g : Aug) (c : Cond) (s : List Bool) (i : Nat) : Bool :=
  (List.range g.n).all fun j => bget s j || !edgeBlocks c (g.cell j i)

/-- analyze/aps-oag.c:153-204 — the first instance that can be scheduled; `none`: `i == n`. -/
def findReady (g : Aug) (c : Cond) (s : List Bool) : Option Nat :=
  (List.range g.n).find? fun i => !bget s i && restReady g c s i

/-- analyze/aps-oag.c:263-264 -/
def ignored (c icond : Cond) : Bool := ((c.pos ||| icond.pos) &&& (c.neg ||| icond.neg)) != 0

/-- analyze/aps-oag.c:289 (`1 << index`) -/
def cmask (k : Nat) : Word := (1 : Word) <<< k

/-- analyze/aps-oag.c:139-304; the argument is `remaining`; the schedule array is returned. -/
def scheduleRest (g : Aug) (insts : List OInst) : Nat → Cond → List Bool → Res (Cto × List Bool)
  | 0, _, s => .ok (.nil, s)
  | remaining + 1, c, s =>
    match findReady g c s with
    | none => .stop
    | some i =>
      match insts[i]? with
      | none => .ub
      | some inst =>
        if ignored c inst.cond then do
          let r ← scheduleRest g insts remaining c (s.set i true)
          return (r.1, r.2.set i false)
        else
          match inst.rule with
          | some k => do
            let c1 : Cond := ⟨c.pos, c.neg ||| cmask k⟩
            let rf ← scheduleRest g insts remaining c1 (s.set i true)
            let c2 : Cond := ⟨c1.pos ||| cmask k, c1.neg &&& ~~~cmask k⟩
            let rt ← scheduleRest g insts remaining c2 rf.2
            return (.ifs i rf.1 rt.1, rt.2.set i false)
          | none => do
            let r ← scheduleRest g insts remaining c (s.set i true)
            return (.node i r.1, r.2.set i false)

/-- analyze/aps-oag.c:351-366 — `schedule_augmented_dependency_graph` after the closure at 327. -/
def scheduleAug (g : Aug) (insts : List OInst) : Res Cto := do
  let r ← scheduleRest g insts g.n ⟨0, 0⟩ (List.replicate g.n false)
  return r.1

/-! ## The ordered attribute grammar loop -/

/-- analyze/aps-oag.c:368-400 — the loop over the phyla; `dirs` gives the directions for each phylum.
Result: the state and the schedules computed so far (`summary_schedule` of the other phyla unset). -/
def oagPhyla (fuel : Nat) (dirs : List (List Dir)) : List Nat → State → List (Nat × List Int) →
    Res (State × List (Nat × List Int))
  | [], s, acc => .ok (s, acc)
  | j :: js, s, acc =>
    match s.phys[j]?, dirs[j]? with
    | some p, some d => do
      let r ← scheduleSummary fuel p.n d p.m
      let s ← dncClose fuel { s with phys := s.phys.set j { p with m := r.1 } }
      let acc := acc ++ [(j, r.2)]
      if stateCycle s ≠ 0 then return (s, acc) else oagPhyla fuel dirs js s acc
    | _, _ => .ub

/-- analyze/aps-oag.c:402-407 — `schedule_augmented_dependency_graph` for each graph, in order: closure,
then total order. The closure may change the summary graphs. -/
def oagAugs (fuel : Nat) : List Aug → List (List OInst) → List Phy → Res (List Aug × List Cto × List Phy)
  | [], _, ps => .ok ([], [], ps)
  | _ :: _, [], _ => .ub
  | g :: gs, is :: iss, ps => do
    let r ← closeAugmented fuel g ps
    let t ← scheduleAug r.2.1 is
    let q ← oagAugs fuel gs iss r.2.2
    return (r.2.1 :: q.1, t :: q.2.1, q.2.2)

/-- analyze/aps-oag.c:368-415 — `compute_oag`. -/
def computeOag (fuel : Nat) (dirs : List (List Dir)) (insts : List (List OInst)) (s : State) :
    Res (State × List (Nat × List Int) × List Cto) := do
  let r ← oagPhyla fuel dirs (List.range s.phys.length) s []
  if stateCycle r.1 ≠ 0 then return (r.1, r.2, [])
  else
    let q ← oagAugs fuel r.1.augs insts r.1.phys
    return (⟨q.1, q.2.2⟩, r.2, q.2.1)

end Aps.Oag
