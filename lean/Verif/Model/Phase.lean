import Verif.Model.Oag
import Verif.Model.Scc
/-!
# analyze/aps-scc.c and analyze/aps-schedule.c: phases of a phylum with circular attributes

Simplifications.
* An instance is its index; the SCC library is called with these indices (that its vertices, registered in
  order, get these indices, and that its adjacency matrix is exactly the one passed here, is C09).
* `summary_schedule` and `mingraph` are lists of `n` and `n * n` entries. The two arrays `circular_phase` and
  `empty_phase` have an explicit size: a write beyond it is undefined behaviour.
* Debugging output is not modelled. `fatal_error` is `stop`.
-/
namespace Aps.Phase
open Aps.Dnc Aps.Oag

/-- analyze/aps-scc.c:20-30 — the edges given to the SCC library. -/
def adjOf (m : List Dep) : List Bool := m.map fun d => d != 0

/-- analyze/aps-scc.c:36-46 — `component_cycle[i]`. -/
def compCycle (n : Nat) (m : List Dep) (c : List Nat) : Bool := c.any fun i => mget n m i i != 0

/-- analyze/aps-scc.c:8-46 — the components with their flags; the library stops for an empty graph. -/
def phyComponents (n : Nat) (m : List Dep) : Res (List (List Nat × Bool)) :=
  if n = 0 then .stop else do
  let cs ← Scc.components n (adjOf m)
  return cs.map fun c => (c, compCycle n m c)

/-- analyze/aps-schedule.c:819-847 and 849-877 — the body of the loops over the instances: as in aps-oag.c but
skipping the instances in cycles. -/
def ncStep (n : Nat) (dirs : List Dir) (want : Dir) (val : Int) (st : SumSt) (i : Nat) : SumSt :=
  if mget n st.m i i ≠ 0 then st else sumStep n dirs want val st i

/-- analyze/aps-schedule.c:813-879 — `schedule_phase_non_circular`; `localDone` is its result. -/
def ncPhase (n : Nat) (dirs : List Dir) (phase : Nat) (st : SumSt) : SumSt :=
  let st := { st with localDone := 0 }
  let st := (List.range n).foldl (ncStep n dirs .inward (-(phase : Int))) st
  (List.range n).foldl (ncStep n dirs .outward (phase : Int)) st

/-- analyze/aps-schedule.c:756-781 — the cycle is ready; members count as scheduled. -/
def cycReady (n : Nat) (st : SumSt) (c : List Nat) : Bool :=
  c.all fun i => (List.range n).all fun k => c.contains k || sget st.sched k != 0 || mget n st.m k i == 0

/-- analyze/aps-schedule.c:784-791 -/
def cycAssign (dirs : List Dir) (phase : Nat) (c : List Nat) (sched : List Int) : List Int :=
  c.foldl (fun s i => s.set i (if dirs[i]? = some .inward then -(phase : Int) else (phase : Int))) sched

/-- analyze/aps-schedule.c:740-805 — `schedule_phase_circular`: the first ready cycle gets the phase. -/
def cycPhase (n : Nat) (dirs : List Dir) (phase : Nat) : List (List Nat × Bool) → SumSt → Res (SumSt)
  | [], st => .ok { st with localDone := 0 }
  | (c, cyc) :: rest, st =>
    if cyc = false then cycPhase n dirs phase rest st
    else
      match c.head? with
      | none => .ub
      | some i =>
        if sget st.sched i ≠ 0 then cycPhase n dirs phase rest st
        else if cycReady n st c then
          .ok { st with sched := cycAssign dirs phase c st.sched, done := st.done + c.length, localDone := c.length }
        else cycPhase n dirs phase rest st

/-- The variables of `schedule_summary_dependency_graph`. -/
structure PSt where
  sum : SumSt
  circ : List Bool
  empty : List Bool
  maxPhase : Nat
  phase : Nat
  happened : Bool
  deriving DecidableEq, Repr

/-- an array write -/
def wr {α : Type} (a : List α) (i : Nat) (v : α) : Res (List α) := if i < a.length then .ok (a.set i v) else .ub

/-- analyze/aps-schedule.c:946-953 (and 975-985) — add an empty phase. -/
def emptyPhase (st : PSt) : Res PSt := do
  let circ ← wr st.circ st.phase false
  let empty ← wr st.empty st.phase true
  return { st with circ := circ, empty := empty, maxPhase := st.phase, phase := st.phase + 1, happened := false }

/-- analyze/aps-schedule.c:924-972 — the loop. -/
def phaseLoop (n : Nat) (dirs : List Dir) (comps : List (List Nat × Bool)) : Nat → PSt → Res PSt
  | 0, _ => .nofuel
  | fuel + 1, st =>
    let s1 := ncPhase n dirs st.phase st.sum
    if s1.localDone ≠ 0 then do
      let circ ← wr st.circ st.phase false
      phaseLoop n dirs comps fuel
        { st with sum := s1, circ := circ, maxPhase := st.phase, phase := st.phase + 1, happened := false }
    else do
      let st := { st with sum := s1 }
      let st ← if st.happened = true ∨ st.phase = 1 then emptyPhase st else .ok st
      let s2 ← cycPhase n dirs st.phase comps st.sum
      if s2.localDone ≠ 0 then do
        let circ ← wr st.circ st.phase true
        phaseLoop n dirs comps fuel
          { st with sum := s2, circ := circ, maxPhase := st.phase, phase := st.phase + 1, happened := true }
      else return { st with sum := s2, happened := false }

/-- analyze/aps-schedule.c:888-1030 — `schedule_summary_dependency_graph`; `size` is the number of elements
allocated for the two phase arrays (the code allocates `n + 1`). -/
def schedulePhases (fuel size n : Nat) (dirs : List Dir) (m : List Dep) : Res PSt := do
  let comps ← phyComponents n m
  let st ← phaseLoop n dirs comps fuel
    ⟨⟨m, List.replicate n 0, 0, 0⟩, List.replicate size false, List.replicate size false, 0, 1, false⟩
  let st ← if st.sum.done = n ∧ st.happened = true then emptyPhase st else .ok st
  if st.sum.done < n then .stop else return st

/-- analyze/aps-schedule.c:905-906 — as called. -/
def scheduleSummaryCircular (n : Nat) (dirs : List Dir) (m : List Dep) : Res PSt :=
  schedulePhases (n + 2) (n + 1) n dirs m

end Aps.Phase
