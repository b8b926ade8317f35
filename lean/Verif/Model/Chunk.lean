import Verif.Model.Phase

/-!
# The static scheduler for circular grammars (analyze/aps-schedule.c)

`schedule_augmented_dependency_graph` with `static_scc_schedule`: the instances of an augmented dependency
graph are collected into chunks, the strongly connected components of the chunk graph are scheduled greedily.

* The instances, the edges (`edgeset_kind`), the phases of the attributes and the flags of the phyla are input;
  they are computed by the code modelled in `Dnc`, `Phase` and `IfCond`.
* The two arrays of flags (`aug_graph->schedule`, `chunk_graph->schedule`) are the lists of the indexes whose flag
  is set. The C code sets a flag before the recursive call and resets it afterwards; here the recursive call gets
  the longer list. (These agree unless one chunk is entered twice on one path.)
* The SCC library always returns a result (C30); where it cannot fail its result is used without `Res`.
* Recursion takes fuel: the C code can recurse for ever (see `C59_recursion_refuted`).
* `remaining`, `cto_prev`, debugging output and warnings are not modelled. `fatal_error` is `stop`.
* `cyclic_flags` is read with default `false`.
-/
namespace Aps.Chunk
open Aps.Dnc Aps.Oag

/-- An instance: `instance_groups[i]` (aps-schedule.c:2764-2785; `(0,0)` for a local one, `ch = -1` for the parent),
`instance_condition` and `if_rule_index`. -/
structure CInst where
  ph : Int
  ch : Int
  cond : Cond
  rule : Option Nat
  deriving DecidableEq, Repr

/-- `max_phase` and `cyclic_flags` of a phylum (Model/Phase: `PSt`). -/
structure PhInfo where
  maxPhase : Nat
  cyclic : List Bool
  deriving DecidableEq, Repr

/-- What is scheduled: the instances, the matrix of `edgeset_kind`, the phylum of the parent, and of the children
(`none`: `DECL_PHY_GRAPH` is NULL). -/
structure Input where
  insts : List CInst
  kinds : List Dep
  parent : PhInfo
  children : List (Option PhInfo)
  deriving DecidableEq, Repr

/-- number of instances -/
def Input.n (I : Input) : Nat := I.insts.length

/-- `edgeset_kind(aug_graph->graph[i * n + j])` -/
def Input.kind (I : Input) (i j : Nat) : Dep := mget I.n I.kinds i j

/-- `instance_groups[i]` -/
def Input.group (I : Input) (i : Nat) : Int × Int :=
  match I.insts[i]? with
  | some x => (x.ph, x.ch)
  | none => (0, 0)

/-- `instance_condition` -/
def Input.cond (I : Input) (i : Nat) : Cond :=
  match I.insts[i]? with
  | some x => x.cond
  | none => ⟨0, 0⟩

/-- `if_rule_p`, `if_rule_index` -/
def Input.rule (I : Input) (i : Nat) : Option Nat :=
  match I.insts[i]? with
  | some x => x.rule
  | none => none

/-- `cyclic_flags[ph]` -/
def PhInfo.circ (p : PhInfo) (ph : Nat) : Bool := bget p.cyclic ph

/-- aps-schedule.c:19-24 -/
inductive CKind | halfLeft | halfRight | visit | loc
  deriving DecidableEq, Repr

/-- aps-schedule.c:26-35; the index is the place in the list. -/
structure Chunk where
  kind : CKind
  ph : Nat
  ch : Int
  circular : Bool
  insts : List Nat
  deriving DecidableEq, Repr

/-- the instances with the given group, in order -/
def Input.members (I : Input) (p : Int × Int → Bool) : List Nat := (List.range I.n).filter fun i => p (I.group i)

/-- aps-schedule.c:2371-2430 — the two halves of each parent phase -/
def parentChunks (I : Input) : List Chunk :=
  (List.range I.parent.maxPhase).flatMap fun q =>
    [⟨.halfLeft, q + 1, -1, I.parent.circ (q + 1), I.members fun g => g.1 == -((q : Int) + 1) && g.2 == -1⟩,
     ⟨.halfRight, q + 1, -1, I.parent.circ (q + 1), I.members fun g => g.1 == (q : Int) + 1 && g.2 == -1⟩]

/-- aps-schedule.c:2433-2470 — the visits of one child -/
def childChunks (I : Input) (ch : Nat) : List Chunk :=
  match I.children[ch]? with
  | some (some p) =>
    (List.range p.maxPhase).map fun q =>
      ⟨.visit, q + 1, ch, p.circ (q + 1), I.members fun g => g.1.natAbs == q + 1 && g.2 == ch⟩
  | _ => []

/-- aps-schedule.c:2432-2471 -/
def visitChunks (I : Input) : List Chunk := (List.range I.children.length).flatMap (childChunks I)

/-- aps-schedule.c:2473-2493 -/
def localChunks (I : Input) : List Chunk :=
  (I.members fun g => g.1 == 0 && g.2 == 0).map fun i => ⟨.loc, 0, 0, I.kind i i != 0, [i]⟩

/-- aps-schedule.c:2358-2493 — `chunks_array` has place for ten chunks for each instance; more are written beyond
its end. -/
def collectChunks (I : Input) : Res (List Chunk) :=
  let cs := parentChunks I ++ visitChunks I ++ localChunks I
  if 10 * I.n < cs.length then .ub else .ok cs

/-- aps-schedule.c:2534-2581 — what the instances of two chunks contribute -/
def instDep (I : Input) (s t : List Nat) : Dep :=
  s.foldl (fun d i => t.foldl (fun d j =>
    if ignored (I.cond i) (I.cond j) then d
    else if I.kind i j == 0 then d
    else join (I.kind i j) d) d) 0

/-- aps-schedule.c:2583-2642 — is there a guiding edge? -/
def guiding (a b : Chunk) : Bool :=
  (a.kind == .visit && b.kind == .visit && a.ch == b.ch && a.ph < b.ph) ||
  (a.kind == .halfLeft && b.kind == .halfRight && a.ph == b.ph) ||
  (a.kind == .halfRight && b.kind == .halfLeft && a.ph + 1 == b.ph)

/-- aps-schedule.c:2527-2643 — one entry of the chunk graph before closure -/
def chunkDep (I : Input) (a b : Chunk) : Dep :=
  if guiding a b then join (instDep I a.insts b.insts) indirectControl else instDep I a.insts b.insts

/-- aps-schedule.c:2527-2643 -/
def initGraph (I : Input) (cs : List Chunk) : List Dep := cs.flatMap fun a => cs.map fun b => chunkDep I a b

/-- aps-schedule.c:2650-2665 — the innermost body of the closure -/
def ccBody (m i j : Nat) (s : List Dep × Bool) (k : Nat) : List Dep × Bool :=
  let ij := mget m s.1 i j
  let jk := mget m s.1 j k
  let old := mget m s.1 i k
  let new := trans ij jk
  if ij != 0 && jk != 0 && (old ||| new) != old then (s.1.set (i * m + k) (join new old), true) else s

/-- aps-schedule.c:2647-2668 — one round -/
def ccRound (m : Nat) (g : List Dep) : List Dep × Bool :=
  (List.range m).foldl (fun s i =>
    (List.range m).foldl (fun s j =>
      (List.range m).foldl (fun s k => ccBody m i j s k) s) s) (g, false)

/-- aps-schedule.c:2645-2669 — `do … while (changed)` -/
def ccLoop (m : Nat) : Nat → List Dep → Res (List Dep)
  | 0, _ => .nofuel
  | fuel + 1, g =>
    match ccRound m g with
    | (g', true) => ccLoop m fuel g'
    | (g', false) => .ok g'

/-- aps-schedule.c:37-46 — `ChunkGraph` -/
structure CG where
  chunks : List Chunk
  graph : List Dep
  comps : List (List Nat)
  deriving DecidableEq, Repr

/-- number of chunks -/
def CG.m (C : CG) : Nat := C.chunks.length

/-- `chunk_graph->graph[a * m + b]` -/
def CG.dep (C : CG) (a b : Nat) : Dep := mget C.m C.graph a b

/-- `& DEPENDENCY_MAYBE_DIRECT` -/
def CG.direct (C : CG) (a b : Nat) : Bool := C.dep a b &&& MAYBE_DIRECT != 0

/-- aps-schedule.c:2348-2717 — `collect_aug_graph_chunks`. (A closure round sets a new bit of the graph or is the
last: the fuel is enough.) -/
def collect (I : Input) : Res CG := do
  let cs ← collectChunks I
  if cs.length = 0 then .stop
  else
    let g ← ccLoop cs.length (32 * (cs.length * cs.length) + 1) (initGraph I cs)
    let comps ← Scc.components cs.length (Phase.adjOf g)
    return ⟨cs, g, comps⟩

/-- The schedule: `CTO_NODE`s; `visit` and `chunk_index` of the nodes are kept. -/
inductive Tree
  | nil
  | inst (i visit chunk : Nat) (next : Tree)
  | ifs (i visit chunk : Nat) (ifTrue ifFalse : Tree)
  | mark (ph ch : Int) (visit chunk : Nat) (next : Tree)
  deriving DecidableEq, Repr

/-- The indexes whose flags are set: `aug_graph->schedule`, `chunk_graph->schedule`. -/
structure St where
  done : List Nat
  cdone : List Nat
  deriving DecidableEq, Repr

/-- aps-schedule.c:1767-1794 — the first chunk with the instance -/
def CG.chunkOf (C : CG) (i : Nat) : Option Nat := C.chunks.findIdx? fun k => k.insts.contains i

/-- aps-schedule.c:1799-1822 — the first component with the chunk -/
def CG.compOf (C : CG) (a : Nat) : Option Nat := C.comps.findIdx? fun c => c.contains a

/-- aps-schedule.c:1747-1762 — `find_chunk` -/
def CG.find (C : CG) (k : CKind) (ph : Nat) (ch : Int) : Option Nat :=
  C.chunks.findIdx? fun c => c.kind == k && c.ph == ph && c.ch == ch

/-- aps-schedule.c:1164-1185 — `get_chunk_rank` -/
def CG.rank (C : CG) (a : Nat) : Nat :=
  match C.chunks[a]? with
  | some ⟨.halfLeft, _, _, _, _⟩ => 8
  | some ⟨.halfRight, _, _, _, _⟩ => 2
  | some ⟨.visit, _, _, _, _⟩ => 4
  | some ⟨.loc, _, _, _, _⟩ => 4
  | none => 0

/-- aps-schedule.c:1935-1973 — `chunks_are_in_direct_cycle`: the components of the direct edges inside `comp`. -/
def CG.inDirectCycle (C : CG) (comp : List Nat) (a b : Nat) : Bool :=
  match Scc.components comp.length (comp.flatMap fun x => comp.map fun y => C.direct x y) with
  | .ok cs =>
    cs.any fun c => decide (1 < c.length) && c.any (fun i => comp[i]? == some a) && c.any (fun i => comp[i]? == some b)
  | _ => false

/-- aps-schedule.c:1979-2132 — `chunk_ready_to_go` -/
def CG.ready (C : CG) (st : St) (comp : List Nat) (b : Nat) : Bool :=
  (match C.chunks[b]? with
    | some k => k.insts.isEmpty || k.insts.any fun i => !st.done.contains i
    | none => false) &&
  comp.all fun a => a == b || st.cdone.contains a || !C.direct a b || C.direct b a || C.inDirectCycle comp a b

/-- aps-schedule.c:1646-1655 — "Manually prevented scheduling non-circular visit" -/
def CG.prevented (C : CG) (I : Input) (ph b : Nat) : Bool :=
  match C.chunks[b]? with
  | some k => k.kind == .visit && !k.circular && I.parent.circ ph
  | none => false

/-- aps-schedule.c:1644-1667 — `rank_array[i]` -/
def CG.chunkRank (C : CG) (I : Input) (st : St) (comp : List Nat) (ph b : Nat) : Nat :=
  if C.prevented I ph b then 0
  else if st.cdone.contains b || !C.ready st comp b then 0
  else C.rank b

/-- aps-schedule.c:1676-1695 and 2251-2258 — the first one with the greatest positive rank -/
def pickMax (rank : Nat → Nat) (l : List Nat) : Option Nat :=
  (l.foldl (fun (b : Nat × Option Nat) x => if b.1 < rank x then (rank x, some x) else b) (0, none)).2

/-- aps-schedule.c:2138-2186 — `chunk_component_ready_to_go` -/
def CG.compReady (C : CG) (st : St) (ci : Nat) : Bool :=
  match C.comps[ci]? with
  | none => false
  | some comp =>
    comp.any (fun a => !st.cdone.contains a) &&
    (List.range C.comps.length).all fun cj => cj == ci ||
      match C.comps[cj]? with
      | none => true
      | some src => src.all fun a => st.cdone.contains a || comp.all fun b => C.dep a b == 0

/-- aps-schedule.c:2216-2236 — `rank_array[i]` -/
def CG.compRank (C : CG) (st : St) (prev ci : Nat) : Nat :=
  if prev == ci then 0
  else if C.compReady st ci then
    match C.comps[ci]? with
    | some comp => comp.foldl (fun r a => r ||| C.rank a) 0
    | none => 0
  else 0

/-- aps-schedule.c:1381-1390 — the first unscheduled instance of the group -/
def firstOf (I : Input) (st : St) (l : List Nat) (g : Int × Int) : Option Nat :=
  l.find? fun i => !st.done.contains i && I.group i == g

/-- aps-oag.h:53 -/
def impossible (c : Cond) : Bool := c.pos &&& c.neg != 0

mutual
/-- aps-schedule.c:2303-2346 — `schedule_visit_start` -/
def visitStart (I : Input) (C : CG) : Nat → Cond → St → Nat → Res Tree
  | 0, _, _, _ => .nofuel
  | f + 1, c, st, ph =>
    if I.parent.maxPhase < ph then .ok .nil
    else
      match C.find .halfLeft ph (-1) with
      | none => .stop
      | some k =>
        match C.compOf k with
        | none => .stop
        | some ci => groupSched I C f ci k c st (-(ph : Int), -1) ph

/-- aps-schedule.c:2274-2301 — `schedule_visit_end` -/
def visitEnd (I : Input) (C : CG) : Nat → Nat → Cond → St → Nat → Res Tree
  | 0, _, _, _, _ => .nofuel
  | f + 1, k, c, st, ph => do
    let t ← visitStart I C f c st (ph + 1)
    return .mark ph (-1) ph k t

/-- aps-schedule.c:1277-1342 — `schedule_transition_end_of_group` -/
def groupEnd (I : Input) (C : CG) : Nat → Nat → Nat → Cond → St → Int × Int → Nat → Res Tree
  | 0, _, _, _, _, _, _ => .nofuel
  | f + 1, ci, k, c, st, g, ph =>
    if g.1 < 0 && g.2 != -1 then do
      let t ← groupSched I C f ci k c st (-g.1, g.2) ph
      return .mark (-g.1) g.2 ph k t
    else if 0 < g.1 && g.2 == -1 then do
      let t ← visitStart I C f c st (ph + 1)
      return .mark g.1 (-1) ph k t
    else chunkSched I C f ci c st ph

/-- aps-schedule.c:1356-1455 — `group_schedule` -/
def groupSched (I : Input) (C : CG) : Nat → Nat → Nat → Cond → St → Int × Int → Nat → Res Tree
  | 0, _, _, _, _, _, _ => .nofuel
  | f + 1, ci, k, c, st, g, ph =>
    if impossible c then visitEnd I C f k c st ph
    else
      match firstOf I st (List.range I.n) g with
      | some i =>
        match C.chunkOf i with
        | none => .stop
        | some k' =>
          if I.group i == (0, 0) then .stop
          else if ignored c (I.cond i) then groupSched I C f ci k c ⟨i :: st.done, k' :: st.cdone⟩ g ph
          else do
            let t ← groupSched I C f ci k c ⟨i :: st.done, k' :: st.cdone⟩ g ph
            return .inst i ph k t
      | none => groupEnd I C f ci k c ⟨st.done, k :: st.cdone⟩ g ph

/-- aps-schedule.c:1462-1573 — `local_chunk_schedule`; the group is `(0, 0)`. -/
def localSched (I : Input) (C : CG) : Nat → Nat → Nat → List Nat → Cond → St → Nat → Res Tree
  | 0, _, _, _, _, _, _ => .nofuel
  | f + 1, ci, k, l, c, st, ph =>
    if impossible c then visitEnd I C f k c st ph
    else
      match firstOf I st l (0, 0) with
      | some i =>
        match C.chunkOf i with
        | none => .stop
        | some k' =>
          if ignored c (I.cond i) then localSched I C f ci k l c ⟨i :: st.done, k' :: st.cdone⟩ ph
          else
            match I.rule i with
            | some r => do
              let t ← localSched I C f ci k l ⟨c.pos ||| cmask r, c.neg⟩ ⟨i :: st.done, k' :: st.cdone⟩ ph
              let e ← localSched I C f ci k l ⟨(c.pos ||| cmask r) &&& ~~~cmask r, c.neg ||| cmask r⟩
                ⟨i :: st.done, k' :: st.cdone⟩ ph
              return .ifs i ph k t e
            | none => do
              let t ← localSched I C f ci k l c ⟨i :: st.done, k' :: st.cdone⟩ ph
              return .inst i ph k t
      | none => groupEnd I C f ci k c st (0, 0) ph

/-- aps-schedule.c:1575-1630 — `group_schedule_chunk` -/
def chunkRun (I : Input) (C : CG) : Nat → Nat → Nat → Cond → St → Nat → Res Tree
  | 0, _, _, _, _, _ => .nofuel
  | f + 1, ci, k, c, st, ph =>
    match C.chunks[k]? with
    | none => .ub
    | some ⟨.halfLeft, p, _, _, _⟩ => groupSched I C f ci k c st (-(p : Int), -1) ph
    | some ⟨.halfRight, p, _, _, _⟩ => groupSched I C f ci k c st ((p : Int), -1) ph
    | some ⟨.visit, p, ch, _, _⟩ => groupSched I C f ci k c st (-(p : Int), ch) ph
    | some ⟨.loc, _, _, _, l⟩ => localSched I C f ci k l c st ph

/-- aps-schedule.c:1635-1741 — `chunk_schedule` -/
def chunkSched (I : Input) (C : CG) : Nat → Nat → Cond → St → Nat → Res Tree
  | 0, _, _, _, _ => .nofuel
  | f + 1, ci, c, st, ph =>
    match C.comps[ci]? with
    | none => .ub
    | some comp =>
      match pickMax (C.chunkRank I st comp ph) comp with
      | some k => chunkRun I C f ci k c st ph
      | none => compSched I C f ci c st ph

/-- aps-schedule.c:2191-2272 — `chunk_component_schedule` -/
def compSched (I : Input) (C : CG) : Nat → Nat → Cond → St → Nat → Res Tree
  | 0, _, _, _, _ => .nofuel
  | f + 1, prev, c, st, ph =>
    match pickMax (C.compRank st prev) (List.range C.comps.length) with
    | none => .stop
    | some ci => chunkSched I C f ci c st ph
end

/-- aps-schedule.c:2826-2838 — the total order; an empty one is a fatal error. -/
def schedule (fuel : Nat) (I : Input) : Res Tree := do
  let C ← collect I
  let t ← visitStart I C fuel ⟨0, 0⟩ ⟨[], []⟩ 1
  if t = .nil then .stop else return t

end Aps.Chunk
