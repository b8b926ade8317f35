import Verif.Model.Dnc
/-!
# analyze/aps-cycle.c

Classes of instances that depend on each other (a union-find forest over all the instances of all
graphs) and the UP/DOWN pass that breaks the cycles of a class.

Simplifications.
* `parent_index` is a list, `none` is `-1`. `get_set` has fuel; the theorems show it is enough.
* C does not fix which of the two calls of `get_set` in `merge_sets` runs first; `ord` says which.
* The traversals that call `make_augmented_cycles_for_node` (aps-cycle.c:186-274) are the list `links`
  of the graph, as in `Model/Dnc.lean`; the instances of the node are as many as those of the phylum.
* `instance_is_up` depends on the fibered attribute only: `up` maps the number of a fibered attribute to it.
* `assert_circular_declaration` (aps-cycle.c:727-904) only prints errors and warnings: not modelled.
-/
namespace Aps.Cycle
open Aps.Dnc

/-- `parent_index` (aps-cycle.c:22); `none` is -1. -/
abbrev Par := List (Option Nat)

/-- analyze/aps-cycle.c:36-46 — one loop of `init_indices`: start of every graph, total. -/
def starts : List Nat → Nat → List Nat × Nat
  | [], num => ([], num)
  | n :: ns, num => let r := starts ns (num + n); (num :: r.1, r.2)

/-- `phylum_instance_start`, `constructor_instance_start`, `num_instances` (aps-cycle.c:21-24). -/
structure Layout where
  phy : List Nat
  aug : List Nat
  num : Nat
  deriving DecidableEq, Repr

/-- analyze/aps-cycle.c:32-47 -/
def layout (s : State) : Layout :=
  let r := starts (s.phys.map (·.n)) 0
  let t := starts (s.augs.map (·.n)) r.2
  ⟨r.1, t.1, t.2⟩

/-- analyze/aps-cycle.c:48-51 -/
def initPar (num : Nat) : Par := (List.range num).map some

/-- analyze/aps-cycle.c:54-63 -/
def getSet : Nat → Par → Nat → Res (Nat × Par)
  | 0, _, _ => .nofuel
  | fuel + 1, P, i =>
    match P[i]? with
    | none => .ub
    | some none => .stop
    | some (some p) =>
      if p = i then .ok (i, P) else do
        let r ← getSet fuel P p
        return (r.1, r.2.set i (some r.1))

/-- analyze/aps-cycle.c:65-67; `ord` is true if the call on the left runs first. -/
def mergeSets (ord : Bool) (P : Par) (i1 i2 : Nat) : Res Par :=
  if ord then do
    let a ← getSet (P.length + 1) P i1
    let b ← getSet (P.length + 1) a.2 i2
    return b.2.set a.1 (some b.1)
  else do
    let b ← getSet (P.length + 1) P i2
    let a ← getSet (P.length + 1) b.2 i1
    return a.2.set a.1 (some b.1)

/-- analyze/aps-cycle.c:276-292 -/
def canTrans (es1 es2 : List Edge) : Bool :=
  es1.any fun e1 => es2.any fun e2 =>
    ((e1.cond.pos ||| e2.cond.pos) &&& (e1.cond.neg ||| e2.cond.neg)) == 0

/-- analyze/aps-cycle.c:307-313 and 331-340 — the loop over `k` (`q k`: both dependencies are there). -/
def mergeRow (ord : Bool) (b j : Nat) (q : Nat → Bool) : List Nat → Par → Res Par
  | [], P => .ok P
  | k :: ks, P =>
    if k ≠ j ∧ q k = true then do
      let P ← mergeSets ord P (b + j) (b + k)
      mergeRow ord b j q ks P
    else mergeRow ord b j q ks P

/-- analyze/aps-cycle.c:301-315 and 325-342 — the loop over `j` (`d j`: `j` depends on itself). -/
def mergeRows (ord : Bool) (b n : Nat) (d : Nat → Bool) (q : Nat → Nat → Bool) : List Nat → Par → Res Par
  | [], P => .ok P
  | j :: js, P =>
    if d j = false then mergeRows ord b n d q js (P.set (b + j) none)
    else do
      let P ← mergeRow ord b j (q j) (List.range n) P
      mergeRows ord b n d q js P

/-- analyze/aps-cycle.c:302 -/
def phyDep (p : Phy) (j : Nat) : Bool := mget p.n p.m j j != 0
/-- analyze/aps-cycle.c:309-310 -/
def phyBoth (p : Phy) (j k : Nat) : Bool := mget p.n p.m j k != 0 && mget p.n p.m k j != 0
/-- analyze/aps-cycle.c:326 -/
def augDep (g : Aug) (j : Nat) : Bool := edgesetKind (g.cell j j) != 0
/-- analyze/aps-cycle.c:333-336 -/
def augBoth (g : Aug) (j k : Nat) : Bool :=
  edgesetKind (g.cell j k) != 0 && edgesetKind (g.cell k j) != 0 && canTrans (g.cell j k) (g.cell k j)

/-- analyze/aps-cycle.c:296-316 -/
def phyCycles (ord : Bool) : List Phy → List Nat → Par → Res Par
  | p :: ps, b :: bs, P => do
    let P ← mergeRows ord b p.n (phyDep p) (phyBoth p) (List.range p.n) P
    phyCycles ord ps bs P
  | _, _, P => .ok P

/-- analyze/aps-cycle.c:178-182 -/
def linkInsts (ord : Bool) (b pb start : Nat) (p : Phy) : List Nat → Par → Res Par
  | [], P => .ok P
  | i :: is, P =>
    if mget p.n p.m i i ≠ 0 then do
      let P ← mergeSets ord P (b + (start + i)) (pb + i)
      linkInsts ord b pb start p is P
    else linkInsts ord b pb start p is P

/-- analyze/aps-cycle.c:142-183, 245-274 -/
def linkNodes (ord : Bool) (ps : List Phy) (pbs : List Nat) (b : Nat) : List (Nat × Nat) → Par → Res Par
  | [], P => .ok P
  | (start, pi) :: ls, P =>
    match ps[pi]?, pbs[pi]? with
    | some p, some pb => do
      let P ← linkInsts ord b pb start p (List.range p.n) P
      linkNodes ord ps pbs b ls P
    | _, _ => .ub

/-- analyze/aps-cycle.c:317-344 -/
def augCycles (ord : Bool) (ps : List Phy) (pbs : List Nat) : List Aug → List Nat → Par → Res Par
  | g :: gs, b :: bs, P => do
    let P ← mergeRows ord b g.n (augDep g) (augBoth g) (List.range g.n) P
    let P ← linkNodes ord ps pbs b g.links P
    augCycles ord ps pbs gs bs P
  | _, _, P => .ok P

/-- analyze/aps-cycle.c:294-345, after `init_indices`. -/
def makeCycles (ord : Bool) (s : State) : Res Par := do
  let lay := layout s
  let P ← phyCycles ord s.phys lay.phy (initPar lay.num)
  augCycles ord s.phys lay.phy s.augs lay.aug P

/-! ## get_fiber_cycles -/

/-- analyze/aps-cycle.c:74-77 — every path is compressed; the result also counts the roots. -/
def compress : List Nat → Par → Nat → Res (Par × Nat)
  | [], P, c => .ok (P, c)
  | i :: is, P, c =>
    if P[i]? = some none then compress is P c
    else do
      let r ← getSet (P.length + 1) P i
      compress is r.2 (if r.1 = i then c + 1 else c)

/-- analyze/aps-cycle.c:87-89 — count the members. -/
def countMembers (root : Nat) : List Nat → Par → Nat → Res (Par × Nat)
  | [], P, c => .ok (P, c)
  | j :: js, P, c =>
    if P[j]? = some none then countMembers root js P c
    else do
      let r ← getSet (P.length + 1) P j
      countMembers root js r.2 (if r.1 = root then c + 1 else c)

/-- aps-dnc.h `CYCLE`: root (`internal_info`), instances (their number in the layout), kind. -/
structure Cyc where
  root : Nat
  insts : List Nat
  kind : Dep
  deriving DecidableEq, Repr

/-- analyze/aps-cycle.c:93-103 and 104-118 — instances of one graph in the cycle, and the join of
their own dependencies. -/
def collect (root b : Nat) (P : Par) (self : Nat → Dep) : List Nat → List Nat × Dep → List Nat × Dep
  | [], a => a
  | k :: ks, a =>
    if P[b + k]? = some (some root) then collect root b P self ks (a.1 ++ [b + k], join a.2 (self k))
    else collect root b P self ks a

/-- analyze/aps-cycle.c:93-103 -/
def collectPhys (root : Nat) (P : Par) : List Phy → List Nat → List Nat × Dep → List Nat × Dep
  | p :: ps, b :: bs, a =>
    collectPhys root P ps bs (collect root b P (fun k => mget p.n p.m k k) (List.range p.n) a)
  | _, _, a => a

/-- analyze/aps-cycle.c:104-118 -/
def collectAugs (root : Nat) (P : Par) : List Aug → List Nat → List Nat × Dep → List Nat × Dep
  | g :: gs, b :: bs, a =>
    collectAugs root P gs bs (collect root b P (fun k => edgesetKind (g.cell k k)) (List.range g.n) a)
  | _, _, a => a

/-- analyze/aps-cycle.c:80-125 — the loop over the instances. -/
def gather (s : State) (lay : Layout) : List Nat → Par → Res (Par × List Cyc)
  | [], P => .ok (P, [])
  | i :: is, P =>
    if P[i]? = some (some i) then do
      let c ← countMembers i (List.range lay.num) P 0
      let a := collectAugs i c.1 s.augs lay.aug (collectPhys i c.1 s.phys lay.phy ([], 0))
      if a.1.length ≠ c.2 then .stop else do
      let r ← gather s lay is c.1
      return (r.1, ⟨i, a.1, a.2⟩ :: r.2)
    else gather s lay is P

/-- analyze/aps-cycle.c:71-139; storing more cycles than were counted is out of bounds (`.ub`). -/
def fiberCycles (s : State) (P : Par) : Res (Par × List Cyc) := do
  let lay := layout s
  let r ← compress (List.range lay.num) P 0
  let t ← gather s lay (List.range lay.num) r.1
  if t.2.length ≤ r.2 then return t else .ub

/-! ## add_up_down_attributes -/

/-- analyze/aps-cycle.c:471-481, 497-507, 529-539: `OR` of `f l` over the members `l`. -/
def orDep (inC : Nat → Bool) (f : Nat → Dep) (ls : List Nat) : Dep :=
  ls.foldl (fun a l => if inC l then join a (f l) else a) 0

/-- analyze/aps-cycle.c:486-494, 512-520, 541-557, 562-570: overwrite the cells `pos l` of the members `l`. -/
def setCells (inC : Nat → Bool) (pos : Nat → Nat) (v : Nat → Dep) : List Nat → List Dep → List Dep
  | [], m => m
  | l :: ls, m => setCells inC pos v ls (if inC l then m.set (pos l) (v l) else m)

/-- analyze/aps-cycle.c:466-573 — one instance `k` of a phylum. `dir` is the direction
(`true`: UP_DOWN). -/
def phyBreakRow (dir : Bool) (inC up : Nat → Bool) (n : Nat) (m : List Dep) (k : Nat) : List Dep :=
  if inC k = false then
    let acc := orDep inC (fun l => mget n m k l) (List.range n)
    let m := if acc ≠ 0 then setCells inC (fun l => k * n + l) (fun _ => acc) (List.range n) m else m
    let acc := orDep inC (fun l => mget n m l k) (List.range n)
    if acc ≠ 0 then setCells inC (fun l => l * n + k) (fun _ => acc) (List.range n) m else m
  else if dir && (if dir then up k else !up k) then
    let acc := orDep inC (fun l => mget n m k l) (List.range n)
    setCells inC (fun l => k * n + l)
      (fun l => if acc ≠ 0 ∧ (if dir then !up l else !(!up l)) = true then acc else 0) (List.range n) m
  else setCells inC (fun l => k * n + l) (fun _ => 0) (List.range n) m

/-- analyze/aps-cycle.c:457-575 -/
def phyBreak (dir : Bool) (inC : Nat → Bool) (up : Nat → Bool) (p : Phy) : Phy :=
  let u := fun k => (p.attrs[k]?.map up).getD false
  { p with m := (List.range p.n).foldl (phyBreakRow dir inC u p.n) p.m }

/-- analyze/aps-cycle.c:409-417 (`edgeset_combine_dependencies`) -/
def combine (es : List Edge) (a : Dep × Cond) : Dep × Cond :=
  es.foldl (fun a e => (join a.1 e.kind, ⟨a.2.pos ||| e.cond.pos, a.2.neg ||| e.cond.neg⟩)) a

/-- analyze/aps-cycle.c:601-613, 630-642, 665-677: kinds and conditions from all the members. -/
def orEdges (inC : Nat → Bool) (f : Nat → List Edge) (ls : List Nat) : Dep × Cond :=
  ls.foldl (fun a l => if inC l then combine (f l) a else a) (0, ⟨0, 0⟩)

/-- analyze/aps-cycle.c:362-376 — `free_edgeset` (aps-dnc.c:262-269) frees every record of the set. -/
def removeEdgeset (g : Aug) (i j : Nat) : Aug :=
  { g with cells := g.cells.set (i * g.n + j) [], wl := (g.cell i j).foldl freeEdge g.wl }

/-- analyze/aps-cycle.c:618-627, 647-656: an edge to every member (`out`: from every member). -/
def addEdges (inC : Nat → Bool) (k : Nat) (out : Bool) (a : Dep × Cond) : List Nat → Aug → Res Aug
  | [], g => .ok g
  | l :: ls, g =>
    if inC l then do
      let g ← addEdgeToGraph (if out then l else k) (if out then k else l) a.2 a.1 g
      addEdges inC k out a ls g
    else addEdges inC k out a ls g

/-- analyze/aps-cycle.c:679-697 and 702-711: inside the class; `keep l` says which edges are made. -/
def inEdges (inC : Nat → Bool) (k : Nat) (a : Dep × Cond) (keep : Nat → Bool) : List Nat → Aug → Res Aug
  | [], g => .ok g
  | l :: ls, g =>
    if inC l then
      if keep l then do
        let g ← addEdgeToGraph k l a.2 a.1 g
        inEdges inC k a keep ls g
      else inEdges inC k a keep ls (removeEdgeset g k l)
    else inEdges inC k a keep ls g

/-- analyze/aps-cycle.c:601-628 (`out` false) and 630-657 (`out` true) -/
def augOutsideDir (inC : Nat → Bool) (k : Nat) (out : Bool) (g : Aug) : Res Aug :=
  let a := orEdges inC (fun l => if out then g.cell l k else g.cell k l) (List.range g.n)
  if a.1 ≠ 0 then addEdges inC k out a (List.range g.n) g else .ok g

/-- analyze/aps-cycle.c:599-658 — an instance outside the class. -/
def augOutside (inC : Nat → Bool) (k : Nat) (g : Aug) : Res Aug := do
  let g ← augOutsideDir inC k false g
  augOutsideDir inC k true g

/-- analyze/aps-cycle.c:587-714 — one instance of an augmented graph. -/
def augBreakRow (dir : Bool) (inC up : Nat → Bool) (g : Aug) (k : Nat) : Res Aug :=
  if inC k = false then augOutside inC k g
  else if (if dir then up k else !up k) then
    let a := orEdges inC (fun l => g.cell k l) (List.range g.n)
    inEdges inC k a (fun l => a.1 != 0 && (if dir then !up l else !(!up l))) (List.range g.n) g
  else inEdges inC k (0, ⟨0, 0⟩) (fun _ => false) (List.range g.n) g

/-- analyze/aps-cycle.c:585-715 — the loop over the instances. -/
def augBreakRows (dir : Bool) (inC up : Nat → Bool) : List Nat → Aug → Res Aug
  | [], g => .ok g
  | k :: ks, g => do
    let g ← augBreakRow dir inC up g k
    augBreakRows dir inC up ks g

/-- analyze/aps-cycle.c:580-716 -/
def augBreak (dir : Bool) (inC : Nat → Bool) (up : Nat → Bool) (g : Aug) : Res Aug :=
  augBreakRows dir inC (fun k => (g.attrs[k]?.map up).getD false) (List.range g.n) g

/-- Is instance `k` of the graph starting at `b` in the class of `root` (`parent_index[k + b] ==
cyc->internal_info`)? -/
def inClass (P : Par) (root b k : Nat) : Bool := P[b + k]? == some (some root)

/-- analyze/aps-cycle.c:457-575 — all phyla. -/
def breakPhys (dir : Bool) (P : Par) (up : Nat → Bool) (root : Nat) : List Phy → List Nat → List Phy
  | p :: ps, b :: bs => phyBreak dir (inClass P root b) up p :: breakPhys dir P up root ps bs
  | ps, _ => ps

/-- analyze/aps-cycle.c:577-716 — all augmented graphs. -/
def breakAugs (dir : Bool) (P : Par) (up : Nat → Bool) (root : Nat) : List Aug → List Nat → Res (List Aug)
  | g :: gs, b :: bs => do
    let g ← augBreak dir (inClass P root b) up g
    let gs ← breakAugs dir P up root gs bs
    return g :: gs
  | gs, _ => .ok gs

/-- analyze/aps-cycle.c:444-718 -/
def addUpDown (dir : Bool) (P : Par) (up : Nat → Bool) : List Cyc → State → Res State
  | [], s => .ok s
  | c :: cs, s => do
    let lay := layout s
    let gs ← breakAugs dir P up c.root s.augs lay.aug
    addUpDown dir P up cs ⟨gs, breakPhys dir P up c.root s.phys lay.phy⟩

/-- analyze/aps-cycle.c:913-948 — nothing is done for SCC scheduling. -/
def addUpDownUnless (scc dir : Bool) (P : Par) (up : Nat → Bool) (cs : List Cyc) (s : State) : Res State :=
  if scc then .ok s else addUpDown dir P up cs s

/-- analyze/aps-cycle.c:906-968; `scc` is `static_scc_schedule`. -/
def breakFiberCycles (fuel : Nat) (ord scc : Bool) (up : Nat → Bool) (dep : Dep) (s : State) : Res State := do
  let P ← makeCycles ord s
  let r ← fiberCycles s P
  let s ← addUpDownUnless scc ((dep &&& NOT_JUST_FIBER) == 0) r.1 up r.2 s
  dncClose fuel s

end Aps.Cycle
