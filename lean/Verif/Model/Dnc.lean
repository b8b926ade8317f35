import Verif.Model.Base
/-!
# analyze/aps-cond.c and the graph part of analyze/aps-dnc.c

Conditions, dependency kinds, edge sets, augmented dependency graphs with their worklist, summary
graphs and the DNC iteration.

Simplifications.
* An instance is its index in the instance vector. The identity of its fibered attribute (compared by
  `fibered_attr_equal`, aps-dnc.c:18-20) is a natural number.
* An edge record is its contents plus an `id` standing for its address. Records are immutable between
  `new_edgeset` and `free_edge`, so the worklist holds the records themselves. An address taken from
  the free list or from `HALLOC` is a number not used before (`next`).
* The intrusive links of the worklist (aps-dnc.c:106-167) are the list `wl`, head first.
* The traversals that call `augment_dependency_graph_for_node` (aps-dnc.c:2524-2590) are given as the
  list `links` of their calls, in order: start index of the node's instances and number of its summary
  graph. A NULL `phy_graph` (aps-dnc.c:2437) is no entry.
* Debugging output is not modelled. Matrix indices are in range by construction.
-/
namespace Aps.Dnc

/-- C `unsigned` -/
abbrev Word := BitVec 32

/-! ## analyze/aps-cond.h, aps-cond.c -/

/-- analyze/aps-cond.h:4-7 -/
structure Cond where
  pos : Word
  neg : Word
  deriving DecidableEq, Repr

/-- analyze/aps-cond.h:8 (`ONE_BIT`) -/
def oneBit (v : Word) : Bool := (v &&& (v - 1)) == 0

/-- analyze/aps-cond.h:10 (`enum CONDcompare`) -/
inductive Cmp | eq | gt | lt | comp | none
  deriving DecidableEq, Repr

/-- analyze/aps-cond.c:5-27 -/
def condCompare (c1 c2 : Cond) : Cmp :=
  if c1.pos = c2.pos ∧ c1.neg = c2.neg then .eq
  else if (c1.pos ||| c2.pos) = c1.pos ∧ (c1.neg ||| c2.neg) = c1.neg then .lt
  else if (c2.pos ||| c1.pos) = c2.pos ∧ (c2.neg ||| c1.neg) = c2.neg then .gt
  else if (c1.pos ||| c2.pos) = c1.pos ∧ (c2.neg ||| c1.neg) = c2.neg then
    (if c1.pos - c2.pos = c2.neg - c1.neg ∧ oneBit (c1.pos - c2.pos) = true then .comp else .none)
  else if (c2.pos ||| c1.pos) = c2.pos ∧ (c1.neg ||| c2.neg) = c1.neg then
    (if c2.pos - c1.pos = c1.neg - c2.neg ∧ oneBit (c2.pos - c1.pos) = true then .comp else .none)
  else .none

/-! ## Dependency kinds -/

/-- analyze/aps-dnc.h:34 -/
abbrev Dep := BitVec 32

/-- analyze/aps-dnc.h:36 -/
def SOME : Dep := 1
/-- analyze/aps-dnc.h:37 -/
def NOT_JUST_FIBER : Dep := 2
/-- analyze/aps-dnc.h:38 -/
def MAYBE_CARRYING : Dep := 4
/-- analyze/aps-dnc.h:39 -/
def MAYBE_DIRECT : Dep := 8
/-- analyze/aps-dnc.h:40 -/
def MAYBE_SIMPLE : Dep := 16
/-- analyze/aps-dnc.h:44 -/
def maxDependency : Dep := SOME ||| NOT_JUST_FIBER ||| MAYBE_CARRYING ||| MAYBE_DIRECT ||| MAYBE_SIMPLE

/-- analyze/aps-dnc.h:50 (`AT_MOST`) -/
def atMost (k1 k2 : Dep) : Bool := (k1 &&& ~~~k2) == 0

/-- analyze/aps-dnc.c:68-71 -/
def join (k1 k2 : Dep) : Dep := k1 ||| k2

/-- analyze/aps-dnc.c:73-86 -/
def trans (k1 k2 : Dep) : Dep :=
  if k1 = 0 ∨ k2 = 0 then 0 else
  ((k1 &&& NOT_JUST_FIBER) ||| (k2 &&& NOT_JUST_FIBER)) |||
  ((k1 &&& MAYBE_CARRYING) &&& (k2 &&& MAYBE_CARRYING)) |||
  ((k1 &&& MAYBE_SIMPLE) &&& (k2 &&& MAYBE_SIMPLE)) |||
  SOME

/-- analyze/aps-dnc.c:88-91 -/
def indirect (k : Dep) : Dep := k &&& ~~~MAYBE_DIRECT

/-! ## Edge sets and the worklist -/

/-- analyze/aps-dnc.h:56-63 (`struct edgeset` without its links) -/
structure Edge where
  id : Nat
  src : Nat
  snk : Nat
  cond : Cond
  kind : Dep
  deriving DecidableEq, Repr

/-- The worklist of a graph, head first (aps-dnc.h:74), and the next unused address. -/
structure Wl where
  list : List Edge
  next : Nat
  deriving DecidableEq, Repr

/-- analyze/aps-dnc.c:142-167, 250-260 — `free_edge`: the record leaves the worklist. -/
def freeEdge (w : Wl) (old : Edge) : Wl := { w with list := w.list.filter (fun e => e.id ≠ old.id) }

/-- analyze/aps-dnc.c:271-277 -/
def edgesetKind (es : List Edge) : Dep := es.foldl (fun m e => join m e.kind) 0

/-- analyze/aps-dnc.c:279-286 -/
def edgesetLowerbound (es : List Edge) : Dep :=
  es.foldl (fun m e => if (e.cond.pos ||| e.cond.neg) ≠ 0 then m else join m e.kind) 0

/-- analyze/aps-dnc.c:351-357 — the merged condition of two complementary edges; `none` is `fatal_error`. -/
def mergeCond (c1 c2 : Cond) : Option Cond :=
  let p := c1.pos ||| c2.pos
  let q := c1.neg ||| c2.neg
  let common := p &&& q
  if common ≠ 0 ∧ oneBit common = false then none
  else some ⟨p &&& ~~~common, q &&& ~~~common⟩

/-- analyze/aps-dnc.c:312-368 -/
def addEdge (src snk : Nat) (k : Dep) : Cond → List Edge → Wl → Res (List Edge × Wl)
  | c, [], w =>
    if k = 0 then .stop else
    let e : Edge := ⟨w.next, src, snk, c, k⟩
    .ok ([e], ⟨w.list ++ [e], w.next + 1⟩)
  | c, cur :: rest, w =>
    if k = 0 then .stop else
    let comp := condCompare c cur.cond
    if cur.src ≠ src ∨ cur.snk ≠ snk then .stop
    else if atMost k cur.kind = true ∧ (comp = .lt ∨ comp = .eq) then .ok (cur :: rest, w)
    else if atMost cur.kind k = true ∧ (comp = .gt ∨ comp = .eq) then
      addEdge src snk k c rest (freeEdge w cur)
    else if cur.kind = k ∧ comp = .comp then
      match mergeCond c cur.cond with
      | none => .stop
      | some m => do
        let r ← addEdge src snk k m rest w
        return (r.1, freeEdge r.2 cur)
    else do
      let r ← addEdge src snk k c rest w
      return (cur :: r.1, r.2)

/-! ## Augmented dependency graphs -/

/-- analyze/aps-dnc.h:67-80 -/
structure Aug where
  n : Nat
  attrs : List Nat
  cells : List (List Edge)
  wl : Wl
  links : List (Nat × Nat)
  deriving DecidableEq, Repr

/-- `aug_graph->graph[i*n+j]` -/
def Aug.cell (g : Aug) (i j : Nat) : List Edge := g.cells[i * g.n + j]?.getD []

/-- analyze/aps-dnc.c:370-381 -/
def addEdgeToGraph (src snk : Nat) (c : Cond) (k : Dep) (g : Aug) : Res Aug := do
  let r ← addEdge src snk k c (g.cell src snk) g.wl
  return { g with cells := g.cells.set (src * g.n + snk) r.1, wl := r.2 }

/-- analyze/aps-dnc.c:383-396 -/
def addTransitiveEdge (src snk : Nat) (c1 c2 : Cond) (k1 k2 : Dep) (g : Aug) : Res Aug :=
  let c : Cond := ⟨c1.pos ||| c2.pos, c1.neg ||| c2.neg⟩
  if c.pos &&& c.neg ≠ 0 then .ok g else addEdgeToGraph src snk c (trans k1 k2) g

/-- analyze/aps-dnc.c:2609-2654 with `a` NULL — combine every edge of the (copied) set with `b`. -/
def addTransIn (b : Edge) : List Edge → Aug → Res Aug
  | [], g => .ok g
  | a :: as, g => do
    let g ← addTransitiveEdge a.src b.snk a.cond b.cond a.kind b.kind g
    addTransIn b as g

/-- analyze/aps-dnc.c:2609-2654 with `b` NULL. -/
def addTransOut (a : Edge) : List Edge → Aug → Res Aug
  | [], g => .ok g
  | b :: bs, g => do
    let g ← addTransitiveEdge a.src b.snk a.cond b.cond a.kind b.kind g
    addTransOut a bs g

/-- analyze/aps-dnc.c:2668-2675 — the loop over the instances. -/
def closeUsingLoop (e : Edge) : List Nat → Aug → Res Aug
  | [], g => .ok g
  | i :: is, g => do
    let g ← addTransIn e (g.cell i e.src) g
    let g ← addTransOut e (g.cell e.snk i) g
    closeUsingLoop e is g

/-- analyze/aps-dnc.c:2656-2676 -/
def closeUsingEdge (g : Aug) (e : Edge) : Res Aug := closeUsingLoop e (List.range g.n) g

/-- analyze/aps-dnc.c:2710-2720 — the inner loop over the worklist. -/
def closeWorklist : Nat → Aug → Res Aug
  | 0, _ => .nofuel
  | fuel + 1, g =>
    match g.wl.list with
    | [] => .ok g
    | e :: w => do
      let g ← closeUsingEdge { g with wl := { g.wl with list := w } } e
      closeWorklist fuel g

/-! ## Summary graphs -/

/-- analyze/aps-dnc.h:83-95 -/
structure Phy where
  n : Nat
  attrs : List Nat
  isFunc : Bool
  m : List Dep
  deriving DecidableEq, Repr

/-- `phy_graph->mingraph[i*n+j]` -/
def mget (n : Nat) (m : List Dep) (i j : Nat) : Dep := m[i * n + j]?.getD 0

/-- analyze/aps-dnc.c:2755-2766 — the loop over `k`; state: matrix, local `ij`, `changed`. -/
def sumInner (n i j : Nat) : List Nat → List Dep × Dep × Bool → List Dep × Dep × Bool
  | [], s => s
  | k :: ks, (m, ij, ch) =>
    let t := trans (mget n m i k) (mget n m k j)
    if atMost t ij = false then
      let ij' := join t ij
      let m' := m.set (i * n + j) ij'
      if ij' = maxDependency then (m', ij', true) else sumInner n i j ks (m', ij', true)
    else sumInner n i j ks (m, ij, ch)

/-- analyze/aps-dnc.c:2752-2767 — the body for `i`, `j`. -/
def sumCell (n i : Nat) (s : List Dep × Bool) (j : Nat) : List Dep × Bool :=
  let ij := mget n s.1 i j
  if ij ≠ maxDependency then
    let r := sumInner n i j (List.range n) (s.1, ij, s.2)
    (r.1, r.2.2)
  else s

/-- analyze/aps-dnc.c:2748-2769 — one round. -/
def sumRound (n : Nat) (m : List Dep) : List Dep × Bool :=
  (List.range n).foldl (fun s i => (List.range n).foldl (fun s j => sumCell n i s j) s) (m, false)

/-- analyze/aps-dnc.c:2742-2772 — `do ... while (changed)`; the flag is `any_changed`. -/
def closeSummary (n : Nat) : Nat → List Dep × Bool → Res (List Dep × Bool)
  | 0, _ => .nofuel
  | fuel + 1, (m, any) =>
    match sumRound n m with
    | (m', true) => closeSummary n fuel (m', true)
    | (m', false) => .ok (m', any)

/-! ## Synchronisation and the DNC loop -/

/-- analyze/aps-dnc.c:2464-2507 — the body for one pair `i`, `j` (relative to `start`). -/
def syncCell (start i j : Nat) (g : Aug) (p : Phy) : Res (Aug × Phy) :=
  let kind := edgesetKind (g.cell (start + i) (start + j))
  let s := mget p.n p.m i j
  if atMost (indirect kind) s = false ∧ p.isFunc = false then
    let kind' := join (indirect kind) s
    if kind' = s then .stop
    else .ok (g, { p with m := p.m.set (i * p.n + j) kind' })
  else if atMost s (edgesetLowerbound (g.cell (start + i) (start + j))) = false then do
    let g ← addEdgeToGraph (start + i) (start + j) ⟨0, 0⟩ (join kind s) g
    return (g, p)
  else .ok (g, p)

/-- analyze/aps-dnc.c:2463-2508 -/
def syncRow (start i : Nat) : List Nat → Aug → Phy → Res (Aug × Phy)
  | [], g, p => .ok (g, p)
  | j :: js, g, p => do
    let r ← syncCell start i j g p
    syncRow start i js r.1 r.2

/-- analyze/aps-dnc.c:2450-2509 -/
def syncRows (start : Nat) : List Nat → Aug → Phy → Res (Aug × Phy)
  | [], g, p => .ok (g, p)
  | i :: is, g, p =>
    if g.attrs[start + i]? ≠ p.attrs[i]? then .stop else do
    let r ← syncRow start i (List.range p.n) g p
    syncRows start is r.1 r.2

/-- analyze/aps-dnc.c:2429-2510 -/
def synchronize (g : Aug) (start : Nat) (p : Phy) : Res (Aug × Phy) :=
  syncRows start (List.range p.n) g p

/-- analyze/aps-dnc.c:2512-2590 — all calls of `augment_dependency_graph_for_node`. -/
def augmentLinks : List (Nat × Nat) → Aug → List Phy → Res (Aug × List Phy)
  | [], g, ps => .ok (g, ps)
  | (start, pi) :: ls, g, ps =>
    match ps[pi]? with
    | none => .ub
    | some p => do
      let r ← synchronize g start p
      augmentLinks ls r.1 (ps.set pi r.2)

/-- analyze/aps-dnc.c:2566-2590 -/
def augment (g : Aug) (ps : List Phy) : Res (Aug × List Phy) := augmentLinks g.links g ps

/-- analyze/aps-dnc.c:2709-2723 — the outer loop. -/
def closeAugLoop : Nat → Aug → List Phy → Res (Aug × List Phy)
  | 0, _, _ => .nofuel
  | fuel + 1, g, ps =>
    match g.wl.list with
    | [] => .ok (g, ps)
    | _ :: _ => do
      let g ← closeWorklist fuel g
      let r ← augment g ps
      closeAugLoop fuel r.1 r.2

/-- analyze/aps-dnc.c:2700-2727 -/
def closeAugmented (fuel : Nat) (g : Aug) (ps : List Phy) : Res (Bool × Aug × List Phy) := do
  let r ← augment g ps
  match r.1.wl.list with
  | [] => return (false, r.1, r.2)
  | _ :: _ => do
    let r ← closeAugLoop fuel r.1 r.2
    return (true, r.1, r.2)

/-- The part of analyze/aps-dnc.h:100-115 the closure works on; the last graph of `augs` is
`global_dependencies`. -/
structure State where
  augs : List Aug
  phys : List Phy
  deriving DecidableEq, Repr

/-- analyze/aps-dnc.c:2815-2821 — one pass over the augmented graphs; the flag is `changed`. -/
def dncAugs (fuel : Nat) : List Aug → List Phy → Bool → Res (List Aug × List Phy × Bool)
  | [], ps, ch => .ok ([], ps, ch)
  | g :: gs, ps, ch => do
    let r ← closeAugmented fuel g ps
    let t ← dncAugs fuel gs r.2.2 (ch || r.1)
    return (r.2.1 :: t.1, t.2)

/-- analyze/aps-dnc.c:2822-2828 — one pass over the summary graphs. -/
def dncPhys (fuel : Nat) : List Phy → Bool → Res (List Phy × Bool)
  | [], ch => .ok ([], ch)
  | p :: ps, ch => do
    let r ← closeSummary p.n fuel (p.m, false)
    let t ← dncPhys fuel ps (ch || r.2)
    return ({ p with m := r.1 } :: t.1, t.2)

/-- analyze/aps-dnc.c:2805-2831 -/
def dncClose : Nat → State → Res State
  | 0, _ => .nofuel
  | fuel + 1, s => do
    let r ← dncAugs fuel s.augs s.phys false
    let t ← dncPhys fuel r.2.1 r.2.2
    if t.2 then dncClose fuel ⟨r.1, t.1⟩ else return ⟨r.1, t.1⟩

/-- analyze/aps-dnc.c:2774-2803 -/
def stateCycle (s : State) : Dep :=
  let k := s.phys.foldl (fun k p => (List.range p.n).foldl (fun k j => join k (mget p.n p.m j j)) k) 0
  s.augs.foldl (fun k g => (List.range g.n).foldl (fun k j => join k (edgesetKind (g.cell j j))) k) k

end Aps.Dnc
