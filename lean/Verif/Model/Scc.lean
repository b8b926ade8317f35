import Verif.Model.HashTable
/-!
# utilities/scc.c, utilities/stack.c

Simplifications.
* A vertex pointer is a natural number (0 is NULL); vertex indices are natural numbers.
* Uninitialised memory (an index whose vertex was never added) is `none`; using it is undefined behaviour.
* The recursion of the two depth-first searches gets fuel; `printf` of the number of added
  edges is not modelled; memory exhaustion is not modelled.
* A neighbour array of linked lists is a function from index to list.
-/
namespace Aps.Scc
open Aps.HashTable

/-! ## utilities/stack.c: the linked list of a stack is a list, top first. -/

/-- utilities/stack.c:10-12 -/
def stackCreate {α : Type} : List α := []

/-- utilities/stack.c:19-24 -/
def stackPush {α : Type} (s : List α) (v : α) : List α := v :: s

/-- utilities/stack.c:33-42 — returns the popped value (`none` when it returns false) and the stack. -/
def stackPop {α : Type} : List α → Option α × List α
  | [] => (none, [])
  | v :: s => (some v, s)

/-- utilities/stack.c:49-51 -/
def stackIsEmpty {α : Type} (s : List α) : Bool := s.isEmpty

/-- utilities/stack.c:58-62 -/
def stackDestroy {α : Type} : List α → List α
  | [] => []
  | v :: s => stackDestroy (stackPop (v :: s)).2

/-! ## utilities/scc.c -/

/-- utilities/scc.h (SccGraph). `adj` is the `n*n` adjacency matrix in row order. -/
structure Graph where
  n : Nat
  adj : List Bool
  map : HT
  ptrs : List (Option Nat)
  next : Nat

/-- utilities/scc.c:50-52 -/
def containsEdge (n : Nat) (adj : List Bool) (source sink : Nat) : Bool := adj[source * n + sink]?.getD false

/-- utilities/scc.c:126-128 -/
def addEdgeInternal (n : Nat) (adj : List Bool) (source sink : Nat) : List Bool := adj.set (source * n + sink) true

/-- utilities/scc.c:102-118 -/
def initialize' (ntp : Nat → Res Nat) (n : Nat) : Res Graph := do
  let map ← create ntp n
  return { n := n, adj := List.replicate (n * n) false, map := map, ptrs := List.replicate n none, next := 0 }

/-- utilities/scc.c:23-41 -/
def indexOfPtr (g : Graph) (v : Nat) : Res Nat := do
  let c ← contains ptrOps g.map v
  if c = false then .stop else do
  let i ← HashTable.get ptrOps g.map v
  if g.n ≤ i then .stop else .ok i

/-- utilities/scc.c:136-141 -/
def addEdge (g : Graph) (source sink : Nat) : Res Graph := do
  let i ← indexOfPtr g source
  let j ← indexOfPtr g sink
  return { g with adj := addEdgeInternal g.n g.adj i j }

/-- utilities/scc.c:218-239 -/
def addVertex (ntp : Nat → Res Nat) (g : Graph) (v : Nat) : Res Graph :=
  if g.n ≤ g.next then .stop else do
  let c ← contains ptrOps g.map v
  if c then .stop else do
  let map ← addOrUpdate ptrOps ntp 2 g.map v g.next
  return { g with map := map, ptrs := g.ptrs.set g.next (some v), next := g.next + 1 }

/-- utilities/scc.c:84-97 -/
def ptrOfIndex (g : Graph) (i : Nat) : Res Nat :=
  if g.n ≤ i then .stop else
  match g.ptrs[i]? with
  | some (some p) => .ok p
  | _ => .ub

/-- utilities/scc.c:293-299 — the innermost body of the closure loop; the flag is `changed`. -/
def closeBody (n i j : Nat) (s : List Bool × Bool) (k : Nat) : List Bool × Bool :=
  if containsEdge n s.1 i j && containsEdge n s.1 j k && !containsEdge n s.1 i k then
    (addEdgeInternal n s.1 i k, true)
  else s

/-- utilities/scc.c:289-302 — one round of the closure loop. -/
def closeRound (n : Nat) (adj : List Bool) : List Bool × Bool :=
  (List.range n).foldl (fun s i =>
    (List.range n).foldl (fun s j =>
      (List.range n).foldl (fun s k => closeBody n i j s k) s) s) (adj, false)

/-- utilities/scc.c:288-302 — `do ... while (changed)`. -/
def closeLoop (n : Nat) : Nat → List Bool → Res (List Bool)
  | 0, _ => .nofuel
  | fuel + 1, adj =>
    match closeRound n adj with
    | (adj', true) => closeLoop n fuel adj'
    | (adj', false) => .ok adj'

/-- utilities/scc.c:64-73 — the neighbour list of `i` (each found neighbour is put in front). -/
def neighbors (n : Nat) (adj : List Bool) (i : Nat) : List Nat :=
  (List.range n).foldl (fun acc j => if containsEdge n adj i j then j :: acc else acc) []

/-- A read of a boolean array (`visited`, `deleted`). -/
def flag (a : List Bool) (i : Nat) : Bool := a[i]?.getD false

/-- State of the first search: `visited` and the stack. -/
structure Dfs where
  visited : List Bool
  stack : List Nat

/-- utilities/scc.c:183-188 — the loop over the neighbours; `rec` is the recursive call of `dfs`. -/
def dfsList (rec : Dfs → Nat → Res Dfs) : List Nat → Dfs → Res Dfs
  | [], s => .ok s
  | u :: us, s => do
    let s ← if flag s.visited u = false then rec s u else .ok s
    dfsList rec us s

/-- utilities/scc.c:180-190 -/
def dfs (nb : Nat → List Nat) : Nat → Dfs → Nat → Res Dfs
  | 0, _, _ => .nofuel
  | fuel + 1, s, v => do
    let s := { s with visited := s.visited.set v true }
    let s ← dfsList (dfs nb fuel) (nb v) s
    return { s with stack := stackPush s.stack v }

/-- utilities/scc.c:319-323 — the first search from every vertex. -/
def dfsAll (nb : Nat → List Nat) (fuel : Nat) (is : List Nat) (s : Dfs) : Res Dfs :=
  dfsList (dfs nb fuel) is s

/-- utilities/scc.c:200-207 — the reversed adjacency matrix. -/
def transpose (n : Nat) (nb : Nat → List Nat) : List Bool :=
  (List.range n).foldl (fun r i => (nb i).foldl (fun r u => addEdgeInternal n r u i) r) (List.replicate (n * n) false)

/-- State of the second search: `visited`, `deleted`, and the component being collected. -/
structure Coll where
  visited : List Bool
  deleted : List Bool
  out : List Nat

/-- utilities/scc.c:261-267 — the loop over the neighbours; `rec` is the recursive call. -/
def collectList (rec : Coll → Nat → Res Coll) : List Nat → Coll → Res Coll
  | [], s => .ok s
  | u :: us, s => do
    let s ← if !flag s.visited u && !flag s.deleted u then rec s u else .ok s
    collectList rec us s

/-- utilities/scc.c:251-268 -/
def collect (nb : Nat → List Nat) : Nat → Coll → Nat → Res Coll
  | 0, _, _ => .nofuel
  | fuel + 1, s, v =>
    collectList (collect nb fuel) (nb v)
      { visited := s.visited.set v true, deleted := s.deleted.set v true, out := s.out ++ [v] }

/-- utilities/scc.c:341-355 — popping the stack and collecting components. -/
def popLoop (n : Nat) (nb : Nat → List Nat) : List Nat → List Bool → List (List Nat) → Res (List (List Nat))
  | [], _, comps => .ok comps
  | v :: st, deleted, comps =>
    if flag deleted v = false then do
      let s ← collect nb n { visited := List.replicate n false, deleted := deleted, out := [] } v
      popLoop n nb st s.deleted (comps ++ [s.out])
    else popLoop n nb st deleted comps

/-- the loop over an array of indices, turning them into pointers (scc.c:368-371) -/
def mapPtrs (g : Graph) : List Nat → Res (List Nat)
  | [] => .ok []
  | i :: is => do
    let p ← ptrOfIndex g i
    let ps ← mapPtrs g is
    return p :: ps

/-- the loop over the components (scc.c:363-374) -/
def mapComps (g : Graph) : List (List Nat) → Res (List (List Nat))
  | [] => .ok []
  | c :: cs => do
    let p ← mapPtrs g c
    let ps ← mapComps g cs
    return p :: ps

/-- utilities/scc.c:282-355 — components as lists of indices. -/
def components (n : Nat) (adj : List Bool) : Res (List (List Nat)) := do
  let adj ← closeLoop n (n * n + 1) adj
  let nb := neighbors n adj
  let s ← dfsAll nb n (List.range n) { visited := List.replicate n false, stack := stackCreate }
  let radj := transpose n nb
  popLoop n (neighbors n radj) s.stack (List.replicate n false) []

/-- utilities/scc.c:274-386 -/
def graphComponents (g : Graph) : Res (List (List Nat)) :=
  if g.n = 0 then .stop else do
  let cs ← components g.n g.adj
  mapComps g cs

end Aps.Scc
