import Verif.Model.Base
/-!
# analyze/aps-fiber.c: the fiber automaton

`makeDFA` turns the automaton of `build_FSA` (edges labelled by fields and reversed fields) into a tree of fibers by the
subset construction, going from the final states backward; `DFA_fiber_set` reads off the fibers of each declaration, and
`longer` the transitions used when dependencies are recorded.

Simplifications.
* A field is a number, `rev` says whether the label is the reversed field (`reverse_field`, 135-137).
* `DFA[i + 1]` is element `i` of `nodes`; `DFA_tree[j + 1][i + 1]` is `tree j i`.
* Reading `FSA_graph` at a node number of 1800 or more is not modelled (writing is): the claims about termination
  assume numbers below 1800.
* The sum of `nodeset_hash` does not overflow (node numbers are below 1800).
-/
namespace Aps.Dfa

/-- the label of an edge -/
structure Lab where
  field : Nat
  rev : Bool
  deriving DecidableEq, Repr

/-- an edge passed to `add_FSA_edge`; no label is an epsilon edge -/
structure Edge where
  src : Nat
  dst : Nat
  lab : Option Lab
  deriving DecidableEq, Repr

/-- `FSA_graph`: for every node the edges that lead to it (aps-fiber.c:46-47) -/
abbrev Graph := Nat → List (Nat × Option Lab)

/-- aps-fiber.c:43 -/
def maxFsa : Nat := 1800
/-- aps-fiber.c:44 -/
def maxDfa : Nat := 1000

/-- aps-fiber.c:2447-2478 (`add_FSA_edge`). `FSA_graph[to]` is read before the check. -/
def addEdge (e : Edge) (g : Graph) : Res Graph :=
  if maxFsa ≤ e.dst then .ub
  else if e.src ≤ 1 ∨ e.dst ≤ 1 then .stop
  else if (e.src, e.lab) ∈ g e.dst then .ok g
  else .ok fun t => if t = e.dst then (e.src, e.lab) :: g t else g t

/-- the calls of `add_FSA_edge` one after the other -/
def addEdges : List Edge → Graph → Res Graph
  | [], g => .ok g
  | e :: es, g => do
    let g ← addEdge e g
    addEdges es g

/-- aps-fiber.c:2552-2561 (`add_to_nodeset`) -/
def addNode (ns : List Nat) (n : Nat) : List Nat :=
  if ns.head? = some n then ns else n :: ns

/-- aps-fiber.c:2789-2795 — the edges to one node. -/
def closeEdges : List (Nat × Option Lab) → List Nat → List Nat
  | [], head => head
  | (src, none) :: es, head => closeEdges es (if src ∈ head then head else addNode head src)
  | (_, some _) :: es, head => closeEdges es head

/-- aps-fiber.c:2788-2796 — the nodes from `head` to `tail`. -/
def closeSeg (g : Graph) : List Nat → List Nat → List Nat
  | [], head => head
  | p :: ps, head => closeSeg g ps (closeEdges (g p) head)

/-- aps-fiber.c:2784-2799: the next segment is what was put in front. -/
def closeLoop (g : Graph) : Nat → List Nat → List Nat → Res (List Nat)
  | 0, _, _ => .nofuel
  | n + 1, seg, head =>
    let new := closeSeg g seg head
    if new.length = head.length then .ok new
    else closeLoop g n (new.take (new.length - head.length)) new

/-- aps-fiber.c:2779-2801 (`beclose`) -/
def beclose (g : Graph) (fuel : Nat) (ns : List Nat) : Res (List Nat) := closeLoop g fuel ns ns

/-- a node of the tree; `shorter` is the index of the node one field shorter. -/
structure Node where
  ns : List Nat
  fwd : Bool
  hash : Nat
  field : Option Lab
  shorter : Option Nat

/-- aps-fiber.c:2803-2811 -/
def hashOf (ns : List Nat) : Nat := ns.sum

/-- aps-fiber.c:2822-2826 — the edges to one node. -/
def stepEdges (f : Lab) : List (Nat × Option Lab) → List Nat → List Nat
  | [], acc => acc
  | (src, l) :: es, acc => stepEdges f es (if l = some f ∧ src ∉ acc then addNode acc src else acc)

/-- aps-fiber.c:2820-2828 -/
def stepNodes (g : Graph) (f : Lab) : List Nat → List Nat → List Nat
  | [], acc => acc
  | p :: ps, acc => stepNodes g f ps (stepEdges f (g p) acc)

/-- aps-fiber.c:2813-2843 (`makeNode`); `reverse` is given exactly for the reversed fields. -/
def makeNode (g : Graph) (T : Node) (ti : Nat) (f : Lab) : Option Node :=
  let r := stepNodes g f T.ns []
  if r = [] then none
  else some { ns := r, fwd := T.fwd == !f.rev, hash := hashOf r, field := some f, shorter := some ti }

/-- aps-fiber.c:2844-2870 (`same_DFA_node`) -/
def sameNode (a b : Node) : Bool :=
  if a.fwd ≠ b.fwd then false
  else if a.hash ≠ b.hash then false
  else if a.ns = [] ∨ b.ns = [] then false
  else a.ns.all (fun n => decide (n ∈ b.ns)) && b.ns.all fun n => decide (n ∈ a.ns)

/-- aps-fiber.c:2880-2884: going up the `shorter` links -/
def getSame (nodes : List Node) (t : Node) : Nat → Option Nat → Option Nat
  | 0, _ => none
  | _ + 1, none => none
  | n + 1, some i =>
    match nodes[i]? with
    | none => none
    | some a => if sameNode t a then some i else getSame nodes t n a.shorter

/-- aps-fiber.c:2922-2936 (`is_reachable`) -/
def reachable : List Nat → Bool
  | [] => false
  | n :: ns => ns.any (fun m => m / 2 == n / 2) || reachable ns

structure St where
  nodes : List Node
  tree : Nat → Nat → Option Lab
  work : List Nat

def setTree (t : Nat → Nat → Option Lab) (j i : Nat) (l : Lab) : Nat → Nat → Option Lab :=
  fun a b => if a = j ∧ b = i then some l else t a b

/-- aps-fiber.c:2950-2963 — a node that is not in the tree. `max` is `MAX_DFA_NUMBER`. -/
def newNode (max : Nat) (t : Node) (f : Lab) (i : Nat) (D : St) : Res St :=
  if reachable t.ns then
    if max ≤ D.nodes.length + 1 then .stop
    else .ok { nodes := D.nodes ++ [t], tree := setTree D.tree D.nodes.length i f, work := D.nodes.length :: D.work }
  else .ok D

/-- aps-fiber.c:2943-2966 — after the closing. The chain of `shorter` links is no longer than the tree. -/
def placeNode (max : Nat) (t : Node) (f : Lab) (i : Nat) (D : St) : Res St :=
  match getSame D.nodes t (D.nodes.length + 1) t.shorter with
  | some old => .ok { D with tree := setTree D.tree old i f }
  | none => newNode max t f i D

/-- aps-fiber.c:2938-2968 (`check_transition`) with `add_to_DFA_worklist` (2907-2920) -/
def checkTransition (g : Graph) (fuel max : Nat) (to : Option Node) (f : Lab) (i : Nat) (D : St) : Res St :=
  match to with
  | none => .ok D
  | some t => do
    let ns ← beclose g fuel t.ns
    placeNode max { t with ns := ns } f i D

/-- aps-fiber.c:2987-2995 — all fields at one node. -/
def allFields (g : Graph) (fuel max : Nat) (T : Node) (i : Nat) : List Nat → St → Res St
  | [], D => .ok D
  | f :: fs, D => do
    let D ← checkTransition g fuel max (makeNode g T i ⟨f, false⟩) ⟨f, false⟩ i D
    let D ← checkTransition g fuel max (makeNode g T i ⟨f, true⟩) ⟨f, true⟩ i D
    allFields g fuel max T i fs D

/-- aps-fiber.c:2982-2996 -/
def workLoop (g : Graph) (fuel max : Nat) (fields : List Nat) : Nat → St → Res St
  | 0, _ => .nofuel
  | n + 1, D =>
    match D.work with
    | [] => .ok D
    | i :: rest =>
      match D.nodes[i]? with
      | none => .ub
      | some T => do
        let D ← allFields g fuel max T i fields { D with work := rest }
        workLoop g fuel max fields n D

/-- aps-fiber.c:2971-2980: the base fiber (the nodes of `omega`). -/
def baseNode (ns : List Nat) : Node := { ns := ns, fwd := true, hash := hashOf ns, field := none, shorter := none }

/-- aps-fiber.c:2968-2997 (`makeDFA`) -/
def makeDFA (g : Graph) (omega fields : List Nat) (max fuel : Nat) : Res St := do
  let ns ← beclose g fuel omega
  workLoop g fuel max fields fuel { nodes := [baseNode ns], tree := fun _ _ => none, work := [0] }

/-- aps-fiber.c:3278-3304 (`fiber_module`): the edges of `build_FSA`, then `makeDFA` -/
def fiberTree (E : List Edge) (omega fields : List Nat) (max fuel : Nat) : Res St := do
  let g ← addEdges E fun _ => []
  makeDFA g omega fields max fuel

/-- aps-fiber.c:3050-3101 (`DFA_fiber_set`): the fibers of the declaration with node `q`, from the second node on, in one
direction; the last one found is in front. -/
def fibersFrom (q : Nat) (fwd : Bool) : Nat → List Node → List Nat
  | _, [] => []
  | i, n :: ns => fibersFrom q fwd (i + 1) ns ++ (if q ∈ n.ns ∧ q + 1 ∈ n.ns ∧ n.fwd = fwd then [i] else [])

def fiberSet (D : St) (q : Nat) (fwd : Bool) : List Nat := fibersFrom q fwd 1 D.nodes.tail

/-- aps-fiber.c:3183-3195 (`longer`) — the association list of node `i`: the last node is in front. -/
def longerOf (D : St) (i : Nat) : Nat → List (Lab × Nat)
  | 0 => []
  | j + 1 =>
    match D.tree j i with
    | some l => (l, j) :: longerOf D i j
    | none => longerOf D i j

/-- alist.c:18-24 (`assoc`) -/
def assoc (l : Lab) : List (Lab × Nat) → Option Nat
  | [] => none
  | (k, v) :: r => if k = l then some v else assoc l r

/-- aps-dnc.c:1004-1011 (`dep_modifier_fiber`) from the base fiber -/
def follow (D : St) : List Lab → Option Nat
  | [] => some 0
  | l :: w =>
    match follow D w with
    | none => none
    | some i => assoc l (longerOf D i D.nodes.length)

end Aps.Dfa
