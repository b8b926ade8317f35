import Verif.Model.Oag
/-!
# codegen/static-impl.cc: visit procedures from conditional total orders

`implement_visit_function` walks the conditional total order of a production and prints the part of it
that belongs to one visit; `dump_visit_functions` prints the visit procedures. The second half of this
file is the meaning of the printed code: a visit procedure runs over a tree and sets and gets
attributes.

Simplifications.
* An expression is the list of the instances it reads and a function of their values (`V` is the type of
  values). A pattern variable is a part of the value of the case expression; an expression that uses one
  reads what the case expression reads.
* What the code looks up through `INSTANCE *in` is the record `Inst`: whether its node is the left-hand
  side, which child it is, the phase number `attribute_schedule` finds for it (`ph`), the if-rule or
  match, the direction, and the kind of thing it is an instance of.
* A printed comment is nothing. Debugging output and the warnings on standard output are nothing.
* Names are numbers: `attr` is the attribute or the local.
-/
namespace Aps.Static

open Aps.Oag

/-- An expression of the source language. -/
structure Expr (V : Type) where
  reads : List Nat
  fn : List V → V

/-- A block of a top-level match, function or module body (parse/aps.grammar: `Block`): declarations of
local values, assignments (`Expression_info(rhs)->value_for` is the instance `i`, set at
analyze/aps-dnc.c:1329-1332) and conditional statements, in order. A conditional statement is an `if` with
both blocks, or a match of a case statement with its body and what is done if it does not match: the next
match (alone in its block) or the default. `r` is its instance. -/
inductive Block (V : Type)
  | nil
  | decl (i : Nat) (rest : Block V)
  | assign (i : Nat) (e : Expr V) (rest : Block V)
  | cond (r : Nat) (ifTrue ifFalse rest : Block V)

/-- What is tested: an `if` condition, or a match of `case e` with a pattern. -/
inductive Test (V : Type)
  | ifs (reads : List Nat) (fn : List V → Bool)
  | mat (first : Bool) (e : Expr V) (pat : V → Bool)

/-- What static-impl.cc:181-232 finds out about an if-rule; `ifFalse = none` is `if_false = 0` (a match with
a next match, line 216). -/
structure Rule (V : Type) where
  test : Test V
  ifTrue : Block V
  ifFalse : Option (Block V)

/-- The cases distinguished when an outward instance is printed: node is an assignment or a call
(static-impl.cc:277-286), there is a fiber (288-328), a local (333-361; `moduleVar`: a variable of the module
in Scala, line 340-346), attribute of a node of the production (362-395; `implicit`: shared info of a child, or
an up/down attribute, 363-368), a field of an object (396-407), anything else (409-410). -/
inductive Kind
  | call
  | fiber
  | loc (moduleVar : Bool)
  | node (implicit : Bool)
  | object
  | unknown
  deriving DecidableEq, Repr

/-- an instance, as seen by `implement_visit_function` -/
structure Inst (V : Type) where
  /-- `in->node == aug_graph->lhs_decl` -/
  lhs : Bool
  /-- `children[ch] == in->node` -/
  ch : Option Nat
  /-- static-impl.cc:118 -/
  ph : Int
  rule : Option (Rule V)
  /-- `instance_direction(in) == instance_inward` -/
  inward : Bool
  kind : Kind
  attr : Nat

/-- `Expression instance_assignment[]` -/
abbrev Asg (V : Type) := List (Option (Expr V))

/-- A production (or function, or module): instances with their defaults (static-impl.cc:47-65), its block, its
total order, the phyla of the left-hand side and of the children (`none`: no phylum). -/
structure Prod (V : Type) where
  insts : List (Inst V)
  defaults : Asg V
  body : Block V
  cto : Cto
  lhsPhy : Nat
  kidPhy : List (Option Nat)

/-- codegen/static-impl.cc:68-80 — the loop over the declarations of a block: only its own assignments. -/
def assignLoop {V : Type} (n : Nat) : Block V → Asg V → Res (Asg V)
  | .nil, arr => .ok arr
  | .decl _ rest, arr => assignLoop n rest arr
  | .assign i e rest, arr => if i ≥ n then .stop else assignLoop n rest (arr.set i (some e))
  | .cond _ _ _ rest, arr => assignLoop n rest arr

/-- codegen/static-impl.cc:36-83; the defaults of lines 47-65 are `from` at the first call. -/
def makeAssignment {V : Type} (P : Prod V) (block : Block V) (source : Asg V) : Res (Asg V) :=
  assignLoop P.insts.length block source

/-- The printed code. Whatever follows a conditional statement is printed in both its branches, so nothing
comes after it. -/
inductive Code (V : Type)
  | done
  | visit (c : Nat) (ph : Nat) (rest : Code V)
  | assign (i : Nat) (e : Expr V) (rest : Code V)
  | letNode (e : Expr V) (rest : Code V)
  | ifs (reads : List Nat) (fn : List V → Bool) (t f : Code V)
  | mat (pat : V → Bool) (t f : Code V)

/-- codegen/static-impl.cc:126-134 — phase change of the parent; `none`: this phase is over. -/
def parentPhase {V : Type} (inst : Inst V) (phase current : Nat) : Option Nat :=
  if inst.lhs = true ∧ inst.ph ≠ (current : Int) ∧ inst.ph ≠ -(current : Int) then
    if current = phase then none else some (current + 1)
  else some current

/-- codegen/static-impl.cc:139 — the child whose phase changes here. -/
def childChange {V : Type} (inst : Inst V) (cp : List Nat) : Option Nat :=
  match inst.ch with
  | some c => if inst.ph ≠ (cp[c]?.getD 0 : Int) ∧ inst.ph ≠ -(cp[c]?.getD 0 : Int) - 1 then some c else none
  | none => none

/-- codegen/static-impl.cc:265-410 — whether an assignment to the instance is printed. -/
def emits {V : Type} (inst : Inst V) (rhs : Option (Expr V)) : Option (Expr V) :=
  if inst.inward then none
  else
    match inst.kind with
    | .call => none
    | .fiber => rhs
    | .loc moduleVar => if moduleVar then none else rhs
    | .node implicit => if implicit then none else rhs
    | .object => rhs
    | .unknown => none

/-- codegen/static-impl.cc:187-213 — the head of a conditional statement. -/
def condHead {V : Type} : Test V → Code V → Code V → Code V
  | .ifs reads fn, t, f => .ifs reads fn t f
  | .mat true e pat, t, f => .letNode e (.mat pat t f)
  | .mat false _ pat, t, f => .mat pat t f

/-- codegen/static-impl.cc:94-413. The number is fuel: one unit for each round of the loop and each call.
An array entry of a node without a successor is read uninitialised (`ub`) if the total order does not have
the shape of the instance. -/
def implement {V : Type} (P : Prod V) (phase : Nat) : Nat → Nat → Cto → Asg V → List Nat → Res (Code V × Bool)
  | 0, _, _, _, _ => .nofuel
  | _ + 1, _, .nil, _, _ => .ok (.done, false)
  | fuel + 1, current, .node i next, asg, cp =>
    match P.insts[i]? with
    | none => .ub
    | some inst =>
      match parentPhase inst phase current with
      | none => .ok (.done, true)
      | some current =>
        match childChange inst cp with
        | some c =>
          if current = phase then
            if inst.ph < 0 then .stop
            else do
              let r ← implement P phase fuel current (.node i next) asg (cp.set c (cp[c]?.getD 0 + 1))
              return (.visit c inst.ph.toNat r.1, r.2)
          else implement P phase fuel current (.node i next) asg (cp.set c (cp[c]?.getD 0 + 1))
        | none =>
          if inst.rule.isSome then .ub
          else if phase ≠ current then implement P phase fuel current next asg cp
          else do
            let r ← implement P phase fuel current next asg cp
            match emits inst (asg[i]?.getD none) with
            | none => return r
            | some e => return (.assign i e r.1, r.2)
  | fuel + 1, current, .ifs i ctoFalse ctoTrue, asg, cp =>
    match P.insts[i]? with
    | none => .ub
    | some inst =>
      match parentPhase inst phase current with
      | none => .ok (.done, true)
      | some current =>
        match childChange inst cp with
        | some c =>
          if current = phase then
            if inst.ph < 0 then .stop
            else do
              let r ← implement P phase fuel current (.ifs i ctoFalse ctoTrue) asg (cp.set c (cp[c]?.getD 0 + 1))
              return (.visit c inst.ph.toNat r.1, r.2)
          else implement P phase fuel current (.ifs i ctoFalse ctoTrue) asg (cp.set c (cp[c]?.getD 0 + 1))
        | none =>
          match inst.rule with
          | none => .ub
          | some rule => do
            let at_ ← makeAssignment P rule.ifTrue asg
            let rt ← implement P phase fuel current ctoTrue at_ cp
            let af ← match rule.ifFalse with
              | some b => makeAssignment P b asg
              | none => .ok asg
            let rf ← implement P phase fuel current ctoFalse af cp
            return (condHead rule.test rt.1 rf.1, rf.2)

/-- codegen/static-impl.cc:462-506 — the loop over the phases; `rounds` is fuel, `phase` the number of phases
done. -/
def dumpLoop {V : Type} (P : Prod V) (fuel : Nat) (asg : Asg V) : Nat → Nat → Res (List (Code V))
  | 0, _ => .nofuel
  | rounds + 1, phase => do
    let r ← implement P (phase + 1) fuel 0 P.cto asg (List.replicate P.kidPhy.length 0)
    if r.2 then do
      let rest ← dumpLoop P fuel asg rounds (phase + 1)
      return r.1 :: rest
    else return [r.1]

/-- codegen/static-impl.cc:416-509 — the visit procedures of a production, for phases 1, 2, ... -/
def dumpVisits {V : Type} (P : Prod V) (fuel : Nat) : Res (List (Code V)) := do
  let asg ← makeAssignment P P.body P.defaults
  match P.cto with
  | .nil => return []
  | _ => dumpLoop P fuel asg fuel 0

/-! ## The meaning of the printed code -/

/-- A tree: a node built by the constructor of production `p`, or a child that is not a node. -/
inductive Tree
  | leaf
  | node (p : Nat) (kids : List Tree)

/-- The address of a node: the child numbers from the node up to the root. -/
abbrev Addr := List Nat

/-- an attribute of a node, or a local of the production applied at a node -/
inductive Key
  | attr (x : Nat)
  | loc (x : Nat)
  deriving DecidableEq, Repr

abbrev Slot := Addr × Key

/-- Everything assigned so far, last first. -/
abbrev Store (V : Type) := List (Slot × V)

/-- base/cpp/aps-impl.h:198-243, base/scala: `get` gives the value assigned last. -/
def get {V : Type} (st : Store V) (s : Slot) : Option V := (st.find? fun w => w.1 = s).map (·.2)

/-- Where the value of an instance is kept: `a_x.get(v_child)`, `a_x.get(v_lhs)`, `a_l.get(anchor)`
(static-impl.cc:336-339, 386-391, 916-926). -/
def Inst.slot {V : Type} (inst : Inst V) (a : Addr) : Slot :=
  match inst.ch with
  | some c => (c :: a, .attr inst.attr)
  | none => if inst.lhs then (a, .attr inst.attr) else (a, .loc inst.attr)

/-- the values of the instances an expression reads; reading an attribute never assigned counts as a failure (it
throws `UndefinedAttributeException`, or gives the default: base/cpp/aps-impl.h:245-262) -/
def readAll {V : Type} (P : Prod V) (a : Addr) (st : Store V) : List Nat → Res (List V)
  | [] => .ok []
  | j :: js =>
    match P.insts[j]? with
    | none => .ub
    | some inst =>
      match get st (inst.slot a) with
      | none => .stop
      | some v => do
        let vs ← readAll P a st js
        return v :: vs

/-- Running printed code at a node; `call c ph` runs `visit_n_ph(v_child)`, `nd` is the variable `node`
(static-impl.cc:196-200). -/
def run {V : Type} (P : Prod V) (call : Nat → Nat → Store V → Res (Store V)) (a : Addr) :
    Code V → Option V → Store V → Res (Store V)
  | .done, _, st => .ok st
  | .visit c ph rest, nd, st => do
    let st ← call c ph st
    run P call a rest nd st
  | .assign i e rest, nd, st => do
    let vs ← readAll P a st e.reads
    match P.insts[i]? with
    | none => .ub
    | some inst => run P call a rest nd ((inst.slot a, e.fn vs) :: st)
  | .letNode e rest, _, st => do
    let vs ← readAll P a st e.reads
    run P call a rest (some (e.fn vs)) st
  | .ifs reads fn t f, nd, st => do
    let vs ← readAll P a st reads
    if fn vs then run P call a t nd st else run P call a f nd st
  | .mat pat t f, nd, st =>
    match nd with
    | none => .ub
    | some v => if pat v then run P call a t nd st else run P call a f nd st

/-- codegen/static-impl.cc:618-664 — `visit_n_ph(node)` calls the procedure of the production of the node (see
`dispatchCpp`, `dispatchScala` for the selection of the procedure). The number is a bound on the height. -/
def visitNode {V : Type} (prods : List (Prod V)) (codes : List (List (Code V))) :
    Nat → Tree → Addr → Nat → Store V → Res (Store V)
  | 0, _, _, _, _ => .nofuel
  | _ + 1, .leaf, _, _, _ => .ub
  | fuel + 1, .node p kids, a, ph, st =>
    match prods[p]?, (codes[p]?).bind (·[ph - 1]?) with
    | some P, some code =>
      run P (fun c ph st =>
        match kids[c]? with
        | none => .ub
        | some kid => visitNode prods codes fuel kid (c :: a) ph st) a code none st
    | _, _ => .ub

/-- The visits of one root, phase after phase. -/
def visitRoot {V : Type} (prods : List (Prod V)) (codes : List (List (Code V))) (fuel : Nat) (t : Tree) :
    List Nat → Store V → Res (Store V)
  | [], st => .ok st
  | ph :: phs, st => do
    let st ← visitNode prods codes fuel t [] ph st
    visitRoot prods codes fuel t phs st

mutual

/-- base/cpp/aps-impl.cpp:161-163, 185-190; base/scala/aps-impl.scala:117 — the nodes of a phylum in the order in
which they are made, children before their parents: `phylum->node(i)`, `t_S.nodes`. -/
def nodesOf {V : Type} (prods : List (Prod V)) (sp : Nat) : Tree → Addr → List (Tree × Addr)
  | .leaf, _ => []
  | .node p kids, a => nodesList prods sp kids 0 a ++
      if (prods[p]?.map (·.lhsPhy)) = some sp then [(.node p kids, a)] else []

def nodesList {V : Type} (prods : List (Prod V)) (sp : Nat) : List Tree → Nat → Addr → List (Tree × Addr)
  | [], _, _ => []
  | k :: ks, c, a => nodesOf prods sp k (c :: a) ++ nodesList prods sp ks (c + 1) a

end

/-- codegen/static-impl.cc:140-175 — the loop over the nodes of the start phylum for one phase -/
def visitEach {V : Type} (prods : List (Prod V)) (codes : List (List (Code V))) (fuel ph : Nat) :
    List (Tree × Addr) → Store V → Res (Store V)
  | [], st => .ok st
  | (t, a) :: rest, st => do
    let st ← visitNode prods codes fuel t a ph st
    visitEach prods codes fuel ph rest st

/-- codegen/static-impl.cc:686-732 — `visit()`, for a module whose own instances print nothing but the visits of
the nodes of the start phylum `sp`. -/
def visitAll {V : Type} (prods : List (Prod V)) (codes : List (List (Code V))) (fuel : Nat) (sp : Nat) (t : Tree) :
    List Nat → Store V → Res (Store V)
  | [], st => .ok st
  | ph :: phs, st => do
    let st ← visitEach prods codes fuel ph (nodesOf prods sp t []) st
    visitAll prods codes fuel sp t phs st

/-! ## Selection of the procedure -/

/-- codegen/static-impl.cc:597-611 — `instance_index` of the constructors of a phylum: constructors of the
module in order of declaration, those with a top-level match for the phylum are numbered from 0; `none` if
not all top-level matches are found (fatal error). -/
def instanceIndex (cons : List Nat) (matched : List Nat) : Option (List (Nat × Nat)) :=
  let l := (cons.filter fun d => matched.contains d)
  if l.length = matched.length then some (l.zipIdx) else none

/-- codegen/static-impl.cc:621-650 (C++): `case j` calls `visit_n_ph_j`; the constructor in the node knows its
index among all constructors of its phylum (base/cpp/aps-impl.cpp:217-225). `none`: "bad constructor index". The
result is the constructor whose procedure is called. -/
def dispatchCpp (phylumCons : List Nat) (index : List (Nat × Nat)) (nMatched : Nat) (con : Nat) : Option Nat :=
  let j := phylumCons.idxOf con
  if j < nMatched then (index.find? fun e => e.2 = j).map (·.1) else none

/-- codegen/static-impl.cc:628-640 (Scala): pattern matching on the constructor. `none`: `MatchError`. -/
def dispatchScala (index : List (Nat × Nat)) (con : Nat) : Option Nat :=
  match index.find? fun e => e.1 = con with
  | some (_, j) => (index.find? fun e => e.2 = j).map (·.1)
  | none => none

end Aps.Static
