import Verif.Model.Static
import Verif.Model.Chunk
/-!
# codegen/static-scc-impl.cc: visit procedures with fixed-point loops

With `-C` the visit procedures are printed from the total orders of the chunk scheduler (`Model/Chunk`), with
loops around what has to be repeated. The first half is the generator, which prints a stream of tokens through a
writer that holds back the beginnings of loops; the second half is the meaning of the printed Scala code, with
the trait `StaticCircularEvaluation` printed by dump-scala.cc.

Simplifications.
* Expressions, blocks, instances as in `Model/Static`.
* Comments are not printed (`include_comments` is off). (A comment would count as something written, so that empty
  loops were printed.)
* `for x in s` statements, functions and the module's own instances are not modelled.
* A `std::set<Expression>` is iterated in the order of addresses. The expressions assigned in a block are taken to be
  allocated in order, the default of an attribute before (`dfltFirst`) or after them.
* The result of `implement_visit_function` (always false) is not kept.
-/
namespace Aps.SccGen

open Aps.Oag Aps.Dnc Aps.Static

/-- A production as static-scc-impl.cc sees it: what `Model/Static` has, `instance_condition` and `if_rule_index` of the
instances, which instances are collections (assigned with `:>`), its total order, `chunk_circular` of the chunks,
`cyclic_flags` and `max_phase` of the phylum of the left-hand side. (`base.cto` is not used.) -/
structure SProd (V : Type) where
  base : Static.Prod V
  conds : List Cond
  rules : List (Option Nat)
  coll : Nat → Bool
  dfltFirst : Bool
  order : Chunk.Tree
  chunkCirc : Nat → Bool
  cyclic : Nat → Bool
  maxPhase : Nat

/-! ## Assignments -/

/-- `std::set<Expression>`: whether the default of the instance is in it, and the expressions assigned. -/
structure ESet (V : Type) where
  dflt : Bool
  own : List (Expr V)

/-- `vector<std::set<Expression> >` -/
abbrev Asgs (V : Type) := List (ESet V)

/-- static-scc-impl.cc:114-138 — the defaults are inserted, whatever was there. -/
def insertDefaults {V : Type} (P : SProd V) (arr : Asgs V) : Asgs V :=
  arr.mapIdx fun i s => if (P.base.defaults[i]?.getD none).isSome then { s with dflt := true } else s

/-- static-scc-impl.cc:144-176 — one of the two steps, over the declarations of the block -/
def assignStep {V : Type} (P : SProd V) (step : Nat) : Block V → Asgs V → Res (Asgs V)
  | .nil, arr => .ok arr
  | .decl _ rest, arr => assignStep P step rest arr
  | .assign i e rest, arr =>
    if i ≥ P.base.insts.length then .stop
    else if P.coll i then
      if step = 1 then assignStep P step rest (arr.set i ⟨false, []⟩)
      else assignStep P step rest (arr.modify i fun s => { s with own := s.own ++ [e] })
    else assignStep P step rest (arr.set i ⟨false, [e]⟩)
  | .cond _ _ _ rest, arr => assignStep P step rest arr

/-- static-scc-impl.cc:106-180 — `make_instance_assignment` -/
def makeAssignment {V : Type} (P : SProd V) (block : Block V) (source : Asgs V) : Res (Asgs V) := do
  let arr ← assignStep P 1 block (insertDefaults P source)
  assignStep P 2 block arr

/-- The expressions in the order of their addresses. -/
def ESet.list {V : Type} (P : SProd V) (i : Nat) (s : ESet V) : List (Expr V) :=
  let d := if s.dflt then (P.base.defaults[i]?.getD none).toList else []
  if P.dfltFirst then d ++ s.own else s.own ++ d

/-! ## The writer -/

/-- What is printed. `loopStart k`: `val prevChanged_k = changed; do { changed = false;`, `loopEnd k`:
`} while(changed); changed = prevChanged_k;` -/
inductive Tok (V : Type)
  | loopStart (id : Nat)
  | loopEnd (id : Nat)
  | letNode (e : Expr V)
  | ifOpen (reads : List Nat) (fn : List V → Bool)
  | matOpen (pat : V → Bool)
  | elseOpen
  | close
  | assign (i : Nat) (e : Expr V)
  | visit (c : Nat) (ph : Nat)

/-- static-scc-impl.cc:32-94 — `OutputWriter`: the beginnings of loops held back, and what was written -/
structure Writer (V : Type) where
  queue : List Nat
  out : List (Tok V)

/-- static-scc-impl.cc:65-68 — `get_outstream` and writing: first what was held back -/
def Writer.write {V : Type} (w : Writer V) (ts : List (Tok V)) : Writer V :=
  ⟨[], w.out ++ w.queue.map .loopStart ++ ts⟩

/-- static-scc-impl.cc:70-80 and 221-230 — `dump_loop_start`; nothing in C++ -/
def loopStart {V : Type} (scala : Bool) (id : Nat) (w : Writer V) : Res (Writer V) :=
  if !scala then .ok w
  else if w.queue.contains id then .stop
  else .ok { w with queue := w.queue ++ [id] }

/-- static-scc-impl.cc:82-93 and 189-207 — `dump_loop_end`: a loop in which nothing was written is not printed. -/
def loopEnd {V : Type} (scala : Bool) (id : Nat) (w : Writer V) : Writer V :=
  if !scala then w
  else if !w.queue.contains id then w.write [.loopEnd id]
  else { w with queue := w.queue.takeWhile fun k => k != id }

/-- a loop is closed if loops are allowed and there is one (static-scc-impl.cc:284-287, 369-373, 591-594, 811-814) -/
def closeLoop {V : Type} (scala allowed : Bool) (loop : Option Nat) (w : Writer V) : Option Nat × Writer V :=
  match loop with
  | some id => if allowed then (none, loopEnd scala id w) else (some id, w)
  | none => (none, w)

/-! ## The visit procedures -/

/-- static-scc-impl.cc:276-305 — the beginning of another chunk -/
def chunkStep {V : Type} (scala : Bool) (P : SProd V) (phase : Nat) (allowed : Bool) (k : Nat) (chunk loop : Option Nat)
    (w : Writer V) : Res (Option Nat × Writer V) :=
  if chunk.isSome && chunk != some k then
    let r := closeLoop scala allowed loop w
    if allowed && P.chunkCirc k && !P.cyclic phase then do
      let w ← loopStart scala k r.2
      return (some k, w)
    else return r
  else return (loop, w)

/-- static-scc-impl.cc:508-536 — the head of a conditional statement -/
def condHead {V : Type} : Test V → List (Tok V)
  | .ifs reads fn => [.ifOpen reads fn]
  | .mat true e pat => [.letNode e, .matOpen pat]
  | .mat false _ pat => [.matOpen pat]

/-- static-scc-impl.cc:610-805 — what is printed for an instance -/
def instToks {V : Type} (P : SProd V) (asg : Asgs V) (i : Nat) (inst : Inst V) : List (Tok V) :=
  if inst.inward then []
  else ((asg[i]?.getD ⟨false, []⟩).list P i).filterMap fun e => (emits inst (some e)).map (.assign i)

/-- nothing is written if there is nothing to write -/
def Writer.writeAll {V : Type} (w : Writer V) (ts : List (Tok V)) : Writer V :=
  if ts.isEmpty then w else w.write ts

/-- static-scc-impl.cc:566-569 — the assignments in the second branch -/
def elseAssignment {V : Type} (P : SProd V) (b : Option (Block V)) (asg : Asgs V) : Res (Asgs V) :=
  match b with
  | some b => makeAssignment P b asg
  | none => .ok asg

/-- static-scc-impl.cc:235-817 — `implement_visit_function` for a production (`skip_previous_visit_code` is true). -/
def implement {V : Type} (scala : Bool) (P : SProd V) (phase : Nat) :
    Chunk.Tree → Asgs V → Cond → Option Nat → Bool → Option Nat → Writer V → Res (Writer V)
  | .nil, _, _, _, allowed, loop, w => .ok (closeLoop scala allowed loop w).2
  | .inst i v k next, asg, c, chunk, allowed, loop, w => do
    let (loop, w) ← chunkStep scala P phase allowed k chunk loop w
    if v ≠ phase then implement scala P phase next asg c (some k) allowed loop w
    else
      match P.base.insts[i]? with
      | none => .ub
      | some inst =>
        if inst.rule.isSome then .ub
        else if ignored c (P.conds[i]?.getD ⟨0, 0⟩) then implement scala P phase next asg c (some k) allowed loop w
        else implement scala P phase next asg c (some k) allowed loop (w.writeAll (instToks P asg i inst))
  | .mark ph ch v k next, asg, c, chunk, allowed, loop, w => do
    let (loop, w) ← chunkStep scala P phase allowed k chunk loop w
    if v ≠ phase then implement scala P phase next asg c (some k) allowed loop w
    else if ch = -1 then
      let (loop, w) := closeLoop scala allowed loop w
      if ph = phase then .ok w
      else implement scala P phase next asg c (some k) allowed loop w
    else implement scala P phase next asg c (some k) allowed loop (w.write [.visit ch.toNat ph.toNat])
  | .ifs i _ k t f, asg, c, chunk, allowed, loop, w => do
    let (loop, w) ← chunkStep scala P phase allowed k chunk loop w
    match P.base.insts[i]?, (P.rules[i]?).getD none with
    | some inst, some r =>
      match inst.rule with
      | none => .ub
      | some rule =>
        if ignored c (P.conds[i]?.getD ⟨0, 0⟩) then implement scala P phase f asg c (some k) allowed loop w
        else do
          let inner := allowed && loop.isNone
          let at_ ← makeAssignment P rule.ifTrue asg
          let w ← implement scala P phase t at_ ⟨c.pos ||| cmask r, c.neg⟩ (some k) inner loop (w.write (condHead rule.test))
          let af ← elseAssignment P rule.ifFalse asg
          let w ← implement scala P phase f af ⟨(c.pos ||| cmask r) &&& ~~~cmask r, c.neg ||| cmask r⟩ (some k) inner loop
            (w.write [.elseOpen])
          return (closeLoop scala allowed loop (w.write [.close])).2
    | _, _ => .ub

/-- static-scc-impl.cc:844-907 — the visit procedures of a production; `loops` is `loop_required`. What is still held back
is printed at the end. -/
def dumpVisits {V : Type} (scala loops : Bool) (P : SProd V) : Res (List (List (Tok V))) := do
  let asg ← makeAssignment P P.base.body (List.replicate P.base.insts.length ⟨false, []⟩)
  (List.range P.maxPhase).mapM fun q => do
    let w ← implement scala P (q + 1) P.order asg ⟨0, 0⟩ none loops none ⟨[], []⟩
    return w.out ++ w.queue.map .loopStart

/-! ## The meaning of the printed code -/

/-- The syntax of what is printed. -/
inductive Code (V : Type)
  | done
  | visit (c : Nat) (ph : Nat) (rest : Code V)
  | assign (i : Nat) (e : Expr V) (rest : Code V)
  | loop (id : Nat) (body rest : Code V)
  | letNode (e : Expr V) (rest : Code V)
  | ifs (reads : List Nat) (fn : List V → Bool) (t f rest : Code V)
  | mat (pat : V → Bool) (t f rest : Code V)

/-- the text of code -/
def Code.render {V : Type} : Code V → List (Tok V)
  | .done => []
  | .visit c ph rest => .visit c ph :: rest.render
  | .assign i e rest => .assign i e :: rest.render
  | .loop id body rest => .loopStart id :: (body.render ++ .loopEnd id :: rest.render)
  | .letNode e rest => .letNode e :: rest.render
  | .ifs reads fn t f rest => .ifOpen reads fn :: (t.render ++ .elseOpen :: (f.render ++ .close :: rest.render))
  | .mat pat t f rest => .matOpen pat :: (t.render ++ .elseOpen :: (f.render ++ .close :: rest.render))

/-- What is declared of attributes and locals: circular or not, and the lattice (`v_bottom`, `v_compare`) of the circular
ones. -/
structure Attrs (V : Type) where
  circ : Key → Bool
  bot : Key → V
  le : Key → V → V → Bool

/-- `value` of every `Evaluation` (`none` is `null`), and `changed`. -/
structure St (V : Type) where
  val : Slot → Option V
  changed : Bool

/-- a value is stored -/
def St.put {V : Type} (st : St V) (s : Slot) (v : V) : St V :=
  { st with val := fun s' => if s' = s then some v else st.val s' }

/-- base/scala/aps-impl.scala:225-262, 460 — `get`: a circular attribute without a value gets bottom, others throw
`UndefinedAttributeException`. (The default printed as `getDefault` is not modelled.) -/
def readSlot {V : Type} (A : Attrs V) (s : Slot) (st : St V) : Res (V × St V) :=
  match st.val s with
  | some v => .ok (v, st)
  | none => if A.circ s.2 then .ok (A.bot s.2, st.put s (A.bot s.2)) else .stop

/-- the values of the instances an expression reads -/
def readAll {V : Type} (A : Attrs V) (P : SProd V) (a : Addr) : List Nat → St V → Res (List V × St V)
  | [], st => .ok ([], st)
  | j :: js, st =>
    match P.base.insts[j]? with
    | none => .ub
    | some inst => do
      let (v, st) ← readSlot A (inst.slot a) st
      let (vs, st) ← readAll A P a js st
      return (v :: vs, st)

/-- aps2scala/dump-scala.cc:108-131, base/scala/aps-impl.scala:276-283, 513-516 — `set`: for a circular attribute the new
value has to be above the old one, and `changed` says whether it is another one. (`v_equal` and `!=` are both
equality.) -/
def setSlot {V : Type} [DecidableEq V] (A : Attrs V) (s : Slot) (v : V) (st : St V) : Res (St V) :=
  if A.circ s.2 then
    match st.val s with
    | none => .ok { st.put s v with changed := true }
    | some w => if w = v then .ok (st.put s v) else if A.le s.2 w v then .ok { st.put s v with changed := true } else .stop
  else .ok (st.put s v)

/-- `do { changed = false; body } while(changed)`; the number is fuel. -/
def runLoop {V : Type} (body : St V → Res (St V)) : Nat → St V → Res (St V)
  | 0, _ => .nofuel
  | n + 1, st => do
    let st ← body { st with changed := false }
    if st.changed then runLoop body n st else .ok st

/-- Running printed code at a node; `call c ph` runs `visit_n_ph(v_child)`, `nd` is the variable `node`, `n` bounds the
rounds of loops. -/
def run {V : Type} [DecidableEq V] (A : Attrs V) (n : Nat) (P : SProd V) (call : Nat → Nat → St V → Res (St V)) (a : Addr) :
    Code V → Option V → St V → Res (St V)
  | .done, _, st => .ok st
  | .visit c ph rest, nd, st => do
    let st ← call c ph st
    run A n P call a rest nd st
  | .assign i e rest, nd, st => do
    let (vs, st) ← readAll A P a e.reads st
    match P.base.insts[i]? with
    | none => .ub
    | some inst => do
      let st ← setSlot A (inst.slot a) (e.fn vs) st
      run A n P call a rest nd st
  | .loop _ body rest, nd, st => do
    let st' ← runLoop (run A n P call a body nd) n st
    run A n P call a rest nd { st' with changed := st.changed }
  | .letNode e rest, _, st => do
    let (vs, st) ← readAll A P a e.reads st
    run A n P call a rest (some (e.fn vs)) st
  | .ifs reads fn t f rest, nd, st => do
    let (vs, st) ← readAll A P a reads st
    let st ← if fn vs then run A n P call a t nd st else run A n P call a f nd st
    run A n P call a rest nd st
  | .mat pat t f rest, nd, st =>
    match nd with
    | none => .ub
    | some v => do
      let st ← if pat v then run A n P call a t nd st else run A n P call a f nd st
      run A n P call a rest nd st

/-- static-scc-impl.cc:1024-1080 — `visit_n_ph(node)` calls the procedure of the production of the node (its selection is as
in `Model/Static`). The last number bounds the height of the tree. -/
def visitNode {V : Type} [DecidableEq V] (A : Attrs V) (n : Nat) (prods : List (SProd V)) (codes : List (List (Code V))) :
    Nat → Tree → Addr → Nat → St V → Res (St V)
  | 0, _, _, _, _ => .nofuel
  | _ + 1, .leaf, _, _, _ => .ub
  | h + 1, .node p kids, a, ph, st =>
    match prods[p]?, (codes[p]?).bind (·[ph - 1]?) with
    | some P, some code =>
      run A n P (fun c ph st =>
        match kids[c]? with
        | none => .ub
        | some kid => visitNode A n prods codes h kid (c :: a) ph st) a code none st
    | _, _ => .ub

/-- static-scc-impl.cc:330-349 — all nodes of the start phylum are visited -/
def visitEach {V : Type} [DecidableEq V] (A : Attrs V) (n : Nat) (prods : List (SProd V)) (codes : List (List (Code V)))
    (h ph : Nat) : List (Tree × Addr) → St V → Res (St V)
  | [], st => .ok st
  | (t, a) :: rest, st => do
    let st ← visitNode A n prods codes h t a ph st
    visitEach A n prods codes h ph rest st

/-- static-scc-impl.cc:318-356 — one phase of the module: with a loop if it is circular -/
def visitPhase {V : Type} (n : Nat) (circ : Bool) (body : St V → Res (St V)) (st : St V) : Res (St V) :=
  if circ then do
    let st' ← runLoop body n st
    return { st' with changed := st.changed }
  else body st

/-- static-scc-impl.cc:1100-1150 — `visit()`, for a module whose own instances print nothing but the visits of the
nodes of the start phylum `sp`; `circ` are its `cyclic_flags`. -/
def visitAll {V : Type} [DecidableEq V] (A : Attrs V) (n h : Nat) (prods : List (SProd V)) (codes : List (List (Code V)))
    (circ : Nat → Bool) (sp : Nat) (t : Tree) : List Nat → St V → Res (St V)
  | [], st => .ok st
  | ph :: phs, st => do
    let st ← visitPhase n (circ ph) (visitEach A n prods codes h ph (nodesOf (prods.map (·.base)) sp t [])) st
    visitAll A n h prods codes circ sp t phs st

end Aps.SccGen
