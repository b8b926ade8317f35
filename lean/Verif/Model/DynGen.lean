import Verif.Model.Base
/-!
# Code generation for dynamic evaluation (`apscpp/dyn-impl.cc`, `aps2scala/dyn-impl.cc`)

The generators print, for every attribute, a function that computes its value at a node by running
through the equations of the program.  A generator opens the text of a context (`if`, `case`, a match)
only when something inside is printed.

Simplifications.  An expression is what it computes from the values of the variables; it always has
a value (demands that throw are not modelled).  Printed text is a list of tokens, one for each
`dump_context_open` / closing brace / statement.  The printing of types, names and indentation is left out.  An `aps_error` is the flag `err`.
-/
namespace Aps.DynGen

/-- What the generated code uses of the run-time values: the type, the constructor and the fields of a
node, the elements of a sequence, identity of nodes, and truth of a Boolean.  `mkseq l` is the sequence
with the elements `l`. -/
structure World (V : Type) where
  typeOf : V → Nat
  consOf : V → Nat
  fields : V → List V
  elems : V → List V
  mkseq : List V → V
  same : V → V → Bool
  truth : V → Bool
  combine : V → V → V

/-- Values of the variables. -/
abbrev Env (V : Type) := Nat → V

/-- An expression. -/
abbrev Ex (V : Type) := Env V → V

/-- A pattern.  `rest` is `...`. -/
inductive Pat (V : Type) where
  | typed (t : Nat) (p : Pat V)
  | call (c : Nat) (ps : List (Pat V))
  | seq (ps : List (Pat V))
  | and (p q : Pat V)
  | var (x : Nat)
  | wild
  | cond (e : Ex V)
  | rest

/-! ### Pattern conditions in C++ -/

/-- The text passed as `node` to `dump_Pattern_cond`: how to get at a part of the value matched. -/
inductive Path where
  | node
  | field (p : Path) (c i : Nat)
  | first (p : Path)
  | last (p : Path)
  | butfirst (p : Path)
  deriving DecidableEq

/-- Generated conditions.  In `test e σ`, the uses of the variables in `σ` have been printed as paths. -/
inductive Cond (V : Type) where
  | tt
  | typeEq (p : Path) (t : Nat)
  | consEq (p : Path) (c : Nat)
  | empty (p : Path)
  | nonEmpty (p : Path)
  | and (a b : Cond V)
  | test (e : Ex V) (σ : List (Nat × Path))

variable {V : Type}

mutual
/-- `apscpp/dump-cpp.cc:294-376` (`dump_Pattern_cond`).  `σ`: the pattern variables flagged
`IMPLEMENTED_PATTERN_VAR` with their `pat_impl`.  `ar c`: the number of formals of constructor `c`. -/
def pcond (ar : Nat → Nat) : Pat V → Path → List (Nat × Path) → Option (Cond V × List (Nat × Path))
  | .typed t p, n, σ => (pcond ar p n σ).map fun r => (.and (.typeEq n t) r.1, r.2)
  | .call c ps, n, σ => (callCond ar ps n c 0 (ar c) σ).map fun r => (.and (.consEq n c) r.1, r.2)
  | .seq ps, n, σ => seqCond ar ps n σ
  | .and p q, n, σ =>
    (pcond ar p n σ).bind fun r => (pcond ar q n r.2).map fun r' => (.and r.1 r'.1, r'.2)
  | .var x, n, σ => some (.tt, (x, n) :: σ)
  | .wild, _, σ => some (.tt, σ)
  | .cond e, _, σ => some (.test e σ, σ)
  | .rest, _, _ => none
/-- `dump-cpp.cc:346-351`: the actuals of a constructor pattern, from the formal number `i` on, of which
there are `k` more. -/
def callCond (ar : Nat → Nat) : List (Pat V) → Path → Nat → Nat → Nat → List (Nat × Path) →
    Option (Cond V × List (Nat × Path))
  | [], _, _, _, _, σ => some (.tt, σ)
  | _ :: _, _, _, _, 0, σ => some (.tt, σ)
  | p :: ps, n, c, i, k + 1, σ =>
    (pcond ar p (.field n c i) σ).bind fun r =>
    (callCond ar ps n c (i + 1) k r.2).map fun r' => (.and r.1 r'.1, r'.2)
/-- `dump-cpp.cc:248-292` (`dump_seq_Pattern_cond`). -/
def seqCond (ar : Nat → Nat) : List (Pat V) → Path → List (Nat × Path) →
    Option (Cond V × List (Nat × Path))
  | [], n, σ => some (.empty n, σ)
  | [.rest], _, σ => some (.tt, σ)
  | [.rest, q], n, σ => pcond ar q (.last n) σ
  | .rest :: _ :: _ :: _, _, _ => none
  | p :: ps, n, σ =>
    (pcond ar p (.first n) σ).bind fun r =>
    (seqCond ar ps (.butfirst n) r.2).map fun r' => (.and (.nonEmpty n) (.and r.1 r'.1), r'.2)
end

mutual
/-- `dump-cpp.cc:380-419` (`dump_Pattern_bindings`): the variables are bound in the order in which they
occur, each to its `pat_impl`. -/
def patVars : Pat V → List Nat
  | .typed _ p => patVars p
  | .call _ ps => patsVars ps
  | .seq ps => patsVars ps
  | .and p q => patVars p ++ patVars q
  | .var x => [x]
  | .wild => []
  | .cond _ => []
  | .rest => []
/-- The actuals. -/
def patsVars : List (Pat V) → List Nat
  | [] => []
  | p :: ps => patVars p ++ patsVars ps
end

/-- The declarations printed by `dump_Pattern_bindings` after `dump_Pattern_cond`. -/
def bindings (p : Pat V) (σ : List (Nat × Path)) : List (Nat × Path) :=
  (patVars p).filterMap fun x => (σ.find? (fun b => b.1 == x))

/-! ### Statements, contexts and tokens -/

/-- The left-hand side of an assignment: a variable, or an attribute at a node. -/
inductive Lhs (V : Type) where
  | value (d : Nat)
  | attr (d : Nat) (actual : Ex V)

/-- Statements of a block.  `decl x e attr`: a local with an initial value; `attr`: it has been made a
local attribute (flag `LOCAL_ATTRIBUTE_FLAG`).  `fors e ms` is `for e begin match … end`, `forin x e b` is
`for x in e begin … end`. -/
inductive Stmt (V : Type) where
  | assign (l : Lhs V) (rhs : Ex V)
  | ite (c : Ex V) (t e : List (Stmt V))
  | cases (e : Ex V) (ms : List (Pat V × List (Stmt V))) (d : List (Stmt V))
  | fors (e : Ex V) (ms : List (Pat V × List (Stmt V)))
  | forin (x : Nat) (e : Ex V) (b : List (Stmt V))
  | decl (x : Nat) (e : Ex V) (attr : Bool)

/-- Entries of `attr_context`. -/
inductive Ctx (V : Type) where
  | ifC (c : Ex V)
  | thenC
  | elseC
  | caseC (e : Ex V)
  | forC (e : Ex V)
  | forinC (x : Nat) (e : Ex V)
  | matchC (excl : Bool) (p : Pat V)
  | dfltC
  | tlmC (ph : Nat)

/-- Printed text. `guard`: the actual in `if (anode == actual)`. -/
inductive Tok (V : Type) where
  | ifO (c : Ex V)
  | thenO
  | elseO
  | caseO (e : Ex V)
  | forO (e : Ex V)
  | forinO (x : Nat) (e : Ex V)
  | matchO (excl : Bool) (p : Pat V) (c : Cond V) (b : List (Nat × Path))
  | dfltO
  | tlmO (ph : Nat)
  | close
  | asg (guard : Option (Ex V)) (rhs : Ex V)
  | loc (x : Nat) (e : Ex V)

/-- `attr_context[0..attr_context_depth)`, `attr_context_started`, the text so far, and whether an error was
reported. -/
structure Gen (V : Type) where
  stack : List (Ctx V)
  started : Nat
  out : List (Tok V)
  err : Bool

/-- How a match is printed; `none` means an error (for C++ `pcond` and `bindings`). -/
abbrev Printer (V : Type) := Pat V → Option (Cond V × List (Nat × Path))

/-- The C++ printer: `dyn-impl.cc:139-147`. -/
def cppPrinter (ar : Nat → Nat) : Printer V := fun p =>
  (pcond ar p .node []).map fun r => (r.1, bindings p r.2)

/-- Which target language. -/
inductive Lang where
  | cpp | scala
  deriving DecidableEq

/-- `MAXDEPTH`, `dyn-impl.cc:39`. -/
def maxDepth : Nat := 200

/-- `dyn-impl.cc:45-52` (`push_attr_context`). -/
def push (c : Ctx V) (g : Gen V) : Gen V :=
  if g.stack.length ≥ maxDepth then { g with err := true } else { g with stack := g.stack ++ [c] }

/-- `dyn-impl.cc:54-156` (`dump_context_open`). -/
def openTok (pr : Printer V) (c : Ctx V) (g : Gen V) : Gen V :=
  match c with
  | .ifC c => { g with out := g.out ++ [.ifO c] }
  | .thenC => { g with out := g.out ++ [.thenO] }
  | .elseC => { g with out := g.out ++ [.elseO] }
  | .caseC e => { g with out := g.out ++ [.caseO e] }
  | .forC e => { g with out := g.out ++ [.forO e] }
  | .forinC x e => { g with out := g.out ++ [.forinO x e] }
  | .dfltC => { g with out := g.out ++ [.dfltO] }
  | .tlmC ph => { g with out := g.out ++ [.tlmO ph] }
  | .matchC x p =>
    match pr p with
    | some (c, b) => { g with out := g.out ++ [.matchO x p c b] }
    | none => { g with err := true }

/-- `dyn-impl.cc:158-164` (`activate_attr_context`): the contexts still to be opened. -/
def openAll (pr : Printer V) : List (Ctx V) → Gen V → Gen V
  | [], g => g
  | c :: cs, g => openAll pr cs (openTok pr c g)

/-- `dyn-impl.cc:158-164` (`activate_attr_context`). -/
def activate (pr : Printer V) (g : Gen V) : Gen V :=
  { openAll pr (g.stack.drop g.started) g with started := max g.started g.stack.length }

/-- `dyn-impl.cc:166-174` (`pop_attr_context`). -/
def pop (g : Gen V) : Gen V :=
  let d := g.stack.length - 1
  { g with stack := g.stack.take d, started := min g.started d,
           out := g.out ++ List.replicate (g.started - d) .close }

/-- `dyn-impl.cc:176-233` (`dump_attr_assign`) for the declaration `d`. -/
def dumpAssign (pr : Printer V) (d : Nat) (l : Lhs V) (rhs : Ex V) (g : Gen V) : Gen V :=
  match l with
  | .value d' => if d' = d then let g := activate pr g; { g with out := g.out ++ [.asg none rhs] } else g
  | .attr d' a => if d' = d then let g := activate pr g; { g with out := g.out ++ [.asg (some a) rhs] } else g

mutual
/-- `dyn-impl.cc:271-323` (`dump_Block`), one declaration.  `for … in` is refused by the C++ generator, which has no case for it
there (`apscpp/dyn-impl.cc:322-325`), and printed by that for Scala (`aps2scala/dyn-impl.cc:346-350`). -/
def dumpStmt (lang : Lang) (pr : Printer V) (d : Nat) : Stmt V → Gen V → Gen V
  | .assign l rhs, g => dumpAssign pr d l rhs g
  | .ite c t e, g =>
    let g := push (.ifC c) g
    let g := pop (dumpBlock lang pr d t (push .thenC g))
    let g := pop (dumpBlock lang pr d e (push .elseC g))
    pop g
  | .cases e ms b, g =>
    let g := push (.caseC e) g
    let g := dumpMatches lang pr d true ms g
    let g := pop (dumpBlock lang pr d b (push .dfltC g))
    pop g
  | .fors e ms, g => pop (dumpMatches lang pr d false ms (push (.forC e) g))
  | .forin x e b, g =>
    match lang with
    | .cpp => { g with err := true }
    | .scala => pop (dumpBlock lang pr d b (push (.forinC x e) g))
  | .decl x e attr, g =>
    if attr then g else let g := activate pr g; { g with out := g.out ++ [.loc x e] }
/-- `dyn-impl.cc:271-323` (`dump_Block`). -/
def dumpBlock (lang : Lang) (pr : Printer V) (d : Nat) : List (Stmt V) → Gen V → Gen V
  | [], g => g
  | s :: ss, g => dumpBlock lang pr d ss (dumpStmt lang pr d s g)
/-- `dyn-impl.cc:261-269` (`dump_Matches`).  `x`: whether the header of the matches is a case. -/
def dumpMatches (lang : Lang) (pr : Printer V) (d : Nat) (x : Bool) : List (Pat V × List (Stmt V)) → Gen V → Gen V
  | [], g => g
  | (p, b) :: ms, g => dumpMatches lang pr d x ms (pop (dumpBlock lang pr d b (push (.matchC x p) g)))
end

/-- A top-level match: its phylum, its pattern and its body. -/
structure Tlm (V : Type) where
  ph : Nat
  pat : Pat V
  body : List (Stmt V)

/-- `dyn-impl.cc:474-482`: the body of the function of an attribute, and `:534-543` (with `col` set), that
of the function of a variable. -/
def dumpTlms (lang : Lang) (pr : Printer V) (d : Nat) (col : Bool) : List (Tlm V) → Gen V → Gen V
  | [], g => g
  | t :: ts, g =>
    let g := if col then push (.tlmC t.ph) g else g
    let g := pop (dumpBlock lang pr d t.body (push (.matchC false t.pat) g))
    let g := if col then pop g else g
    dumpTlms lang pr d col ts g

/-- The generator starts with an empty context. -/
def Gen.start : Gen V := ⟨[], 0, [], false⟩

/-! ### The generated programs -/

/-- Statements of the generated programs, with the structure that braces give them.
`asg none e` is `return e;` (or, for a collection, `collection = combine(collection,e);`);
`asg (some a) e` the same after `if (anode == a)`;
`ifb` is `{ bool cond = c; if (cond) {t} if (!cond) {e} }`, where a part that is empty is not there;
`caseb` is `{ T node = e; if (0) {} else if (..) {..} ... else {d} }` (C++) or `e match { case .. => {..} ... case _ => {d} }`
(Scala), where the last part is not there if `d` is empty;
`forb` is `{ T node = e; if (..) {..} ... if (..) {..} }`; `forinb` is `for (v_x <- e) {..}`. -/
inductive Code (V : Type) where
  | asg (guard : Option (Ex V)) (rhs : Ex V)
  | loc (x : Nat) (e : Ex V)
  | ifb (c : Ex V) (t e : List (Code V))
  | caseb (e : Ex V) (arms : List (Pat V × Cond V × List (Nat × Path) × List (Code V))) (d : List (Code V))
  | forb (e : Ex V) (arms : List (Pat V × Cond V × List (Nat × Path) × List (Code V)))
  | forinb (x : Nat) (e : Ex V) (b : List (Code V))

mutual
/-- The text of a generated statement. -/
def render : Code V → List (Tok V)
  | .asg g e => [.asg g e]
  | .loc x e => [.loc x e]
  | .ifb c t e =>
    .ifO c :: ((if t.isEmpty then [] else .thenO :: (renders t ++ [.close])) ++
      (if e.isEmpty then [] else .elseO :: (renders e ++ [.close]))) ++ [.close]
  | .caseb e arms d =>
    .caseO e :: (renderArms true arms ++ (if d.isEmpty then [] else .dfltO :: (renders d ++ [.close]))) ++ [.close]
  | .forb e arms => .forO e :: (renderArms false arms ++ [.close])
  | .forinb x e b => .forinO x e :: (renders b ++ [.close])
/-- The text of a sequence of statements. -/
def renders : List (Code V) → List (Tok V)
  | [] => []
  | c :: cs => render c ++ renders cs
/-- The text of the matches of a case (`x`) or a `for`. -/
def renderArms (x : Bool) : List (Pat V × Cond V × List (Nat × Path) × List (Code V)) → List (Tok V)
  | [] => []
  | (p, c, b, body) :: arms => .matchO x p c b :: (renders body ++ [.close]) ++ renderArms x arms
end

/-- Evaluation of a path, if `node` is `n`: a cast to the wrong class is undefined, the first or last
element of an empty sequence is an exception (see C35 for `nth`, `butsubseq` on collections). -/
def evalPath (W : World V) (n : V) : Path → Res V
  | .node => .ok n
  | .field p c i => (evalPath W n p).bind fun v =>
    if W.consOf v = c then
      match (W.fields v)[i]? with
      | some w => .ok w
      | none => .ub
    else .ub
  | .first p => (evalPath W n p).bind fun v =>
    match (W.elems v).head? with
    | some w => .ok w
    | none => .stop
  | .last p => (evalPath W n p).bind fun v =>
    match (W.elems v).getLast? with
    | some w => .ok w
    | none => .stop
  | .butfirst p => (evalPath W n p).bind fun v => .ok (W.mkseq (W.elems v).tail)

/-- The values of variables in a condition: those in `σ` are printed as paths. -/
def evalSubst (W : World V) (n : V) (ρ : Env V) : List (Nat × Path) → Res (Env V)
  | [] => .ok ρ
  | (x, p) :: σ => (evalSubst W n ρ σ).bind fun ρ' => (evalPath W n p).bind fun v =>
    .ok fun y => if y = x then v else ρ' y

/-- Evaluation of a condition (`&&` is lazy). -/
def evalCond (W : World V) (n : V) (ρ : Env V) : Cond V → Res Bool
  | .tt => .ok true
  | .typeEq p t => (evalPath W n p).bind fun v => .ok (W.typeOf v == t)
  | .consEq p c => (evalPath W n p).bind fun v => .ok (W.consOf v == c)
  | .empty p => (evalPath W n p).bind fun v => .ok (W.elems v).isEmpty
  | .nonEmpty p => (evalPath W n p).bind fun v => .ok !(W.elems v).isEmpty
  | .and a b => (evalCond W n ρ a).bind fun x => if x then evalCond W n ρ b else .ok false
  | .test e σ => (evalSubst W n ρ σ).bind fun ρ' => .ok (W.truth (e ρ'))

/-- The declarations at the start of a match. -/
def evalBinds (W : World V) (n : V) : List (Nat × Path) → Env V → Res (Env V)
  | [], ρ => .ok ρ
  | (x, p) :: bs, ρ => (evalPath W n p).bind fun v => evalBinds W n bs fun y => if y = x then v else ρ y

/-- How a statement ends: the function returns, or goes on with a value of `collection`. -/
inductive Flow (V : Type) where
  | ret (v : V)
  | go (acc : V)

/-- What is computed: `col`: into a collection; `anode`: at which node. -/
structure Job (V : Type) where
  col : Bool
  anode : V

/-- Whether one match applies, and the variables in its body.  `native` is the meaning of a pattern in
Scala, which the generator prints as a Scala pattern. -/
def armMatch (W : World V) (lang : Lang) (native : Pat V → V → Env V → Option (Env V)) (n : V) (ρ : Env V)
    (p : Pat V) (c : Cond V) (b : List (Nat × Path)) : Res (Option (Env V)) :=
  match lang with
  | .cpp => (evalCond W n ρ c).bind fun x => if x then (evalBinds W n b ρ).bind fun ρ' => .ok (some ρ') else .ok none
  | .scala => .ok (native p n ρ)

/-- A loop over values, with the body `f`. -/
def loop (f : V → V → Res (Flow V)) : List V → V → Res (Flow V)
  | [], acc => .ok (.go acc)
  | v :: vs, acc => (f v acc).bind fun r =>
    match r with
    | .ret w => .ok (.ret w)
    | .go acc => loop f vs acc

mutual
/-- Execution of a generated statement: new values of the variables of this block, and how it ends.
What is printed for `for … begin match` in Scala is text in C++ (`aps2scala/dyn-impl.cc:70-82`), which the compiler of Scala
refuses: nothing is run. -/
def exec (W : World V) (lang : Lang) (native : Pat V → V → Env V → Option (Env V)) (j : Job V) :
    Code V → Env V → V → Res (Env V × Flow V)
  | .asg g e, ρ, acc =>
    if (match g with | none => true | some a => W.same j.anode (a ρ)) then
      if j.col then .ok (ρ, .go (W.combine acc (e ρ))) else .ok (ρ, .ret (e ρ))
    else .ok (ρ, .go acc)
  | .loc x e, ρ, acc => .ok ((fun y => if y = x then e ρ else ρ y), .go acc)
  | .ifb c t e, ρ, acc =>
    (if W.truth (c ρ) then execs W lang native j t ρ acc else execs W lang native j e ρ acc).bind fun r => .ok (ρ, r)
  | .caseb e arms d, ρ, acc => (execArms W lang native j arms (e ρ) ρ acc).bind fun m =>
    match m with
    | some r => .ok (ρ, r)
    | none =>
      if d.isEmpty && lang == .scala then .stop
      else (execs W lang native j d ρ acc).bind fun r => .ok (ρ, r)
  | .forb e arms, ρ, acc =>
    if lang == .scala then .stop
    else (execFor W lang native j arms (e ρ) ρ acc).bind fun r => .ok (ρ, r)
  | .forinb x e b, ρ, acc =>
    (loop (fun v acc => execs W lang native j b (fun y => if y = x then v else ρ y) acc) (W.elems (e ρ)) acc).bind fun r =>
    .ok (ρ, r)
/-- Execution of a sequence of statements. -/
def execs (W : World V) (lang : Lang) (native : Pat V → V → Env V → Option (Env V)) (j : Job V) :
    List (Code V) → Env V → V → Res (Flow V)
  | [], _, acc => .ok (.go acc)
  | c :: cs, ρ, acc => (exec W lang native j c ρ acc).bind fun r =>
    match r with
    | (_, .ret v) => .ok (.ret v)
    | (ρ', .go acc) => execs W lang native j cs ρ' acc
/-- Execution of the matches of a case at the value `n`; `none`: no match applies.  (In Scala that is an
exception if there is no default.) -/
def execArms (W : World V) (lang : Lang) (native : Pat V → V → Env V → Option (Env V)) (j : Job V) :
    List (Pat V × Cond V × List (Nat × Path) × List (Code V)) → V → Env V → V → Res (Option (Flow V))
  | [], _, _, _ => .ok none
  | (p, c, b, body) :: arms, n, ρ, acc => (armMatch W lang native n ρ p c b).bind fun m =>
    match m with
    | some ρ' => (execs W lang native j body ρ' acc).bind fun r => .ok (some r)
    | none => execArms W lang native j arms n ρ acc
/-- Execution of the matches of a `for` at the value `n`, each of its own. -/
def execFor (W : World V) (lang : Lang) (native : Pat V → V → Env V → Option (Env V)) (j : Job V) :
    List (Pat V × Cond V × List (Nat × Path) × List (Code V)) → V → Env V → V → Res (Flow V)
  | [], _, _, acc => .ok (.go acc)
  | (p, c, b, body) :: arms, n, ρ, acc => (armMatch W lang native n ρ p c b).bind fun m =>
    match m with
    | some ρ' => (execs W lang native j body ρ' acc).bind fun r =>
      match r with
      | .ret v => .ok (.ret v)
      | .go acc => execFor W lang native j arms n ρ acc
    | none => execFor W lang native j arms n ρ acc
end

/-- A top-level match in the generated function: `if (cond) { bindings body }` at the node `n`. -/
def execTlm (W : World V) (lang : Lang) (native : Pat V → V → Env V → Option (Env V)) (j : Job V)
    (t : Pat V × Cond V × List (Nat × Path) × List (Code V)) (n : V) (ρ : Env V) (acc : V) : Res (Flow V) :=
  (armMatch W lang native n ρ t.1 t.2.1 t.2.2.1).bind fun m =>
  match m with
  | some ρ' => execs W lang native j t.2.2.2 ρ' acc
  | none => .ok (.go acc)

/-- A loop over nodes. -/
def execNodes (W : World V) (lang : Lang) (native : Pat V → V → Env V → Option (Env V)) (j : Job V)
    (t : Pat V × Cond V × List (Nat × Path) × List (Code V)) : List V → Env V → V → Res (Flow V)
  | [], _, acc => .ok (.go acc)
  | n :: ns, ρ, acc => (execTlm W lang native j t n ρ acc).bind fun r =>
    match r with
    | .ret v => .ok (.ret v)
    | .go acc => execNodes W lang native j t ns ρ acc

/-- The body of a generated function: for each top-level match that printed something, the nodes it looks at
(`nodes ph`), `dyn-impl.cc:474-482, 534-543`. -/
def execFun (W : World V) (lang : Lang) (native : Pat V → V → Env V → Option (Env V)) (j : Job V)
    (nodes : Nat → List V) : List (Nat × Pat V × Cond V × List (Nat × Path) × List (Code V)) → Env V → V → Res (Flow V)
  | [], _, acc => .ok (.go acc)
  | (ph, t) :: ts, ρ, acc => (execNodes W lang native j t (nodes ph) ρ acc).bind fun r =>
    match r with
    | .ret v => .ok (.ret v)
    | .go acc => execFun W lang native j nodes ts ρ acc

/-- The text of the body of a generated function. -/
def renderFun (col : Bool) : List (Nat × Pat V × Cond V × List (Nat × Path) × List (Code V)) → List (Tok V)
  | [] => []
  | (ph, p, c, b, body) :: ts =>
    (if col then [.tlmO ph] else []) ++ .matchO false p c b :: (renders body ++ [.close]) ++
      (if col then [.close] else []) ++ renderFun col ts

/-- `dyn-impl.cc:325-337` (`dump_default_return`): the result of the function.  `deft`: the default value
(for a collection: the initial value); without it an exception is thrown. -/
def finish (j : Job V) (deft : Option V) : Flow V → Res V
  | .ret v => .ok v
  | .go acc =>
    if j.col then .ok acc
    else
      match deft with
      | some v => .ok v
      | none => .stop

/-- A call of a generated function; `dflt` is any value (the variable `collection` does not exist unless
`col` is set, in which case it starts with the default). -/
def call (W : World V) (lang : Lang) (native : Pat V → V → Env V → Option (Env V)) (j : Job V) (deft : Option V)
    (nodes : Nat → List V) (f : List (Nat × Pat V × Cond V × List (Nat × Path) × List (Code V))) (ρ : Env V) : Res V :=
  (execFun W lang native j nodes f ρ (deft.getD j.anode)).bind (finish j deft)

/-! ### Variables of a module in C++ -/

/-- `EvalStatus` of a variable (`UNEVALUATED`, `CYCLE`, `EVALUATED`). -/
inductive Status where
  | uneval | cycle | evald
  deriving DecidableEq

/-- `s_x` and `v_x`. -/
structure VarMem (V : Type) where
  s : Status
  v : V

/-- `apscpp/dyn-impl.cc:606-608` and `dump-cpp.cc:1614-1619, 1998-2021`: the variable is unevaluated, `v_x` is the default,
or (`zero`) what `0` gives if there is none. -/
def VarMem.init (deft : Option V) (zero : V) : VarMem V := ⟨.uneval, deft.getD zero⟩

/-- `dyn-impl.cc:495-560` and `:204-209`: a call of `c_x()`.  An equation sets `s_x` and returns, without setting `v_x`;
otherwise `v_x` is set for a collection only. -/
def varCall (W : World V) (native : Pat V → V → Env V → Option (Env V)) (j : Job V) (deft : Option V)
    (nodes : Nat → List V) (f : List (Nat × Pat V × Cond V × List (Nat × Path) × List (Code V))) (ρ : Env V)
    (m : VarMem V) : Res V × VarMem V :=
  match m.s with
  | .evald => (.ok m.v, m)
  | .cycle => (.stop, m)
  | .uneval =>
    match execFun W .cpp native j nodes f ρ (deft.getD j.anode) with
    | .ok (.ret v) => (.ok v, ⟨.evald, m.v⟩)
    | .ok (.go acc) => (finish j deft (.go acc), ⟨.evald, if j.col then acc else m.v⟩)
    | .ub => (.ub, ⟨.cycle, m.v⟩)
    | .stop => (.stop, ⟨.cycle, m.v⟩)
    | .nofuel => (.nofuel, ⟨.cycle, m.v⟩)

/-- The results of `n` calls. -/
def varCalls (W : World V) (native : Pat V → V → Env V → Option (Env V)) (j : Job V) (deft : Option V)
    (nodes : Nat → List V) (f : List (Nat × Pat V × Cond V × List (Nat × Path) × List (Code V))) (ρ : Env V) :
    Nat → VarMem V → List (Res V)
  | 0, _ => []
  | n + 1, m =>
    let r := varCall W native j deft nodes f ρ m
    r.1 :: varCalls W native j deft nodes f ρ n r.2

end Aps.DynGen
