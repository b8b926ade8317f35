import Verif.Model.Pipeline
import Verif.Spec.Static
import Verif.Props.OagMain
/-!
# What the generator of static evaluators is given, and what it has to deliver
-/
namespace Aps.Static

open Aps.Oag Aps.Dnc

variable {V : Type}

/-- The instances of a production: those of the left-hand side begin at `b`, those of child `c` at `kb c`, each in the
order of the attributes of the phylum; instances before those of the left-hand side are conditionals. -/
structure Arranged (phyla : List Phylum) (P : Prod V) (b : Nat) (kb : Nat → Nat) : Prop where
  lhs : ∀ (i : Nat) (inst : Inst V), P.insts[i]? = some inst → inst.lhs = true → inst.ch = none ∧ ∃ (q : Phylum) (a : Nat),
    phyla[P.lhsPhy]? = some q ∧ q.attrs[a]? = some inst.attr ∧ i = b + a ∧ inst.kind = .node (q.implicit inst.attr) ∧
    (inst.inward = true ↔ q.dirs[a]? = some .inward)
  ch : ∀ (i : Nat) (inst : Inst V) (c : Nat), P.insts[i]? = some inst → inst.ch = some c → ∃ (k : Nat) (q : Phylum) (a : Nat),
    P.kidPhy[c]? = some (some k) ∧ phyla[k]? = some q ∧ q.attrs[a]? = some inst.attr ∧ i = kb c + a ∧
    inst.kind = .node (q.implicit inst.attr) ∧ (inst.inward = true ↔ q.dirs[a]? = some .outward)
  lhsAll : ∀ (q : Phylum) (a : Nat), phyla[P.lhsPhy]? = some q → a < q.attrs.length → ∃ inst : Inst V, P.insts[b + a]? = some inst ∧ inst.lhs = true
  chAll : ∀ (c k : Nat) (q : Phylum) (a : Nat), P.kidPhy[c]? = some (some k) → phyla[k]? = some q → a < q.attrs.length →
    ∃ inst : Inst V, P.insts[kb c + a]? = some inst ∧ inst.ch = some c
  before : ∀ i, i < b → P.IsRule i

/-- The graph has these instances, and is linked to the phyla where they begin. -/
structure Laid (phyla : List Phylum) (P : Prod V) (g : Aug) (b : Nat) (kb : Nat → Nat) : Prop extends Arranged phyla P b kb where
  size : P.insts.length = g.n
  links : ∀ l, l ∈ g.links ↔ l = (b, P.lhsPhy) ∨ ∃ c k, P.kidPhy[c]? = some (some k) ∧ l = (kb c, k)

/-- The production has to define the instance: an attribute it is to compute that carries a value, or a local of an active
block. -/
def Prod.ToDefine (P : Prod V) (σ : Nat → Bool) (i : Nat) : Prop :=
  ∃ inst : Inst V, P.insts[i]? = some inst ∧ inst.inward = false ∧
    ((inst.lhs = true ∨ inst.ch ≠ none) ∧ inst.kind = .node false ∨
      inst.kind = .loc false ∧ inst.rule = none ∧ i ∈ P.body.locals σ)

/-- The other instances, and the body. -/
structure Declared (P : Prod V) : Prop where
  defaults : P.defaults.length = P.insts.length
  rule : ∀ (i : Nat) (inst : Inst V), P.insts[i]? = some inst → inst.rule.isSome → inst.lhs = false ∧ inst.ch = none
  loc : ∀ (i : Nat) (inst : Inst V), P.insts[i]? = some inst → inst.rule = none → inst.lhs = false → inst.ch = none →
    inst.kind = .loc false ∧ inst.inward = false
  locs : ∀ (i j : Nat) (x y : Inst V), P.insts[i]? = some x → P.insts[j]? = some y → x.rule = none → y.rule = none → x.lhs = false →
    y.lhs = false → x.ch = none → y.ch = none → x.attr = y.attr → i = j
  body : ∀ r t f, P.body.Has r t f → ∃ (inst : Inst V) (rule : Rule V), P.insts[r]? = some inst ∧ inst.rule = some rule ∧
    rule.ifTrue = t ∧ (rule.ifFalse = some f ∨ rule.ifFalse = none ∧ f.own = [])
  assigned : ∀ (σ : Nat → Bool) q, q ∈ P.body.active σ → q.1 < P.insts.length
  unique : ∀ σ : Nat → Bool, ((P.body.active σ).map (·.1)).Nodup
  defined : ∀ (σ : Nat → Bool) i, P.ToDefine σ i → P.rhs σ i ≠ none

/-- The dependency graph `g` of the production, with the conditions `oi` of its instances, has the direct dependencies of
the production: of tests and of defining expressions on what they read, and on the conditionals that make them the
defining ones. -/
structure Wired (P : Prod V) (g : Aug) (oi : List OInst) : Prop where
  rule : ∀ i, (ruleOf oi i).isSome ↔ P.IsRule i
  nested : InstsGuarded g oi
  attrs : ∀ (i : Nat) (inst : Inst V), P.insts[i]? = some inst → (inst.lhs = true ∨ inst.ch ≠ none) → condOf oi i = ⟨0, 0⟩
  tested : ∀ (σ : Nat → Bool) r, P.IsRule r → (r ∈ P.body.tested σ ↔ Active oi σ r)
  locals : ∀ (σ : Nat → Bool) (i : Nat) (inst : Inst V), P.insts[i]? = some inst → inst.kind = .loc false → inst.rule = none →
    (i ∈ P.body.locals σ ↔ Active oi σ i)
  tests : ∀ (σ : Nat → Bool) r (inst : Inst V) (rule : Rule V), P.insts[r]? = some inst → inst.rule = some rule → Active oi σ r →
    ∀ j ∈ rule.test.reads, P.Stored j ∧ Active oi σ j ∧ DepUnder g (byRule oi σ) j r
  reads : ∀ (σ : Nat → Bool) i e, P.rhs σ i = some e → Active oi σ i →
    ∀ j ∈ e.reads, P.Stored j ∧ Active oi σ j ∧ DepUnder g (byRule oi σ) j i
  guards : ∀ (σ : Nat → Bool) i, ¬ P.IsRule i → Active oi σ i → ∀ r ∈ P.body.tested σ, ∀ t f, P.body.Has r t f →
    (∃ e, (i, e) ∈ (if σ r then t else f).own) → DepUnder g (byRule oi σ) r i

/-- The shared info of the left-hand side depends on nothing, that of a child only on that of the left-hand side. -/
structure Informed (phyla : List Phylum) (P : Prod V) (g : Aug) (b : Nat) (kb : Nat → Nat) : Prop where
  lhs : ∀ q : Phylum, phyla[P.lhsPhy]? = some q → ∀ j, g.cell j (b + q.info) = []
  kids : ∀ (c k : Nat) (q p : Phylum), P.kidPhy[c]? = some (some k) → phyla[k]? = some q → phyla[P.lhsPhy]? = some p →
    ∀ j, g.cell j (kb c + q.info) ≠ [] → j = b + p.info

/-- A grammar, with the dependency graphs of its productions and the conditions of their instances as made from the
equations. -/
structure Grammar (V : Type) where
  phyla : List Phylum
  prods : List (Prod V)
  graphs : List Aug
  conds : List (List OInst)

/-- the state the analysis starts with -/
def Grammar.state (G : Grammar V) : State := ⟨G.graphs, G.phyla.map Phylum.start⟩

/-- Every production has its graph, with its direct dependencies, and the graphs are as the analysis wants them (C48). -/
structure Grammar.Ok (G : Grammar V) : Prop where
  graphs : G.graphs.length = G.prods.length
  conds : G.conds.length = G.prods.length
  phyla : ∀ q ∈ G.phyla, q.attrs.Nodup ∧ q.info < q.attrs.length ∧ q.dirs[q.info]? = some .inward
  start : Aps.Props.OagStart G.state (G.phyla.map (·.dirs)) G.conds
  prods : ∀ (x : Nat) P g oi, G.prods[x]? = some P → G.graphs[x]? = some g → G.conds[x]? = some oi →
    Declared P ∧ Wired P g oi ∧ ∃ b kb, Laid G.phyla P g b kb ∧ Informed G.phyla P g b kb

/-- the productions after the analysis -/
def Grammar.filled (G : Grammar V) (scheds : List (Nat × List Int)) (ts : List Cto) : List (Prod V) :=
  List.zipWith (fun P t => P.fill (phylaOf G.phyla scheds) t) G.prods ts

/-- In every visit up to the last something is synthesised. (Otherwise see `C60_inherited_only_refuted`.) -/
def Productive (scheds : List (Nat × List Int)) : Prop :=
  ∀ q ∈ scheds, ∀ s ∈ q.2, ∀ k : Nat, 1 ≤ k → k ≤ s.natAbs → (k : Int) ∈ q.2

/-- The matches of one case statement are not interrupted by another case statement. -/
def CasesApart (P : Prod V) : Prop :=
  ∀ (σ : Nat → Bool) pre r post, P.path σ = pre ++ r :: post → ∀ (inst : Inst V) (e : Expr V) (pat : V → Bool) (t : Block V)
    (f : Option (Block V)), P.insts[r]? = some inst → inst.rule = some ⟨.mat false e pat, t, f⟩ → P.caseExpr pre = some e

/-- The visit procedures printed for the productions evaluate every tree: with the inherited attributes of the root set
before (`init`), `visit()` runs to the end without reading an attribute before it is set or setting one twice, and leaves
values that satisfy all equations of the tree; every solution with the same inherited attributes of the root has
these values. -/
def Evaluates (ph : Phyla) (prods : List (Prod V)) : Prop :=
  ∃ F, ∀ fuel ≥ F, ∃ codes, prods.mapM (fun P => dumpVisits P fuel) = .ok codes ∧
    codes.map (·.length) = prods.map (fun P => ph.visits P.lhsPhy) ∧
    ∀ (root : Nat) (t : Tree), HasTy prods t (some root) → (∀ P ∈ prods, some root ∉ P.kidPhy) →
    ∀ init : Store V, (init.map (·.1)).Nodup →
      (∀ w ∈ init, ∃ x s, w.1 = ([], .attr x) ∧ ph.sched root x = some s ∧ s < 0) →
      (∀ x s, ph.sched root x = some s → s < 0 → ph.implicit root x = false → ([], .attr x) ∈ init.map (·.1)) →
    ∀ n ≥ t.height, ∃ new, visitAll prods codes n root t (List.range' 1 (ph.visits root)) init = .ok (new ++ init) ∧
      ((new ++ init).map (·.1)).Nodup ∧ Solves prods t (Static.get (new ++ init)) ∧
      ∀ val, Solves prods t val → (∀ w ∈ init, val w.1 = some w.2) → ∀ w ∈ new ++ init, val w.1 = some w.2

end Aps.Static
