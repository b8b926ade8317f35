import Verif.Model.Source
import Verif.Spec.Pipeline
/-!
# Grammars in source form
-/
namespace Aps.Static

open Aps.Oag Aps.Dnc

variable {V : Type}

/-- all assignments of a block, also those inside conditionals -/
def Block.assigns : Block V → List (Nat × Expr V)
  | .nil => []
  | .decl _ rest => rest.assigns
  | .assign i e rest => (i, e) :: rest.assigns
  | .cond _ t f rest => t.assigns ++ f.assigns ++ rest.assigns

/-- all locals declared in a block -/
def Block.decls : Block V → List Nat
  | .nil => []
  | .decl i rest => i :: rest.decls
  | .assign _ _ rest => rest.decls
  | .cond _ t f rest => t.decls ++ f.decls ++ rest.decls

/-- the instance is a local -/
def Prod.IsLocal (P : Prod V) (i : Nat) : Prop :=
  ∃ inst : Inst V, P.insts[i]? = some inst ∧ inst.rule = none ∧ inst.lhs = false ∧ inst.ch = none

/-- A production in source form: its instances are its conditionals, then the attributes of its nodes, and its locals. The
conditionals are if statements; locals are declared outside of them. What is read or assigned has a value; the defaults of
attributes read nothing. -/
structure Prod.Sound (phyla : List Phylum) (P : Prod V) : Prop where
  declared : Declared P
  arranged : ∃ b kb, Arranged phyla P b kb
  lhs : ∃ q, phyla[P.lhsPhy]? = some q
  kids : ∀ (c k : Nat), P.kidPhy[c]? = some (some k) → ∃ q, phyla[k]? = some q
  numbered : P.body.rules = List.range P.body.rules.length
  few : P.body.rules.length ≤ 32
  first : ∀ (i : Nat) (inst : Inst V), P.insts[i]? = some inst → (inst.rule.isSome ↔ i < P.body.rules.length)
  ifs : ∀ (i : Nat) (inst : Inst V) (rule : Rule V), P.insts[i]? = some inst → inst.rule = some rule → ∃ reads fn, rule.test = .ifs reads fn
  tests : ∀ (i : Nat) (inst : Inst V) (rule : Rule V), P.insts[i]? = some inst → inst.rule = some rule → ∀ j ∈ rule.test.reads, P.Stored j
  assigned : ∀ q ∈ P.body.assigns, P.Stored q.1 ∧ ∀ j ∈ q.2.reads, P.Stored j
  defaults : ∀ (i : Nat) e, P.defaults[i]? = some (some e) → (∀ j ∈ e.reads, P.Stored j) ∧ (¬ P.IsLocal i → e.reads = [])
  locals : ∀ i, i ∈ P.body.decls ↔ P.IsLocal i
  nested : ∀ r t f, P.body.Has r t f → t.decls = [] ∧ f.decls = []

/-- A grammar in source form; the shared info is an inherited attribute without a value. -/
structure SourceOk (phyla : List Phylum) (prods : List (Prod V)) : Prop where
  attrs : ∀ q ∈ phyla, q.attrs.Nodup ∧ q.dirs.length = q.attrs.length ∧ (∀ d ∈ q.dirs, d = .inward ∨ d = .outward) ∧
    q.info < q.attrs.length ∧ q.dirs[q.info]? = some .inward ∧ ∀ x, q.attrs[q.info]? = some x → q.implicit x = true
  rules : ∀ P ∈ prods, P.Sound phyla

end Aps.Static
