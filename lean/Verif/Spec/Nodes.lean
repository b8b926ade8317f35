import Verif.Model.Nodes
/-! # Specification: histories of constructor calls, and the tree they make -/
namespace Aps.Nodes
open Aps.Service (Ty TDef)

/-- The type is a phylum, under whatever name; not a remote one, whose values are nodes of other trees. -/
inductive IsPhylum (P : Prog) : Ty → Prop where
  | decl {u t} : P.tdef u = .phylumDecl t → IsPhylum P (.use u)
  | formal {u s} : P.tdef u = .phylumFormal s → IsPhylum P (.use u)
  | again {u t} : P.tdef u = .renaming t → IsPhylum P t → IsPhylum P (.use u)
  | inst {m} : P.phylumModule m = true → IsPhylum P (.inst m)

/-- `x` is a child of `b`: `b` was made by a constructor of a phylum, with `x` for a formal whose type is a phylum. -/
def Child (P : Prog) (h : Heap) (b x : Nat) : Prop :=
  ∃ (n : Node) (i : Nat) (t : Ty), h.nodes[b]? = some n ∧ (P.con n.con).syntax = true ∧ (P.con n.con).formals[i]? = some t ∧ IsPhylum P t ∧
    n.fields[i]? = some (Val.node x)

/-- No nodes; phyla may be closed at any time. -/
def empty : Heap := ⟨[], fun _ => [], fun _ => false⟩

/-- Any calls of constructors, with arguments of the right number; phyla are closed (`finish`) at any time. -/
inductive History (P : Prog) (build : Nat → List Val → Heap → Res Heap) : Heap → Heap → Prop where
  | refl {h} : History P build h h
  | call {h h' h'' c args} : History P build h h' → args.length = (P.con c).formals.length → build c args h' = .ok h'' →
      History P build h h''
  | finish {h h' p} : History P build h h' → History P build h { h' with closed := fun q => if q = p then true else h'.closed q }

/-- The phyla of formals are named directly: not by a renaming, nor by an instance of a module. -/
def Direct (P : Prog) : Prop := ∀ c t, t ∈ (P.con c).formals → IsPhylum P t → ∃ u, t = .use u ∧ ∀ old, P.tdef u ≠ .renaming old

end Aps.Nodes
