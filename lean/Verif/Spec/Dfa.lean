import Verif.Model.Dfa
/-!
# Specification of fibers

The words of an automaton, without sets of states: a fiber of a declaration is a word of fields that both its node and its
dual node accept. Only the types of edges and of tree nodes are shared with the model.
-/
namespace Aps.Dfa.Spec
open Aps.Dfa (Edge Lab Node)

/-- `Acc E Ω q w`: from the node `q` the edges `E` lead to a node of `Ω` along the word `w`. -/
inductive Acc (E : List Edge) (Ω : List Nat) : Nat → List Lab → Prop
  | fin {q} : q ∈ Ω → Acc E Ω q []
  | eps {q q' w} : ⟨q, q', none⟩ ∈ E → Acc E Ω q' w → Acc E Ω q w
  | step {q q' l w} : ⟨q, q', some l⟩ ∈ E → Acc E Ω q' w → Acc E Ω q (l :: w)

/-- some place has the fiber: two nodes with the same number but for the last bit accept the word -/
def Pair (E : List Edge) (Ω : List Nat) (w : List Lab) : Prop :=
  ∃ q q', q ≠ q' ∧ q / 2 = q' / 2 ∧ Acc E Ω q w ∧ Acc E Ω q' w

/-- the word and everything it ends with is a fiber of something -/
def Live (E : List Edge) (Ω : List Nat) : List Lab → Prop
  | [] => True
  | l :: w => Pair E Ω (l :: w) ∧ Live E Ω w

/-- a word with an even number of reversed fields -/
def isForward (w : List Lab) : Bool := (w.filter (·.rev)).length % 2 == 0

/-- different fields in front of a word never give the same accepting nodes, if there is a fiber at all -/
def Distinct (E : List Edge) (Ω : List Nat) : Prop :=
  ∀ w l l', Pair E Ω (l :: w) → (∀ q, Acc E Ω q (l :: w) ↔ Acc E Ω q (l' :: w)) → l = l'

/-- the fields of a word -/
def Over (fields : List Nat) (w : List Lab) : Prop := ∀ l ∈ w, l.field ∈ fields

/-- the edges as `add_FSA_edge` accepts them -/
def InRange (E : List Edge) : Prop := ∀ e ∈ E, 1 < e.src ∧ 1 < e.dst ∧ e.src < 1800 ∧ e.dst < 1800

/-- the word of a node, read along the `shorter` links -/
inductive Word (nodes : List Node) : Nat → List Lab → Prop
  | base {n} : nodes[0]? = some n → n.shorter = none → Word nodes 0 []
  | cons {i j n l w} : nodes[i]? = some n → n.field = some l → n.shorter = some j → Word nodes j w → Word nodes i (l :: w)

end Aps.Dfa.Spec
