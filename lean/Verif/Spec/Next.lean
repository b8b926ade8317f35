import Verif.Model.Next
/-!
# What iterating over a syntactic sequence should do
-/
namespace Aps.Next

/-- the elements of a sequence, in order -/
def Seq.elems : Seq → List Node
  | .nil => []
  | .list x => [x]
  | .append l1 l2 => l1.elems ++ l2.elems

mutual

/-- the numbers (addresses) of the nodes of a tree -/
def Node.ids : Node → List Nat
  | .mk i ks => i :: ks.ids

def Kids.ids : Kids → List Nat
  | .nil => []
  | .node n rest => n.ids ++ rest.ids
  | .seq _ s rest => s.ids ++ rest.ids

def Seq.ids : Seq → List Nat
  | .nil => []
  | .list x => x.ids
  | .append l1 l2 => l1.ids ++ l2.ids

end

mutual

/-- the sequences in a tree, at any depth, other than `Types` -/
def Node.seqs : Node → List Seq
  | .mk _ ks => ks.seqs

def Kids.seqs : Kids → List Seq
  | .nil => []
  | .node n rest => n.seqs ++ rest.seqs
  | .seq linked s rest => (if linked then [s] else []) ++ s.inner ++ rest.seqs

/-- the sequences in the elements of a sequence -/
def Seq.inner : Seq → List Seq
  | .nil => []
  | .list x => x.seqs
  | .append l1 l2 => l1.inner ++ l2.inner

end

/-- `for (x = o; x != NULL; x = X_NEXT(x))` visits exactly the nodes of the list, in order, and ends. -/
inductive Iterates (h : Links) : Option Node → List Node → Prop
  | done : Iterates h none []
  | step {x : Node} {l : List Node} : Iterates h (next h x) l → Iterates h (some x) (x :: l)

end Aps.Next
