import Verif.Model.Base
/-!
# analyze/aps-bind.c: the `next` fields of the elements of syntactic sequences

A syntax tree is made of nodes; a child of a node is a node or a sequence of nodes, and a sequence is a binary
tree of `nil_X`, `list_X(elem)`, `append_X(l1,l2)` (parse/aps-tree.h). `set_next_fields` links the elements of each
sequence, and `first_X`, `X_NEXT` are how all the rest of the compiler iterates over a sequence.

Simplifications: a pointer to a node is the node itself with its number `id` (its address); the memory that
changes is the `next` field of each node. The seven pairs of functions for the seven kinds of sequences are the
same function; `linked` is false for `Types`, the only kind of sequence that `set_next_fields` does not know.
`Match_info(match)->header` is not modelled.
-/
namespace Aps.Next

mutual

/-- a node with its children -/
inductive Node
  | mk (id : Nat) (kids : Kids)

inductive Kids
  | nil
  | node (n : Node) (rest : Kids)
  | seq (linked : Bool) (s : Seq) (rest : Kids)

/-- parse/aps-tree.h: `nil_X`, `list_X`, `append_X` -/
inductive Seq
  | nil
  | list (elem : Node)
  | append (l1 l2 : Seq)

end

def Node.id : Node → Nat
  | .mk i _ => i

def Node.kids : Node → Kids
  | .mk _ ks => ks

/-- The `next` fields, those assigned last first; not yet assigned: NULL. -/
abbrev Links := List (Nat × Option Node)

def next (h : Links) (n : Node) : Option Node := ((h.find? fun w => w.1 = n.id).map (·.2)).getD none

/-- analyze/aps-bind.c:750-905 — `units_set_next_unit`, `decls_set_next_decl`, ... -/
def setNext : Seq → Option Node → Links → Option Node × Links
  | .nil, nxt, h => (nxt, h)
  | .list prev, nxt, h => (some prev, (prev.id, nxt) :: h)
  | .append some_ more, nxt, h =>
    let r := setNext more nxt h
    setNext some_ r.1 r.2

/-- analyze/aps-bind.c:980-1079 — `first_Unit`, `first_Declaration`, ... -/
def first : Seq → Option Node
  | .nil => none
  | .list elem => some elem
  | .append l1 l2 =>
    match first l1 with
    | some x => some x
    | none => first l2

mutual

/-- parse/aps-traverse.c: `traverse_X(set_next_fields, arg, node)`: `set_next_fields` (analyze/aps-bind.c:907-977)
returns its argument (not NULL), so the children are traversed, in order. The number is fuel: the loop over a
sequence follows the `next` fields. -/
def traverse : Nat → Node → Links → Res Links
  | 0, _, _ => .nofuel
  | fuel + 1, .mk _ ks, h => traverseKids fuel ks h

def traverseKids : Nat → Kids → Links → Res Links
  | 0, _, _ => .nofuel
  | _ + 1, .nil, h => .ok h
  | fuel + 1, .node n rest, h => do
    let h ← traverse fuel n h
    traverseKids fuel rest h
  | fuel + 1, .seq linked s rest, h => do
    let h ← if linked then
        -- analyze/aps-bind.c:909-968; NULL is returned, so that nothing else is done for the sequence
        let r := setNext s none h
        loop fuel r.1 r.2
      else traverseSeq fuel s h
    traverseKids fuel rest h

/-- analyze/aps-bind.c:911-913 and the like -/
def loop : Nat → Option Node → Links → Res Links
  | 0, _, _ => .nofuel
  | _ + 1, none, h => .ok h
  | fuel + 1, some x, h => do
    let h ← traverse fuel x h
    loop fuel (next h x) h

/-- parse/aps-traverse.c:590-610 (Types) -/
def traverseSeq : Nat → Seq → Links → Res Links
  | 0, _, _ => .nofuel
  | _ + 1, .nil, h => .ok h
  | fuel + 1, .list x, h => traverse fuel x h
  | fuel + 1, .append l1 l2, h => do
    let h ← traverseSeq fuel l1 h
    traverseSeq fuel l2 h

end

end Aps.Next
