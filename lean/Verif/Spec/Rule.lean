import Verif.Model.Rule
import Verif.Spec.Ast
/-!
# Specification: parents, and the form of a rule

`match ?x : T = c(?a, …, ?z)`, or without `?x : T =`, written on the tree itself.
-/
namespace Aps.Rule
open Aps.Ast

def kidsOf : Val → List Val
  | .node _ _ _ kids => kids
  | _ => []

def IsNode : Val → Prop
  | .node _ _ _ _ => True
  | _ => False

/-- The node of constructor `c` with the given children. -/
def Node (c : Con) (kids : List Val) (v : Val) : Prop := ∃ a line, v = .node a (opNum c) line kids

/-- The `parent` of every node is the node it is a child of; that of the root is NULL. -/
def ParentOk (s : Parents) (t : Val) : Prop :=
  (∀ a, addrOf t = some a → s a = none) ∧
  ∀ u ∈ nodes t, ∀ w ∈ kidsOf u, ∀ a, addrOf w = some a → s a = some u

/-- The elements of a sequence of pattern actuals. -/
inductive SeqOf : Val → List Val → Prop where
  | nil {v} : Node .nil_PatternActuals [] v → SeqOf v []
  | list {v x} : Node .list_PatternActuals [x] v → SeqOf v [x]
  | append {v l1 l2 xs ys} : Node .append_PatternActuals [l1, l2] v → SeqOf l1 xs → SeqOf l2 ys → SeqOf v (xs ++ ys)

/-- `IsRule m lhs u ds`: the match `m` is for `u(?d1, …, ?dn)`, with `?lhs =` before it if there is one. -/
def IsRule (m : Val) (lhs : Option Val) (u : Val) (ds : List Val) : Prop :=
  ∃ pat body call f seq vars, Node .matcher [pat, body] m ∧ Node .pattern_call [f, seq] call ∧
    Node .pattern_use [u] f ∧ SeqOf seq vars ∧ List.Forall₂ (fun v d => Node .pattern_var [d] v) vars ds ∧
    ((lhs = none ∧ pat = call) ∨
      ∃ l p1, lhs = some l ∧ Node .pattern_var [l] p1 ∧ Node .and_pattern [p1, call] pat)

/-- Each element of the list has the following one as its `next`, the last has NULL. -/
def Linked (next : Nat → Option Val) : List Val → Prop
  | [] => True
  | [x] => field next x = .ok none
  | x :: y :: r => field next x = .ok (some y) ∧ Linked next (y :: r)

/-- What the binder has done to the program `t` before: the parents are set (`C98_parents`), and the arguments of
pattern calls are linked (C61). -/
structure Prepared (I : Info) (t : Val) : Prop where
  parents : ParentOk I.parent t
  links : ∀ call ∈ nodes t, ∀ f seq vars, Node .pattern_call [f, seq] call → SeqOf seq vars → Linked I.nextPat vars

end Aps.Rule
