import Verif.Model.Util
import Verif.Spec.Ast
import Verif.Spec.UtilPatterns
/-! # Specification: the elements of a sequence -/
namespace Aps.Util
open Aps.Ast

mutual
/-- The elements of a sequence: the children of its nodes that are not themselves parts of the sequence, from left to
right.  `ph` is the phylum of the sequence. -/
def elems (ph : Phylum) : Val → List Val
  | .node a op line kids =>
    match Con.all.find? (fun c => opNum c == op) with
    | some c => if c.phylum = ph then elemsAll ph kids else [.node a op line kids]
    | none => [.node a op line kids]
  | v => [v]

def elemsAll (ph : Phylum) : List Val → List Val
  | [] => []
  | v :: vs => elems ph v ++ elemsAll ph vs
end

/-- A loop over a list. -/
def each {σ : Type} (body : σ → Val → Res σ) : List Val → σ → Res σ
  | [], s => .ok s
  | x :: xs, s => (body s x).bind (each body xs)

end Aps.Util
