import Verif.Model.DynGen
/-!
# What the equations of a program mean (specification for C47)

Written from the meaning of APS patterns and statements, without looking at the generated code.
-/
namespace Aps.DynGen

variable {V : Type}

mutual
/-- Matching a value; the result says what the variables are. -/
def pmatch (W : World V) : Pat V → V → Env V → Option (Env V)
  | .typed t p, v, ρ => if W.typeOf v = t then pmatch W p v ρ else none
  | .call c ps, v, ρ => if W.consOf v = c then pmatchAll W ps (W.fields v) ρ else none
  | .seq ps, v, ρ => pmatchSeq W ps (W.elems v) ρ
  | .and p q, v, ρ => (pmatch W p v ρ).bind fun ρ' => pmatch W q v ρ'
  | .var x, v, ρ => some fun y => if y = x then v else ρ y
  | .wild, _, ρ => some ρ
  | .cond e, _, ρ => if W.truth (e ρ) then some ρ else none
  | .rest, _, _ => none
/-- All patterns match, one value each. -/
def pmatchAll (W : World V) : List (Pat V) → List V → Env V → Option (Env V)
  | [], [], ρ => some ρ
  | p :: ps, v :: vs, ρ => (pmatch W p v ρ).bind fun ρ' => pmatchAll W ps vs ρ'
  | _, _, _ => none
/-- A sequence pattern: `...` stands for any elements. -/
def pmatchSeq (W : World V) : List (Pat V) → List V → Env V → Option (Env V)
  | [], vs, ρ => if vs.isEmpty then some ρ else none
  | [.rest], _, ρ => some ρ
  | [.rest, q], vs, ρ => vs.getLast?.bind fun v => pmatch W q v ρ
  | .rest :: _ :: _ :: _, _, _ => none
  | p :: ps, v :: vs, ρ => (pmatch W p v ρ).bind fun ρ' => pmatchSeq W ps vs ρ'
  | _ :: _, [], _ => none
end

/-- Whether an assignment gives a value to the declaration `d` (an attribute: at the node `a`). -/
def hits (W : World V) (d : Nat) (a : V) (l : Lhs V) (ρ : Env V) : Bool :=
  match l with
  | .value d' => d' == d
  | .attr d' e => d' == d && W.same a (e ρ)

mutual
/-- The values that the active assignments of a statement give to `d`, and the variables after it. -/
def activeS (W : World V) (d : Nat) (a : V) : Stmt V → Env V → List V × Env V
  | .assign l rhs, ρ => (if hits W d a l ρ then [rhs ρ] else [], ρ)
  | .ite c t e, ρ => (if W.truth (c ρ) then active W d a t ρ else active W d a e ρ, ρ)
  | .cases e ms b, ρ =>
    (match activeM W d a ms (e ρ) ρ with
      | some l => l
      | none => active W d a b ρ, ρ)
  | .fors e ms, ρ => (activeF W d a ms (e ρ) ρ, ρ)
  | .forin x e b, ρ => ((W.elems (e ρ)).flatMap fun v => active W d a b fun y => if y = x then v else ρ y, ρ)
  | .decl x e attr, ρ => ([], if attr then ρ else fun y => if y = x then e ρ else ρ y)
/-- Those of a block, in the order of the text. -/
def active (W : World V) (d : Nat) (a : V) : List (Stmt V) → Env V → List V
  | [], _ => []
  | s :: ss, ρ => (activeS W d a s ρ).1 ++ active W d a ss (activeS W d a s ρ).2
/-- Those of the first match that applies to the value `n`, if any does. -/
def activeM (W : World V) (d : Nat) (a : V) : List (Pat V × List (Stmt V)) → V → Env V → Option (List V)
  | [], _, _ => none
  | (p, b) :: ms, n, ρ =>
    match pmatch W p n ρ with
    | some ρ' => some (active W d a b ρ')
    | none => activeM W d a ms n ρ
/-- Those of all the matches that apply to the value `n`. -/
def activeF (W : World V) (d : Nat) (a : V) : List (Pat V × List (Stmt V)) → V → Env V → List V
  | [], _, _ => []
  | (p, b) :: ms, n, ρ =>
    (match pmatch W p n ρ with
      | some ρ' => active W d a b ρ'
      | none => []) ++ activeF W d a ms n ρ
end

/-- The values given to `d` at `a` by all top-level matches, each tried at the nodes `nodes ph`. -/
def actives (W : World V) (d : Nat) (a : V) (nodes : Nat → List V) (ρ : Env V) (ts : List (Tlm V)) : List V :=
  ts.flatMap fun t => (nodes t.ph).flatMap fun n =>
    match pmatch W t.pat n ρ with
    | some ρ' => active W d a t.body ρ'
    | none => []

/-- The value of `d`: a collection combines all values given; anything else has the (first) value
given, or its default. -/
def value (W : World V) (col : Bool) (deft : Option V) (l : List V) : Option V :=
  if col then deft.map fun v => l.foldl W.combine v
  else l.head? <|> deft

/-! ### Conditions on programs -/

mutual
/-- A block has something to do with `d`: an assignment to it, or a local (that is no attribute). -/
def touchesS (d : Nat) : Stmt V → Bool
  | .assign (.value d') _ => d' == d
  | .assign (.attr d' _) _ => d' == d
  | .ite _ t e => touches d t || touches d e
  | .cases _ ms b => touchesM d ms || touches d b
  | .fors _ ms => touchesM d ms
  | .forin _ _ b => touches d b
  | .decl _ _ attr => !attr
/-- A block. -/
def touches (d : Nat) : List (Stmt V) → Bool
  | [] => false
  | s :: ss => touchesS d s || touches d ss
/-- Some match of a case. -/
def touchesM (d : Nat) : List (Pat V × List (Stmt V)) → Bool
  | [] => false
  | (_, b) :: ms => touches d b || touchesM d ms
end

mutual
/-- In every case statement, a match that is followed by one that has to do with `d` has to do with
`d` too (in Scala: moreover, if a match has to do with `d`, so has the default; and no `for … begin match` has to do
with `d`). -/
def coveredS (lang : Lang) (d : Nat) : Stmt V → Prop
  | .assign _ _ => True
  | .ite _ t e => covered lang d t ∧ covered lang d e
  | .cases _ ms b => coveredM lang d (touches d b) ms ∧ covered lang d b ∧
      (lang = .scala → touchesM d ms = true → touches d b = true)
  | .fors _ ms => coveredF lang d ms ∧ (lang = .scala → touchesM d ms = false)
  | .forin _ _ b => covered lang d b
  | .decl _ _ _ => True
/-- Every statement of a block. -/
def covered (lang : Lang) (d : Nat) : List (Stmt V) → Prop
  | [] => True
  | s :: ss => coveredS lang d s ∧ covered lang d ss
/-- The matches; `dt`: the default has to do with `d`. -/
def coveredM (lang : Lang) (d : Nat) (dt : Bool) : List (Pat V × List (Stmt V)) → Prop
  | [] => True
  | (_, b) :: ms => covered lang d b ∧ (touchesM d ms = true ∨ dt = true → touches d b = true) ∧
      coveredM lang d dt ms
/-- The matches of a `for`. -/
def coveredF (lang : Lang) (d : Nat) : List (Pat V × List (Stmt V)) → Prop
  | [] => True
  | (_, b) :: ms => covered lang d b ∧ coveredF lang d ms
end

mutual
/-- Constructor patterns have as many actuals as the constructor has formals, and no sequence
pattern has anything after `...`. -/
def patOk (ar : Nat → Nat) : Pat V → Prop
  | .typed _ p => patOk ar p
  | .call c ps => ps.length = ar c ∧ patsOk ar ps
  | .seq ps => seqOk ar ps
  | .and p q => patOk ar p ∧ patOk ar q
  | _ => True
/-- All patterns. -/
def patsOk (ar : Nat → Nat) : List (Pat V) → Prop
  | [] => True
  | p :: ps => patOk ar p ∧ patsOk ar ps
/-- The patterns of a sequence. -/
def seqOk (ar : Nat → Nat) : List (Pat V) → Prop
  | [] => True
  | .rest :: ps => ps = []
  | p :: ps => patOk ar p ∧ seqOk ar ps
end

mutual
/-- All patterns in a block satisfy `P`. -/
def patsS (P : Pat V → Prop) : Stmt V → Prop
  | .assign _ _ => True
  | .ite _ t e => patsB P t ∧ patsB P e
  | .cases _ ms b => patsM P ms ∧ patsB P b
  | .fors _ ms => patsM P ms
  | .forin _ _ b => patsB P b
  | .decl _ _ _ => True
/-- A block. -/
def patsB (P : Pat V → Prop) : List (Stmt V) → Prop
  | [] => True
  | s :: ss => patsS P s ∧ patsB P ss
/-- The matches of a case. -/
def patsM (P : Pat V → Prop) : List (Pat V × List (Stmt V)) → Prop
  | [] => True
  | (p, b) :: ms => P p ∧ patsB P b ∧ patsM P ms
end

/-- Values are well formed: nodes have the fields of their constructor, and a sequence has the elements
it was made of. -/
structure Lawful (W : World V) (ar : Nat → Nat) : Prop where
  arity : ∀ v, (W.fields v).length = ar (W.consOf v)
  seq : ∀ l, W.elems (W.mkseq l) = l

end Aps.DynGen
