import Verif.Model.Parse
/-!
# Expressions as written, and when operators bind as declared
-/
namespace Aps.Parse

mutual
/-- the tokens of an expression -/
def yield : Cst → List Tok
  | .atom a => [.atom a]
  | .paren es => .lp :: (yields es ++ [.rp])
  | .call f as => yield f ++ .lp :: (yields as ++ [.rp])
  | .dot e f => yield e ++ .dot :: yield f
  | .bin o l r => yield l ++ o :: yield r
  | .pre o e => o :: yield e
  | .rep e => yield e ++ [.dots]
/-- with commas between -/
def yields : Csts → List Tok
  | .nil => []
  | .cons e .nil => yield e
  | .cons e es => yield e ++ .comma :: yields es
end

/-- Of `p` and then `q`, with one operand between them, `p` has the operand. -/
def LeftWins (p q : Prec) : Prop := q.level < p.level ∨ (p.level = q.level ∧ q.assoc = .left)
/-- `q` has it. -/
def RightWins (p q : Prec) : Prop := p.level < q.level ∨ (p.level = q.level ∧ q.assoc = .right)

/-- the operators that have an operand at the right end -/
def rightEdge : Cst → List Prec
  | .bin o _ r => o.infix.toList ++ rightEdge r
  | .pre o e => o.prefix.toList ++ rightEdge e
  | _ => []

/-- the operators that have an operand at the left end -/
def leftEdge : Cst → List Prec
  | .bin o l _ => o.infix.toList ++ leftEdge l
  | .rep e => pRep :: leftEdge e
  | _ => []

/-- names, constants and what is in parentheses -/
def Atomic : Cst → Prop
  | .atom _ => True
  | .paren _ => True
  | _ => False
/-- these with actuals and attributes -/
def Simple : Cst → Prop
  | .call _ _ => True
  | .dot _ _ => True
  | c => Atomic c

mutual
/-- Every operand belongs to the operator that binds tighter. -/
def Respects : Cst → Prop
  | .atom _ => True
  | .paren es => es ≠ .nil ∧ RespectsAll es
  | .call f as => Simple f ∧ Respects f ∧ RespectsAll as
  | .dot e f => Simple e ∧ Atomic f ∧ Respects e ∧ Respects f
  | .bin o l r => Respects l ∧ Respects r ∧ ∃ p, o.infix = some p ∧ (∀ q ∈ rightEdge l, LeftWins q p) ∧ (∀ q ∈ leftEdge r, RightWins p q)
  | .pre o e => Respects e ∧ ∃ p, o.prefix = some p ∧ ∀ q ∈ leftEdge e, RightWins p q
  | .rep e => Respects e ∧ ∀ q ∈ rightEdge e, LeftWins q pRep
def RespectsAll : Csts → Prop
  | .nil => True
  | .cons e es => Respects e ∧ RespectsAll es
end

/-- parentheses, unless it is a name or constant, or has them -/
def wrap : Cst → Cst
  | .atom a => .atom a
  | .paren es => .paren es
  | c => .paren (.cons c .nil)

mutual
/-- as written, with parentheses around every operand -/
def parens : Cst → Cst
  | .atom a => .atom a
  | .paren es => .paren (parensAll es)
  | .call f as => .call (wrap (parens f)) (parensAll as)
  | .dot e f => .dot (wrap (parens e)) (wrap (parens f))
  | .bin o l r => .bin o (wrap (parens l)) (wrap (parens r))
  | .pre o e => .pre o (wrap (parens e))
  | .rep e => .rep (wrap (parens e))
def parensAll : Csts → Csts
  | .nil => .nil
  | .cons e es => .cons (parens e) (parensAll es)
end

mutual
/-- operators are where they can be, parentheses are not empty -/
def OperatorsOk : Cst → Prop
  | .atom _ => True
  | .paren es => es ≠ .nil ∧ OperatorsOkAll es
  | .call f as => OperatorsOk f ∧ OperatorsOkAll as
  | .dot e f => OperatorsOk e ∧ OperatorsOk f
  | .bin o l r => o.infix.isSome = true ∧ OperatorsOk l ∧ OperatorsOk r
  | .pre o e => o.prefix.isSome = true ∧ OperatorsOk e
  | .rep e => OperatorsOk e
def OperatorsOkAll : Csts → Prop
  | .nil => True
  | .cons e es => OperatorsOk e ∧ OperatorsOkAll es
end

/-! ## chains of operators -/

/-- `e0 o1 e1 o2 e2 ...` -/
def chain (e : Cst) (xs : List (Tok × Cst)) : List Tok := yield e ++ xs.flatMap fun x => x.1 :: yield x.2
/-- `((e0 o1 e1) o2 e2) ...` -/
def toLeft (e : Cst) (xs : List (Tok × Cst)) : Cst := xs.foldl (fun a x => .bin x.1 a x.2) e
/-- `e0 o1 (e1 o2 (e2 ...))` -/
def toRight : Cst → List (Tok × Cst) → Cst
  | e, [] => e
  | e, (o, e') :: xs => .bin o e (toRight e' xs)

/-! ## meaning -/

/-- what names and constructs mean, for values of any kind -/
structure Sem (V : Type) where
  atom : Nat → V
  name : List Char → V
  call : V → List V → V
  append : V → V → V
  rep : V → V
  guard : V → V → V
  control : V → Nat → V → V

/-- characters -/
def chars (s : List Nat) : List Char := s.map Char.ofNat

/-- the function of an operator between two expressions -/
def binaryName : Tok → List Char
  | .oper s _ => chars s
  | .minus => ['-']
  | .eq => ['=']
  | .dotdot => ['.', '.']
  | .and => ['a', 'n', 'd']
  | .or => ['o', 'r']
  | .in => ['i', 'n']
  | _ => []
/-- the function of an operator before an expression -/
def unaryName : Tok → List Char
  | .oper s _ => '#' :: chars s
  | .minus => ['#', '-']
  | .eq => ['#', '=']
  | .not => ['n', 'o', 't']
  | _ => []

mutual
/-- the meaning of an expression as written: of an operator, its function is called with the operands from left to right; `e.a` calls `a`
with `e`; in parentheses, commas append -/
def meaning {V : Type} (M : Sem V) : Cst → V
  | .atom a => M.atom a
  | .paren es =>
    match meanings M es with
    | [] => M.atom 0
    | v :: vs => vs.foldl M.append v
  | .call f as => M.call (meaning M f) (meanings M as)
  | .dot e f => M.call (meaning M f) [meaning M e]
  | .bin .notIn l r => M.call (M.name ['n', 'o', 't']) [M.call (M.name ['i', 'n']) [meaning M l, meaning M r]]
  | .bin .if l r => M.guard (meaning M l) (meaning M r)
  | .bin (.for x) l r => M.control (meaning M l) x (meaning M r)
  | .bin o l r => M.call (M.name (binaryName o)) [meaning M l, meaning M r]
  | .pre o e => M.call (M.name (unaryName o)) [meaning M e]
  | .rep e => M.rep (meaning M e)
def meanings {V : Type} (M : Sem V) : Csts → List V
  | .nil => []
  | .cons e es => meaning M e :: meanings M es
end

mutual
/-- the meaning of an expression of aps-tree -/
def Ast.mean {V : Type} (M : Sem V) : Ast → V
  | .atom a => M.atom a
  | .name s => M.name (chars s)
  | .funcall f as => M.call (f.mean M) (as.means M)
  | .append a b => M.append (a.mean M) (b.mean M)
  | .repeat e => M.rep (e.mean M)
  | .guarded e c => M.guard (e.mean M) (c.mean M)
  | .controlled e f s => M.control (e.mean M) f (s.mean M)
def Asts.means {V : Type} (M : Sem V) : Asts → List V
  | .nil => []
  | .cons e es => e.mean M :: es.means M
end

/-! ## fixity -/

/-- the level a declaration gives: 0 to 9, 9 if there is no number -/
def givenLevel (k : FixKind) (l : Option Nat) : Prec :=
  match k with
  | .infixr => opr (l.getD 9)
  | _ => opl (l.getD 9)

/-- the level an operator has after units: the one in its (first) declaration -/
def fixityIn : List Unit → List Nat → Option Prec
  | [], _ => none
  | .fixity k l s :: us, t => if s = t then some (givenLevel k l) else fixityIn us t
  | .decl _ :: us, t => fixityIn us t

/-- what is known first, or else what units say -/
def orElse (F : Fix) (us : List Unit) : Fix := fun s => (F s).or (fixityIn us s)

/-- the declarations among units -/
def decls (us : List Unit) : Nat := us.countP fun | .decl _ => true | _ => false

/-! ## flags -/

mutual
/-- `public` of every `def`, with the scope it is in: `private;` and `public;` hold to the end of a body, `private` and `public` for one
declaration; a module body starts public and a function body private, whatever there is around it. -/
def publicD : Decl → Bool → List (Nat × Bool)
  | .plain n, b => [(n, b)]
  | .module n body, b => publicI body true ++ [(n, b)]
  | .func n body, b => publicI body false ++ [(n, b)]
  | .block n body, b => (n, b) :: publicI body b
  | .poly n d, b => (n, b) :: publicD d b
  | .priv d, _ => publicD d false
  | .pub d, _ => publicD d true
  | .var d, b => publicD d b
def publicI : Items → Bool → List (Nat × Bool)
  | .nil, _ => []
  | .decl d is, b => publicD d b ++ publicI is b
  | .priv is, _ => publicI is false
  | .pub is, _ => publicI is true
  | .var is, b => publicI is b
end

mutual
/-- `constant` of every `def` if `var` were like `private`: `var;` holds to the end of the body, `var` for one declaration -/
def constantD : Decl → Bool → List (Nat × Bool)
  | .plain n, b => [(n, b)]
  | .module n body, b => constantI body b ++ [(n, b)]
  | .func n body, b => constantI body b ++ [(n, b)]
  | .block n body, b => (n, true) :: constantI body b
  | .poly n d, b => (n, true) :: constantD d b
  | .priv d, b => constantD d b
  | .pub d, b => constantD d b
  | .var d, _ => constantD d false
def constantI : Items → Bool → List (Nat × Bool)
  | .nil, _ => []
  | .decl d is, b => constantD d b ++ constantI is b
  | .priv is, b => constantI is b
  | .pub is, b => constantI is b
  | .var is, _ => constantI is false
end

mutual
/-- there is no `var;` -/
def noVarD : Decl → Bool
  | .plain _ => true
  | .module _ body => noVarI body
  | .func _ body => noVarI body
  | .block _ body => noVarI body
  | .poly _ d => noVarD d
  | .priv d => noVarD d
  | .pub d => noVarD d
  | .var d => noVarD d
def noVarI : Items → Bool
  | .nil => true
  | .decl d is => noVarD d && noVarI is
  | .priv is => noVarI is
  | .pub is => noVarI is
  | .var _ => false
end

end Aps.Parse
