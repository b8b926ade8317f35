import Verif.Model.Base
import Verif.Model.Symbol
/-!
# parse/aps.y: expressions, fixity declarations, flags of declarations

What bison does with a grammar and its precedence declarations is part of the model and trusted: where a rule could be used or a token
shifted, the one with the higher level wins; at the same level the rule if the level is `%left`, the token if it is `%right`, and if it is
`%nonassoc` there is an error. Contexts in parentheses do not influence this, so they are parsed by recursion.

Not in the model: recovery from errors (the first one stops the model), types, patterns, sequences `{...}` and `e : type` in parentheses.
-/
namespace Aps.Parse

/-! ## levels (aps.y:278-305) -/

inductive Assoc
  | left
  | right
  | nonassoc
  deriving DecidableEq, Repr

/-- a level and how it associates -/
structure Prec where
  level : Nat
  assoc : Assoc
  deriving DecidableEq, Repr

/-- the levels, counted from `%nonassoc COLONEQ COLONGR` up: `OPLn` is `7+2n`, `OPRn` is `8+2n` -/
def opl (n : Nat) : Prec := ⟨7 + 2 * n, .left⟩
def opr (n : Nat) : Prec := ⟨8 + 2 * n, .right⟩
/-- `%left keyIF keyFOR ':'` -/
def pIf : Prec := ⟨2, .left⟩
def pOr : Prec := ⟨3, .left⟩
def pAnd : Prec := ⟨4, .left⟩
/-- `%nonassoc keyNOT keyREMOTE keyIN` -/
def pNot : Prec := ⟨5, .nonassoc⟩
/-- `%left DOTDOTDOT` -/
def pRep : Prec := ⟨6, .left⟩
/-- `%right OPR6 UNARY '-'` -/
def pUnary : Prec := opr 6

/-- what is done with a rule of one level and a token of another -/
inductive Choice
  | reduce
  | shift
  | error
  deriving DecidableEq, Repr

def resolve (rule tok : Prec) : Choice :=
  if rule.level < tok.level then .shift
  else if tok.level < rule.level then .reduce
  else match tok.assoc with
    | .left => .reduce
    | .right => .shift
    | .nonassoc => .error

/-! ## tokens -/

/-- tokens of expressions; an operator comes with what `get_infix` says (aps.lex:64-67): `none` for OPERATOR. `for` is
`for id opt_typing in`, `notIn` is `not in` after an expression (aps.y:1266). -/
inductive Tok
  | atom (a : Nat)
  | oper (s : List Nat) (p : Option Prec)
  | minus
  | eq
  | dotdot
  | and
  | or
  | not
  | in
  | notIn
  | if
  | for (f : Nat)
  | dots
  | lp
  | rp
  | comma
  | dot
  deriving DecidableEq, Repr

/-- aps.y:1214-1272 — the level of a token between two expressions, if it can be there. The rules have the same: `%prec keyFOR`, and
`keyIN` as the last token of `expr keyNOT keyIN expr`, change nothing. -/
def Tok.infix : Tok → Option Prec
  | .oper _ (some p) => some p
  | .oper _ none => some (opl 9)
  | .minus => some (opr 6)
  | .eq => some (opl 4)
  | .dotdot => some (opl 0)
  | .and => some pAnd
  | .or => some pOr
  | .in => some pNot
  | .notIn => some pNot
  | .if => some pIf
  | .for _ => some pIf
  | _ => none

/-- aps.y:1239-1264 — the level of the rule of a token before an expression -/
def Tok.prefix : Tok → Option Prec
  | .oper _ _ => some pUnary
  | .minus => some pUnary
  | .eq => some pUnary
  | .not => some pNot
  | _ => none

/-! ## expressions as written -/

mutual
/-- `simple_expr` and `expr`, with the parentheses -/
inductive Cst
  | atom (a : Nat)
  | paren (es : Csts)
  | call (f : Cst) (as : Csts)
  | dot (e f : Cst)
  | bin (o : Tok) (l r : Cst)
  | pre (o : Tok) (e : Cst)
  | rep (e : Cst)
inductive Csts
  | nil
  | cons (e : Cst) (es : Csts)
end

/-- an operator waiting for its right operand -/
inductive Frame
  | bin (l : Cst) (o : Tok)
  | pre (o : Tok)

/-- the level of the rule that would be used -/
def Frame.prec : Frame → Prec
  | .bin _ o => (o.infix).getD pIf
  | .pre o => (o.prefix).getD pIf

def Frame.fill : Frame → Cst → Cst
  | .bin l o, r => .bin o l r
  | .pre o, e => .pre o e

/-- the level of the token that comes next, after an operand -/
def next : List Tok → Option Prec
  | .dots :: _ => some pRep
  | t :: _ => t.infix
  | [] => none

mutual
/-- an operand is expected; `S` is what waits for it -/
def before : Nat → List Frame → List Tok → Res (Cst × List Tok)
  | 0, _, _ => .nofuel
  | n + 1, S, t :: ts =>
    match t with
    | .atom a => suffix n S (.atom a) ts
    | .lp => do
      let x ← list n ts
      match x.2 with
      | .rp :: ts => suffix n S (.paren x.1) ts
      | _ => .stop
    | t => if (t.prefix).isSome then before n (.pre t :: S) ts else .stop
  | _ + 1, _, [] => .stop
/-- aps.y:1276-1285 — `simple_expr`: more actuals or attributes -/
def suffix : Nat → List Frame → Cst → List Tok → Res (Cst × List Tok)
  | 0, _, _, _ => .nofuel
  | n + 1, S, e, ts =>
    match ts with
    | .lp :: .rp :: ts => suffix n S (.call e .nil) ts
    | .lp :: ts => do
      let x ← list n ts
      match x.2 with
      | .rp :: ts => suffix n S (.call e x.1) ts
      | _ => .stop
    | .dot :: .atom a :: ts => suffix n S (.dot e (.atom a)) ts
    | .dot :: .lp :: ts => do
      let x ← list n ts
      match x.2 with
      | .rp :: ts => suffix n S (.dot e (.paren x.1)) ts
      | _ => .stop
    | .dot :: _ => .stop
    | _ => after n S e ts
/-- after an operand -/
def after : Nat → List Frame → Cst → List Tok → Res (Cst × List Tok)
  | 0, _, _, _ => .nofuel
  | n + 1, S, e, ts =>
    match S, next ts with
    | [], none => .ok (e, ts)
    | F :: S, none => after n S (F.fill e) ts
    | [], some _ => shift n [] e ts
    | F :: S, some q =>
      match resolve F.prec q with
      | .reduce => after n S (F.fill e) ts
      | .shift => shift n (F :: S) e ts
      | .error => .stop
/-- the operator is taken -/
def shift : Nat → List Frame → Cst → List Tok → Res (Cst × List Tok)
  | 0, _, _, _ => .nofuel
  | n + 1, S, e, ts =>
    match ts with
    | .dots :: ts => after n S (.rep e) ts
    | t :: ts => before n (.bin e t :: S) ts
    | [] => .stop
/-- aps.y:1208-1210, 1303-1318 — expressions separated by commas -/
def list : Nat → List Tok → Res (Csts × List Tok)
  | 0, _ => .nofuel
  | n + 1, ts => do
    let x ← before n [] ts
    match x.2 with
    | .comma :: ts => do
      let y ← list n ts
      .ok (.cons x.1 y.1, y.2)
    | ts => .ok (.cons x.1 .nil, ts)
end

/-- a whole expression -/
def expr (n : Nat) (ts : List Tok) : Res Cst := do
  let x ← before n [] ts
  match x.2 with
  | [] => .ok x.1
  | _ => .stop

/-- with fuel enough for any number of tokens -/
def parse (ts : List Tok) : Res Cst := expr (4 * ts.length + 1) ts

/-! ## what the actions make of it -/

mutual
/-- aps-tree expressions -/
inductive Ast
  | atom (a : Nat)
  | name (s : List Nat)
  | funcall (f : Ast) (as : Asts)
  | append (a b : Ast)
  | repeat (e : Ast)
  | guarded (e c : Ast)
  | controlled (e : Ast) (f : Nat) (s : Ast)
inductive Asts
  | nil
  | cons (e : Ast) (es : Asts)
end

/-- aps.y:81-88 — `sbinop`, `binop` -/
def binop (s : List Nat) (a b : Ast) : Ast := .funcall (.name s) (.cons a (.cons b .nil))
/-- aps.y:90-94 — `unop` -/
def unop (s : List Nat) (a : Ast) : Ast := .funcall (.name s) (.cons a .nil)

/-- aps.y:1209 — `Expr ',' expr`: to the left -/
def appends : Ast → Asts → Ast
  | a, .nil => a
  | a, .cons b bs => appends (.append a b) bs

mutual
/-- aps.y:1208-1301 — the actions -/
def build : Cst → Ast
  | .atom a => .atom a
  | .paren .nil => .atom 0
  | .paren (.cons e es) => appends (build e) (builds es)
  | .call f as => .funcall (build f) (builds as)
  | .dot e f => .funcall (build f) (.cons (build e) .nil)
  | .bin o l r =>
    match o with
    | .oper s _ => binop s (build l) (build r)
    | .minus => binop [45] (build l) (build r)
    | .eq => binop [61] (build l) (build r)
    | .dotdot => binop [46, 46] (build l) (build r)
    | .and => binop [97, 110, 100] (build l) (build r)
    | .or => binop [111, 114] (build l) (build r)
    | .in => binop [105, 110] (build l) (build r)
    | .notIn => unop [110, 111, 116] (binop [105, 110] (build l) (build r))
    | .if => .guarded (build l) (build r)
    | .for f => .controlled (build l) f (build r)
    | _ => .atom 0
  | .pre o e =>
    match o with
    | .oper s _ => unop (35 :: s) (build e)
    | .minus => unop [35, 45] (build e)
    | .eq => unop [35, 61] (build e)
    | .not => unop [110, 111, 116] (build e)
    | _ => .atom 0
  | .rep e => .repeat (build e)
def builds : Csts → Asts
  | .nil => .nil
  | .cons e es => .cons (build e) (builds es)
end

/-! ## fixity declarations -/

/-- `infix_info` of symbols (aps.lex:7-10, 249-258): 0 is OPERATOR -/
abbrev Fix := List Nat → Option Prec

inductive FixKind
  | infix
  | infixl
  | infixr
  deriving DecidableEq, Repr

/-- aps.y:379-401 — `fixity`: the level is a digit, or 9 if there is none; the token has to be OPERATOR, so an operator declared before is
a syntax error. (A level with more digits is reported, and its first digit used.) -/
def declare (k : FixKind) (level : Option Nat) (s : List Nat) (F : Fix) : Res Fix :=
  match F s with
  | some _ => .stop
  | none =>
    match level with
    | some (_ + 10) => .stop
    | l =>
      let n := l.getD 9
      let p := match k with
        | .infix => opl n
        | .infixl => opl n
        | .infixr => opr n
      .ok fun x => if x = s then some p else F x

/-- tokens before the scanner has asked `get_infix` -/
def lookup (F : Fix) : Tok → Tok
  | .oper s _ => .oper s (F s)
  | t => t

/-- a unit: a fixity declaration or something with an expression in it -/
inductive Unit
  | fixity (k : FixKind) (level : Option Nat) (s : List Nat)
  | decl (ts : List Tok)

/-- the units of a file (aps.y:354-371); what is known of operators stays in the symbols for the next file -/
def file : List Unit → Fix → Res (List Ast × Fix)
  | [], F => .ok ([], F)
  | .fixity k l s :: us, F => do
    let F ← declare k l s F
    file us F
  | .decl ts :: us, F => do
    let e ← parse (ts.map (lookup F))
    let x ← file us F
    .ok (build e :: x.1, x.2)

/-- files one after another -/
def files : List (List Unit) → Fix → Res (List (List Ast))
  | [], _ => .ok []
  | f :: fs, F => do
    let x ← file f F
    let xs ← files fs x.2
    .ok (x.1 :: xs)

/-! ## flags of declarations -/

/-- `public`, `constant` (aps.y:78-79) -/
structure Flags where
  pub : Bool
  con : Bool
  deriving DecidableEq, Repr

/-- a `def` made: its name and flags -/
structure Def where
  name : Nat
  con : Bool
  pub : Bool
  deriving DecidableEq, Repr

mutual
/-- declarations, as far as flags go -/
inductive Decl
  /-- `type`, `phylum`, `constructor`, values ... -/
  | plain (n : Nat)
  /-- `class`, `module` with a body -/
  | module (n : Nat) (body : Items)
  /-- `function`, `procedure` with declarations in the body -/
  | func (n : Nat) (body : Items)
  /-- polymorphic declarations and `inherit`, with a block -/
  | block (n : Nat) (body : Items)
  /-- a polymorphic declaration without a block -/
  | poly (n : Nat) (d : Decl)
  | priv (d : Decl)
  | pub (d : Decl)
  | var (d : Decl)
/-- `decl_list`, `unit_list`, `stmt_list` -/
inductive Items
  | nil
  | decl (d : Decl) (is : Items)
  | priv (is : Items)
  | pub (is : Items)
  | var (is : Items)
end

mutual
/-- aps.y:420-448 and the rules for the declarations: the `def`s in the order they are made, and the flags after -/
def flagsD : Decl → Flags → List Def × Flags
  | .plain n, s => ([⟨n, s.con, s.pub⟩], s)
  | .module n body, s =>
    -- module_body (549-557)
    let x := flagsI body { s with pub := true }
    let s := { x.2 with pub := s.pub }
    (x.1 ++ [⟨n, s.con, s.pub⟩], s)
  | .func n body, s =>
    -- stmts (1121-1123)
    let x := flagsI body { s with pub := false }
    let s := { x.2 with pub := s.pub }
    (x.1 ++ [⟨n, s.con, s.pub⟩], s)
  | .block n body, s =>
    -- implicit_name (1342-1345) comes first; decl_block (559-566)
    let x := flagsI body s
    (⟨n, true, s.pub⟩ :: x.1, { x.2 with pub := s.pub })
  | .poly n d, s =>
    let x := flagsD d s
    (⟨n, true, s.pub⟩ :: x.1, x.2)
  | .priv d, s =>
    let x := flagsD d { s with pub := false }
    (x.1, { x.2 with pub := s.pub })
  | .pub d, s =>
    let x := flagsD d { s with pub := true }
    (x.1, { x.2 with pub := s.pub })
  | .var d, s =>
    let x := flagsD d { s with con := false }
    (x.1, { x.2 with con := s.con })
/-- aps.y:358-371, 405-417, 1125-1140 -/
def flagsI : Items → Flags → List Def × Flags
  | .nil, s => ([], s)
  | .decl d is, s =>
    let x := flagsD d s
    let y := flagsI is x.2
    (x.1 ++ y.1, y.2)
  | .priv is, s => flagsI is { s with pub := false }
  | .pub is, s => flagsI is { s with pub := true }
  | .var is, s => flagsI is { s with con := false }
end

/-- aps.y:354-356 — files one after another: `public` is set at the start of each, `constant` at the start of the program only -/
def programs : List Items → Flags → List (List Def)
  | [], _ => []
  | p :: ps, s =>
    let x := flagsI p { s with pub := true }
    x.1 :: programs ps x.2

/-! ## names for what has none -/

def alnum (c : Nat) : Bool := Nat.ble 48 c && Nat.ble c 57 || Nat.ble 65 c && Nat.ble c 90 || Nat.ble 97 c && Nat.ble c 122

/-- aps.y:63-76 — `make_implicit_name`: `_%s_%d` of the name of the file and the number, other characters replaced by `_` -/
def implicitName (base : List Nat) (n : Nat) : List Nat :=
  ([95] ++ base ++ [95] ++ Symbol.digits n n).map fun c => if alnum c then c else 95

end Aps.Parse
