import Verif.Model.Base
import Verif.Model.AstTables

/-!
# The abstract syntax tree: constructors, accessors, copying, traversal, Lisp dump

Models parse/tree.i, the generated functions of parse/aps-tree.c, parse/aps-traverse.c and
parse/aps-tree-dump.c, and the handwritten parse/aps-tree-dump.handcode.i.  The generated functions
all have one of a few shapes; each shape is one function here, and the contents of the `switch`
statements are the tables of `Model/AstTables.lean`.
-/
namespace Aps.Ast

/-- What a `children[k]` slot, or a parameter of one of the functions, holds: the null pointer, a
`struct tree_node` (tree.i:19-28) with its address, operator number, line number and children, or
a `Symbol` (its name), a `String` (its characters, without the terminating NUL) or a `Boolean`.
The `info` area is not modelled.  Line numbers are natural numbers, as `yylineno` starts at 1. -/
inductive Val where
  | null
  | node (addr op line : Nat) (kids : List Val)
  | sym (name : List Char)
  | str (s : List Char)
  | bool (b : Bool)
  deriving Repr

/-- First pair with the given key: a `switch` statement on the list of its cases. -/
def find {α β : Type} [DecidableEq α] (k : α) : List (α × β) → Option β
  | [] => none
  | (a, b) :: l => if a = k then some b else find k l

/-- `X_KEY(_node)` (aps-tree.c:171-183 for `Signature`, and alike for each phylum): the null
pointer and a node with another operator are fatal errors.  What is not a node has no operator to
read. -/
def key (p : Phylum) : Val → Res Con
  | .null => .stop
  | .node _ op _ _ => match find op (keyTable p) with
    | some c => .ok c
    | none => .stop
  | _ => .ub

/-- `ABSTRACT_APS_tnode_phylum` (aps-tree.c:11-168); `none` is `KEY_ABSTRACT_APS_None`. -/
def tnodePhylum : Val → Res (Option Phylum)
  | .null => .ok none
  | .node _ op _ _ => .ok (find op phylumTable)
  | _ => .ub

/-- An accessor function (aps-tree.c:3279-3285 for `mult_sig_sig1`): a node that is not of the
constructor is a fatal error. -/
def get (a : Acc) (v : Val) : Res Val := do
  let c ← key (accTable a).1 v
  if c = (accTable a).2.1 then
    match v with
    | .node _ _ _ kids => match kids[(accTable a).2.2]? with
      | some x => .ok x
      | none => .ub
    | _ => .ub
  else .stop

/-- `assert_K` (aps-tree.c:217-219 for `Signature`; empty for the leaf kinds,
aps-tree.handcode.i:17-24). -/
def assertKind : Kind → Val → Res Unit
  | .ph p, v => do
    let _ ← key p v
    pure ()
  | .leaf _, _ => .ok ()

/-- The assertions of a constructor function, one for each parameter.  A call with another number
of arguments does not compile; it is undefined here. -/
def assertAll : List Kind → List Val → Res Unit
  | [], [] => .ok ()
  | k :: ks, v :: vs => do
    let _ ← assertKind k v
    assertAll ks vs
  | _, _ => .ub

/-- The assignments `_node->children[k] = parameter j` of a constructor function. -/
def stores (args : List Val) : List (Nat × Nat) → List Val → Res (List Val)
  | [], kids => .ok kids
  | (k, j) :: l, kids => match args[j]? with
    | some v => if k < kids.length then stores args l (kids.set k v) else .ub
    | none => .ub

/-- The allocator and the lexer, as far as `create_tnode` uses them: the next address and
`yylineno`. -/
structure Env where
  next : Nat
  line : Nat
  deriving Repr

/-- A constructor function (aps-tree.c:3270-3277 for `mult_sig`) with `create_tnode`
(tree.i:32-50): the node is allocated with null children and the current line number, the
parameters are checked and stored.  Allocation does not fail. -/
def build (c : Con) (args : List Val) (e : Env) : Res (Val × Env) := do
  let _ ← assertAll (assertTable c) args
  let kids ← stores args (storeTable c) (List.replicate (arityNum c) .null)
  pure (.node e.next (opNum c) e.line kids, { e with next := e.next + 1 })

/-- The arguments `copy_K(accessor(_node))` of the constructor call in `copy_X`, `cp` being the
copy functions.  C does not fix the order in which they are evaluated; they are taken from left to
right here. -/
def copyArgs (cp : Kind → Env → Val → Res (Val × Env)) :
    List (Kind × Acc) → Env → Val → Res (List Val × Env)
  | [], e, _ => .ok ([], e)
  | (k, a) :: l, e, v => do
    let x ← get a v
    let y ← cp k e x
    let z ← copyArgs cp l y.2 v
    pure (y.1 :: z.1, z.2)

/-- `copy_X` (aps-tree.c:193-215 for `Signature`); `copy_Symbol`, `copy_String` and
`copy_Boolean` return their argument (aps-tree.handcode.i:5-15).  `fuel` bounds the depth of the
recursion. -/
def copy : Nat → Kind → Env → Val → Res (Val × Env)
  | 0, _, _, _ => .nofuel
  | _ + 1, .leaf _, e, v => .ok (v, e)
  | fuel + 1, .ph p, e, v => do
    let c ← key p v
    match find c (copyTable p) with
    | none => .stop
    | some cc => do
      let z ← copyArgs (copy fuel) cc.2 e v
      build cc.1 z.1 z.2

section traverse
variable {σ α : Type}

/-- The calls `traverse_K(func,arg,accessor(_node));` of one case, `tr` being the traversal
functions.  The argument of a leaf kind is dropped by the macro (aps-traverse.c:8-10), so that its
accessor is not called. -/
def traverseCalls (tr : Phylum → σ → α → Val → Res σ) :
    List (Kind × Acc) → σ → α → Val → Res σ
  | [], s, _, _ => .ok s
  | (.leaf _, _) :: l, s, a, v => traverseCalls tr l s a v
  | (.ph p, acc) :: l, s, a, v => do
    let x ← get acc v
    let s' ← tr p s a x
    traverseCalls tr l s' a v

/-- `traverse_X_skip(func,arg,_node)` (aps-traverse.c:16-39 for `Signature`), `tr` being the
traversal functions. -/
def skipWith (tr : Phylum → σ → α → Val → Res σ) (p : Phylum) (s : σ) (a : α) (v : Val) :
    Res σ := do
  let c ← key p v
  match find c (travTable p) with
  | none => .stop
  | some calls => traverseCalls tr calls s a v

/-- `traverse_X(func,arg,_node)` (aps-traverse.c:12-15 for `Signature`).  The callback reads and
writes a state, may end the program, and returns the new `arg`, `none` being the null pointer; it
does not change the tree.  `fuel` bounds the depth of the recursion. -/
def traverse (f : σ → α → Val → Res (Option α × σ)) : Nat → Phylum → σ → α → Val → Res σ
  | 0, _, _, _, _ => .nofuel
  | fuel + 1, p, s, a, v => do
    let y ← f s a v
    match y.1 with
    | none => .ok y.2
    | some a' => skipWith (traverse f fuel) p y.2 a' v

/-- `traverse_X_skip(func,arg,_node)` as the callers outside aps-traverse.c call it. -/
def traverseSkip (f : σ → α → Val → Res (Option α × σ)) (fuel : Nat) (p : Phylum) (s : σ) (a : α)
    (v : Val) : Res σ :=
  skipWith (traverse f fuel) p s a v

end traverse

/-! ## The Lisp dump -/

/-- `dump_lisp_Symbol` (aps-tree-dump.handcode.i:1-19). -/
def dumpSymbol (name : List Char) : List Char :=
  " aps-boot::|".toList ++ (name.flatMap fun c => if c = '\\' ∨ c = '|' then ['\\', c] else [c]) ++ ['|']

/-- The loop of `dump_lisp_String` (aps-tree-dump.handcode.i:31-43): `quoted` says that `end` is
the double quote, otherwise it is NUL.  The list is what is left of the string; its end is the
terminating NUL, and going past that is undefined. -/
def dumpChars (quoted : Bool) : List Char → Res (List Char)
  | [] => if quoted then .ub else .ok []
  | ['\\'] => .ub
  | '\\' :: c :: l => do
    let r ← dumpChars quoted l
    pure ((if c = 'n' then ['\n'] else ['\\', c]) ++ r)
  | c :: l =>
    if quoted ∧ c = '"' then .ok []
    else do
      let r ← dumpChars quoted l
      pure ((if c = '"' then ['\\', '"'] else [c]) ++ r)

/-- `dump_lisp_String` (aps-tree-dump.handcode.i:21-45). -/
def dumpString (s : List Char) : Res (List Char) := do
  let r ← match s with
    | '"' :: l => dumpChars true l
    | l => dumpChars false l
  pure (" \"".toList ++ r ++ ['"'])

/-- The decimal digits `%d` prints for a number that is not negative. -/
def decimal (n : Nat) : List Char :=
  if h : n < 10 then [Nat.digitChar n]
  else
    have : n / 10 < n := Nat.div_lt_self (by omega) (by omega)
    decimal (n / 10) ++ [Nat.digitChar (n % 10)]

/-- The calls `dump_lisp_K(accessor(_node));` of one case, `dm` being the dump functions. -/
def dumpCalls (dm : Kind → Val → Res (List Char)) : List (Kind × Acc) → Val → Res (List Char)
  | [], _ => .ok []
  | (k, a) :: l, v => do
    let x ← get a v
    let r ← dm k x
    let rs ← dumpCalls dm l v
    pure (r ++ rs)

/-- `dump_lisp_X` (aps-tree-dump.c:7-41 for `Signature`), `dump_lisp_Symbol`, `dump_lisp_String`
and `dump_lisp_Boolean` (aps-tree-dump.handcode.i:47-49): what is printed.  When the program stops,
what was printed before is lost here.  `tnode_line_number` of the null pointer is undefined. -/
def dump : Nat → Kind → Val → Res (List Char)
  | 0, _, _ => .nofuel
  | _ + 1, .leaf .symbol, .sym n => .ok (dumpSymbol n)
  | _ + 1, .leaf .string, .str s => dumpString s
  | _ + 1, .leaf .boolean, .bool b => .ok (if b then " t".toList else " nil".toList)
  | _ + 1, .leaf _, _ => .ub
  | fuel + 1, .ph p, .node a op line kids => do
    let c ← key p (.node a op line kids)
    match find c (dumpTable p) with
    | none => .stop
    | some nc => do
      let r ← dumpCalls (dump fuel) nc.2 (.node a op line kids)
      pure (['\n', '('] ++ nc.1 ++ " #".toList ++ decimal line ++ ['!'] ++ r ++ [')'])
  | _ + 1, .ph _, _ => .ub

end Aps.Ast
