import Verif.Model.Ast
import Mathlib.Data.List.Forall2

/-!
# What is expected of the abstract syntax tree

`Conforms` says that a tree follows the grammar of parse/aps-tree.aps; `visit` is the preorder walk
of a tree, written on the tree itself without any table; `shape` is a tree without addresses and
line numbers; `readItem` is a reader of Lisp expressions.
-/
namespace Aps.Ast

/-! ## Trees that follow the grammar -/

mutual
/-- The value is of the given kind, and so are all its parts, according to the grammar: the
operator number is the one written by the constructor function of a constructor of the phylum, and
there is one child for each field, of the kind of the field. -/
def Conforms : Kind → Val → Prop
  | .ph p, .node _ op _ kids =>
    ∃ c : Con, c.phylum = p ∧ opNum c = op ∧ ConformsAll (c.fields.map Prod.fst) kids
  | .leaf .symbol, .sym _ => True
  | .leaf .string, .str _ => True
  | .leaf .boolean, .bool _ => True
  | _, _ => False

/-- Kind by kind. -/
def ConformsAll : List Kind → List Val → Prop
  | [], [] => True
  | k :: ks, v :: vs => Conforms k v ∧ ConformsAll ks vs
  | _, _ => False
end

/-- The value is of the kind as far as the types of C tell: a leaf field gets a leaf of its kind,
and a field of a phylum gets some node or the null pointer. -/
def CTyped : Kind → Val → Prop
  | .ph _, .node _ _ _ _ => True
  | .ph _, .null => True
  | .leaf .symbol, .sym _ => True
  | .leaf .string, .str _ => True
  | .leaf .boolean, .bool _ => True
  | _, _ => False

/-- What a program can have in hand after calling constructor functions only: the leaves, the null
pointer, and the results of constructor functions on arguments it has in hand and that have the
parameter types of C. -/
inductive Made : Val → Prop
  | null : Made .null
  | sym (n) : Made (.sym n)
  | str (s) : Made (.str s)
  | bool (b) : Made (.bool b)
  | call (c args e v e') (h : ∀ x ∈ args, Made x)
      (ht : List.Forall₂ (fun ka x => CTyped ka.1 x) c.fields args)
      (hb : build c args e = .ok (v, e')) : Made v

/-! ## Walking a tree -/

section visit
variable {σ α : Type}

mutual
/-- The preorder walk: the callback is called on the node; if it returns something, that is passed
on to the children, from first to last. -/
def visit (f : σ → α → Val → Res (Option α × σ)) (s : σ) (a : α) : Val → Res σ
  | .node ad op line kids => do
    let y ← f s a (.node ad op line kids)
    match y.1 with
    | none => .ok y.2
    | some a' => visitAll f y.2 a' kids
  | _ => .ok s

/-- The children that are nodes, from first to last. -/
def visitAll (f : σ → α → Val → Res (Option α × σ)) (s : σ) (a : α) : List Val → Res σ
  | [] => .ok s
  | v :: vs => do
    let s' ← visit f s a v
    visitAll f s' a vs
end
end visit

mutual
/-- All nodes of a tree, in the order of the text, a node before its children. -/
def nodes : Val → List Val
  | .node a op line kids => .node a op line kids :: nodesAll kids
  | _ => []

/-- All nodes of some trees. -/
def nodesAll : List Val → List Val
  | [] => []
  | v :: vs => nodes v ++ nodesAll vs
end

mutual
/-- The nodes of a tree that have no proper ancestor on which `keep` is false. -/
def reached (keep : Val → Bool) : Val → List Val
  | .node a op line kids =>
    .node a op line kids :: if keep (.node a op line kids) then reachedAll keep kids else []
  | _ => []

/-- The same for some trees. -/
def reachedAll (keep : Val → Bool) : List Val → List Val
  | [] => []
  | v :: vs => reached keep v ++ reachedAll keep vs
end

/-- A callback that writes down the nodes it is called on, with its argument, and goes on below a
node if `keep` says so, with the argument `pass` gives. -/
def recorder {α : Type} (keep : Val → Bool) (pass : α → Val → α) (s : List (Val × α)) (a : α)
    (v : Val) : Res (Option α × List (Val × α)) :=
  .ok (if keep v then some (pass a v) else none, s ++ [(v, a)])

/-- The address of a node. -/
def addrOf : Val → Option Nat
  | .node a _ _ _ => some a
  | _ => none

/-- The line number of a node. -/
def lineOf : Val → Option Nat
  | .node _ _ l _ => some l
  | _ => none

mutual
/-- A tree without its addresses and line numbers. -/
def shape : Val → Val
  | .node _ op _ kids => .node 0 op 0 (shapeAll kids)
  | v => v

/-- The same for some trees. -/
def shapeAll : List Val → List Val
  | [] => []
  | v :: vs => shape v :: shapeAll vs
end

mutual
/-- All strings of a tree. -/
def strings : Val → List (List Char)
  | .node _ _ _ kids => stringsAll kids
  | .str s => [s]
  | _ => []

/-- All strings of some trees. -/
def stringsAll : List Val → List (List Char)
  | [] => []
  | v :: vs => strings v ++ stringsAll vs
end

/-! ## String tokens -/

/-- A text in which every backslash has a character after it, and in which a double quote comes
only after a backslash if `quoted`. -/
inductive Escaped (quoted : Bool) : List Char → Prop
  | nil : Escaped quoted []
  | esc (c l) : Escaped quoted l → Escaped quoted ('\\' :: c :: l)
  | plain (c l) : c ≠ '\\' → (quoted = true → c ≠ '"') → Escaped quoted l → Escaped quoted (c :: l)

/-- The strings the lexer puts in the tree: a string token with both its double quotes
(aps.lex:74), or another token that does not begin with one. -/
def StringToken (s : List Char) : Prop :=
  (∃ body, s = '"' :: (body ++ ['"']) ∧ Escaped true body) ∨ (s.head? ≠ some '"' ∧ Escaped false s)

/-- Reading the escapes the way the dump does: `\n` is a new line, and `\c` is `c` otherwise. -/
def unescape : List Char → List Char
  | '\\' :: c :: l => (if c = 'n' then '\n' else c) :: unescape l
  | c :: l => c :: unescape l
  | [] => []

/-- The text between the double quotes, or the token itself. -/
def body : List Char → List Char
  | '"' :: l => l.dropLast
  | l => l

/-- The character C gives to a backslash followed by the character, for the simple escapes. -/
def cEscape : Char → Option Char
  | 'n' => some '\n'
  | 't' => some '\t'
  | '\\' => some '\\'
  | '"' => some '"'
  | '\'' => some '\''
  | _ => none

/-- The text a C compiler takes a string to be, `esc` telling the meaning of the escapes. -/
def cText (esc : Char → Option Char) : List Char → Option (List Char)
  | ['\\'] => none
  | '\\' :: c :: l => do
    let x ← esc c
    let r ← cText esc l
    pure (x :: r)
  | c :: l => do
    let r ← cText esc l
    pure (c :: r)
  | [] => some []

mutual
/-- A tree without its addresses, and with the text of each string instead of its token. -/
def content : Val → Val
  | .node _ op line kids => .node 0 op line (contentAll kids)
  | .str s => .str (unescape (body s))
  | v => v

/-- The same for some trees. -/
def contentAll : List Val → List Val
  | [] => []
  | v :: vs => content v :: contentAll vs
end

/-! ## Lisp -/

/-- A Lisp expression: a list, a line mark `#n!`, a string, or a symbol (with its package). -/
inductive Sexp where
  | list (l : List Sexp)
  | line (n : Nat)
  | str (s : List Char)
  | tok (name : List Char)

mutual
/-- The Lisp expression for a tree: the name of the constructor, the line mark, the children. -/
def sexp : Val → Sexp
  | .node _ op line kids =>
    .list (.tok ((Con.all.find? (fun c => opNum c == op)).elim [] Con.name) :: .line line ::
      sexpAll kids)
  | .sym n => .tok ("aps-boot::".toList ++ n)
  | .str s => .str (unescape (body s))
  | .bool true => .tok "t".toList
  | .bool false => .tok "nil".toList
  | .null => .list []

/-- The same for some trees. -/
def sexpAll : List Val → List Sexp
  | [] => []
  | v :: vs => sexp v :: sexpAll vs
end

/-- White space. -/
def isSpace (c : Char) : Bool := c = ' ' || c = '\n'

/-- What ends a symbol. -/
def isDelim (c : Char) : Bool := c = ' ' || c = '\n' || c = '(' || c = ')' || c = '"'

/-- After the opening double quote of a string: a backslash makes the next character a plain one. -/
def readStr : List Char → Option (List Char × List Char)
  | [] => none
  | '"' :: l => some ([], l)
  | '\\' :: c :: l => (readStr l).map fun r => (c :: r.1, r.2)
  | c :: l => (readStr l).map fun r => (c :: r.1, r.2)

/-- A symbol: between bars every character is a plain one, and so is one after a backslash. -/
def readTok (bars : Bool) : List Char → Option (List Char × List Char)
  | [] => if bars then none else some ([], [])
  | '|' :: l => readTok (!bars) l
  | ['\\'] => none
  | '\\' :: c :: l => (readTok bars l).map fun r => (c :: r.1, r.2)
  | c :: l =>
    if !bars && isDelim c then some ([], c :: l)
    else (readTok bars l).map fun r => (c :: r.1, r.2)

/-- The number of a line mark, after the `#`. -/
def readLine (acc : Nat) : List Char → Option (Nat × List Char)
  | [] => none
  | c :: l =>
    if c = '!' then some (acc, l)
    else if '0' ≤ c ∧ c ≤ '9' then readLine (acc * 10 + (c.toNat - '0'.toNat)) l
    else none

mutual
/-- One expression, after white space. -/
def readItem : Nat → List Char → Option (Sexp × List Char)
  | 0, _ => none
  | _ + 1, [] => none
  | fuel + 1, c :: l =>
    if isSpace c then readItem fuel l
    else if c = '(' then (readItems fuel l).map fun r => (.list r.1, r.2)
    else if c = ')' then none
    else if c = '"' then (readStr l).map fun r => (.str r.1, r.2)
    else if c = '#' then (readLine 0 l).map fun r => (.line r.1, r.2)
    else (readTok false (c :: l)).map fun r => (.tok r.1, r.2)

/-- The expressions of a list up to the closing parenthesis. -/
def readItems : Nat → List Char → Option (List Sexp × List Char)
  | 0, _ => none
  | _ + 1, [] => none
  | fuel + 1, c :: l =>
    if isSpace c then readItems fuel l
    else if c = ')' then some ([], l)
    else do
      let x ← readItem fuel (c :: l)
      let xs ← readItems fuel x.2
      pure (x.1 :: xs.1, xs.2)
end

end Aps.Ast
