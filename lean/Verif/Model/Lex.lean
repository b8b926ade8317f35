import Verif.Model.Base
import Verif.Model.Symbol
/-!
# parse/aps.lex: the scanner

The patterns and actions of the file, in order. What flex does with them is part of the model and trusted: the pattern with the longest
match is used, what follows `/` counted in; of those with the same length the first; what follows `/` is not taken from the input; `.` is
anything but a newline.

Simplifications. Characters are byte codes; a NUL byte in a constant, which would cut its text short, is not treated. What a symbol is
(parse/symbol.c, see `Symbol`) and how an operator is declared infix is left out: a token has the text of its symbol. Running out of
table space (`intern_symbol`) is left out. The name of a `_` is written into ten bytes (aps.lex:84): the model has no overflow of it (the
symbol table is full long before).
-/
namespace Aps.Lex

/-- regular expressions -/
inductive Re
  | cls (p : Nat → Bool)
  | eps
  | alt (a b : Re)
  | cat (a b : Re)
  | star (a : Re)

namespace Re

/-- nothing matches -/
def no : Re := .cls fun _ => false

def null : Re → Bool
  | cls _ => false
  | eps => true
  | alt a b => a.null || b.null
  | cat a b => a.null && b.null
  | star _ => true

/-- what is left to match after `c` -/
def der (c : Nat) : Re → Re
  | cls p => if p c then eps else no
  | eps => no
  | alt a b => alt (der c a) (der c b)
  | cat a b => if a.null then alt (cat (der c a) b) (der c b) else cat (der c a) b
  | star a => cat (der c a) (star a)

/-- length of the longest match at the start of the input -/
def longest : Re → List Nat → Option Nat
  | r, [] => if r.null then some 0 else none
  | r, c :: s =>
    match longest (r.der c) s with
    | some n => some (n + 1)
    | none => if r.null then some 0 else none

def chr (c : Nat) : Re := cls fun x => x == c
/-- `"..."` -/
def str : List Nat → Re
  | [] => eps
  | c :: s => cat (chr c) (str s)
def plus (a : Re) : Re := cat a (star a)
def opt (a : Re) : Re := alt a eps

end Re

/-! ## character classes -/

/-- aps.lex:42 — `special`: `[~@#$%^&*+=<>/\\|]` -/
def special (c : Nat) : Bool := [126, 64, 35, 36, 37, 94, 38, 42, 43, 61, 60, 62, 47, 92, 124].contains c
/-- aps.lex:51 — `[[\](){}:;.,?!]` -/
def punct (c : Nat) : Bool := [91, 93, 40, 41, 123, 125, 58, 59, 46, 44, 63, 33].contains c
/-- `[ \t\r\f]` -/
def blank (c : Nat) : Bool := [32, 9, 13, 12].contains c
def digit (c : Nat) : Bool := decide (48 ≤ c ∧ c ≤ 57)
/-- `[A-Za-z]` -/
def letter (c : Nat) : Bool := decide (65 ≤ c ∧ c ≤ 90) || decide (97 ≤ c ∧ c ≤ 122)
/-- `[A-Za-z0-9]` -/
def alnum (c : Nat) : Bool := letter c || digit c
/-- `[A-Za-z0-9_]` -/
def word (c : Nat) : Bool := alnum c || c == 95

/-! ## patterns -/

open Re

/-- aps.lex:44 — `operator` -/
def opRe : Re := cat (plus (alt (cls special) (cat (chr 45) (cls special)))) (opt (chr 45))

/-- inside a constant: `(\\(.|\n)|[^\n\\q])*` -/
def insideRe (q : Nat) : Re := star (alt (cat (chr 92) (cls fun _ => true)) (cls fun c => c != 10 && c != 92 && c != q))

/-- what is done with the text -/
inductive Act
  | newline
  | skip
  | punct
  | minus
  | eq
  | dollar
  | arrow
  | coloneq
  | colongr
  | dotdot
  | doublecolon
  | dotdotdot
  | triplecolon
  | mat
  | op
  | char
  | badChar
  | string
  | badString
  | ident
  | wild
  | integer
  | real
  | underscore
  | quoted
  | ignored
  deriving DecidableEq, Repr

/-- A pattern; `trail`: followed by `/[^\-]`. -/
structure Rule where
  re : Re
  trail : Bool
  act : Act

/-- aps.lex:47-108 — the rules -/
def rules : List Rule := [
  ⟨chr 10, false, .newline⟩,
  ⟨cls blank, false, .skip⟩,
  ⟨cat (str [45, 45]) (star (cls fun c => c != 10)), false, .skip⟩,
  ⟨cls punct, false, .punct⟩,
  ⟨chr 45, true, .minus⟩,
  ⟨chr 61, true, .eq⟩,
  ⟨chr 36, true, .dollar⟩,
  ⟨str [45, 62], true, .arrow⟩,
  ⟨str [58, 61], false, .coloneq⟩,
  ⟨str [58, 62], false, .colongr⟩,
  ⟨str [46, 46], false, .dotdot⟩,
  ⟨str [58, 58], false, .doublecolon⟩,
  ⟨str [46, 46, 46], false, .dotdotdot⟩,
  ⟨str [58, 58, 58], false, .triplecolon⟩,
  ⟨str [58, 63], false, .mat⟩,
  ⟨opRe, true, .op⟩,
  ⟨cat (chr 39) (cat (insideRe 39) (chr 39)), false, .char⟩,
  ⟨cat (chr 39) (insideRe 39), false, .badChar⟩,
  ⟨cat (chr 34) (cat (insideRe 34) (chr 34)), false, .string⟩,
  ⟨cat (chr 34) (insideRe 34), false, .badString⟩,
  ⟨cat (cls letter) (star (cls word)), false, .ident⟩,
  ⟨chr 95, false, .wild⟩,
  ⟨cat (cls digit) (star (cls word)), false, .integer⟩,
  ⟨cat (cat (cls digit) (star (cls word))) (cat (chr 46) (cat (cls digit) (star (cls alnum)))), false, .real⟩,
  ⟨cat (chr 95) (star (cls word)), false, .underscore⟩,
  ⟨cat (chr 96) (cat (cls fun c => letter c || c == 95) (cat (star (cls word)) (chr 96))), false, .quoted⟩,
  ⟨cls fun c => c != 10, false, .ignored⟩]

/-- the pattern with what has to follow: `[^\-]` -/
def Rule.full (r : Rule) : Re := if r.trail then cat r.re (cls fun c => c != 45) else r.re

/-- How much a rule matches, what follows counted in. -/
def Rule.len (r : Rule) (s : List Nat) : Option Nat := r.full.longest s

/-- the first of the rules with the longest match -/
def choose (s : List Nat) : List Rule → Option (Rule × Nat)
  | [] => none
  | r :: rs =>
    match r.len s, choose s rs with
    | some n, some (r', m) => if n < m then some (r', m) else some (r, n)
    | some n, none => some (r, n)
    | none, o => o

/-- how much of the input is taken -/
def Rule.taken (r : Rule) (n : Nat) : Nat := if r.trail then n - 1 else n

/-! ## tokens -/

/-- what the parser gets -/
inductive Tok
  | sym (a : Act) (text : List Nat)
  | wild (n : Nat)
  deriving DecidableEq, Repr

/-- what the scanner remembers: `yylineno`, `unique` (aps.lex:83), `warned_about_underline` -/
structure St where
  line : Nat
  unique : Nat
  warned : Bool
  deriving DecidableEq, Repr

/-- errors reported -/
inductive Err
  | unterminated
  | underscore
  | ignored (c : Nat)
  deriving DecidableEq, Repr

/-- one piece of the input: what is done, its text, the token for the parser, the line noted with it, the error -/
structure Item where
  act : Act
  text : List Nat
  tok : Option Tok
  line : Nat
  err : Option Err
  deriving DecidableEq, Repr

/-- aps.lex:47-108 — the actions -/
def act (a : Act) (t : List Nat) (st : St) : Item × St :=
  match a with
  | .newline => (⟨a, t, none, st.line, none⟩, { st with line := st.line + 1 })
  | .skip => (⟨a, t, none, st.line, none⟩, st)
  | .badChar => (⟨a, t, some (.sym .char t), st.line, some .unterminated⟩, st)
  | .badString => (⟨a, t, some (.sym .string t), st.line, some .unterminated⟩, st)
  | .wild => (⟨a, t, some (.wild (st.unique + 1)), st.line, none⟩, { st with unique := st.unique + 1 })
  | .underscore =>
    (⟨a, t, some (.sym .ident t), st.line, if st.warned then none else some .underscore⟩, { st with warned := true })
  | .quoted => (⟨a, t, some (.sym .op ((t.drop 1).dropLast)), st.line, none⟩, st)
  | .ignored => (⟨a, t, none, st.line, some (.ignored (t.headD 0))⟩, st)
  | _ => (⟨a, t, some (.sym a t), st.line, none⟩, st)

/-- the scanner called until the end of the input (at most `n` pieces) -/
def scan : Nat → List Nat → St → Res (List Item)
  | _, [], _ => .ok []
  | 0, _ :: _, _ => .nofuel
  | n + 1, s, st =>
    match choose s rules with
    | none => .ub
    | some (r, m) => do
      let x := act r.act (s.take (r.taken m)) st
      let rest ← scan n (s.drop (r.taken m)) x.2
      .ok (x.1 :: rest)

/-- aps.lex:333-342 — from the start of the first file -/
def lex (s : List Nat) : Res (List Item) := scan s.length s ⟨1, 0, false⟩

/-- the tokens, with their lines -/
def tokens (is : List Item) : List Tok := is.filterMap Item.tok

/-! ## names for operators in generated code -/

/-- aps.lex:292-311 — `translate`; the table is filled from 0 to 255 with `code` counting up -/
def translateFrom : Nat → Nat → List Nat → List Nat
  | _, _, [] => []
  | code, i, _ :: rest =>
    if alnum i then i :: translateFrom code (i + 1) rest
    else
      let code := (code + 1) % 62
      (if code < 26 then code + 65 else if code < 52 then code + 97 - 26 else code + 48 - 52) :: translateFrom code (i + 1) rest

/-- the table -/
def translate : List Nat := translateFrom 0 0 (List.replicate 256 0)

/-- aps.lex:261-271 — `make_code_name(sym,1)`: `_op_` and the translated characters, in a buffer of 20 bytes -/
def codeName (t : List Nat) : Res (List Nat) :=
  if 4 + t.length < 20 then .ok ([95, 111, 112, 95] ++ t.map fun c => translate.getD c 0) else .ub

/-- aps.lex:83-86 — the name of a `_`: `sprintf(buf,"_%d",n)`, for `n > 0` -/
def wildName (n : Nat) : List Nat := 95 :: Symbol.digits n n

/-! ## keywords -/

/-- the text of a string -/
def bytes (s : String) : List Nat := s.toList.map Char.toNat

/-- aps.lex:112-167 — `keyword_names`, without the empty string at the end -/
def keywords : List (List Nat) :=
  ["and", "attribute", "begin", "case", "circular", "class", "collection", "constant", "constructor", "elscase", "else", "elsif", "end",
   "endif", "extends", "for", "function", "if", "in", "infix", "infixl", "infixr", "inherit", "input", "match", "module", "not", "on", "or",
   "pattern", "phylum", "pragma", "private", "procedure", "public", "remote", "signature", "then", "type", "var", "with"].map bytes

/-- `intern_symbol` of some names one after another -/
def internAll : List (List Nat) → Symbol.Tab → Symbol.Out Unit
  | [], t => .ok () t
  | s :: ss, t =>
    match Symbol.intern s t with
    | .ok _ t => internAll ss t
    | .exit => .exit
    | .ub => .ub
    | .nofuel => .nofuel

/-- aps.lex:312-329 — `init_lexer_tables`: the symbols known before the first file; the first ones are the keywords (`FIRST_ID`,
aps.lex:226, is how many there are) -/
def initTables (base size : Nat) : Symbol.Out Unit :=
  internAll (keywords ++ [[45], [61], [123, 125], [46, 46]]) (Symbol.init base size)

/-- aps.lex:228-239 — `symbol_token`: which keyword (by its place in `keyword_tokens`), `none` for IDENTIFIER -/
def symbolToken (t : Symbol.Tab) (p : Nat) : Res (Option Nat) :=
  let i := Symbol.symbolId t p
  if i < keywords.length then
    if Symbol.symbolName t p = keywords[i]? then .ok (some i) else .stop
  else .ok none

end Aps.Lex
