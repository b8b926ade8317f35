import Verif.Model.Base
/-!
# The files that are generated: guards, includes, imports

`print_uppercase`, `dump_cpp_Program`, `dump_cpp_Unit` with what the C preprocessor makes of the result, and
`program_id`, `dump_scala_Program`.

Simplifications: characters are ASCII; the text printed for a declaration is one line `text n d` (declaration number `d` of the program
stored as `n`); what a `.cpp` file has after its includes is left out; so is the limit on the depth of includes.
-/
namespace Aps.Layout

abbrev Str := List Char

/-- `parse/aps.y:380-404`: the units of a program; the text of a `with` is the token, with its quotes. -/
inductive Item where
  | none
  | «with» (text : Str)
  | decl (d : Nat)
  deriving DecidableEq

/-- A program. `name`: without directory and suffix (C96). -/
structure Prog where
  name : Str
  units : List Item

/-- Lines of a C++ file. -/
inductive Line where
  | ifndef (text : Str)
  | define (text : Str)
  | incl (file : Str)
  | text (n : Str) (d : Nat)
  | endif
  deriving DecidableEq

/-- `apscpp/dump-cpp.cc:48-55` (`print_uppercase`), one character. -/
def upperChar (c : Char) : Char :=
  if 'a' ≤ c ∧ c ≤ 'z' then Char.ofNat (c.toNat - 32) else if c = '-' then '_' else c

/-- `dump-cpp.cc:91-92`: what is printed after `#ifndef` and `#define`. -/
def guardText (name : Str) : Str := name.map upperChar ++ ['_', 'H', ' ']

/-- `dump-cpp.cc:119-126`: the last character is replaced by NUL, and the first is left out. -/
def unquote (s : Str) : Str := s.dropLast.tail

def dotH (s : Str) : Str := s ++ ['.', 'h']

/-- `dump-cpp.cc:103-133` (`dump_cpp_Units`, `dump_cpp_Unit`), for the program stored as `n`. -/
def itemLines (n : Str) : Item → List Line
  | .none => []
  | .with t => [.incl (dotH (unquote t))]
  | .decl d => [.text n d]

/-- `dump-cpp.cc:86-100` (`dump_cpp_Program`): the header. -/
def header (n : Str) (p : Prog) : List Line :=
  .ifndef (guardText p.name) :: .define (guardText p.name) :: (p.units.flatMap (itemLines n) ++ [.endif])

/-- `dump-cpp.cc:93-96`: the includes of the other file. -/
def body (p : Prog) : List Line :=
  .incl ['a', 'p', 's', '-', 'i', 'm', 'p', 'l', '.', 'h'] ::
    ((if p.name = ['b', 'a', 's', 'i', 'c'] then [] else [.incl (dotH ['b', 'a', 's', 'i', 'c'])]) ++ [.incl (dotH p.name)])

/-! ### The preprocessor -/

def identStart (c : Char) : Bool := ('a' ≤ c && c ≤ 'z') || ('A' ≤ c && c ≤ 'Z') || c == '_'
def identChar (c : Char) : Bool := identStart c || ('0' ≤ c && c ≤ '9')

/-- The macro a directive is about: the identifier its text starts with (what follows gives a warning only). -/
def macroOf (s : Str) : Option Str :=
  match s with
  | [] => none
  | c :: cs => if identStart c then some (c :: cs.takeWhile identChar) else none

/-- The macros defined, and the text so far. -/
structure St where
  defs : List Str
  out : List (Str × Nat)

/-- After the next `#endif` (there are no nested conditionals in a header). -/
def skip : List Line → List Line
  | [] => []
  | .endif :: ls => ls
  | _ :: ls => skip ls

/-- The C preprocessor; an include is read in place, and it is an error if it does not exist. -/
def pp (files : Str → Option (List Line)) : Nat → List Line → St → Res St
  | 0, _, _ => .nofuel
  | _ + 1, [], st => .ok st
  | fuel + 1, .ifndef t :: ls, st =>
    match macroOf t with
    | some m => if m ∈ st.defs then pp files fuel (skip ls) st else pp files fuel ls st
    | none => .stop
  | fuel + 1, .define t :: ls, st =>
    match macroOf t with
    | some m => pp files fuel ls { st with defs := m :: st.defs }
    | none => .stop
  | fuel + 1, .incl f :: ls, st =>
    match files f with
    | some ls' => (pp files fuel ls' st).bind (pp files fuel ls)
    | none => .stop
  | fuel + 1, .text n d :: ls, st => pp files fuel ls { st with out := st.out ++ [(n, d)] }
  | fuel + 1, .endif :: ls, st => pp files fuel ls st

/-! ### Scala -/

/-- `aps2scala/dump-scala.cc:85-95` (`program_id`). -/
def programId : Str → Str
  | [] => []
  | c :: cs =>
    if ('a' ≤ c ∧ c ≤ 'z') ∨ ('A' ≤ c ∧ c ≤ 'Z') ∨ ('0' ≤ c ∧ c ≤ '9') then c :: programId cs
    else if c = '-' ∨ c = '_' ∨ c = '.' then '_' :: programId cs
    else programId cs

def implicit : Str := ['_', 'i', 'm', 'p', 'l', 'i', 'c', 'i', 't']

/-- `dump-scala.cc:138-147`: the object in which the declarations of a program are. -/
def objectName (p : Prog) : Str := programId p.name ++ implicit

/-- `dump-scala.cc:152-155, 177, 182-185`: what is imported (in the object and after it). -/
def imports (p : Prog) : List Str :=
  (['b', 'a', 's', 'i', 'c'] ++ implicit) :: objectName p :: p.units.filterMap fun u =>
    match u with
    | .with t => some (programId t ++ implicit)
    | _ => none

end Aps.Layout
