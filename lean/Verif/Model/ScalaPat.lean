import Verif.Model.DynGen
import Verif.Model.Ast
/-!
# Patterns in Scala (`aps2scala/dump-scala.cc:298-409`)

The Scala generator prints a pattern of the source as a Scala pattern.  What is printed is a tree here
(`SPat`), one constructor for each form of text.  The patterns of the source are those of `DynGen`; a
variable without a name (`?`, which `parse/aps.y:1347` calls `_`) is `Pat.wild`.

Simplifications: layout; the qualifiers and the polymorphic instance that `dump_Use` prints in front of
the name of a constructor; the text of types and of the expression of a condition (what the expression
computes from the variables it uses is kept, and under which names it uses them).  An `aps_error` is
`none`.
-/
namespace Aps.ScalaPat
open Aps.DynGen

/-- A name in the generated program. -/
abbrev Name := List Char

/-- The names of the variables of the source.  `code x`: the name `get_code_name` gives, which the scanner
sets for operators (`aps2scala/dump-scala.cc:31-37`). -/
structure Names where
  raw : Nat → Name
  code : Nat → Option Name

/-- `dump-scala.cc:391-394`: what a pattern prints for the variable it binds: `symbol_name`, never the code name. -/
def Names.bound (nm : Names) (x : Nat) : Name := ['v', '_'] ++ nm.raw x

/-- `dump-scala.cc:2330, 2404-2425, 31-37`: what `dump_Use(u,"v_",o)` prints for a use of the variable. -/
def Names.used (nm : Names) (x : Nat) : Name := ['v', '_'] ++ (nm.code x).getD (nm.raw x)

/-- `dump-scala.cc:393`: the name of a variable without a name, from the counter `formal_count`. -/
def numbered (k : Nat) : Name := ['v', '_'] ++ Ast.decimal k

/-- Printed patterns.  `any`: `_`; `var n`: `n`; `typed n t`: `n:t`; `call c r as`: `p_c(r,as)`;
`seq r as`: the same for the constructor `{}` of sequences; `pand`: `P_AND(a,b)`; `star`: `_*`;
`guard p e`: `p if e`. -/
inductive SPat (V : Type) where
  | any
  | var (n : Name)
  | typed (n : Name) (t : Nat)
  | call (c : Nat) (r : SPat V) (as : List (SPat V))
  | seq (r : SPat V) (as : List (SPat V))
  | pand (a b : SPat V)
  | star
  | guard (p : SPat V) (e : Ex V)

variable {V : Type}

mutual
/-- `dump-scala.cc:330-409` (`dump_Pattern`).  `next`: whether there is a next actual (`PAT_NEXT`); the number
is the global `formal_count`, before and after. -/
def dumpP (nm : Names) : Pat V → Bool → Nat → Option (SPat V × Nat)
  | .typed t p, _, k =>
    match p with
    | .var x => some (.typed (nm.bound x) t, k)
    | .wild => some (.typed (numbered k) t, k)
    | _ => none
  | .call c ps, _, _ => (actualsP nm ps 0).map fun r => (.call c .any r.1, r.2)
  | .seq ps, _, _ => (actualsP nm ps 0).map fun r => (.seq .any r.1, r.2)
  | .and p q, _, k =>
    match q with
    | .cond e => (dumpP nm p false k).map fun r => (.guard r.1 e, r.2)
    | .call c ps => (dumpP nm p false k).bind fun r => (actualsP nm ps 0).map fun r' => (.call c r.1 r'.1, r'.2)
    | .seq ps => (dumpP nm p false k).bind fun r => (actualsP nm ps 0).map fun r' => (.seq r.1 r'.1, r'.2)
    | q => (dumpP nm p false k).bind fun r => (dumpP nm q false r.2).map fun r' => (.pand r.1 r'.1, r'.2)
  | .var x, _, k => some (.var (nm.bound x), k)
  | .wild, _, k => some (.var (numbered k), k)
  | .cond _, _, _ => none
  | .rest, next, k => if next then none else some (.star, k)
/-- `dump-scala.cc:321-327`: the actuals of a constructor pattern; the counter goes up after each one. -/
def actualsP (nm : Names) : List (Pat V) → Nat → Option (List (SPat V) × Nat)
  | [], k => some ([], k)
  | p :: ps, k =>
    (dumpP nm p (!ps.isEmpty) k).bind fun r => (actualsP nm ps (r.2 + 1)).map fun r' => (r.1 :: r'.1, r'.2)
end

/-! ### Scala -/

mutual
/-- The names a Scala pattern binds. -/
def svars : SPat V → List Name
  | .any => []
  | .var n => [n]
  | .typed n _ => [n]
  | .call _ r as => svars r ++ svarsAll as
  | .seq r as => svars r ++ svarsAll as
  | .pand a b => svars a ++ svars b
  | .star => []
  | .guard p _ => svars p
/-- Those of several patterns. -/
def svarsAll : List (SPat V) → List Name
  | [] => []
  | a :: as => svars a ++ svarsAll as
end

mutual
/-- What Scala accepts inside a pattern: no guard, `_*` only as the last pattern of a sequence, and
as many patterns as the extractor gives values.  `u_c` gives the value and the fields
(`dump-scala.cc:1328-1401`). -/
def inner (ar : Nat → Nat) : SPat V → Prop
  | .any => True
  | .var _ => True
  | .typed _ _ => True
  | .call c r as => inner ar r ∧ as.length = ar c ∧ innerAll ar as
  | .seq r as => inner ar r ∧ innerSeq ar as
  | .pand a b => inner ar a ∧ inner ar b
  | .star => False
  | .guard _ _ => False
/-- All of them. -/
def innerAll (ar : Nat → Nat) : List (SPat V) → Prop
  | [] => True
  | a :: as => inner ar a ∧ innerAll ar as
/-- The patterns of a sequence. -/
def innerSeq (ar : Nat → Nat) : List (SPat V) → Prop
  | [] => True
  | [.star] => True
  | a :: as => inner ar a ∧ innerSeq ar as
end

/-- The form of what comes between `case` and `=>`: a pattern, with at most one guard. -/
def form (ar : Nat → Nat) : SPat V → Prop
  | .guard p _ => inner ar p
  | s => inner ar s

/-- What Scala accepts between `case` and `=>`: moreover, no name is bound twice. -/
def Legal (ar : Nat → Nat) (s : SPat V) : Prop := form ar s ∧ (svars s).Nodup

mutual
/-- What a Scala pattern does with a value: the names bound, on top of those bound already.
`p_c` is the extractor that is generated for the constructor `c` (`dump-scala.cc:1328-1401`:
`case x@c_c(v_1,...,v_n) => Some((x,v_1,...,v_n)); case _ => None`); `P_AND` is
`base/scala/aps-impl.scala:533-535`; that of a sequence gives the sequence and its elements. -/
def smatch (W : World V) : SPat V → V → List (Name × V) → Option (List (Name × V))
  | .any, _, b => some b
  | .var n, v, b => some ((n, v) :: b)
  | .typed n t, v, b => if W.typeOf v = t then some ((n, v) :: b) else none
  | .call c r as, v, b =>
    if W.consOf v = c then (smatch W r v b).bind fun b => smatchAll W as (W.fields v) b else none
  | .seq r as, v, b => (smatch W r v b).bind fun b => smatchSeq W as (W.elems v) b
  | .pand p q, v, b => (smatch W p v b).bind fun b => smatch W q v b
  | .star, _, _ => none
  | .guard _ _, _, _ => none
/-- One value each. -/
def smatchAll (W : World V) : List (SPat V) → List V → List (Name × V) → Option (List (Name × V))
  | [], [], b => some b
  | a :: as, v :: vs, b => (smatch W a v b).bind fun b => smatchAll W as vs b
  | _, _, _ => none
/-- The elements of a sequence. -/
def smatchSeq (W : World V) : List (SPat V) → List V → List (Name × V) → Option (List (Name × V))
  | [], vs, b => if vs.isEmpty then some b else none
  | [.star], _, b => some b
  | a :: as, v :: vs, b => (smatch W a v b).bind fun b => smatchSeq W as vs b
  | _ :: _, [], _ => none
end

/-- What the generated code reads for the variable `y` of the source: the value the pattern binds to the
name `y` is used by, or else what is outside. -/
def scope (nm : Names) (b : List (Name × V)) (ρ : Env V) : Env V := fun y =>
  match b.find? fun p => p.1 == nm.used y with
  | some p => p.2
  | none => ρ y

/-- `case p if e =>`: whether a value is matched, and the variables in what follows. -/
def smatchTop (W : World V) (nm : Names) (s : SPat V) (v : V) (ρ : Env V) : Option (Env V) :=
  match s with
  | .guard p e => (smatch W p v []).bind fun b => if W.truth (e (scope nm b ρ)) then some (scope nm b ρ) else none
  | s => (smatch W s v []).map fun b => scope nm b ρ

end Aps.ScalaPat
