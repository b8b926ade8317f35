import Verif.Model.DynGen
import Verif.Model.Ast
/-!
# Local attributes (`dump_local_attributes`, `implement_local_attributes`)

A local of a rule becomes an attribute object of its own, with a number, and a function that computes it at the
anchor of the rule; the function first binds the pattern variables of the matches around the local.
-/
namespace Aps.Locals
open Aps.DynGen

variable {V : Type}

abbrev Name := List Char

/-- The static variable `unique`, the `local_attributes` of the module with their `unique_prefix`, and whether an error was
reported. -/
structure St where
  unique : Nat
  noted : List (Nat × Nat)
  err : Bool

mutual
/-- `apscpp/dump-cpp.cc:980-1020`, `aps2scala/dump-scala.cc:796-837` (`dump_local_attributes`), one statement.  The
result is the statement with the flag `LOCAL_ATTRIBUTE_FLAG` set (`dyn-impl.cc:591-596`).  `for … in` is skipped by the Scala
generator and refused by that for C++; `for … begin match` is refused by both. -/
def noteS (lang : Lang) : Stmt V → St → Stmt V × St
  | .assign l r, s => (.assign l r, s)
  | .decl x e _, s => (.decl x e true, ⟨s.unique + 1, s.noted ++ [(x, s.unique + 1)], s.err⟩)
  | .ite c t e, s =>
    let r := note lang t s
    let r' := note lang e r.2
    (.ite c r.1 r'.1, r'.2)
  | .cases e ms b, s =>
    let r := noteM lang ms s
    let r' := note lang b r.2
    (.cases e r.1 r'.1, r'.2)
  | .fors e ms, s => (.fors e ms, { s with err := true })
  | .forin x e b, s =>
    match lang with
    | .cpp => (.forin x e b, { s with err := true })
    | .scala => (.forin x e b, s)
/-- A block. -/
def note (lang : Lang) : List (Stmt V) → St → List (Stmt V) × St
  | [], s => ([], s)
  | d :: ds, s =>
    let r := noteS lang d s
    let r' := note lang ds r.2
    (r.1 :: r'.1, r'.2)
/-- The matches of a case. -/
def noteM (lang : Lang) : List (Pat V × List (Stmt V)) → St → List (Pat V × List (Stmt V)) × St
  | [], s => ([], s)
  | (p, b) :: ms, s =>
    let r := note lang b s
    let r' := noteM lang ms r.2
    ((p, r.1) :: r'.1, r'.2)
end

/-- `dump-cpp.cc:1287-1295`, `dump-scala.cc:1653-1663`: the rules of a program (the counter goes on from one module to the
next). -/
def noteRules (lang : Lang) : List (Tlm V) → St → List (Tlm V) × St
  | [], s => ([], s)
  | t :: ts, s =>
    let r := note lang t.body s
    let r' := noteRules lang ts r.2
    (⟨t.ph, t.pat, r.1⟩ :: r'.1, r'.2)

/-- `dump-cpp.cc:954`, `dump-scala.cc:780`: the name of the object of a local attribute. -/
def localName (nm : Nat → Name) (x i : Nat) : Name := 'a' :: (Ast.decimal i ++ '_' :: nm x)

/-- The same for an attribute of the module (where `i` is the empty string). -/
def attrName (n : Name) : Name := 'a' :: '_' :: n

/-- The `unique_prefix` of a local: the last number given. -/
def prefixOf (noted : List (Nat × Nat)) (x : Nat) : Nat :=
  ((noted.reverse.find? (fun b => b.1 == x)).map (·.2)).getD 0

/-- `apscpp/dyn-impl.cc:679-682`, `aps2scala/dyn-impl.cc:676-678` (`implement_value_use`): the object printed at a use. -/
def useName (nm : Nat → Name) (noted : List (Nat × Nat)) (x : Nat) : Name := localName nm x (prefixOf noted x)

/-! ### The function of a local -/

/-- What is between a local and the rule it is in: a branch of an `if` or the default of a `case`, or a match of a case
with this expression. -/
inductive Frame (V : Type) where
  | branch
  | arm (e : Ex V) (p : Pat V)

/-- What is bound first: at the anchor (`none`) or at the value of an expression, by a match. -/
abbrev Bound (V : Type) := Option (Ex V) × Pat V × List (Nat × Path)

/-- `apscpp/dyn-impl.cc:354-388` (`local_attribute_context_bindings`): the walk up from the local, and (`aps2scala/dyn-impl.cc:
383-416`) `dump_local_context_begin`, which prints the outer ones first by recursion. -/
def walk (pr : Printer V) : List (Frame V) → List (Bound V) → Option (List (Bound V))
  | [], acc => some acc
  | .branch :: fs, acc => walk pr fs acc
  | .arm e p :: fs, acc => (pr p).bind fun cb => walk pr fs ((some e, p, cb.2) :: acc)

/-- The same up to the rule with the pattern `p`. -/
def context (pr : Printer V) (p : Pat V) (fs : List (Frame V)) : Option (List (Bound V)) :=
  (walk pr fs []).bind fun bs => (pr p).map fun cb => (none, p, cb.2) :: bs

/-- The value a match is about. -/
def subject (anchor : V) (h : Option (Ex V)) (ρ : Env V) : V :=
  match h with
  | none => anchor
  | some e => e ρ

/-- Execution of what is printed: in C++ declarations one after the other, without any test; in Scala nested
`… match { case … => {`, an exception if there is no match. -/
def enter (W : World V) (lang : Lang) (native : Pat V → V → Env V → Option (Env V)) (anchor : V) :
    List (Bound V) → Env V → Res (Env V)
  | [], ρ => .ok ρ
  | (h, p, b) :: bs, ρ =>
    (match lang with
      | .cpp => evalBinds W (subject anchor h ρ) b ρ
      | .scala =>
        match native p (subject anchor h ρ) ρ with
        | some ρ' => .ok ρ'
        | none => .stop).bind (enter W lang native anchor bs)

/-- The names declared in C++ at the start of the function, all in one block. -/
def declared (nm : Nat → Name) (bs : List (Bound V)) : List Name := bs.flatMap fun b => b.2.2.map fun v => nm v.1

/-- A call of the function of a local at `anchor` (`apscpp/dyn-impl.cc:390-432`, `aps2scala/dyn-impl.cc:436-460`); `cs` is what
`dump_Block` printed.  A C++ function that declares a name twice is refused by the compiler. -/
def localCall (W : World V) (lang : Lang) (native : Pat V → V → Env V → Option (Env V)) (nm : Nat → Name) (col : Bool) (anchor : V)
    (deft : Option V) (bs : List (Bound V)) (cs : List (Code V)) (ρ : Env V) : Res V :=
  if lang = .scala ∨ (declared nm bs).Nodup then
    (enter W lang native anchor bs ρ).bind fun ρ' =>
    (execs W lang native ⟨col, anchor⟩ cs ρ' (deft.getD anchor)).bind (finish ⟨col, anchor⟩ deft)
  else .stop

end Aps.Locals
