import Verif.Model.Base
/-!
# Top-level types in C++

The objects of the types that are declared at top level, which are made when the program starts: `t_T` is initialized from
`get_T()`, which makes the object when it is first called.

Simplifications.  Actuals of instances are names of top-level types (an actual that is an instance itself is written as if it had a
declaration of its own).  Actuals are evaluated from left to right (C++ may use any order).  Result types, remote types and private
types stand for the types that they have inside.
-/
namespace Aps.TopTypes

/-- What a top-level `type_decl` or `phylum_decl` stands for, or `type_renaming`. -/
inductive Def where
  | noType
  | same (k : Nat)
  | inst (m : Nat) (args : List Nat)
  | renames (k : Nat)
deriving DecidableEq, Repr

/-- An object: its class (`none`: `C_TYPE` or `C_PHYLUM`) and its actuals. -/
structure Obj where
  cls : Option Nat
  args : List Nat
deriving DecidableEq, Repr

/-- The heap, the `static` variables inside of the functions `get_T`, and the variables `t_T`. -/
structure St where
  heap : List Obj
  loc : Nat → Option Nat
  glob : Nat → Option Nat

/-- Calls from left to right. -/
def getAll (g : St → Nat → Res (St × Nat)) : St → List Nat → Res (St × List Nat)
  | s, [] => .ok (s, [])
  | s, k :: ks => (g s k).bind fun r => (getAll g r.1 ks).bind fun q => .ok (q.1, r.2 :: q.2)

/-- `new C_m(...)` -/
def alloc (s : St) (o : Obj) : St × Nat := ({ s with heap := s.heap ++ [o] }, s.heap.length)

def setLoc (s : St) (k a : Nat) : St := { s with loc := fun j => if j = k then some a else s.loc j }

def setGlob (s : St) (k a : Nat) : St := { s with glob := fun j => if j = k then some a else s.glob j }

/-- `get_T()`: `apscpp/dump-cpp.cc:1437-1446` and, for the expression, `dump_Type_value` (1948-1996).  `busy` are the calls that are
not finished: C++ leaves undefined what happens if a `static` variable is needed for its own initialization.  For a `noType`
(1418-1423) and a renaming (1771-1794) no `get_T` is printed, so the C++ compiler rejects its use. -/
def get (defs : Nat → Option Def) : Nat → List Nat → St → Nat → Res (St × Nat)
  | 0, _, _, _ => .nofuel
  | fuel + 1, busy, s, k =>
    match defs k with
    | some (.same j) =>
      match s.loc k with
      | some a => .ok (s, a)
      | none =>
        if k ∈ busy then .ub
        else (get defs fuel (k :: busy) s j).bind fun r => .ok (setLoc r.1 k r.2, r.2)
    | some (.inst m args) =>
      match s.loc k with
      | some a => .ok (s, a)
      | none =>
        if k ∈ busy then .ub
        else (getAll (get defs fuel (k :: busy)) s args).bind fun r =>
          .ok (setLoc (alloc r.1 ⟨some m, r.2⟩).1 k (alloc r.1 ⟨some m, r.2⟩).2, (alloc r.1 ⟨some m, r.2⟩).2)
    | _ => .stop

/-- The initialization of `t_T`: 1418-1423 for a `noType`, 1437-1440 otherwise.  For a renaming (1784-1787) there is no `;` at the end,
which the compiler rejects. -/
def initOne (defs : Nat → Option Def) (fuel : Nat) (s : St) (k : Nat) : Res St :=
  match defs k with
  | some .noType => .ok (setGlob (alloc s ⟨none, []⟩).1 k (alloc s ⟨none, []⟩).2)
  | some (.renames _) => .stop
  | _ => (get defs fuel [] s k).bind fun r => .ok (setGlob r.1 k r.2)

/-- The start of the program: all declarations, in any order (within a file it is that of the file, but C++ leaves the order of files
open). -/
def initAll (defs : Nat → Option Def) (fuel : Nat) : St → List Nat → Res St
  | s, [] => .ok s
  | s, k :: ks => (initOne defs fuel s k).bind fun s' => initAll defs fuel s' ks

def empty : St := ⟨[], fun _ => none, fun _ => none⟩

end Aps.TopTypes
