import Verif.Model.Parse
/-!
# analyze/aps-read.c, and who calls it: reading programs

Names are lists of characters; `W` is what files there are (aps_open with the path is not in the model). A file is its `with`s, in the order
of `traverse_Program`, and its units as in `Parse`. The first error ends the program (`exit(1)`): `.stop`.
-/
namespace Aps.Read

abbrev Name := List Nat

/-- what is in a file -/
structure File where
  withs : List Name
  units : List Parse.Unit

/-- what a file has been read as -/
structure Prog where
  /-- `program_name` -/
  name : Name
  file : File
  trees : List Parse.Ast

/-- `programs` (aps-read.c:15-18), flags of programs (aps-info.h:12-17), what is known of operators -/
structure State where
  progs : List Prog
  bound : List Nat
  typed : List Nat
  fix : Parse.Fix

/-- aps.y:41-60 — `filebase`: what is after the last `/`; the last `.` is that of the `.aps` that has been added -/
def base : Name → Name
  | [] => []
  | c :: cs => if 47 ∈ c :: cs then base cs else c :: cs

/-- aps-read.c:85-115 — `find_Program`: the index in `programs` -/
def find (W : Name → Option File) (n : Name) (s : State) : Res (Nat × State) :=
  match s.progs.findIdx? (fun p => p.name = n) with
  | some i => .ok (i, s)
  | none =>
    if s.progs.length = 100 then .stop
    else match W n with
      | none => .stop
      | some f => do
        let x ← Parse.file f.units s.fix
        .ok (s.progs.length, { s with progs := s.progs ++ [⟨base n, f, x.1⟩], fix := x.2 })

/-- find each and do something with it -/
def withs (W : Name → Option File) (go : Nat → State → Res State) : List Name → State → Res State
  | [], s => .ok s
  | n :: ns, s => do
    let x ← find W n s
    let s ← go x.1 x.2
    withs W go ns s

/-- "basic" -/
def basic : Name := [98, 97, 115, 105, 99]

/-- `if (basic_program != p)` (aps-bind.c:226, aps-type.c:510) -/
def ifOther (b p : Nat) (go : Nat → State → Res State) (s : State) : Res State := if b ≠ p then go b s else .ok s

/-- aps-bind.c:213-237, 494-512 — `bind_Program`, as far as files are read -/
def bind (W : Name → Option File) : Nat → Nat → State → Res State
  | 0, _, _ => .nofuel
  | n + 1, p, s => do
    let x ← find W basic s
    let s := x.2
    if p ∈ s.bound then .ok s
    else do
      let s := { s with bound := p :: s.bound }
      let s ← ifOther x.1 p (bind W n) s
      match s.progs[p]? with
      | none => .ub
      | some q => withs W (bind W n) q.file.withs s

/-- aps-type.c:495-520, 35-50 — `type_Program`, as far as files are read (`init_types` finds `basic` too) -/
def type (W : Name → Option File) : Nat → Nat → State → Res State
  | 0, _, _ => .nofuel
  | n + 1, p, s => do
    let x ← find W basic s
    let s ← bind W 101 p x.2
    if p ∈ s.typed then .ok s
    else do
      let s := { s with typed := p :: s.typed }
      let s ← ifOther x.1 p (type W n) s
      match s.progs[p]? with
      | none => .ub
      | some q => withs W (type W n) q.file.withs s

/-- aps2scala.cc:79-92, apscpp.cc:77-90 — the programs in the command line -/
def run (W : Name → Option File) : List Name → State → Res State
  | [], s => .ok s
  | n :: ns, s => do
    let x ← find W n s
    let s ← bind W 101 x.1 x.2
    let s ← type W 101 x.1 s
    run W ns s

/-- with what aps-builtin.aps says (aps-read.c:66-83) -/
def start (F : Parse.Fix) : State := ⟨[], [], [], F⟩

end Aps.Read
