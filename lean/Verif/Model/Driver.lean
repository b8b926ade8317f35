import Verif.Model.Oag
import Verif.Model.Cycle
/-!
# analyze/aps-analyze.c and the main programs (apscpp/apscpp.cc, aps2scala/aps2scala.cc)

What is decided about a module in static mode, and what a command line does: which outputs are written, and how the process ends.
Reading, binding and typing a program are in other models (C58, C67, C80); here only what matters of them for the main program: whether
the program can be read, and how many errors they report (`World`).
-/
namespace Aps.Driver

open Aps.Dnc Aps.Oag Aps.Cycle

/-- A module: its dependency graphs as built by `init_analysis_state` (C62), and what the passes need. `sched` is
`compute_static_schedule` (analyze/aps-schedule.c, C59), of which nothing is assumed here. -/
structure Mod where
  start : State
  dirs : List (List Dir)
  insts : List (List OInst)
  ord : Bool
  up : Nat → Bool
  sched : State → Res State

/-- How `analyze_thing` ends for a module: `analysis_state` with `loop_required`, or one of its three errors. -/
inductive Verdict where
  | accepted (s : State) (loop : Bool)
  | notDnc (d : Dep)
  | notCoag (d : Dep)
  | notOag (d : Dep)

/-- analyze/aps-analyze.c:33-54 — the first cycle test: the state, `loop_required` and `d` after it; `none`: "not DNC". -/
def firstTest (fuel : Nat) (scc : Bool) (m : Mod) (s : State) : Res (Option (State × Bool × Dep)) :=
  let d := stateCycle s
  if d = 0 then .ok (some (s, false, d))
  else if d &&& MAYBE_SIMPLE = 0 ∨ d &&& NOT_JUST_FIBER = 0 then do
    let s ← breakFiberCycles fuel m.ord scc m.up d s
    return some (s, decide (d &&& MAYBE_SIMPLE = 0), 0)
  else .ok none

/-- analyze/aps-analyze.c:57-73 — with `-C` -/
def secondScc (m : Mod) (s : State) (loop : Bool) (d : Dep) : Res Verdict :=
  if d &&& MAYBE_SIMPLE ≠ 0 then .ok (.notCoag d)
  else do
    let s ← m.sched s
    return .accepted s loop

/-- analyze/aps-analyze.c:76-81 — the OAG test, if nothing is left to complain about -/
def oagTest (fuel : Nat) (m : Mod) (s : State) (d : Dep) : Res (State × Dep) :=
  if d = 0 then do
    let r ← computeOag fuel m.dirs m.insts s
    return (r.1, stateCycle r.1)
  else .ok (s, d)

/-- analyze/aps-analyze.c:74-92 — with `-S` -/
def secondOag (fuel : Nat) (m : Mod) (s : State) (loop : Bool) (d : Dep) : Res Verdict := do
  let r ← oagTest fuel m s d
  if r.2 ≠ 0 then return .notOag r.2 else return .accepted r.1 loop

/-- analyze/aps-analyze.c:31-97 — a module; `compute_dnc` is the closure of the graphs (aps-dnc.c:2833-2844) -/
def analyzeModule (fuel : Nat) (scc : Bool) (m : Mod) : Res Verdict := do
  let s ← dncClose fuel m.start
  let r ← firstTest fuel scc m s
  match r with
  | none => return .notDnc (stateCycle s)
  | some (s', loop, d) => if scc then secondScc m s' loop d else secondOag fuel m s' loop d

/-- A declaration at the top level of a program: `analyze_thing` looks at these only (it returns NULL for every declaration, so
that the traversal does not go into it, C88). -/
inductive Decl where
  | module (m : Mod)
  | other

/-- calls of `aps_error` by `analyze_thing` -/
def Verdict.errors : Verdict → Nat
  | .accepted _ _ => 0
  | _ => 1

/-- analyze/aps-analyze.c:102-108 — `analyze_Program`: the number of errors -/
def analyzeProgram (fuel : Nat) (scc : Bool) : List Decl → Res Nat
  | [] => .ok 0
  | .other :: ds => analyzeProgram fuel scc ds
  | .module m :: ds => do
    let v ← analyzeModule fuel scc m
    let n ← analyzeProgram fuel scc ds
    return v.errors + n

/-! ## The main programs -/

/-- which of the two compilers -/
inductive Tool where
  | cpp
  | scala
  deriving DecidableEq

/-- What the main program meets: can the program be found and read, given the path that was set, and what was compiled before
(aps-read.c:85-115; if not the process ends with status 1 there); errors of `bind_Program` and `type_Program`; the declarations of the
program; can its output be opened. -/
structure World where
  load : Option String → List String → String → Bool
  bindErrs : List String → String → Nat
  typeErrs : List String → String → Nat
  decls : String → List Decl
  writable : String → Bool

/-- Which implementation the output is for (`impl`). -/
inductive Impl where
  | dynamic
  | static
  | scc
  deriving DecidableEq, Repr

/-- The global variables set by options: `static_schedule`, `static_scc_schedule`, `verbose`, `debug`, `aps_path`, `omitted` and
`impl_types` (apscpp/dump-cpp.cc:61-76, aps2scala/dump-scala.cc:64-79); and what has been compiled
(`seen`), and the outputs written: for which program, for which implementation. -/
structure St where
  static : Bool := false
  scc : Bool := false
  verbose : Nat := 0
  debug : Nat := 0
  path : Option String := none
  omitted : List String := []
  impls : List (String × String) := []
  seen : List String := []
  out : List (String × Impl) := []

/-- How the process ends: `exit`, with what has been written; `bad`: undefined behaviour, or a pass does not end. -/
inductive End where
  | exit (code : Nat) (out : List (String × Impl))
  | bad
  deriving DecidableEq

/-- analyze/aps-debug.c:89-127 — the letters that `set_debug_flags` knows -/
def debugLetters : List Char := "HPt+aApfFsiecwx20EDI@CuUoOvT3".toList

/-- analyze/aps-debug.c:89-127 — false: `usage()` is called, which ends the process with status 1 -/
def debugOk (options : List Char) : Bool := !options.isEmpty && options.all (debugLetters.contains ·)

/-- apscpp.cc:78-108, aps2scala.cc:80-113 — one program; `inr`: the process ends -/
def compile (tool : Tool) (fuel : Nat) (W : World) (n : String) (st : St) : St ⊕ End :=
  let before := st.seen
  if !W.load st.path before n then .inr (.exit 1 st.out)
  else if W.bindErrs before n ≠ 0 then .inr (.exit 1 st.out)
  else if W.typeErrs before n ≠ 0 then .inr (.exit 1 st.out)
  else
    let write (i : Impl) : St ⊕ End :=
      if W.writable n then .inl { st with seen := st.seen ++ [n], out := st.out ++ [(n, i)] }
      else match tool with
        | .scala => .inr (.exit 1 st.out)
        | .cpp => .inl { st with seen := st.seen ++ [n] }
    if st.static then
      match analyzeProgram fuel st.scc (W.decls n) with
      | .ok 0 => write (if st.scc then .scc else .static)
      | .ok (_ + 1) => .inr (.exit 1 st.out)
      | _ => .inr .bad
    else write .dynamic

/-- a word that is none of those spelled out: `-D...`, another one with a hyphen, or a name -/
inductive Word where
  | debug (options : List Char)
  | hyphen
  | plain

/-- apscpp.cc:72-77, aps2scala.cc:74-79 — `argv[i][0] == '-' && argv[i][1] == 'D'`, `argv[i][0] == '-'` -/
def wordOf : List Char → Word
  | '-' :: 'D' :: options => .debug options
  | '-' :: _ => .hyphen
  | _ => .plain

/-- apscpp.cc:45-76, aps2scala.cc:46-79 — the loop over the arguments. `argv[argc]` is NULL: a missing name for `--omit`, or a missing second
name for `--impl`, is stored and never used; `-p` reads its path, and `--impl` the word after the next, wherever they are. The arrays
`omitted` and `impl_types` have 80 elements. -/
def loop (tool : Tool) (fuel : Nat) (W : World) : List String → St → End
  | [], st => .exit 0 st.out
  | a :: rest, st =>
    if a = "--omit" then
      if 80 ≤ st.omitted.length then .bad
      else match rest with
        | [] => .exit 0 st.out
        | n :: rest => loop tool fuel W rest { st with omitted := st.omitted ++ [n] }
    else if a = "--impl" then
      if 80 ≤ 2 * st.impls.length then .bad
      else match rest with
        | [] => .bad
        | [_] => .exit 0 st.out
        | a :: b :: rest => loop tool fuel W rest { st with impls := st.impls ++ [(a, b)] }
    else if a = "-I" ∨ a = "--incremental" then loop tool fuel W rest st
    else if a = "-S" ∨ a = "--static" then loop tool fuel W rest { st with static := true }
    else if a = "-C" ∨ a = "--static-scc" then loop tool fuel W rest { st with static := true, scc := true }
    else if a = "-V" ∨ a = "--verbose" then loop tool fuel W rest { st with verbose := st.verbose + 1 }
    else if a = "-G" ∨ a = "--debug" then loop tool fuel W rest { st with debug := st.debug + 1 }
    else if a = "-p" ∨ a = "--apspath" then
      match rest with
      | [] => .bad
      | p :: rest => loop tool fuel W rest { st with path := some p }
    else match wordOf a.toList with
      | .debug options => if debugOk options then loop tool fuel W rest st else .exit 1 st.out
      | .hyphen => .exit 1 st.out
      | .plain =>
        match compile tool fuel W a st with
        | .inl st => loop tool fuel W rest st
        | .inr e => e

/-- apscpp.cc:42-44, aps2scala.cc:43-45 — `main`, without `argv[0]` -/
def main (tool : Tool) (fuel : Nat) (W : World) (args : List String) : End :=
  if args = [] then .exit 1 [] else loop tool fuel W args {}

end Aps.Driver
