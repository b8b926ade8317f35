import Verif.Model.Driver
/-!
# What a command line means, and when a module is accepted
-/
namespace Aps.Driver

open Aps.Dnc

/-- the things that can be on a command line -/
inductive Item where
  | omit (n : String)
  | impl (a b : String)
  | quiet
  | static
  | scc
  | path (p : String)
  | wrong
  | file (n : String)

/-- The word is an option that takes no further word, or begins one. -/
def known : List String :=
  ["--omit", "--impl", "-I", "--incremental", "-S", "--static", "-C", "--static-scc", "-V", "--verbose", "-G", "--debug", "-p", "--apspath"]

/-- The words that make up one item: `-D` is followed by letters for debugging; other words that begin with a hyphen are wrong; words that
do not are names of programs. -/
inductive Words : List String → Item → Prop where
  | omit (n) : Words ["--omit", n] (.omit n)
  | impl (a b) : Words ["--impl", a, b] (.impl a b)
  | quiet {w} : w ∈ ["-I", "--incremental", "-V", "--verbose", "-G", "--debug"] → Words [w] .quiet
  | static {w} : w ∈ ["-S", "--static"] → Words [w] .static
  | scc {w} : w ∈ ["-C", "--static-scc"] → Words [w] .scc
  | path {w} (p) : w ∈ ["-p", "--apspath"] → Words [w, p] (.path p)
  | debug {w o} : w.toList = '-' :: 'D' :: o → o ≠ [] → (∀ c ∈ o, c ∈ debugLetters) → Words [w] .quiet
  | badDebug {w o} : w.toList = '-' :: 'D' :: o → (o = [] ∨ ∃ c ∈ o, c ∉ debugLetters) → Words [w] .wrong
  | wrong {w o} : w.toList = '-' :: o → o.head? ≠ some 'D' → w ∉ known → Words [w] .wrong
  | file {w} : w.toList.head? ≠ some '-' → Words [w] (.file w)

/-- the items of a command line -/
inductive Reads : List String → List Item → Prop where
  | nil : Reads [] []
  | cons {ws i rest is} : Words ws i → Reads rest is → Reads (ws ++ rest) (i :: is)

/-- An option at the end of the line that lacks the words it needs. -/
def Dangling (ws : List String) : Prop :=
  ws = ["--omit"] ∨ ws = ["--impl"] ∨ (∃ a, ws = ["--impl", a]) ∨ ws = ["-p"] ∨ ws = ["--apspath"]

/-! What is in force after the items `pre`. -/

/-- static scheduling -/
def Static (pre : List Item) : Prop := Item.static ∈ pre ∨ Item.scc ∈ pre

/-- with circular attributes -/
def SccMode (pre : List Item) : Prop := Item.scc ∈ pre

def Item.path? : Item → Option String
  | .path p => some p
  | _ => none

def Item.file? : Item → Option String
  | .file n => some n
  | _ => none

def Item.isOmit : Item → Bool
  | .omit _ => true
  | _ => false

def Item.isImpl : Item → Bool
  | .impl _ _ => true
  | _ => false

/-- the last path given -/
def pathIn (pre : List Item) : Option String := (pre.filterMap Item.path?).getLast?

/-- the programs named -/
def filesIn (pre : List Item) : List String := pre.filterMap Item.file?

open Classical in
/-- which implementation is to be generated -/
noncomputable def implIn (pre : List Item) : Impl := if SccMode pre then .scc else if Static pre then .static else .dynamic

/-- the analysis accepts the module -/
def Accepts (fuel : Nat) (scc : Bool) (m : Mod) : Prop := ∃ s loop, analyzeModule fuel scc m = .ok (.accepted s loop)

open Classical in
/-- The program passes all phases, under the options before it. -/
structure Passes (fuel : Nat) (W : World) (pre : List Item) (n : String) : Prop where
  load : W.load (pathIn pre) (filesIn pre) n = true
  bind : W.bindErrs (filesIn pre) n = 0
  type : W.typeErrs (filesIn pre) n = 0
  analysis : Static pre → ∀ m, Decl.module m ∈ W.decls n → Accepts fuel (decide (SccMode pre)) m

/-- There is nothing wrong with the item after the items `pre`. -/
def ItemOk (tool : Tool) (fuel : Nat) (W : World) (pre : List Item) : Item → Prop
  | .file n => Passes fuel W pre n ∧ (tool = .scala → W.writable n = true)
  | .wrong => False
  | _ => True

/-- ... with all items of a line -/
def LineOk (tool : Tool) (fuel : Nat) (W : World) (items : List Item) : Prop :=
  ∀ pre i post, items = pre ++ i :: post → ItemOk tool fuel W pre i

/-- the outputs for the programs among `items`, which follow `pre`: one each, if it can be opened -/
noncomputable def outputs (W : World) : List Item → List Item → List (String × Impl)
  | _, [] => []
  | pre, .file n :: is => (if W.writable n then [(n, implIn pre)] else []) ++ outputs W (pre ++ [.file n]) is
  | pre, i :: is => outputs W (pre ++ [i]) is

/-- an instance depends on itself in one of the graphs, in a way that has bit `b` of the kinds of dependency -/
def SelfDep (s : State) (b : Nat) : Prop :=
  (∃ p ∈ s.phys, ∃ j, j < p.n ∧ (mget p.n p.m j j).getLsbD b = true) ∨
    ∃ g ∈ s.augs, ∃ j, j < g.n ∧ ∃ e ∈ g.cell j j, e.kind.getLsbD b = true

/-- bit 4 of a kind of dependency: not monotone ("simple"); bit 1: not between fibers only (analyze/aps-dnc.h:33-44) -/
def simpleBit : Nat := 4
def attrBit : Nat := 1

end Aps.Driver
