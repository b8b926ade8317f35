import Verif.Model.Ast
import Verif.Model.UtilTables
/-!
# Functions for families of constructors, and loops over sequences (`parse/aps-util.c`, `parse/aps-util.h`)
-/
namespace Aps.Util
open Aps.Ast

/-- A function of parse/aps-util.c other than `some_use_u` (e.g. aps-util.c:111-132): `fuel` bounds the depth of calls
of these functions by each other.  Any other constructor is a fatal error. -/
def run : Nat → Fn → Val → Res Val
  | 0, _, _ => .nofuel
  | fuel + 1, f, v => do
    let c ← key .Declaration v
    match find c (cases f) with
    | none => .stop
    | some (.acc a) => get a v
    | some (.fn g) => run fuel g v

/-- aps-util.c:63-73 (`some_use_u`). -/
def someUse (v : Val) : Res Val := do
  let p ← tnodePhylum v
  match p with
  | none => .stop
  | some p =>
    match find p useCases with
    | none => .stop
    | some a => get a v

/-- The names that `FOR_SEQUENCE` makes of its argument `stype`. -/
structure SeqType where
  ph : Phylum
  nil : Con
  list : Con
  append : Con
  elem : Acc
  l1 : Acc
  l2 : Acc

/-- The types of sequences. -/
def seqTypes : List SeqType := [
  ⟨.Units, .nil_Units, .list_Units, .append_Units, .list_Units_elem, .append_Units_l1, .append_Units_l2⟩,
  ⟨.Declarations, .nil_Declarations, .list_Declarations, .append_Declarations, .list_Declarations_elem,
    .append_Declarations_l1, .append_Declarations_l2⟩,
  ⟨.Matches, .nil_Matches, .list_Matches, .append_Matches, .list_Matches_elem, .append_Matches_l1, .append_Matches_l2⟩,
  ⟨.Types, .nil_Types, .list_Types, .append_Types, .list_Types_elem, .append_Types_l1, .append_Types_l2⟩,
  ⟨.Expressions, .nil_Expressions, .list_Expressions, .append_Expressions, .list_Expressions_elem,
    .append_Expressions_l1, .append_Expressions_l2⟩,
  ⟨.Patterns, .nil_Patterns, .list_Patterns, .append_Patterns, .list_Patterns_elem, .append_Patterns_l1,
    .append_Patterns_l2⟩,
  ⟨.Actuals, .nil_Actuals, .list_Actuals, .append_Actuals, .list_Actuals_elem, .append_Actuals_l1, .append_Actuals_l2⟩,
  ⟨.TypeActuals, .nil_TypeActuals, .list_TypeActuals, .append_TypeActuals, .list_TypeActuals_elem,
    .append_TypeActuals_l1, .append_TypeActuals_l2⟩,
  ⟨.PatternActuals, .nil_PatternActuals, .list_PatternActuals, .append_PatternActuals, .list_PatternActuals_elem,
    .append_PatternActuals_l1, .append_PatternActuals_l2⟩]

/-- aps-util.h:93-105 (`FOR_SEQUENCE`): the `while` loop, with the stack (its top first) and the state that the body
changes.  The body neither leaves the loop nor changes the sequence. -/
def forLoop {σ : Type} (T : SeqType) (body : σ → Val → Res σ) : Nat → List Val → σ → Res σ
  | 0, _, _ => .nofuel
  | _ + 1, [], s => .ok s
  | fuel + 1, t :: st, s => do
    let k ← key T.ph t
    if k = T.nil then forLoop T body fuel st s
    else if k = T.list then do
      let x ← get T.elem t
      let s ← body s x
      forLoop T body fuel st s
    else if k = T.append then do
      let b ← get T.l2 t
      let a ← get T.l1 t
      forLoop T body fuel (a :: b :: st) s
    else forLoop T body fuel st s

def forSequence {σ : Type} (T : SeqType) (body : σ → Val → Res σ) (fuel : Nat) (seq : Val) (s : σ) : Res σ :=
  forLoop T body fuel [seq] s

end Aps.Util
