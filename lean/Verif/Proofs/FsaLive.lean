import Verif.Proofs.FsaMain
set_option linter.unusedVariables false
/-!
# What a fiber ends with is a fiber
-/
namespace Aps.Fsa
open Aps.Points (Prog Expr Pat Use)
open Aps.Points.Spec Aps.Fsa.Spec
open Aps.Dfa (Lab Edge)
open Aps.Dfa.Spec (Acc Live Pair)

theorem goes_reaches {P : Prog} {r : Option Nat} {e : Expr} {d : Nat} (h : Goes P r e d) : Reaches P (.expr e) (.decl d) := by
  induction h with
  | init h => exact .step (.refl _) (.init h)
  | rhs h hl _ => exact .step (.step (.refl _) (.rhs h)) (.lhsUse h hl)
  | rhsAttr h => exact .step (.step (.refl _) (.rhs h)) (.lhsAttr h)
  | loop h => exact .step (.refl _) (.loop h)
  | case h hm hv => exact .step (.refl _) (.case h hm hv)
  | arg h ha hf => exact .step (.refl _) (.arg h ha hf)
  | rep _ ih => exact reaches_trans (.step (.refl _) .rep) ih
  | prim _ ha ih => exact reaches_trans (.step (.refl _) (.prim ha)) ih

theorem within_reaches {P : Prog} {e e2 : Expr} (h : Within e e2) : Reaches P (.expr e) (.expr e2) := by
  induction h with
  | refl => exact .refl _
  | rep _ ih => exact .step ih .rep
  | prim _ ha ih => exact .step ih (.prim ha)

/-- a value that gets to a read goes where the read value goes -/
theorem wants_after {P : Prog} {fo : Nat → List Nat} {r lt e l w o} (h : After P fo r lt e (l :: w))
    (hr : lt = true → Reaches P (.decl o) (.expr e)) : Wants P fo o (l :: w) := by
  cases h with
  | goes hg hz hd => exact .place (reaches_trans (reaches_trans (hr rfl) (goes_reaches hg)) hz) hd
  | look hw he h => exact .place (reaches_trans (hr rfl) (within_reaches hw)) (.read (.field he) h)

/-- what is assigned to a field is what is read -/
theorem write_read {P : Prog} (A : Apart P) {r r' y z i j f a e e' o o2} {b : Bool} (hw : WriteAt P r y i f true a e) (hr : ReadAt P r' z j f b e')
    (hb : b = true) (ho : Obj P o) (h1 : Reaches P (.decl o) y) (h2 : Reaches P (.decl o) z) (h3 : Reaches P (.decl o2) (.expr e)) :
    Reaches P (.decl o2) (.expr e') := by
  subst hb
  have ha : Reaches P (.decl o2) (.decl a) := by
    cases hw with
    | field h => exact .step h3 (.rhs h)
    | shared h _ _ => exact .step h3 (.rhs h)
  cases hr with
  | field h => exact .field ha ho h2 h1 (writeAt_useAt hw)
  | shared h hl hs =>
    cases hw with
    | field h' => exact absurd h (A.write h')
    | shared h' _ _ => exact .step (.step ha (.lhsUse h' hl)) (.use hl)

theorem global_read {P : Prog} (A : Apart P) {r' z j e' o2 v k init r} {b : Bool} (hr : ReadAt P r' z j v b e') (hb : b = true)
    (h : At P (.value v k init) r) (h3 : Reaches P (.decl o2) (.decl v)) : Reaches P (.decl o2) (.expr e') := by
  subst hb
  cases hr with
  | field h' => exact absurd h (A.value h')
  | shared h' hl hs => exact .step h3 (.use hl)

theorem after_lt {P : Prog} {fo : Nat → List Nat} {r lt e l w} (h : After P fo r lt e (l :: w)) : lt = true := by
  cases h <;> rfl

theorem given_obj {P : Prog} {fo : Nat → List Nat} {r lt e l w} (h : Given P fo r lt e (l :: w)) :
    lt = true ∧ ∃ o, Obj P o ∧ Reaches P (.decl o) (.expr e) ∧ Has P fo o (l :: w) := by
  cases h with
  | obj h1 h2 h3 => exact ⟨rfl, _, h1, h2, h3⟩

theorem fiber_tail {P : Prog} (A : Apart P) {fo : Nat → List Nat} {x : Nat} {l l2 : Lab} {w : List Lab}
    (h : Fiber P fo x (l :: l2 :: w)) : ∃ x', Fiber P fo x' (l2 :: w) := by
  obtain ⟨hw, o, ho, hr, hh⟩ := h
  cases hh with
  | write hy hwr hg =>
    obtain ⟨rfl, o2, ho2, hr2, hh2⟩ := given_obj hg
    refine ⟨o2, ?_, o2, ho2, .refl _, hh2⟩
    cases hw with
    | place hz hd =>
      cases hd with
      | read hre haf =>
        exact wants_after haf fun hb => write_read A hwr hre hb ho hy (reaches_trans hr hz) hr2
  | read hy hre haf =>
    cases hw with
    | place hz hd =>
      cases hd with
      | write hwr hg =>
        obtain ⟨rfl, o2, ho2, hr2, hh2⟩ := given_obj hg
        exact ⟨o2, wants_after haf fun hb => write_read A hwr hre hb ho (reaches_trans hr hz) hy hr2, o2, ho2, .refl _, hh2⟩
    | globalObj ha hs ho2 hv hh2 =>
      exact ⟨_, wants_after haf fun hb => global_read A hre hb ha hv, _, ho2, .refl _, hh2⟩
  | globalObj ha hs ho2 hv hh2 =>
    cases hw with
    | place hz hd =>
      cases hd with
      | read hre haf => exact ⟨_, wants_after haf fun hb => global_read A hre hb ha hv, _, ho2, .refl _, hh2⟩

theorem Setup.pair {C : Env} {items : List Item} {E : List Edge} {B : Nat} (S : Setup C items E B) {x : Nat} {w : List Lab}
    (h : Fiber C.P C.fieldsOf x w) : Pair E (omegaOf C.num) w := by
  obtain ⟨h1, h2⟩ := fiber_acc S h
  refine ⟨_, _, Nat.ne_of_lt (Nat.lt_succ_self _), ?_, h1, h2⟩
  have : C.num.decl x % 2 = 0 := by
    rcases S.numOk.decl x with e | e <;> omega
  omega

theorem Setup.live {C : Env} {items : List Item} {E : List Edge} {B : Nat} (S : Setup C items E B) (A : Apart C.P) :
    ∀ {w : List Lab} {x : Nat}, Fiber C.P C.fieldsOf x w → Live E (omegaOf C.num) w
  | [], x, h => trivial
  | [l], x, h => ⟨S.pair h, trivial⟩
  | l :: l2 :: w, x, h => by
    obtain ⟨x', h'⟩ := fiber_tail A h
    exact ⟨S.pair h, S.live A h'⟩

end Aps.Fsa
