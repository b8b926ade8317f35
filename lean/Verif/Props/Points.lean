import Verif.Proofs.PointsCheck
set_option linter.unusedVariables false
/-!
# C50: the object flow analysis is exact

For every program, the sets the analysis ends with are the flows of Spec/Points.
-/
namespace Aps.Props
open Aps.Points Aps.Points.Spec

/-- **C50.** The analysis of every proper program ends. -/
theorem C50_terminates (P : Prog) (hp : Proper P) : ∃ n st, analyze P n = .ok st := by
  obtain ⟨st, h⟩ := loop_ok (bd P) (fun st _ => pass_total hp st) (cap (bound P) + 1) (start P) (start_ok P) (by omega)
  exact ⟨_, st, h⟩

/-- **C50.** Whenever it ends, the object set of every declaration is the set of objects that can get there, and its use
set is the set of uses its value can get to. -/
theorem C50_exact (P : Prog) (ha : Alone P) (n : Nat) (st : St) (h : analyze P n = .ok st) :
    (∀ d o, o ∈ st.O d ↔ Holds P d o) ∧ (∀ d u, u ∈ st.U d ↔ UsedBy P d u) := by
  obtain ⟨hok, hd, hp⟩ := loop_fix (bd P) n (start P) st (start_ok P) h
  exact ⟨fun d o => ⟨hok.holds d o, holds_fix hd hp hok ha⟩, fun d u => ⟨hok.used d u, used_fix hd hp hok ha⟩⟩

/-- The number of rounds does not matter. -/
theorem C50_unique (P : Prog) (ha : Alone P) (n m : Nat) (st st' : St) (h : analyze P n = .ok st)
    (h' : analyze P m = .ok st') (d : Nat) : (∀ o, o ∈ st.O d ↔ o ∈ st'.O d) ∧ ∀ u, u ∈ st.U d ↔ u ∈ st'.U d :=
  ⟨fun o => ((C50_exact P ha n st h).1 d o).trans ((C50_exact P ha m st' h').1 d o).symm,
   fun u => ((C50_exact P ha n st h).2 d u).trans ((C50_exact P ha m st' h').2 d u).symm⟩

theorem flow_of_reaches {P : Prog} {x y : Loc} (h : Reaches P x y) (b : Bool) : Flow P b x y := by
  induction h generalizing b with
  | refl => exact .refl _ _
  | step _ e ih => exact .step (ih b) e (by cases b <;> rfl)
  | field _ ho _ _ hu i1 i2 i3 => exact .field (i1 b) ho (i2 true) (i3 false) hu (.inr rfl)

/-- **C50.** In particular no flow is missed: an object that gets to a declaration through places whose types can hold
objects is in its set, and so are the uses its value gets to. -/
theorem C50_no_flow_missed (P : Prog) (ha : Alone P) (n : Nat) (st : St) (h : analyze P n = .ok st) :
    (∀ d o, Obj P o → Reaches P (.decl o) (.decl d) → o ∈ st.O d) ∧
      (∀ d y u, Reaches P (.decl d) y → UseAt P y u → u ∈ st.U d) := by
  obtain ⟨h1, h2⟩ := C50_exact P ha n st h
  exact ⟨fun d o ho hr => (h1 d o).2 ⟨ho, flow_of_reaches hr true⟩,
    fun d y u hr hu => (h2 d u).2 ⟨y, flow_of_reaches hr false, hu⟩⟩

/-! ## An example

Objects 2 and 6; the field 4 of the object 2 is assigned the object 6 (assignment 5) through a function 20 with formal
21 and result 22, and read into the attribute 3 (assignment 7) after going through a match (23). -/

def c50prog : Prog where
  isLocal := fun _ => true
  isShared := fun d => d == 10
  isSyntax := fun _ => false
  formals := fun g => if g = 20 then [21] else []
  result := fun g => if g = 20 then 22 else 0
  siOf := fun _ => 24
  module := 0
  startSi := 1
  body := .seq (.value 2 true (some (.prim true [])))
    (.seq (.value 6 true (some (.prim true [])))
    (.seq (.func 24 (.assign 25 (.use 110 true 22) (.use 111 true 21)))
    (.rule 1 [9] (.call true [.cond (.use 112 false 10)])
      (.seq (.assign 5 (.fieldRef 100 true 4 (.use 101 true 2)) (.call true 20 [.use 102 true 6]))
      (.seq (.cases (.use 104 true 2) (.mtch (.var true 23) .skip .skip) .skip)
        (.assign 7 (.attrRef true 3) (.fieldRef 103 true 4 (.use 105 true 23))))))))

theorem c50ok : okProg c50prog = true := by decide

example : Proper c50prog ∧ Alone c50prog := ⟨proper_of_ok c50ok, alone_of_ok c50ok⟩

/-- the object 6 gets to the attribute -/
example : ∃ n st, analyze c50prog n = .ok st ∧ 6 ∈ st.O 3 ∧ 2 ∉ st.O 3 ∧ (∃ u ∈ st.U 2, u.lhsOf = some 5) := by
  have h : ∀ st, analyze c50prog 8 = .ok st → st.O 3 = [6] ∧ (⟨100, some 4, some 5⟩ : Use) ∈ st.U 2 := by
    have : (match analyze c50prog 8 with
      | .ok st => decide (st.O 3 = [6] ∧ (⟨100, some 4, some 5⟩ : Use) ∈ st.U 2)
      | _ => false) = true := by decide +kernel
    intro st h
    rw [h] at this
    simpa using this
  cases hh : analyze c50prog 8 with
  | ok st =>
    obtain ⟨h1, h2⟩ := h st hh
    exact ⟨8, st, hh, by simp [h1], by simp [h1], ⟨_, h2, rfl⟩⟩
  | _ => exact absurd hh (by
      have : (match analyze c50prog 8 with | .ok _ => true | _ => false) = true := by decide +kernel
      intro hh
      rw [hh] at this
      cases this)

/-! ## A flow the analysis does not know

The default of an attribute is its value at nodes where it is not assigned, but nothing is passed from the default to the
attribute: `compute_OU` has a case for `value_decl` and none for `attribute_decl`. -/

/-- the flow from the default -/
def DefaultFlow (P : Prog) (d : Nat) (o : Nat) : Prop :=
  ∃ r i lt, At P (.attr d (some (.use i lt o))) r ∧ lt = true ∧ Obj P o ∧ P.isLocal o = true

def c50dflt : Prog :=
  { c50prog with body := .seq (.value 2 true (some (.prim true []))) (.attr 3 (some (.use 30 true 2))) }

/-- **C50, refuted for defaults of attributes.** There is a proper program in which an attribute's default is an object
and the object is not in the attribute's set. -/
theorem C50_attr_default_refuted : ∃ P, Proper P ∧ Alone P ∧ ∃ d o, DefaultFlow P d o ∧
    ∀ n st, analyze P n = .ok st → o ∉ st.O d := by
  have hok : okProg c50dflt = true := by decide
  refine ⟨c50dflt, proper_of_ok hok, alone_of_ok hok, 3, 2, ⟨none, 30, true, .seqR (.here _ _), rfl,
    .inr ⟨_, none, .seqL (.here _ _)⟩, rfl⟩, fun n st h hm => ?_⟩
  have h1 : (match analyze c50dflt 8 with | .ok st => decide (st.O 3 = []) | _ => false) = true := by decide +kernel
  cases hh : analyze c50dflt 8 with
  | ok st' =>
    rw [hh] at h1
    have := (C50_unique c50dflt (alone_of_ok hok) n 8 st st' h hh 3).1 2
    have h2 : st'.O 3 = [] := by simpa using h1
    rw [h2] at this
    exact absurd (this.1 hm) (by simp)
  | _ => rw [hh] at h1; cases h1

end Aps.Props
