import Verif.Proofs.SccEmit
import Verif.Proofs.SccLeast
import Verif.Proofs.StaticUnique
import Verif.Proofs.StaticMain
/-!
# Evaluating a tree is running a flat program
-/
set_option linter.unusedVariables false
set_option linter.unusedSectionVars false
namespace Aps.SccGen
open Aps.Static

variable {V : Type} [DecidableEq V]

/-- where an instance is kept -/
def slotAt (P : SProd V) (a : Addr) (j : Nat) : Slot := ((P.base.insts[j]?).map fun inst => inst.slot a).getD (a, .loc 0)

/-- the assignment of an expression to an instance -/
def evOf (P : SProd V) (a : Addr) (i : Nat) (e : Expr V) : SEv V := ⟨slotAt P a i, e.reads.map (slotAt P a), e.fn⟩

/-- what a step does; `call` are the visits of the children -/
def trStep (P : SProd V) (call : Nat → Nat → List (Item V)) (a : Addr) : Step → List (Item V)
  | .visit c p => call c p
  | .inst i =>
    match P.base.insts[i]? with
    | none => []
    | some inst => ((emits inst (P.rhs i)).map fun e => Item.set (evOf P a i e)).toList

def trSteps (P : SProd V) (call : Nat → Nat → List (Item V)) (a : Addr) (l : List Step) : List (Item V) := l.flatMap (trStep P call a)

/-- what the runs of visit `q` do -/
def trRuns (P : SProd V) (call : Nat → Nat → List (Item V)) (a : Addr) (q : Nat) : Bool → List Run → List (Item V)
  | _, [] => []
  | first, r :: rs =>
    (if loopedB P q first r && !(r.steps.flatMap (stepToks P)).isEmpty then [.loop ((trSteps P call a r.steps).flatMap Item.evs)]
     else trSteps P call a r.steps) ++ trRuns P call a q false rs

/-- what visit `q` of a node does -/
def tr (prods : List (SProd V)) (plans : Nat → List Visit) : Nat → Tree → Addr → Nat → List (Item V)
  | 0, _, _, _ => []
  | _ + 1, .leaf, _, _ => []
  | h + 1, .node p kids, a, q =>
    match prods[p]?, (plans p)[q - 1]? with
    | some P, some v =>
      trRuns P (fun c ph =>
        match kids[c]? with
        | none => []
        | some kid => tr prods plans h kid (c :: a) ph) a q (q == 1) v.runs
    | _, _ => []

/-- assignments only -/
def AllSets (is : List (Item V)) : Prop := ∀ i ∈ is, ∃ e, i = .set e

theorem allSets_append {xs ys : List (Item V)} (h₁ : AllSets xs) (h₂ : AllSets ys) : AllSets (xs ++ ys) := by
  intro i hi
  rcases List.mem_append.1 hi with h | h
  · exact h₁ i h
  · exact h₂ i h

/-- slots of a program -/
def slots (is : List (Item V)) : List Slot := is.flatMap Item.slots

theorem slots_append (xs ys : List (Item V)) : slots (xs ++ ys) = slots xs ++ slots ys := by simp [slots]

theorem map_evs (is : List (Item V)) : (is.flatMap Item.evs).map (·.slot) = slots is := by
  induction is with
  | nil => rfl
  | cons i is ih =>
    rw [List.flatMap_cons, List.map_append, ih]
    cases i <;> rfl

theorem trStep_silent {P : SProd V} {call : Nat → Nat → List (Item V)} {a : Addr} {s : Step} (h : stepToks P s = []) :
    trStep P call a s = [] := by
  cases s with
  | visit c p => cases h
  | inst i =>
    simp only [stepToks] at h
    simp only [trStep]
    cases hi : P.base.insts[i]? with
    | none => rfl
    | some inst =>
      rw [hi] at h
      simp only at h ⊢
      cases he : emits inst (P.rhs i) with
      | none => rfl
      | some e => rw [he] at h; cases h

theorem slots_trRuns (P : SProd V) (call : Nat → Nat → List (Item V)) (a : Addr) (q : Nat) (rs : List Run) : ∀ first,
    slots (trRuns P call a q first rs) = slots (trSteps P call a (rs.flatMap (·.steps))) := by
  induction rs with
  | nil => intro first; rfl
  | cons r rs ih =>
    intro first
    simp only [trRuns, slots_append, ih, List.flatMap_cons]
    rw [show trSteps P call a (r.steps ++ rs.flatMap (·.steps)) = trSteps P call a r.steps ++ trSteps P call a (rs.flatMap (·.steps)) by
      simp [trSteps], slots_append]
    congr 1
    split
    · rw [← map_evs (trSteps P call a r.steps)]
      simp [slots, Item.slots]
    · rfl

/-! ## Running -/

theorem runItems_append {A : Attrs V} {n : Nat} {xs ys : List (Item V)} : ∀ {st : St V},
    runItems A n (xs ++ ys) st = (runItems A n xs st).bind fun st => runItems A n ys st := by
  induction xs with
  | nil => intro st; rfl
  | cons x xs ih =>
    intro st
    simp only [List.cons_append, runItems]
    cases hr : runItem A n x st with
    | ok st₁ => simp only [Res.ok_bind]; exact ih
    | ub => rfl
    | stop => rfl
    | nofuel => rfl

theorem runEvs_append {A : Attrs V} {xs ys : List (SEv V)} : ∀ {st : St V},
    runEvs A (xs ++ ys) st = (runEvs A xs st).bind fun st => runEvs A ys st := by
  induction xs with
  | nil => intro st; rfl
  | cons x xs ih =>
    intro st
    simp only [List.cons_append, runEvs]
    cases hr : runEv A x st with
    | ok st₁ => simp only [Res.ok_bind]; exact ih
    | ub => rfl
    | stop => rfl
    | nofuel => rfl

theorem runItems_sets {A : Attrs V} {n : Nat} {is : List (Item V)} (h : AllSets is) : ∀ {st : St V},
    runItems A n is st = runEvs A (is.flatMap Item.evs) st := by
  induction is with
  | nil => intro st; rfl
  | cons i is ih =>
    intro st
    obtain ⟨e, rfl⟩ := h i List.mem_cons_self
    have ih' := fun {st : St V} => ih (fun i hi => h i (List.mem_cons_of_mem _ hi)) (st := st)
    show (do let st ← runEv A e st; runItems A n is st) = (do let st ← runEv A e st; runEvs A _ st)
    cases hr : runEv A e st with
    | ok st₁ => simp only [Res.ok_bind]; exact ih'
    | ub => rfl
    | stop => rfl
    | nofuel => rfl

theorem readAll_eq {A : Attrs V} {P : SProd V} {a : Addr} {js : List Nat} : (∀ j ∈ js, (P.base.insts[j]?).isSome) → ∀ {st : St V},
    readAll A P a js st = readSlots A (js.map (slotAt P a)) st := by
  induction js with
  | nil => intro _ st; rfl
  | cons j js ih =>
    intro h st
    obtain ⟨inst, hi⟩ := Option.isSome_iff_exists.1 (h j List.mem_cons_self)
    have hs : slotAt P a j = inst.slot a := by simp [slotAt, hi]
    simp only [readAll, hi, List.map_cons, readSlots, hs]
    cases hr : readSlot A (inst.slot a) st with
    | ok x =>
      simp only [Res.ok_bind]
      rw [ih fun j hj => h j (List.mem_cons_of_mem _ hj)]
    | ub => rfl
    | stop => rfl
    | nofuel => rfl

/-- What is needed for a step to do what its trace says. -/
def Runs (A : Attrs V) (n : Nat) (P : SProd V) (call : Nat → Nat → St V → Res (St V)) (tcall : Nat → Nat → List (Item V)) : Step → Prop
  | .visit c p => ∀ st, call c p st = runItems A n (tcall c p) st
  | .inst i => ∀ e, P.rhs i = some e → ∀ j ∈ e.reads, (P.base.insts[j]?).isSome

theorem emits_some {inst : Inst V} {o : Option (Expr V)} {e : Expr V} (h : emits inst o = some e) : o = some e := by
  unfold emits at h
  split at h
  · cases h
  · split at h <;> first | exact h | (cases h) | (split at h <;> first | exact h | cases h)

theorem run_steps {A : Attrs V} {n : Nat} {P : SProd V} {call : Nat → Nat → St V → Res (St V)} {tcall : Nat → Nat → List (Item V)}
    {a : Addr} {rest : Code V} {l : List Step} : (∀ s ∈ l, Runs A n P call tcall s) → ∀ {st : St V},
    run A n P call a (stepsCode P l rest) none st =
      (runItems A n (trSteps P tcall a l) st).bind fun st => run A n P call a rest none st := by
  induction l with
  | nil => intro _ st; rfl
  | cons s l ih =>
    intro h st
    have ih' := fun {st : St V} => ih (fun s hs => h s (List.mem_cons_of_mem _ hs)) (st := st)
    have hs := h s List.mem_cons_self
    show run A n P call a (stepCode P s (stepsCode P l rest)) none st =
      (runItems A n (trStep P tcall a s ++ trSteps P tcall a l) st).bind _
    rw [runItems_append]
    cases s with
    | visit c p =>
      simp only [stepCode, run, hs st, trStep]
      cases hr : runItems A n (tcall c p) st with
      | ok st₁ => exact ih'
      | ub => rfl
      | stop => rfl
      | nofuel => rfl
    | inst i =>
      simp only [stepCode, trStep]
      cases hi : P.base.insts[i]? with
      | none => exact ih'
      | some inst =>
        simp only
        cases he : emits inst (P.rhs i) with
        | none => exact ih'
        | some e =>
          have hrd := readAll_eq (A := A) (a := a) (hs e (emits_some he)) (st := st)
          have hsl : slotAt P a i = inst.slot a := by simp [slotAt, hi]
          simp only [Option.map_some, Option.toList_some, run, hrd, hi, runItems, runItem, runEv, evOf, hsl]
          cases hr : readSlots A (e.reads.map (slotAt P a)) st with
          | ok x =>
            obtain ⟨vs, st₁⟩ := x
            simp only [Res.ok_bind]
            cases hset : setSlot A (inst.slot a) (e.fn vs) st₁ with
            | ok st₂ =>
              simp only [Res.ok_bind]
              exact ih'
            | ub => rfl
            | stop => rfl
            | nofuel => rfl
          | ub => rfl
          | stop => rfl
          | nofuel => rfl

theorem runLoop_congr {f g : St V → Res (St V)} (h : ∀ st, f st = g st) : ∀ (n : Nat) (st : St V), runLoop f n st = runLoop g n st := by
  rw [show f = g from funext h]
  intro n st
  rfl

theorem run_runs {A : Attrs V} {n : Nat} {P : SProd V} {call : Nat → Nat → St V → Res (St V)} {tcall : Nat → Nat → List (Item V)}
    {a : Addr} {q : Nat} {rs : List Run} : ∀ {first : Bool}, (∀ r ∈ rs, ∀ s ∈ r.steps, Runs A n P call tcall s) →
    (∀ (pre post : List Run) (r : Run), rs = pre ++ r :: post → loopedB P q (first && pre.isEmpty) r = true →
      AllSets (trSteps P tcall a r.steps)) → ∀ {st : St V},
    run A n P call a (runsCode P q first rs) none st = runItems A n (trRuns P tcall a q first rs) st := by
  induction rs with
  | nil => intro first _ _ st; rfl
  | cons r rs ih =>
    intro first h hl st
    have ih' := fun {st : St V} => ih (first := false) (fun r' hr' => h r' (List.mem_cons_of_mem _ hr'))
      (fun pre post r' hr' hlp => hl (r :: pre) post r' (by rw [hr']; rfl) (by simpa using hlp)) (st := st)
    simp only [runsCode, trRuns]
    rw [runItems_append]
    split
    · rename_i hb
      have hsets := hl [] rs r rfl (by simpa using (Bool.and_eq_true_iff.1 hb).1)
      have hbody : ∀ st, run A n P call a (stepsCode P r.steps .done) none st = runEvs A ((trSteps P tcall a r.steps).flatMap Item.evs) st := by
        intro st
        rw [run_steps (h r List.mem_cons_self), ← runItems_sets hsets (n := n)]
        cases runItems A n (trSteps P tcall a r.steps) st <;> rfl
      simp only [run, runItems, runItem]
      rw [runLoop_congr hbody]
      cases hr : runLoop (runEvs A ((trSteps P tcall a r.steps).flatMap Item.evs)) n st with
      | ok st₁ =>
        simp only [Res.ok_bind, Res.pure_eq]
        exact ih'
      | ub => rfl
      | stop => rfl
      | nofuel => rfl
    · rw [run_steps (h r List.mem_cons_self)]
      cases hr : runItems A n (trSteps P tcall a r.steps) st with
      | ok st₁ => exact ih'
      | ub => rfl
      | stop => rfl
      | nofuel => rfl

end Aps.SccGen
