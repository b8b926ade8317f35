import Verif.Spec.SccGen
import Verif.Proofs.SccTok
/-!
# The code printed for a plan
-/
set_option linter.unusedVariables false
namespace Aps.SccGen
open Aps.Static

variable {V : Type}

/-- what is printed for a step -/
def stepToks (P : SProd V) : Step → List (Tok V)
  | .visit c p => [.visit c p]
  | .inst i =>
    match P.base.insts[i]? with
    | none => []
    | some inst => ((emits inst (P.rhs i)).map (Tok.assign i)).toList

/-- the code for a step -/
def stepCode (P : SProd V) (s : Step) (rest : Code V) : Code V :=
  match s with
  | .visit c p => .visit c p rest
  | .inst i =>
    match P.base.insts[i]? with
    | none => rest
    | some inst =>
      match emits inst (P.rhs i) with
      | some e => .assign i e rest
      | none => rest

/-- the code for some steps -/
def stepsCode (P : SProd V) (l : List Step) (rest : Code V) : Code V := l.foldr (stepCode P) rest

theorem render_steps (P : SProd V) (l : List Step) (rest : Code V) :
    (stepsCode P l rest).render = l.flatMap (stepToks P) ++ rest.render := by
  induction l with
  | nil => rfl
  | cons s l ih =>
    rw [List.flatMap_cons, List.append_assoc, ← ih]
    show (stepCode P s (stepsCode P l rest)).render = _
    cases s with
    | visit c p => rfl
    | inst i =>
      simp only [stepCode, stepToks]
      cases P.base.insts[i]? with
      | none => rfl
      | some inst =>
        simp only
        cases emits inst (P.rhs i) with
        | none => rfl
        | some e => rfl

/-- whether a run is repeated -/
def loopedB (P : SProd V) (q : Nat) (first : Bool) (r : Run) : Bool := !first && P.chunkCirc r.chunk && !P.cyclic q

theorem loopedB_iff {P : SProd V} {q : Nat} {first : Bool} {r : Run} : loopedB P q first r = true ↔ P.Looped q first r := by
  simp [loopedB, SProd.Looped, and_assoc]

/-- the code for the runs of visit `q`; the flag says whether nothing comes before -/
def runsCode (P : SProd V) (q : Nat) : Bool → List Run → Code V
  | _, [] => .done
  | first, r :: rs =>
    if loopedB P q first r && !(r.steps.flatMap (stepToks P)).isEmpty then
      .loop r.chunk (stepsCode P r.steps .done) (runsCode P q false rs)
    else stepsCode P r.steps (runsCode P q false rs)

/-! ## Walking over the total order -/

/-- closing would leave `out` -/
def Shut (allowed : Bool) (loop : Option Nat) (w : Writer V) (out : List (Tok V)) : Prop :=
  closeLoop true allowed loop w = (none, ⟨[], out⟩)

theorem shut_none {allowed : Bool} {out : List (Tok V)} : Shut allowed none ⟨[], out⟩ out := rfl

theorem shut_start {k : Nat} {out : List (Tok V)} : Shut true (some k) ⟨[k], out⟩ out := by
  simp [Shut, closeLoop, loopEnd]

/-- another chunk -/
theorem chunkStep_other {P : SProd V} {q k k0 : Nat} {loop : Option Nat} {w : Writer V} {out : List (Tok V)}
    (hs : Shut true loop w out) (hk : k0 ≠ k) :
    chunkStep true P q true k (some k0) loop w =
      .ok (if P.chunkCirc k && !P.cyclic q then (some k, ⟨[k], out⟩) else (none, ⟨[], out⟩)) := by
  have h₁ : (some k0 : Option Nat).isSome && some k0 != some k := by simp [hk]
  unfold chunkStep
  rw [if_pos h₁]
  unfold Shut at hs
  simp only [hs, Bool.true_and]
  split
  · simp [loopStart]
  · rfl

/-- the same chunk -/
theorem chunkStep_same {P : SProd V} {q k : Nat} {loop : Option Nat} {w : Writer V} :
    chunkStep true P q true k (some k) loop w = .ok (loop, w) := by
  simp [chunkStep, Res.pure_eq]

/-- the first chunk -/
theorem chunkStep_first {P : SProd V} {q k : Nat} {loop : Option Nat} {w : Writer V} :
    chunkStep true P q true k none loop w = .ok (loop, w) := by
  simp [chunkStep, Res.pure_eq]

theorem chunkStep_loop {P : SProd V} {q k k0 : Nat} {loop : Option Nat} {w : Writer V} {out : List (Tok V)}
    (hs : Shut true loop w out) (hk : k0 ≠ k) (hc : (P.chunkCirc k && !P.cyclic q) = true) :
    chunkStep true P q true k (some k0) loop w = .ok (some k, ⟨[k], out⟩) := by
  rw [chunkStep_other hs hk, if_pos hc]

theorem chunkStep_plain {P : SProd V} {q k k0 : Nat} {loop : Option Nat} {w : Writer V} {out : List (Tok V)}
    (hs : Shut true loop w out) (hk : k0 ≠ k) (hc : ¬ (P.chunkCirc k && !P.cyclic q) = true) :
    chunkStep true P q true k (some k0) loop w = .ok (none, ⟨[], out⟩) := by
  rw [chunkStep_other hs hk, if_neg hc]

theorem chunkStep_shut {P : SProd V} {q k k0 : Nat} {loop : Option Nat} {w : Writer V} {out : List (Tok V)}
    (hs : Shut true loop w out) (hk : k0 ≠ k) :
    ∃ loop' w', chunkStep true P q true k (some k0) loop w = .ok (loop', w') ∧ Shut true loop' w' out := by
  by_cases hc : (P.chunkCirc k && !P.cyclic q) = true
  · exact ⟨_, _, chunkStep_loop hs hk hc, shut_start⟩
  · exact ⟨_, _, chunkStep_plain hs hk hc, shut_none⟩

theorem writeAll_writeAll (w : Writer V) (a b : List (Tok V)) : (w.writeAll a).writeAll b = w.writeAll (a ++ b) := by
  unfold Writer.writeAll
  cases a with
  | nil => simp
  | cons x a =>
    cases b with
    | nil => simp
    | cons y b => simp [Writer.write]

/-- What is needed to walk over steps. -/
structure Walks (P : SProd V) (asg : Asgs V) : Prop where
  rules : ∀ (i : Nat) (inst : Inst V), P.base.insts[i]? = some inst → inst.rule = none
  conds : ∀ i : Nat, P.conds[i]?.getD (⟨0, 0⟩ : Dnc.Cond) = ⟨0, 0⟩
  toks : ∀ (i : Nat) (inst : Inst V), P.base.insts[i]? = some inst → instToks P asg i inst = stepToks P (.inst i)

theorem implement_inst {P : SProd V} {asg : Asgs V} (hP : Walks P asg) {q q' i k : Nat} {next : Chunk.Tree} (hi : i < P.base.insts.length)
    {chunk loop loop' : Option Nat} {w w' : Writer V} (hc : chunkStep true P q true k chunk loop w = .ok (loop', w')) :
    implement true P q (.inst i q' k next) asg ⟨0, 0⟩ chunk true loop w =
      implement true P q next asg ⟨0, 0⟩ (some k) true loop' (if q' = q then w'.writeAll (stepToks P (.inst i)) else w') := by
  simp only [implement, hc, Res.ok_bind]
  by_cases hq : q' = q
  · subst hq
    simp only [ne_eq, not_true_eq_false, if_false, if_true]
    have hinst : P.base.insts[i]? = some P.base.insts[i] := List.getElem?_eq_getElem hi
    rw [hinst]
    simp only [hP.rules i _ hinst, Option.isSome_none, Bool.false_eq_true, if_false, hP.conds i]
    rw [← hP.toks i _ hinst]
    rfl
  · rw [if_pos hq, if_neg hq]

theorem implement_visit {P : SProd V} {asg : Asgs V} {q q' c p k : Nat} {next : Chunk.Tree}
    {chunk loop loop' : Option Nat} {w w' : Writer V} (hc : chunkStep true P q true k chunk loop w = .ok (loop', w')) :
    implement true P q (.mark p c q' k next) asg ⟨0, 0⟩ chunk true loop w =
      implement true P q next asg ⟨0, 0⟩ (some k) true loop' (if q' = q then w'.writeAll (stepToks P (.visit c p)) else w') := by
  simp only [implement, hc, Res.ok_bind]
  by_cases hq : q' = q
  · subst hq
    have : ¬ (c : Int) = -1 := by omega
    simp only [ne_eq, not_true_eq_false, if_false, if_true, this]
    rfl
  · rw [if_pos hq, if_neg hq]

theorem implement_step {P : SProd V} {asg : Asgs V} (hP : Walks P asg) {q q' k : Nat} {next : Chunk.Tree} {s : Step}
    (hi : ∀ i, s = .inst i → i < P.base.insts.length)
    {chunk loop loop' : Option Nat} {w w' : Writer V} (hc : chunkStep true P q true k chunk loop w = .ok (loop', w')) :
    implement true P q (s.tree q' k next) asg ⟨0, 0⟩ chunk true loop w =
      implement true P q next asg ⟨0, 0⟩ (some k) true loop' (if q' = q then w'.writeAll (stepToks P s) else w') := by
  cases s with
  | inst i => exact implement_inst hP (hi i rfl) hc
  | visit c p => exact implement_visit hc

theorem implement_steps_same {P : SProd V} {asg : Asgs V} (hP : Walks P asg) {q q' k : Nat} {next : Chunk.Tree} {l : List Step} :
    (∀ i, .inst i ∈ l → i < P.base.insts.length) → ∀ {loop : Option Nat} {w : Writer V},
    implement true P q (stepsTree q' k next l) asg ⟨0, 0⟩ (some k) true loop w =
      implement true P q next asg ⟨0, 0⟩ (some k) true loop (if q' = q then w.writeAll (l.flatMap (stepToks P)) else w) := by
  induction l with
  | nil =>
    intro _ loop w
    simp [stepsTree, Writer.writeAll]
  | cons s l ih =>
    intro hi loop w
    simp only [stepsTree]
    rw [implement_step hP (fun i h => hi i (by simp [h])) chunkStep_same, ih (fun i h => hi i (List.mem_cons_of_mem _ h))]
    split
    · rw [writeAll_writeAll]
      rfl
    · rfl

/-- A run: a step into its chunk, and then its steps. -/
theorem implement_run {P : SProd V} {asg : Asgs V} (hP : Walks P asg) {q q' k : Nat} {next : Chunk.Tree} {l : List Step} (hne : l ≠ [])
    (hi : ∀ i, .inst i ∈ l → i < P.base.insts.length) {chunk loop loop' : Option Nat} {w w' : Writer V}
    (hc : chunkStep true P q true k chunk loop w = .ok (loop', w')) :
    implement true P q (stepsTree q' k next l) asg ⟨0, 0⟩ chunk true loop w =
      implement true P q next asg ⟨0, 0⟩ (some k) true loop' (if q' = q then w'.writeAll (l.flatMap (stepToks P)) else w') := by
  cases l with
  | nil => exact absurd rfl hne
  | cons s l =>
    simp only [stepsTree]
    rw [implement_step hP (fun i h => hi i (by simp [h])) hc, implement_steps_same hP (fun i h => hi i (List.mem_cons_of_mem _ h))]
    split
    · rw [writeAll_writeAll]
      rfl
    · rfl

/-- the chunk before is not one of those to come -/
def Before (chunk : Option Nat) (loop : Option Nat) (ks : List Nat) : Prop :=
  match chunk with
  | none => loop = none
  | some k => k ∉ ks

/-- Runs of another visit print nothing. -/
theorem implement_others {P : SProd V} {asg : Asgs V} (hP : Walks P asg) {q q' : Nat} (hq : q' ≠ q) {next : Chunk.Tree} {rs : List Run} :
    (∀ r ∈ rs, r.steps ≠ []) → (∀ r ∈ rs, ∀ i, .inst i ∈ r.steps → i < P.base.insts.length) → (rs.map (·.chunk)).Nodup →
    ∀ {chunk loop : Option Nat} {w : Writer V} {out : List (Tok V)}, Before chunk loop (rs.map (·.chunk)) → Shut true loop w out →
    ∃ chunk' loop' w', implement true P q (runsTree q' next rs) asg ⟨0, 0⟩ chunk true loop w =
      implement true P q next asg ⟨0, 0⟩ chunk' true loop' w' ∧ Shut true loop' w' out ∧
      (chunk' = none → loop' = none) := by
  induction rs with
  | nil =>
    intro _ _ _ chunk loop w out hb hs
    refine ⟨chunk, loop, w, rfl, hs, ?_⟩
    rintro rfl
    exact hb
  | cons r rs ih =>
    intro hne hi hnd chunk loop w out hb hs
    have hstep : ∃ loop' w', chunkStep true P q true r.chunk chunk loop w = .ok (loop', w') ∧ Shut true loop' w' out := by
      cases chunk with
      | none => exact ⟨loop, w, chunkStep_first, hs⟩
      | some k0 =>
        refine chunkStep_shut hs ?_
        rintro rfl
        exact hb (by simp)
    obtain ⟨loop', w', hc, hs'⟩ := hstep
    simp only [runsTree]
    rw [implement_run hP (hne r List.mem_cons_self) (hi r List.mem_cons_self) hc, if_neg hq]
    refine ih (fun r' h => hne r' (List.mem_cons_of_mem _ h)) (fun r' h => hi r' (List.mem_cons_of_mem _ h)) ?_ ?_ hs'
    · simp only [List.map_cons, List.nodup_cons] at hnd
      exact hnd.2
    · simp only [List.map_cons, List.nodup_cons] at hnd
      exact hnd.1

/-- The runs of the visit. -/
theorem implement_own {P : SProd V} {asg : Asgs V} (hP : Walks P asg) {q last : Nat} {next : Chunk.Tree} {rs : List Run} :
    (∀ r ∈ rs, r.steps ≠ []) → (∀ r ∈ rs, ∀ i, .inst i ∈ r.steps → i < P.base.insts.length) → (rs.map (·.chunk)).Nodup →
    ∀ {chunk loop : Option Nat} {w : Writer V} {out : List (Tok V)}, Before chunk loop (rs.map (·.chunk)) → Shut true loop w out →
    implement true P q (runsTree q (.mark q (-1) q last next) rs) asg ⟨0, 0⟩ chunk true loop w =
      .ok ⟨[], out ++ (runsCode P q chunk.isNone rs).render⟩ := by
  induction rs with
  | nil =>
    intro _ _ _ chunk loop w out hb hs
    have hstep : ∃ loop' w', chunkStep true P q true last chunk loop w = .ok (loop', w') ∧ Shut true loop' w' out := by
      cases chunk with
      | none => exact ⟨loop, w, chunkStep_first, hs⟩
      | some k0 =>
        by_cases hk : k0 = last
        · subst hk
          exact ⟨loop, w, chunkStep_same, hs⟩
        · exact chunkStep_shut hs hk
    obtain ⟨loop', w', hc, hs'⟩ := hstep
    simp only [runsTree, implement, hc, Res.ok_bind, ne_eq, not_true_eq_false, if_false, if_true]
    unfold Shut at hs'
    simp [hs', runsCode, Code.render]
  | cons r rs ih =>
    intro hne hi hnd chunk loop w out hb hs
    simp only [List.map_cons, List.nodup_cons] at hnd
    have ih' := fun {chunk loop : Option Nat} {w : Writer V} {out : List (Tok V)} =>
      ih (fun r' h => hne r' (List.mem_cons_of_mem _ h)) (fun r' h => hi r' (List.mem_cons_of_mem _ h)) hnd.2
        (chunk := chunk) (loop := loop) (w := w) (out := out)
    simp only [runsTree]
    cases chunk with
    | none =>
      have hl : loop = none := hb
      subst hl
      have hw : w = ⟨[], out⟩ := by
        unfold Shut at hs
        simp [closeLoop] at hs
        exact hs
      subst hw
      rw [implement_run hP (hne r List.mem_cons_self) (hi r List.mem_cons_self) chunkStep_first, if_pos rfl]
      have : (⟨[], out⟩ : Writer V).writeAll (r.steps.flatMap (stepToks P)) = ⟨[], out ++ r.steps.flatMap (stepToks P)⟩ := by
        unfold Writer.writeAll
        split
        · rename_i h
          rw [List.isEmpty_iff.1 h]
          simp
        · simp [Writer.write]
      rw [this, ih' (chunk := some r.chunk) hnd.1 shut_none]
      · simp [runsCode, loopedB, render_steps]
    | some k0 =>
      have hk : k0 ≠ r.chunk := by
        rintro rfl
        exact hb (by simp)
      by_cases hlp : (P.chunkCirc r.chunk && !P.cyclic q) = true
      · rw [implement_run hP (hne r List.mem_cons_self) (hi r List.mem_cons_self) (chunkStep_loop hs hk hlp), if_pos rfl]
        by_cases hemp : (r.steps.flatMap (stepToks P)).isEmpty = true
        · have : (⟨[r.chunk], out⟩ : Writer V).writeAll (r.steps.flatMap (stepToks P)) = ⟨[r.chunk], out⟩ := by
            unfold Writer.writeAll
            rw [if_pos hemp]
          rw [this, ih' (chunk := some r.chunk) hnd.1 shut_start]
          simp [runsCode, hemp, render_steps, List.isEmpty_iff.1 hemp]
        · have : (⟨[r.chunk], out⟩ : Writer V).writeAll (r.steps.flatMap (stepToks P)) =
              ⟨[], out ++ [.loopStart r.chunk] ++ r.steps.flatMap (stepToks P)⟩ := by
            unfold Writer.writeAll
            rw [if_neg hemp]
            rfl
          rw [this, ih' (chunk := some r.chunk) (loop := some r.chunk) (out := out ++ [.loopStart r.chunk] ++ r.steps.flatMap (stepToks P) ++ [.loopEnd r.chunk]) hnd.1
            (by simp [Shut, closeLoop, loopEnd, Writer.write])]
          have hl : loopedB P q false r = true := by simpa [loopedB] using hlp
          have hemp' : ((r.steps.flatMap (stepToks P)).isEmpty) = false := by simpa using hemp
          simp only [Option.isNone_some, runsCode, hl, hemp', Bool.not_false, Bool.and_true, if_true, Code.render, render_steps]
          simp
      · rw [implement_run hP (hne r List.mem_cons_self) (hi r List.mem_cons_self) (chunkStep_plain hs hk hlp), if_pos rfl]
        have : (⟨[], out⟩ : Writer V).writeAll (r.steps.flatMap (stepToks P)) = ⟨[], out ++ r.steps.flatMap (stepToks P)⟩ := by
          unfold Writer.writeAll
          split
          · rename_i h
            rw [List.isEmpty_iff.1 h]
            simp
          · simp [Writer.write]
        rw [this, ih' (chunk := some r.chunk) hnd.1 shut_none]
        have hl : loopedB P q false r = false := by simpa [loopedB] using hlp
        simp [runsCode, hl, render_steps]

/-- a mark that ends another visit -/
theorem implement_mark {P : SProd V} {asg : Asgs V} {q q' last : Nat} (hq : q' ≠ q) {next : Chunk.Tree}
    {chunk loop : Option Nat} {w : Writer V} {out : List (Tok V)} (hs : Shut true loop w out) (hn : chunk = none → loop = none) :
    ∃ loop' w', implement true P q (.mark q' (-1) q' last next) asg ⟨0, 0⟩ chunk true loop w =
      implement true P q next asg ⟨0, 0⟩ (some last) true loop' w' ∧ Shut true loop' w' out := by
  have hstep : ∃ loop' w', chunkStep true P q true last chunk loop w = .ok (loop', w') ∧ Shut true loop' w' out := by
    cases chunk with
    | none => exact ⟨loop, w, chunkStep_first, hs⟩
    | some k0 =>
      by_cases hk : k0 = last
      · subst hk
        exact ⟨loop, w, chunkStep_same, hs⟩
      · exact chunkStep_shut hs hk
  obtain ⟨loop', w', hc, hs'⟩ := hstep
  refine ⟨loop', w', ?_, hs'⟩
  simp only [implement, hc, Res.ok_bind]
  rw [if_pos hq]

/-- The procedure printed for one visit of a plan. -/
theorem implement_plan {P : SProd V} {asg : Asgs V} (hP : Walks P asg) {q : Nat} {v : Visit} {plan : List Visit} :
    ∀ {q0 : Nat} (j : Nat), plan[j]? = some v → q = q0 + j → (∀ v ∈ plan, ∀ r ∈ v.runs, r.steps ≠ []) →
    (∀ v ∈ plan, ∀ i, .inst i ∈ v.steps → i < P.base.insts.length) → (plan.flatMap fun v => v.runs.map (·.chunk)).Nodup →
    (plan.Pairwise fun v w => ∀ r ∈ w.runs, r.chunk ≠ v.last) →
    ∀ {chunk loop : Option Nat} {w : Writer V} {out : List (Tok V)},
    Before chunk loop (plan.flatMap fun v => v.runs.map (·.chunk)) → Shut true loop w out →
    implement true P q (planTree q0 plan) asg ⟨0, 0⟩ chunk true loop w =
      .ok ⟨[], out ++ (runsCode P q (chunk.isNone && j == 0) v.runs).render⟩ := by
  induction plan with
  | nil => intro q0 j h; cases h
  | cons u plan ih =>
    intro q0 j hv hq hne hi hnd hl chunk loop w out hb hs
    simp only [List.flatMap_cons, List.nodup_append] at hnd
    have hb' : Before chunk loop (u.runs.map (·.chunk)) := by
      cases chunk with
      | none => exact hb
      | some k =>
        intro hk
        exact hb (by simp only [List.flatMap_cons, List.mem_append]; exact .inl hk)
    have hi' : ∀ r ∈ u.runs, ∀ i, .inst i ∈ r.steps → i < P.base.insts.length := fun r hr i h =>
      hi u List.mem_cons_self i (List.mem_flatMap.2 ⟨r, hr, h⟩)
    simp only [planTree]
    cases j with
    | zero =>
      simp at hv
      subst hv
      have : q = q0 := by omega
      subst this
      rw [implement_own hP (hne u List.mem_cons_self) hi' hnd.1 hb' hs]
      simp
    | succ j =>
      have hne' : q0 ≠ q := by omega
      obtain ⟨chunk', loop', w', h₁, hs₁, hn₁⟩ := implement_others hP hne' (next := .mark q0 (-1) q0 u.last (planTree (q0 + 1) plan))
        (hne u List.mem_cons_self) hi' hnd.1 hb' hs
      obtain ⟨loop₂, w₂, h₂, hs₂⟩ := implement_mark (P := P) (asg := asg) (last := u.last) hne' (next := planTree (q0 + 1) plan) hs₁ hn₁
      rw [h₁, h₂]
      have := ih (q0 := q0 + 1) j (by simpa using hv) (by omega) (fun v hv => hne v (List.mem_cons_of_mem _ hv))
        (fun v hv => hi v (List.mem_cons_of_mem _ hv)) hnd.2.1 (List.pairwise_cons.1 hl).2 (chunk := some u.last) (loop := loop₂)
        (w := w₂) (out := out) (by
          intro hk
          obtain ⟨v', hv', hk⟩ := List.mem_flatMap.1 hk
          obtain ⟨r, hr, hk⟩ := List.mem_map.1 hk
          exact (List.pairwise_cons.1 hl).1 v' hv' r hr hk) hs₂
      rw [this]
      simp

/-! ## Assignments -/

theorem assignStep_ok {P : SProd V} (hcoll : ∀ i, P.coll i = false) (step : Nat) {b : Block V} :
    ∀ {arr : Asgs V}, arr.length = P.base.insts.length → (∀ q ∈ b.own, q.1 < P.base.insts.length) → (b.own.map (·.1)).Nodup →
    ∃ arr', assignStep P step b arr = .ok arr' ∧ arr'.length = arr.length ∧
      ∀ i, i < arr.length → arr'[i]? = match b.own.find? (fun q => q.1 = i) with | some q => some ⟨false, [q.2]⟩ | none => arr[i]? := by
  induction b with
  | nil => intro arr _ _ _; exact ⟨arr, rfl, rfl, fun i _ => rfl⟩
  | decl i rest ih => intro arr hl ho hn; exact ih hl ho hn
  | cond r t f rest iht ihf ih => intro arr hl ho hn; exact ih hl ho hn
  | assign i e rest ih =>
    intro arr hl ho hn
    simp only [Block.own, List.map_cons, List.nodup_cons] at hn
    obtain ⟨arr', h₁, h₂, h₃⟩ := ih (arr := arr.set i ⟨false, [e]⟩) (by simpa using hl)
      (fun q hq => ho q (List.mem_cons_of_mem _ hq)) hn.2
    have hi := ho (i, e) List.mem_cons_self
    refine ⟨arr', ?_, by simpa using h₂, fun j hj => ?_⟩
    · simp only [assignStep]
      rw [if_neg (by simpa using hi)]
      simp only [hcoll, Bool.false_eq_true, if_false]
      exact h₁
    · rw [h₃ j (by simpa using hj)]
      simp only [Block.own, List.find?_cons]
      by_cases hij : i = j
      · subst hij
        have : rest.own.find? (fun q => decide (q.1 = i)) = none := by
          rw [List.find?_eq_none]
          intro q hq
          simp only [decide_eq_true_eq]
          rintro rfl
          exact hn.1 (List.mem_map.2 ⟨q, hq, rfl⟩)
        simp [this, hj]
      · simp [hij]

theorem active_own {σ : Nat → Bool} {b : Block V} (h : ∀ r t f, ¬ b.Has r t f) : b.active σ = b.own := by
  induction b with
  | nil => rfl
  | decl i rest ih => exact ih fun r t f hh => h r t f (.decl hh)
  | assign i e rest ih =>
    show _ :: _ = _ :: _
    rw [ih fun r t f hh => h r t f (.assign hh)]
  | cond r t f rest iht ihf ih => exact absurd .here (h r t f)

theorem emits_none (inst : Inst V) : emits inst none = none := by
  unfold emits
  split
  · rfl
  · split <;> (try rfl) <;> split <;> rfl

/-- The assignments of a body without conditionals and collections are the equations. -/
theorem walks_of {P : SProd V} (hrules : ∀ (i : Nat) (inst : Inst V), P.base.insts[i]? = some inst → inst.rule = none)
    (hconds : ∀ i : Nat, P.conds[i]?.getD (⟨0, 0⟩ : Dnc.Cond) = ⟨0, 0⟩) (hcoll : ∀ i, P.coll i = false)
    (hbody : ∀ r t f, ¬ P.base.body.Has r t f) (hassigned : ∀ q ∈ P.base.body.own, q.1 < P.base.insts.length)
    (hunique : (P.base.body.own.map (·.1)).Nodup) :
    ∃ asg, makeAssignment P P.base.body (List.replicate P.base.insts.length ⟨false, []⟩) = .ok asg ∧ Walks P asg := by
  have hlen : (insertDefaults P (List.replicate P.base.insts.length ⟨false, []⟩)).length = P.base.insts.length := by
    simp [insertDefaults]
  obtain ⟨a₁, h₁, l₁, g₁⟩ := assignStep_ok hcoll 1 hlen hassigned hunique
  obtain ⟨a₂, h₂, l₂, g₂⟩ := assignStep_ok hcoll 2 (l₁.trans hlen) hassigned hunique
  refine ⟨a₂, by simp [makeAssignment, h₁, h₂], ⟨hrules, hconds, fun i inst hinst => ?_⟩⟩
  have hi : i < P.base.insts.length := (List.getElem?_eq_some_iff.1 hinst).1
  have hl : (a₂[i]?.getD ⟨false, []⟩).list P i = (P.rhs i).toList := by
    rw [g₂ i (by omega)]
    unfold SProd.rhs Prod.rhs
    rw [active_own hbody]
    cases hf : P.base.body.own.find? (fun q => decide (q.1 = i)) with
    | some q => simp [ESet.list]
    | none =>
      simp only
      rw [g₁ i (by omega), hf]
      simp only [insertDefaults, List.getElem?_mapIdx, List.getElem?_replicate, hi, if_true, Option.map_some, Option.getD_some]
      cases hd : P.base.defaults[i]?.getD none with
      | none => simp [ESet.list]
      | some e => simp [ESet.list, hd]
  unfold instToks stepToks
  simp only [hinst]
  by_cases hw : inst.inward = true
  · simp [hw, emits]
  · simp only [hw, Bool.false_eq_true, if_false]
    rw [hl]
    cases P.rhs i with
    | none => simp [emits_none]
    | some e =>
      simp only [Option.toList_some, List.filterMap_cons, List.filterMap_nil]
      cases emits inst (some e) <;> rfl

/-- What is printed for a planned production. -/
theorem dumpVisits_planned {ph : Phyla} {cyc : Nat → Nat → Bool} {A : Attrs V} {P : SProd V} {plan : List Visit}
    (hd : Described ph P.base) (hp : Planned ph cyc A P plan) :
    dumpVisits true true P = .ok ((List.range P.maxPhase).map fun j =>
      (runsCode P (j + 1) (j == 0) ((plan[j]?.map (·.runs)).getD [])).render) := by
  have hbody : ∀ r t f, ¬ P.base.body.Has r t f := by
    intro r t f h
    obtain ⟨inst, rule, hi, hr, _⟩ := hd.body r t f h
    rw [hp.rules r inst hi] at hr
    cases hr
  have hown := active_own (σ := fun _ => false) hbody
  obtain ⟨asg, ha, hw⟩ := walks_of hp.rules hp.conds hp.coll hbody
    (fun q hq => hd.assigned (fun _ => false) q (by rw [hown]; exact hq))
    (by rw [← hown]; exact hd.unique _)
  unfold dumpVisits
  rw [ha, Res.ok_bind]
  have : ∀ (l : List Nat), (∀ j ∈ l, j < plan.length) →
      (l.mapM fun q => do
        let w ← implement true P (q + 1) P.order asg ⟨0, 0⟩ none true none ⟨[], []⟩
        return w.out ++ w.queue.map (Tok.loopStart (V := V))) =
      .ok (l.map fun j => (runsCode P (j + 1) (j == 0) ((plan[j]?.map Visit.runs).getD [])).render) := by
    intro l
    induction l with
    | nil => intro _; rfl
    | cons j l ih =>
      intro hj
      have hjl : j < plan.length := hj j List.mem_cons_self
      have hv : plan[j]? = some plan[j] := List.getElem?_eq_getElem hjl
      have h₁ := implement_plan (P := P) hw (q := j + 1) (q0 := 1) j hv (by omega) hp.nonempty hp.known hp.nodup hp.last
        (chunk := none) (loop := none) (w := ⟨[], []⟩) (out := []) rfl shut_none
      rw [List.mapM_cons, hp.order, h₁, Res.ok_bind, Res.pure_eq, Res.ok_bind, ← hp.order,
        ih fun j hj' => hj j (List.mem_cons_of_mem _ hj'), Res.ok_bind]
      simp [hv, Res.pure_eq]
  exact this (List.range P.maxPhase) fun j hj => by
    have := List.mem_range.1 hj
    rw [hp.visits.1, ← hp.visits.2]
    exact this

/-! ## The text determines the code -/

/-- the end, or the end of a part -/
def Stops : List (Tok V) → Prop
  | [] => True
  | .loopEnd _ :: _ => True
  | .elseOpen :: _ => True
  | .close :: _ => True
  | _ => False

theorem stops_render {c : Code V} {x : List (Tok V)} (h : Stops (c.render ++ x)) : c = .done := by
  cases c with
  | done => rfl
  | visit c p rest => exact h.elim
  | assign i e rest => exact h.elim
  | loop id body rest => exact h.elim
  | letNode e rest => exact h.elim
  | ifs reads fn t f rest => exact h.elim
  | mat pat t f rest => exact h.elim

theorem render_inj {a : Code V} : ∀ {b : Code V} {x y : List (Tok V)}, a.render ++ x = b.render ++ y → Stops x → Stops y →
    a = b ∧ x = y := by
  induction a with
  | done =>
    intro b x y h hx hy
    have : Stops (b.render ++ y) := by rw [← h]; exact hx
    have := stops_render this
    subst this
    exact ⟨rfl, h⟩
  | visit c p rest ih =>
    intro b x y h hx hy
    cases b with
    | visit c' p' rest' =>
      simp only [Code.render, List.cons_append, List.cons.injEq, Tok.visit.injEq] at h
      obtain ⟨⟨rfl, rfl⟩, h⟩ := h
      obtain ⟨rfl, rfl⟩ := ih h hx hy
      exact ⟨rfl, rfl⟩
    | done => simp only [Code.render, List.nil_append, List.cons_append] at h; rw [← h] at hy; exact hy.elim
    | _ => simp [Code.render] at h
  | assign i e rest ih =>
    intro b x y h hx hy
    cases b with
    | assign i' e' rest' =>
      simp only [Code.render, List.cons_append, List.cons.injEq, Tok.assign.injEq] at h
      obtain ⟨⟨rfl, rfl⟩, h⟩ := h
      obtain ⟨rfl, rfl⟩ := ih h hx hy
      exact ⟨rfl, rfl⟩
    | done => simp only [Code.render, List.nil_append, List.cons_append] at h; rw [← h] at hy; exact hy.elim
    | _ => simp [Code.render] at h
  | letNode e rest ih =>
    intro b x y h hx hy
    cases b with
    | letNode e' rest' =>
      simp only [Code.render, List.cons_append, List.cons.injEq, Tok.letNode.injEq] at h
      obtain ⟨rfl, h⟩ := h
      obtain ⟨rfl, rfl⟩ := ih h hx hy
      exact ⟨rfl, rfl⟩
    | done => simp only [Code.render, List.nil_append, List.cons_append] at h; rw [← h] at hy; exact hy.elim
    | _ => simp [Code.render] at h
  | loop id body rest ihb ih =>
    intro b x y h hx hy
    cases b with
    | loop id' body' rest' =>
      simp only [Code.render, List.cons_append, List.append_assoc, List.cons.injEq, Tok.loopStart.injEq] at h
      obtain ⟨rfl, h⟩ := h
      obtain ⟨h₁, h₂⟩ := ihb h trivial trivial
      subst h₁
      clear h
      simp only [List.cons.injEq, true_and] at h₂
      have h := h₂
      clear h₂
      obtain ⟨rfl, rfl⟩ := ih h hx hy
      exact ⟨rfl, rfl⟩
    | done => simp only [Code.render, List.nil_append, List.cons_append] at h; rw [← h] at hy; exact hy.elim
    | _ => simp [Code.render] at h
  | ifs reads fn t f rest iht ihf ih =>
    intro b x y h hx hy
    cases b with
    | ifs reads' fn' t' f' rest' =>
      simp only [Code.render, List.cons_append, List.append_assoc, List.cons.injEq, Tok.ifOpen.injEq] at h
      obtain ⟨⟨rfl, rfl⟩, h⟩ := h
      obtain ⟨h₁, h₂⟩ := iht h trivial trivial
      subst h₁
      clear h
      simp only [List.cons.injEq, true_and] at h₂
      have h := h₂
      clear h₂
      obtain ⟨h₁, h₂⟩ := ihf h trivial trivial
      subst h₁
      clear h
      simp only [List.cons.injEq, true_and] at h₂
      have h := h₂
      clear h₂
      obtain ⟨rfl, rfl⟩ := ih h hx hy
      exact ⟨rfl, rfl⟩
    | done => simp only [Code.render, List.nil_append, List.cons_append] at h; rw [← h] at hy; exact hy.elim
    | _ => simp [Code.render] at h
  | mat pat t f rest iht ihf ih =>
    intro b x y h hx hy
    cases b with
    | mat pat' t' f' rest' =>
      simp only [Code.render, List.cons_append, List.append_assoc, List.cons.injEq, Tok.matOpen.injEq] at h
      obtain ⟨rfl, h⟩ := h
      obtain ⟨h₁, h₂⟩ := iht h trivial trivial
      subst h₁
      clear h
      simp only [List.cons.injEq, true_and] at h₂
      have h := h₂
      clear h₂
      obtain ⟨h₁, h₂⟩ := ihf h trivial trivial
      subst h₁
      clear h
      simp only [List.cons.injEq, true_and] at h₂
      have h := h₂
      clear h₂
      obtain ⟨rfl, rfl⟩ := ih h hx hy
      exact ⟨rfl, rfl⟩
    | done => simp only [Code.render, List.nil_append, List.cons_append] at h; rw [← h] at hy; exact hy.elim
    | _ => simp [Code.render] at h

/-- Different codes are printed differently. -/
theorem render_injective {a b : Code V} (h : a.render = b.render) : a = b :=
  (render_inj (x := []) (y := []) (by simpa using h) trivial trivial).1

/-- The procedures of a planned production. -/
theorem codes_planned {ph : Phyla} {cyc : Nat → Nat → Bool} {A : Attrs V} {P : SProd V} {plan : List Visit}
    (hd : Described ph P.base) (hp : Planned ph cyc A P plan) {codes : List (Code V)} (h : Printed P codes) :
    codes = (List.range P.maxPhase).map fun j => runsCode P (j + 1) (j == 0) ((plan[j]?.map (·.runs)).getD []) := by
  unfold Printed at h
  rw [dumpVisits_planned hd hp] at h
  cases hl : codes.map Code.render with
  | _ =>
    have h' : (codes.map Code.render) = ((List.range P.maxPhase).map fun j =>
        runsCode P (j + 1) (j == 0) ((plan[j]?.map (·.runs)).getD [])).map Code.render := by
      rw [List.map_map]
      exact (Res.ok.inj h).symm
    exact List.map_injective_iff.2 (fun _ _ => render_injective) h'

end Aps.SccGen
