import Verif.Proofs.SccEmit
/-!
# Printing succeeds, and prints equations
-/
set_option linter.unusedVariables false
namespace Aps.SccGen
open Aps.Oag Aps.Dnc Aps.Static

variable {V : Type}

theorem assignStep_total {P : SProd V} {step : Nat} {b : Block V} : ∀ {arr : Asgs V},
    (∀ q ∈ b.own, q.1 < P.base.insts.length) → ∃ arr', assignStep P step b arr = .ok arr' := by
  induction b with
  | nil => intro arr _; exact ⟨arr, rfl⟩
  | decl i rest ih => intro arr h; exact ih h
  | cond r t f rest iht ihf ih => intro arr h; exact ih h
  | assign i e rest ih =>
    intro arr h
    have hi : ¬ i ≥ P.base.insts.length := by have := h (i, e) (by simp [Block.own]); simpa using this
    have hr : ∀ q ∈ rest.own, q.1 < P.base.insts.length := fun q hq => h q (by simp [Block.own, hq])
    simp only [assignStep, hi, if_false]
    split
    · split <;> exact ih hr
    · exact ih hr

theorem makeAssignment_total {P : SProd V} {b : Block V} {arr : Asgs V} (h : ∀ q ∈ b.own, q.1 < P.base.insts.length) :
    ∃ arr', makeAssignment P b arr = .ok arr' := by
  obtain ⟨a₁, h₁⟩ := assignStep_total (P := P) (step := 1) (arr := insertDefaults P arr) h
  obtain ⟨a₂, h₂⟩ := assignStep_total (P := P) (step := 2) (arr := a₁) h
  exact ⟨a₂, by simp [makeAssignment, h₁, h₂]⟩

theorem chunkStep_total {scala : Bool} {P : SProd V} {phase : Nat} {allowed : Bool} {k : Nat} {chunk loop : Option Nat} {w : Writer V}
    (hw : Ready allowed loop w) (hq : scala = false → w.queue = []) :
    ∃ loop' w', chunkStep scala P phase allowed k chunk loop w = .ok (loop', w') ∧ Ready allowed loop' w' ∧
      (scala = false → w'.queue = []) := by
  cases scala with
  | true =>
    unfold chunkStep
    split
    · have hcs := close_state hw
      simp only
      split
      · rename_i hc
        simp only [Bool.and_eq_true] at hc
        refine ⟨some k, ⟨[k], (closeLoop true allowed loop w).2.out⟩, ?_, .inr ⟨hc.1.1, k, rfl, rfl⟩, fun h => by cases h⟩
        simp [loopStart, hcs.1]
      · exact ⟨_, _, rfl, .inl hcs.1, fun h => by cases h⟩
    · exact ⟨_, _, rfl, hw, fun h => by cases h⟩
  | false =>
    have h0 := hq rfl
    unfold chunkStep
    split
    · simp only
      have hc : (closeLoop false allowed loop w).2 = w := closeLoop_cpp _ _ _
      split
      · exact ⟨some k, w, by simp [loopStart, hc], .inl h0, fun _ => h0⟩
      · have hcq : ((closeLoop false allowed loop w).2).queue = [] := by rw [hc]; exact h0
        exact ⟨_, _, rfl, .inl hcq, fun _ => hcq⟩
    · exact ⟨_, _, rfl, hw, fun _ => h0⟩

theorem writeAll_queue {w : Writer V} {ts : List (Tok V)} (h : w.queue = []) : (w.writeAll ts).queue = [] := by
  unfold Writer.writeAll
  split
  · exact h
  · rfl

/-- Printing succeeds. -/
theorem implement_total {scala : Bool} {P : SProd V} {phase : Nat} {t : Chunk.Tree} : ∀ {asg : Asgs V} {c : Cond} {chunk : Option Nat}
    {allowed : Bool} {loop : Option Nat} {w : Writer V}, P.Fits t → Ready allowed loop w → (scala = false → w.queue = []) →
    ∃ w', implement scala P phase t asg c chunk allowed loop w = .ok w' := by
  induction t with
  | nil => intros; exact ⟨_, rfl⟩
  | inst i v k next ih =>
    intro asg c chunk allowed loop w hf hw hq
    obtain ⟨loop', w', hs, hw', hq'⟩ := chunkStep_total (P := P) (phase := phase) (k := k) (chunk := chunk) hw hq
    obtain ⟨⟨inst, hi, hr⟩, hf⟩ := hf
    simp only [implement, hs, Res.ok_bind, hi, hr, Option.isSome_none, Bool.false_eq_true, if_false]
    split
    · exact ih hf hw' hq'
    · split
      · exact ih hf hw' hq'
      · exact ih hf (ready_writeAll hw') (fun h => writeAll_queue (hq' h))
  | mark ph ch v k next ih =>
    intro asg c chunk allowed loop w hf hw hq
    obtain ⟨loop', w', hs, hw', hq'⟩ := chunkStep_total (P := P) (phase := phase) (k := k) (chunk := chunk) hw hq
    simp only [implement, hs, Res.ok_bind]
    split
    · exact ih hf hw' hq'
    · split
      · have : ((closeLoop scala allowed loop' w').2).queue = [] := by
          cases scala with
          | true => exact (close_state hw').1
          | false => rw [closeLoop_cpp]; exact hq' rfl
        split
        · exact ⟨_, rfl⟩
        · exact ih hf (.inl this) (fun _ => this)
      · exact ih hf (.inl rfl) (fun _ => rfl)
  | ifs i v k t f iht ihf =>
    intro asg c chunk allowed loop w hf hw hq
    obtain ⟨loop', w', hs, hw', hq'⟩ := chunkStep_total (P := P) (phase := phase) (k := k) (chunk := chunk) hw hq
    obtain ⟨⟨inst, rule, hi, hr, hn, h₁, h₂⟩, hft, hff⟩ := hf
    obtain ⟨r, hr'⟩ := Option.isSome_iff_exists.1 hn
    simp only [implement, hs, Res.ok_bind, hi, hr, hr']
    split
    · exact ihf hff hw' hq'
    · obtain ⟨a₁, e₁⟩ := makeAssignment_total (arr := asg) h₁
      have e₂ : ∃ a₂, elseAssignment P rule.ifFalse asg = .ok a₂ := by
        unfold elseAssignment
        cases hb : rule.ifFalse with
        | none => exact ⟨_, rfl⟩
        | some b => exact makeAssignment_total (h₂ b hb)
      obtain ⟨a₂, e₂⟩ := e₂
      obtain ⟨w₁, e₃⟩ := iht (asg := a₁) (c := ⟨c.pos ||| cmask r, c.neg⟩) (chunk := some k) (allowed := allowed && loop'.isNone) (loop := loop')
        (w := w'.write (condHead rule.test)) hft (.inl rfl) (fun _ => rfl)
      obtain ⟨w₂, e₄⟩ := ihf (asg := a₂) (c := ⟨(c.pos ||| cmask r) &&& ~~~cmask r, c.neg ||| cmask r⟩) (chunk := some k)
        (allowed := allowed && loop'.isNone) (loop := loop') (w := w₁.write [.elseOpen]) hff (.inl rfl) (fun _ => rfl)
      rw [e₁, Res.ok_bind, e₃, Res.ok_bind, e₂, Res.ok_bind, e₄]
      exact ⟨_, rfl⟩

/-- what is written stays there: the tokens that assign come from the instances -/
def Says (P : SProd V) (ts : List (Tok V)) : Prop := ∀ i e, Tok.assign i e ∈ ts → P.rhs i = some e

theorem says_append {P : SProd V} {a b : List (Tok V)} : Says P (a ++ b) ↔ Says P a ∧ Says P b := by
  constructor
  · intro h
    exact ⟨fun i e hm => h i e (List.mem_append_left _ hm), fun i e hm => h i e (List.mem_append_right _ hm)⟩
  · rintro ⟨h₁, h₂⟩ i e hm
    rcases List.mem_append.1 hm with hm | hm
    · exact h₁ i e hm
    · exact h₂ i e hm

theorem says_starts {P : SProd V} (q : List Nat) : Says P (q.map Tok.loopStart) := by
  intro i e hm
  simp at hm

theorem says_write {P : SProd V} {w : Writer V} {ts : List (Tok V)} (h : Says P w.out) (ht : Says P ts) : Says P (w.write ts).out := by
  unfold Writer.write
  exact says_append.2 ⟨says_append.2 ⟨h, says_starts _⟩, ht⟩

theorem says_close {scala : Bool} {P : SProd V} {allowed : Bool} {loop : Option Nat} {w : Writer V} (h : Says P w.out) :
    Says P (closeLoop scala allowed loop w).2.out := by
  unfold closeLoop
  split
  · split
    · unfold loopEnd
      split
      · exact h
      · split
        · exact says_write h (by intro i e hm; simp at hm)
        · exact h
    · exact h
  · exact h

theorem says_chunk {scala : Bool} {P : SProd V} {phase : Nat} {allowed : Bool} {k : Nat} {chunk loop loop' : Option Nat} {w w' : Writer V}
    (h : Says P w.out) (hs : chunkStep scala P phase allowed k chunk loop w = .ok (loop', w')) : Says P w'.out := by
  unfold chunkStep at hs
  split at hs
  · simp only at hs
    split at hs
    · obtain ⟨w₂, h₁, h₂⟩ := Res.bind_eq_ok.1 hs
      simp only [Res.pure_eq, Res.ok.injEq, _root_.Prod.mk.injEq] at h₂
      obtain ⟨_, rfl⟩ := h₂
      unfold loopStart at h₁
      split at h₁
      · simp only [Res.ok.injEq] at h₁
        rw [← h₁]
        exact says_close h
      · split at h₁
        · cases h₁
        · simp only [Res.ok.injEq] at h₁
          rw [← h₁]
          exact says_close (scala := scala) (allowed := allowed) (loop := loop) h
    · simp only [Res.pure_eq, Res.ok.injEq] at hs
      have := says_close (scala := scala) (allowed := allowed) (loop := loop) h
      rw [hs] at this
      exact this
  · simp only [Res.pure_eq, Res.ok.injEq, _root_.Prod.mk.injEq] at hs
    rw [← hs.2]
    exact h

/-- Without conditionals, what is assigned are the equations. -/
theorem says_implement {scala : Bool} {P : SProd V} {asg : Asgs V} (hP : Walks P asg) {phase : Nat} {t : Chunk.Tree} :
    ∀ {c : Cond} {chunk : Option Nat} {allowed : Bool} {loop : Option Nat} {w w' : Writer V}, Says P w.out →
    implement scala P phase t asg c chunk allowed loop w = .ok w' → Says P w'.out := by
  induction t with
  | nil =>
    intro c chunk allowed loop w w' hs h
    simp only [implement, Res.ok.injEq] at h
    rw [← h]
    exact says_close hs
  | inst i v k next ih =>
    intro c chunk allowed loop w w' hs h
    simp only [implement] at h
    obtain ⟨⟨loop', w₁⟩, hc, h⟩ := Res.bind_eq_ok.1 h
    have h₁ := says_chunk hs hc
    simp only at h
    split at h
    · exact ih h₁ h
    · split at h
      · cases h
      · rename_i inst hi
        split at h
        · cases h
        · split at h
          · exact ih h₁ h
          · refine ih ?_ h
            unfold Writer.writeAll
            split
            · exact h₁
            · refine says_write h₁ ?_
              rw [hP.toks i inst hi]
              unfold stepToks
              simp only [hi]
              intro i' e hm
              simp only [Option.mem_toList, Option.mem_def, Option.map_eq_some_iff, Tok.assign.injEq] at hm
              obtain ⟨e', he', rfl, rfl⟩ := hm
              unfold emits at he'
              split at he'
              · cases he'
              · split at he' <;> (try split at he') <;> first | cases he'; done | exact he'
  | mark ph ch v k next ih =>
    intro c chunk allowed loop w w' hs h
    simp only [implement] at h
    obtain ⟨⟨loop', w₁⟩, hc, h⟩ := Res.bind_eq_ok.1 h
    have h₁ := says_chunk hs hc
    simp only at h
    split at h
    · exact ih h₁ h
    · split at h
      · split at h
        · simp only [Res.ok.injEq] at h
          rw [← h]
          exact says_close h₁
        · exact ih (says_close h₁) h
      · exact ih (says_write h₁ (by intro i e hm; simp at hm)) h
  | ifs i v k t f iht ihf =>
    intro c chunk allowed loop w w' hs h
    simp only [implement] at h
    obtain ⟨⟨loop', w₁⟩, hc, h⟩ := Res.bind_eq_ok.1 h
    simp only at h
    split at h
    · rename_i inst r hi hr
      rw [hP.rules i inst hi] at h
      cases h
    · cases h

end Aps.SccGen
