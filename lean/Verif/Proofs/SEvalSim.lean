import Verif.Proofs.SEvalGet
set_option linter.unusedVariables false
/-! The Scala runtime: with the guard set, evaluation does what the code does, or stops. -/
namespace Aps.ScalaEval
variable {V : Type}

/-- The program with the guard set. -/
def Sys.guarded (S : Sys V) : Sys V := { S with guard := true }

/-- `o1` is `o0`, unless it was stopped. -/
def Sim {α : Type} (o1 o0 : Out V α) : Prop := o1 = o0 ∨ (∃ s, o1 = .exc .skipped s) ∨ o1 = .nofuel

theorem Sim.refl {α : Type} (o : Out V α) : Sim o o := .inl rfl

theorem Sim.bind {α β : Type} {o1 o0 : Out V α} {f1 f0 : α → St V → Out V β} (h : Sim o1 o0)
    (hf : ∀ a s, Sim (f1 a s) (f0 a s)) : Sim (o1.bind f1) (o0.bind f0) := by
  rcases h with rfl | ⟨s, rfl⟩ | rfl
  · cases o1 with
    | ok a s => exact hf a s
    | exc e s => exact .inl rfl
    | nofuel => exact .inl rfl
  · exact .inr (.inl ⟨s, rfl⟩)
  · exact .inr (.inr rfl)

theorem Sim.ite {α : Type} {p : Prop} [Decidable p] {a1 a0 b1 b0 : Out V α} (h : Sim a1 a0)
    (h' : Sim b1 b0) : Sim (if p then a1 else b1) (if p then a0 else b0) := by
  split
  · exact h
  · exact h'

variable {S : Sys V}

theorem inCycle_guarded : ∀ f i s, inCycle S.guarded f i s = inCycle S f i s := by
  intro f
  induction f with
  | zero => intros; rfl
  | succ f ih =>
    intro i s
    simp only [inCycle, ih]
    rfl

theorem setInCycle_guarded (f e ce : Nat) (s : St V) :
    setInCycle S.guarded f e ce s = setInCycle S f e ce s := by
  simp only [setInCycle, inCycle_guarded]; rfl

theorem markLoop_guarded (f cycle : Nat) : ∀ es s, markLoop S.guarded f cycle es s = markLoop S f cycle es s := by
  intro es
  induction es with
  | nil => intros; rfl
  | cons e es ih => intro s; simp only [markLoop, inCycle_guarded, setInCycle_guarded, ih]

/-- The guard only reads. -/
theorem guardMark_sim (f cycle : Nat) : ∀ es out s,
    (∀ e ∈ es, ∀ x t, inCycle S f e s ≠ .exc x t) → Sim (guardMark S f cycle out es s) (.ok () s) := by
  intro es
  induction es with
  | nil => intros; exact .inl rfl
  | cons e es ih =>
    intro out s h
    simp only [guardMark]
    cases hc : inCycle S f e s with
    | nofuel => exact .inr (.inr rfl)
    | exc x t => exact absurd hc (h e (by simp) x t)
    | ok q t =>
      have h' : ∀ e ∈ es, ∀ x t, inCycle S f e s ≠ .exc x t := fun e he => h e (by simp [he])
      simp only
      split
      · split
        · exact .inr (.inl ⟨s, rfl⟩)
        · exact ih _ _ h'
      · exact ih _ _ h'

theorem inCycle_noexc : ∀ f i (s : St V) x t, inCycle S f i s ≠ .exc x t := by
  intro f
  induction f with
  | zero => intro i s x t h; cases h
  | succ f ih =>
    intro i s x t h
    simp only [inCycle] at h
    split at h
    · split at h
      · cases h
      · next p _ =>
        by_cases hp : p ≠ i
        · rw [if_pos hp] at h
          cases hc : inCycle S f p s with
          | nofuel => rw [hc] at h; cases h
          | exc y u => exact ih _ _ _ _ hc
          | ok q u =>
            rw [hc] at h
            simp only [Out.bind] at h
            split at h <;> cases h
        · rw [if_neg hp] at h
          simp only [Out.bind] at h
          split at h <;> cases h
    · cases h

theorem markPending_sim (f i : Nat) (s : St V) (hg : S.guard = false) :
    Sim (markPending S.guarded f i s) (markPending S f i s) := by
  simp only [markPending, inCycle_guarded, markLoop_guarded]
  refine (Sim.refl _).bind fun q s => ?_
  cases q with
  | none => exact .inl rfl
  | some c =>
    refine (Sim.refl _).bind fun _ s => ?_
    simp only [hg, Sys.guarded, if_true, Bool.false_eq_true, if_false]
    exact guardMark_sim f c _ _ _ fun e _ x t => inCycle_noexc f e s x t

theorem detectedCycle_sim (f i : Nat) (s : St V) (hg : S.guard = false) :
    Sim (detectedCycle S.guarded f i s) (detectedCycle S f i s) := by
  simp only [detectedCycle]
  show Sim (if S.circular i = true then _ else _) _
  split
  · exact (markPending_sim f i _ hg).bind fun _ s => Sim.refl _
  · exact Sim.refl _

theorem runComp_sim {r1 r0 : Nat → St V → Out V V} (h : ∀ i s, Sim (r1 i s) (r0 i s)) :
    ∀ c s, Sim (runComp r1 c s) (runComp r0 c s) := by
  intro c
  induction c with
  | ret => intros; exact Sim.refl _
  | undef => intros; exact Sim.refl _
  | read i k ih => intro s; exact (h i s).bind fun v s => ih v s

theorem check_guarded (f i : Nat) (v : V) (s : St V) : check S.guarded f i v s = check S f i v s := by
  simp only [check, inCycle_guarded]; rfl

theorem recompute_sim {r1 r0 : Nat → St V → Out V V} (h : ∀ i s, Sim (r1 i s) (r0 i s)) (f i : Nat)
    (s : St V) : Sim (recompute S.guarded r1 f i s) (recompute S r0 f i s) := by
  simp only [recompute, check_guarded]
  exact (runComp_sim h _ s).bind fun v s => Sim.refl _

theorem pass_sim {r1 r0 : Nat → St V → Out V V} (h : ∀ i s, Sim (r1 i s) (r0 i s)) (f l : Nat) :
    ∀ n c s, Sim (pass S.guarded r1 f l n c s) (pass S r0 f l n c s) := by
  intro n
  induction n with
  | zero => intros; exact .inl rfl
  | succ n ih =>
    intro c s
    simp only [pass]
    refine (recompute_sim h f c _).bind fun _ s => (Sim.refl _).bind fun _ s => ?_
    refine Sim.ite (Sim.refl _) ?_
    cases s.next c with
    | none => exact Sim.refl _
    | some c' => exact ih c' s

theorem cycleLoop_sim {r1 r0 : Nat → St V → Out V V} (h : ∀ i s, Sim (r1 i s) (r0 i s)) (f l : Nat) :
    ∀ n s, Sim (cycleLoop S.guarded r1 f l n s) (cycleLoop S r0 f l n s) := by
  intro n
  induction n with
  | zero => intros; exact .inl rfl
  | succ n ih =>
    intro s
    simp only [cycleLoop]
    cases s.helper l with
    | none => exact Sim.refl _
    | some x =>
      refine (pass_sim h f l f l _).bind fun b s => ?_
      refine Sim.ite ?_ (Sim.refl _)
      cases s.helper l with
      | none => exact Sim.refl _
      | some y => exact Sim.ite (ih s) (Sim.refl _)

theorem get_sim (hg : S.guard = false) : ∀ f i s, Sim (get S.guarded f i s) (get S f i s) := by
  intro f
  induction f with
  | zero => intros; exact .inl rfl
  | succ f ih =>
    intro i s
    simp only [get]
    rw [show initValue S.guarded i s = initValue S i s from rfl]
    generalize initValue S i s = s
    have h : Sim ((runComp (get S.guarded f) (S.compute i)
        { s with status := upd s.status i .cycle, pending := i :: s.pending }).bind fun v s =>
      (pop { s with value := upd s.value i v }).bind fun _ s =>
      (inCycle S.guarded f i s).bind fun q s =>
      if q ≠ none then
        (evaluateCycle S.guarded (get S.guarded f) f i s).bind fun _ s => .ok (s.value i) s
      else
        let s := { s with status := upd s.status i .evaluated }
        .ok (s.value i) s)
      ((runComp (get S f) (S.compute i)
        { s with status := upd s.status i .cycle, pending := i :: s.pending }).bind fun v s =>
      (pop { s with value := upd s.value i v }).bind fun _ s =>
      (inCycle S f i s).bind fun q s =>
      if q ≠ none then
        (evaluateCycle S (get S f) f i s).bind fun _ s => .ok (s.value i) s
      else
        let s := { s with status := upd s.status i .evaluated }
        .ok (s.value i) s) := by
      refine (runComp_sim ih _ _).bind fun v s => (Sim.refl _).bind fun _ s => ?_
      rw [inCycle_guarded]
      refine (Sim.refl _).bind fun q s => ?_
      refine Sim.ite (Sim.bind ?_ fun _ s => Sim.refl _) (Sim.refl _)
      simp only [evaluateCycle]
      exact Sim.ite (cycleLoop_sim ih f i f s) (Sim.refl _)
    cases s.status i with
    | uninit => exact h
    | uneval => exact h
    | cycle => exact detectedCycle_sim f i s hg
    | evaluated => exact Sim.refl _
    | assigned => exact Sim.refl _

/-- What the guarded program gives, the code gives. -/
theorem get_guarded (hg : S.guard = false) {f i : Nat} {s s' : St V} {v : V}
    (h : get S.guarded f i s = .ok v s') : get S f i s = .ok v s' := by
  rcases get_sim hg f i s with e | ⟨t, e⟩ | e
  · rw [← e]; exact h
  · rw [e] at h; cases h
  · rw [e] at h; cases h

theorem Demands.guarded (hg : S.guard = false) {s s' : St V} {l : List (Nat × V)}
    (h : Demands S.guarded s l s') : Demands S s l s' := by
  induction h with
  | nil => exact .nil _
  | cons fuel e _ ih => exact .cons fuel (get_guarded hg e) ih

end Aps.ScalaEval
