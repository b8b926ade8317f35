import Verif.Proofs.SEvalBase
set_option linter.unusedVariables false
/-! The Scala runtime: what a failed demand leaves behind. -/
namespace Aps.ScalaEval
variable {V : Type}

/-- `P` holds of the state in which `o` ends, `Q` of what it returns. -/
def Ends {α : Type} (o : Out V α) (P : St V → Prop) (Q : α → Prop) : Prop :=
  match o with
  | .ok a s => P s ∧ Q a
  | .exc _ s => P s
  | .nofuel => True

theorem Ends.bind {α β : Type} {o : Out V α} {g : α → St V → Out V β} {P : St V → Prop} {Q : α → Prop} {R : β → Prop}
    (h : Ends o P Q) (k : ∀ a s, P s → Q a → Ends (g a s) P R) : Ends (o.bind g) P R := by
  cases o with
  | ok a s => exact k a s h.1 h.2
  | exc e s => exact h
  | nofuel => trivial

/-- Only circular instances are linked. -/
structure Circ (S : Sys V) (s : St V) : Prop where
  next : ∀ j p, s.next j = some p → S.circular p = true
  parent : ∀ j p, s.parent j = some p → S.circular p = true

/-- `Circ`, and if `i` is given, its evaluation has started and not ended. -/
def Held (S : Sys V) (i : Option Nat) (s : St V) : Prop := Circ S s ∧ ∀ k, i = some k → s.status k = .cycle

variable {S : Sys V} {i : Option Nat}

theorem Held.same {s s' : St V} (h : Held S i s) (e1 : s'.status = s.status) (e2 : s'.next = s.next) (e3 : s'.parent = s.parent) :
    Held S i s' := ⟨⟨by rw [e2]; exact h.1.next, by rw [e3]; exact h.1.parent⟩, by rw [e1]; exact h.2⟩

def CircQ (S : Sys V) (q : Option Nat) : Prop := ∀ p, q = some p → S.circular p = true

theorem upd_circ {f : Nat → Option Nat} {q : Option Nat} {i : Nat} (h : ∀ j p, f j = some p → S.circular p = true)
    (hq : CircQ S q) : ∀ j p, upd f i q j = some p → S.circular p = true := by
  intro j p
  by_cases e : j = i
  · subst e; rw [upd_self]; exact hq p
  · rw [upd_ne _ _ e]; exact h j p

theorem inCycle_ends : ∀ f j (s : St V), Held S i s → Ends (inCycle S f j s) (Held S i) (CircQ S) := by
  intro f
  induction f with
  | zero => intros; trivial
  | succ f ih =>
    intro j s h
    simp only [inCycle]
    by_cases hc : S.circular j = true
    · simp only [hc, if_true]
      cases hp : s.parent j with
      | none => exact ⟨h, fun _ e => nomatch e⟩
      | some p =>
        simp only []
        refine Ends.bind (Q := CircQ S) ?_ fun q s h hq => ?_
        · by_cases hn : p = j
          · simp only [hn, ne_eq, not_true, if_false]
            refine ⟨h, fun _ e => ?_⟩
            cases e; exact hc
          · simp only [ne_eq, hn, not_false_iff, if_true]; exact ih p s h
        · by_cases hn : q = s.parent j
          · simp only [hn, ne_eq, not_true, if_false]; exact ⟨h, hn ▸ hq⟩
          · simp only [ne_eq, hn, not_false_iff, if_true]
            exact ⟨⟨⟨h.1.next, upd_circ h.1.parent hq⟩, h.2⟩, hq⟩
    · simp only [hc]; exact ⟨h, fun _ e => nomatch e⟩

theorem helperAdd_ends {ce c : Nat} {s : St V} (h : Held S i s) (hc : S.circular c = true) :
    Ends (helperAdd ce c s) (Held S i) fun _ => True := by
  simp only [helperAdd]
  cases s.helper ce with
  | none => exact h
  | some x =>
    simp only []
    cases x.cycleLast with
    | none => exact h
    | some l =>
      simp only []
      by_cases e : s.next c = none
      · simp only [e, if_true]
        exact ⟨⟨⟨upd_circ h.1.next fun _ e => by cases e; exact hc, h.1.parent⟩, h.2⟩, trivial⟩
      · simp only [e, if_false]; exact h

theorem helperAddAll_ends {ce c : Nat} {s : St V} (h : Held S i s) (hc : S.circular c = true) :
    Ends (helperAddAll ce c s) (Held S i) fun _ => True := by
  simp only [helperAddAll]
  cases s.helper ce with
  | none => exact h
  | some x =>
    simp only []
    cases s.helper c with
    | none => exact h
    | some o =>
      simp only []
      by_cases e : c = ce
      · simp only [if_pos e]; exact ⟨h, trivial⟩
      · simp only [if_neg e]
        cases x.cycleLast <;> cases o.cycleLast
        · exact h
        · exact h
        · exact h
        · rename_i l l'
          simp only []
          by_cases e : s.next l = none
          · simp only [e, if_true]
            exact ⟨⟨⟨upd_circ h.1.next fun _ e => by cases e; exact hc, h.1.parent⟩, h.2⟩, trivial⟩
          · simp only [e, if_false]; exact h

theorem setInCycle_ends (f : Nat) {e ce : Nat} {s : St V} (h : Held S i s) (hce : S.circular ce = true) :
    Ends (setInCycle S f e ce s) (Held S i) fun _ => True := by
  have hq : CircQ S (some ce) := fun _ e => by cases e; exact hce
  simp only [setInCycle]
  by_cases hc : S.circular e = true
  · simp only [hc, if_true]
    cases s.parent e with
    | none => exact helperAdd_ends ⟨⟨h.1.next, upd_circ h.1.parent hq⟩, h.2⟩ hc
    | some p =>
      refine Ends.bind (inCycle_ends f e s h) fun q s h hq' => ?_
      cases q with
      | none => exact h
      | some p =>
        refine Ends.bind (helperAddAll_ends h (hq' p rfl)) fun _ s h _ => ?_
        exact ⟨⟨⟨h.1.next, upd_circ h.1.parent hq⟩, h.2⟩, trivial⟩
  · simp only [hc]; exact h

theorem markLoop_ends (f : Nat) {c : Nat} (hc : S.circular c = true) : ∀ (l : List Nat) (s : St V), Held S i s →
    Ends (markLoop S f c l s) (Held S i) fun _ => True := by
  intro l
  induction l with
  | nil => intro s h; exact ⟨h, trivial⟩
  | cons e l ih =>
    intro s h
    refine Ends.bind (inCycle_ends f e s h) fun q s h hq' => ?_
    by_cases hq : q = some c
    · simp only [hq, if_true]; exact ⟨h, trivial⟩
    · simp only [hq, if_false]
      exact Ends.bind (setInCycle_ends f h hc) fun _ s h _ => ih s h

theorem guardMark_ends (f c : Nat) : ∀ (l : List Nat) (out : Bool) (s : St V), Held S i s →
    Ends (guardMark S f c out l s) (Held S i) fun _ => True := by
  intro l
  induction l with
  | nil => intro out s h; exact ⟨h, trivial⟩
  | cons e l ih =>
    intro out s h
    have := inCycle_ends f e s h
    simp only [guardMark]
    cases hx : inCycle S f e s with
    | nofuel => trivial
    | exc x t => rw [hx] at this; exact this
    | ok q t =>
      simp only []
      by_cases hq : q = some c
      · simp only [hq, if_true]
        cases out
        · exact ih false s h
        · exact h
      · simp only [hq, if_false]; exact ih true s h

theorem markPending_ends (f j : Nat) (s : St V) (h : Held S i s) :
    Ends (markPending S f j s) (Held S i) fun _ => True := by
  refine Ends.bind (inCycle_ends f j s h) fun q s h hq => ?_
  cases q with
  | none => exact h
  | some c =>
    refine Ends.bind (markLoop_ends f (hq c rfl) s.pending s h) fun _ s h _ => ?_
    by_cases hg : S.guard = true
    · simp only [hg, if_true]; exact guardMark_ends f c _ _ s h
    · simp only [hg]; exact ⟨h, trivial⟩

theorem detectedCycle_ends (f j : Nat) (s : St V) (h : Held S i s) :
    Ends (detectedCycle S f j s) (Held S i) fun _ => True := by
  simp only [detectedCycle]
  by_cases hc : S.circular j = true
  · simp only [hc, if_true]
    cases s.parent j with
    | some p => exact Ends.bind (markPending_ends f j s h) fun _ s h _ => ⟨h, trivial⟩
    | none =>
      refine Ends.bind (markPending_ends f j _ ?_) fun _ s h _ => ⟨h, trivial⟩
      exact ⟨⟨h.1.next, upd_circ h.1.parent fun _ e => by cases e; exact hc⟩, h.2⟩
  · simp only [hc]; exact h

def ERec (S : Sys V) (i : Option Nat) (rec : Nat → St V → Out V V) : Prop :=
  ∀ j s, Held S i s → Ends (rec j s) (Held S i) fun _ => True

theorem runComp_ends {rec : Nat → St V → Out V V} (hr : ERec S i rec) : ∀ (c : Comp V) (s : St V), Held S i s →
    Ends (runComp rec c s) (Held S i) fun _ => True := by
  intro c
  induction c with
  | ret v => intro s h; exact ⟨h, trivial⟩
  | undef => intro s h; exact h
  | read j k ih => intro s h; exact Ends.bind (hr j s h) fun v s h _ => ih v s h

theorem check_ends (f j : Nat) (v : V) (s : St V) (h : Held S i s) :
    Ends (check S f j v s) (Held S i) fun _ => True := by
  simp only [check]
  by_cases he : S.equal j (s.value j) v = true
  · simp only [he, if_true]; exact ⟨h, trivial⟩
  · simp only [he]
    refine Ends.bind (inCycle_ends f j s h) fun q s h hq => ?_
    cases q with
    | none => exact h
    | some r =>
      simp only []
      cases s.helper r with
      | none => exact h
      | some x =>
        simp only []
        by_cases hl : S.less j (s.value j) v = true
        · simp only [hl, if_true]; exact ⟨h.same rfl rfl rfl, trivial⟩
        · simp only [hl]; exact h.same rfl rfl rfl

theorem recompute_ends {rec : Nat → St V → Out V V} (hr : ERec S i rec) (f j : Nat) (s : St V) (h : Held S i s) :
    Ends (recompute S rec f j s) (Held S i) fun _ => True :=
  Ends.bind (runComp_ends hr _ s h) fun v s h _ => Ends.bind (check_ends f j v s h) fun _ s h _ =>
    ⟨h.same rfl rfl rfl, trivial⟩

theorem pop_ends (s : St V) (h : Held S i s) : Ends (pop s) (Held S i) fun _ => True := by
  simp only [pop]
  cases s.pending with
  | nil => exact h
  | cons e es => exact ⟨h.same rfl rfl rfl, trivial⟩

theorem pass_ends {rec : Nat → St V → Out V V} (hr : ERec S i rec) (f l : Nat) : ∀ n c (s : St V), Held S i s →
    Ends (pass S rec f l n c s) (Held S i) fun b => True := by
  intro n
  induction n with
  | zero => intros; trivial
  | succ n ih =>
    intro c s h
    refine Ends.bind (recompute_ends hr f c _ (h.same rfl rfl rfl)) fun _ s h _ => ?_
    refine Ends.bind (pop_ends s h) fun _ s h _ => ?_
    by_cases hp : s.parent l = some l
    · simp only [hp, ne_eq, not_true, if_false]
      cases s.next c with
      | none => exact ⟨h, trivial⟩
      | some c' => exact ih c' s h
    · simp only [ne_eq, hp, not_false_iff, if_true]; exact ⟨h, trivial⟩

theorem freeze_ends (hi : ∀ k, i = some k → S.circular k = false) : ∀ n c (s : St V), Held S i s → S.circular c = true →
    Ends (freeze n c s) (Held S i) fun _ => True := by
  intro n
  induction n with
  | zero => intros; trivial
  | succ n ih =>
    intro c s h hc
    have h' : Held S i { s with status := upd s.status c .evaluated } := by
      refine ⟨⟨h.1.next, h.1.parent⟩, fun k hk => ?_⟩
      have : k ≠ c := fun e => by have := hi k hk; rw [e, hc] at this; cases this
      show upd _ _ _ k = _
      rw [upd_ne _ _ this]; exact h.2 k hk
    simp only [freeze]
    cases hn : s.next c with
    | none => exact ⟨h', trivial⟩
    | some c' => exact ih c' _ h' (h.1.next c c' hn)

theorem cycleLoop_ends (hi : ∀ k, i = some k → S.circular k = false) {rec : Nat → St V → Out V V} (hr : ERec S i rec)
    (f l : Nat) (hl : S.circular l = true) : ∀ n (s : St V), Held S i s →
    Ends (cycleLoop S rec f l n s) (Held S i) fun _ => True := by
  intro n
  induction n with
  | zero => intros; trivial
  | succ n ih =>
    intro s h
    simp only [cycleLoop]
    cases s.helper l with
    | none => exact h
    | some x =>
      simp only []
      refine Ends.bind (pass_ends hr f l f l _ (h.same rfl rfl rfl)) fun b s h _ => ?_
      cases b
      · exact ⟨h, trivial⟩
      · simp only [if_true]
        cases s.helper l with
        | none => exact h
        | some y =>
          simp only []
          by_cases hm : y.modified = true
          · simp only [hm, if_true]; exact ih s h
          · simp only [hm]; exact freeze_ends hi f l s h hl

theorem get_ends (hi : ∀ k, i = some k → S.circular k = false) : ∀ f, ERec S i (get S f) := by
  intro f
  induction f with
  | zero => intro j s h; trivial
  | succ f ih =>
    intro j s0 h0
    have h : Held S i (initValue S j s0) := by
      simp only [initValue]
      cases S.collection j with
      | none => exact h0
      | some v =>
        simp only []
        by_cases hs : s0.status j = .uninit
        · simp only [hs, if_true]
          refine ⟨⟨h0.1.next, h0.1.parent⟩, fun k hk => ?_⟩
          have : k ≠ j := fun e => by have := h0.2 k hk; rw [e, hs] at this; cases this
          show upd _ _ _ k = _
          rw [upd_ne _ _ this]; exact h0.2 k hk
        · simp only [hs, if_false]; exact h0
    simp only [get]
    generalize initValue S j s0 = s at h
    have main : (∀ k, i = some k → k ≠ j) → Ends ((runComp (get S f) (S.compute j)
        { s with status := upd s.status j .cycle, pending := j :: s.pending }).bind fun v s =>
      (pop { s with value := upd s.value j v }).bind fun _ s =>
      (inCycle S f j s).bind fun q s =>
      if q ≠ none then
        (evaluateCycle S (get S f) f j s).bind fun _ s => .ok (s.value j) s
      else
        .ok (s.value j) { s with status := upd s.status j .evaluated }) (Held S i) fun _ => True := by
      intro hj
      refine Ends.bind (runComp_ends ih _ _ ?_) fun v s h _ => ?_
      · refine ⟨⟨h.1.next, h.1.parent⟩, fun k hk => ?_⟩
        show upd _ _ _ k = _
        rw [upd_ne _ _ (hj k hk)]; exact h.2 k hk
      refine Ends.bind (pop_ends _ (h.same rfl rfl rfl)) fun _ s h _ => ?_
      refine Ends.bind (inCycle_ends f j s h) fun q s h hq => ?_
      by_cases hn : q = none
      · simp only [hn, ne_eq, not_true, if_false]
        refine ⟨⟨⟨h.1.next, h.1.parent⟩, fun k hk => ?_⟩, trivial⟩
        show upd _ _ _ k = _
        rw [upd_ne _ _ (hj k hk)]; exact h.2 k hk
      · simp only [ne_eq, hn, not_false_iff, if_true]
        refine Ends.bind (Q := fun _ => True) ?_ fun _ s h _ => ⟨h, trivial⟩
        simp only [evaluateCycle]
        by_cases hp : s.parent j = some j
        · simp only [hp, if_true]; exact cycleLoop_ends hi ih f j (h.1.parent j j hp) f s h
        · simp only [hp, if_false]; exact ⟨h, trivial⟩
    cases hs : s.status j with
    | cycle => exact detectedCycle_ends f j s h
    | uninit => exact main fun k hk e => by have := h.2 k hk; rw [e, hs] at this; cases this
    | uneval => exact main fun k hk e => by have := h.2 k hk; rw [e, hs] at this; cases this
    | evaluated => exact ⟨h, trivial⟩
    | assigned => exact ⟨h, trivial⟩

/-- A demand that fails leaves the instance in the state of being evaluated. -/
theorem get_fails {k : Nat} (hk : S.circular k = false) {f : Nat} {s s' : St V} {x : Exc} (h : Circ S s)
    (e : get S f k s = .exc x s') : Held S (some k) s' := by
  cases f with
  | zero => cases e
  | succ f =>
    have hi : ∀ k', some k = some k' → S.circular k' = false := fun _ e => by cases e; exact hk
    by_cases hc : s.status k = .cycle
    · have := get_ends hi (f + 1) k s ⟨h, fun _ e => by cases e; exact hc⟩
      rw [e] at this; exact this
    · have hcirc : Circ S (initValue S k s) := by
        simp only [initValue]
        cases S.collection k with
        | none => exact h
        | some v =>
          simp only []
          by_cases hs : s.status k = .uninit
          · simp only [hs, if_true]; exact ⟨h.next, h.parent⟩
          · simp only [hs, if_false]; exact h
      have hne : (initValue S k s).status k ≠ .cycle := by
        simp only [initValue]
        cases S.collection k with
        | none => exact hc
        | some v =>
          simp only []
          by_cases hs : s.status k = .uninit
          · simp only [hs, if_true, upd_self]; simp
          · simp only [hs, if_false]; exact hc
      simp only [get] at e
      generalize initValue S k s = s1 at hcirc hne e
      have main : (runComp (get S f) (S.compute k)
        { s1 with status := upd s1.status k .cycle, pending := k :: s1.pending }).bind (fun v s =>
          (pop { s with value := upd s.value k v }).bind fun _ s =>
          (inCycle S f k s).bind fun q s =>
          if q ≠ none then
            (evaluateCycle S (get S f) f k s).bind fun _ s => .ok (s.value k) s
          else
            .ok (s.value k) { s with status := upd s.status k .evaluated }) = .exc x s' → Held S (some k) s' := by
        intro e
        have h1 := runComp_ends (get_ends hi f) (S.compute k)
          { s1 with status := upd s1.status k .cycle, pending := k :: s1.pending }
          ⟨⟨hcirc.next, hcirc.parent⟩, fun _ e => by cases e; exact upd_self ..⟩
        cases hr : runComp (get S f) (S.compute k)
          { s1 with status := upd s1.status k .cycle, pending := k :: s1.pending } with
        | nofuel => rw [hr] at e; cases e
        | exc y t => rw [hr] at e h1; cases e; exact h1
        | ok v t =>
          rw [hr] at e h1
          replace e : (pop { t with value := upd t.value k v }).bind (fun _ s =>
            (inCycle S f k s).bind fun q s =>
            if q ≠ none then
              (evaluateCycle S (get S f) f k s).bind fun _ s => .ok (s.value k) s
            else
              .ok (s.value k) { s with status := upd s.status k .evaluated }) = .exc x s' := e
          have h2 := pop_ends { t with value := upd t.value k v } (h1.1.same rfl rfl rfl)
          cases hp : pop { t with value := upd t.value k v } with
          | nofuel => rw [hp] at e; cases e
          | exc y t' => rw [hp] at e h2; cases e; exact h2
          | ok _ t' =>
            rw [hp] at e
            simp only [Out.bind] at e
            have : inCycle S f k t' = .ok none t' ∨ inCycle S f k t' = .nofuel := by
              cases f with
              | zero => exact .inr rfl
              | succ f => left; simp [inCycle, hk]
            rcases this with e' | e' <;> rw [e'] at e
            · simp at e
            · cases e
      cases hs : s1.status k with
      | cycle => exact absurd hs hne
      | uninit => rw [hs] at e; exact main e
      | uneval => rw [hs] at e; exact main e
      | evaluated => rw [hs] at e; cases e
      | assigned => rw [hs] at e; cases e

end Aps.ScalaEval
