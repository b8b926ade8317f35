import Verif.Model.Runtime
set_option linter.unusedSectionVars false
set_option linter.unusedVariables false
/-! What calls do to phyla and to the `complete` flags. -/
namespace Aps.Runtime
variable {A P V : Type} [DecidableEq A] [DecidableEq P]

def Same (s s' : St A P V) : Prop :=
  s'.phyla = s.phyla ∧ ∀ b, (s'.attr b).complete = (s.attr b).complete

theorem Same.refl (s : St A P V) : Same s s := ⟨rfl, fun _ => rfl⟩
theorem Same.trans {s s' s'' : St A P V} (h : Same s s') (h' : Same s' s'') : Same s s'' :=
  ⟨h'.1.trans h.1, fun b => (h'.2 b).trans (h.2 b)⟩

/-- The call leaves the phyla as they are. -/
def Keeps {α : Type} (s : St A P V) : Out A P V α → Prop
  | .ok _ s' => Same s s'
  | .exc _ s' => Same s s'
  | .ub => True
  | .nofuel => True

theorem Keeps.mono {α : Type} {s s' : St A P V} {o : Out A P V α} (h : Same s s')
    (h' : Keeps s' o) : Keeps s o := by
  cases o with
  | ok a t => exact h.trans h'
  | exc e t => exact h.trans h'
  | ub => trivial
  | nofuel => trivial

theorem Keeps.bind {α β : Type} {s : St A P V} {o : Out A P V α} {f : α → St A P V → Out A P V β}
    (h : Keeps s o) (hf : ∀ a t, Keeps t (f a t)) : Keeps s (o.bind f) := by
  cases o with
  | ok a t => exact (hf a t).mono h
  | exc e t => exact h
  | ub => trivial
  | nofuel => trivial

theorem Same.setAttr (s : St A P V) (a : A) (x : Attr V) (h : x.complete = (s.attr a).complete) :
    Same s (s.setAttr a x) := by
  refine ⟨rfl, fun b => ?_⟩
  simp only [St.setAttr]
  split
  · rename_i hb; rw [hb, h]
  · rfl

theorem checkPhylum_keeps (L : Lang A P V) (a : A) (n : Node P) (s : St A P V) :
    Keeps s (checkPhylum L a n s) := by
  unfold checkPhylum
  split
  · trivial
  · split
    · exact Same.refl s
    · simp only []
      split
      · exact Same.setAttr s a _ rfl
      · exact Same.refl s

theorem writeVal_keeps (a : A) (i : Nat) (v : V) (s : St A P V) : Keeps s (writeVal a i v s) := by
  unfold writeVal
  simp only []
  split
  · exact Same.setAttr s a _ rfl
  · trivial

theorem writeStat_keeps (a : A) (i : Nat) (t : Status) (s : St A P V) :
    Keeps s (writeStat a i t s) := by
  unfold writeStat
  simp only []
  split
  · exact Same.setAttr s a _ rfl
  · trivial

theorem readVal_keeps (a : A) (i : Nat) (s : St A P V) : Keeps s (readVal a i s) := by
  unfold readVal
  split
  · exact Same.refl s
  · trivial

theorem baseSet_keeps (L : Lang A P V) (a : A) (n : Node P) (v : V) (s : St A P V) :
    Keeps s (baseSet L a n v s) :=
  (checkPhylum_keeps L a n s).bind fun _ t =>
    (writeVal_keeps a n.index v t).bind fun _ t => writeStat_keeps ..

theorem getDefault_keeps (L : Lang A P V) (a : A) (s : St A P V) :
    Keeps s (getDefault L a s) := by
  unfold getDefault; split <;> exact Same.refl s

theorem get_keeps (L : Lang A P V) (a : A) (n : Node P) (s : St A P V) :
    Keeps s (get L a n s) := by
  refine (checkPhylum_keeps L a n s).bind fun _ t => ?_
  split
  · trivial
  · exact (getDefault_keeps L a t).bind fun v t => (writeVal_keeps ..).bind fun _ t =>
      (writeStat_keeps ..).bind fun _ t => readVal_keeps ..
  · exact readVal_keeps ..

theorem set_keeps (L : Lang A P V) (a : A) (n : Node P) (v : V) (s : St A P V) :
    Keeps s (set L a n v s) := by
  unfold set
  split
  · exact baseSet_keeps ..
  · exact (get_keeps L a n s).bind fun _ t => baseSet_keeps ..

theorem assign_keeps (L : Lang A P V) (a : A) (n : Node P) (v : V) (s : St A P V) :
    Keeps s (assign L a n v s) := by
  unfold assign
  split
  · exact Same.refl s
  · exact set_keeps ..

theorem runComp_keeps {rec : A → Node P → St A P V → Out A P V V}
    (hrec : ∀ a n s, Keeps s (rec a n s)) (c : Comp A P V) : ∀ s, Keeps s (runComp rec c s) := by
  induction c with
  | ret v => exact fun s => Same.refl s
  | undef => exact fun s => Same.refl s
  | read b m k ih => exact fun s => (hrec b m s).bind fun w t => ih w t

theorem cycleEvaluate_keeps (L : Lang A P V) (a : A) (n : Node P) (s : St A P V) :
    Keeps s (cycleEvaluate L a n s) := by
  unfold cycleEvaluate
  split
  · refine Keeps.bind (Keeps.mono (s' := { s with pending := s.pending ++ [(a, n)] }) ⟨rfl, fun _ => rfl⟩
      (baseSet_keeps ..)) fun _ t => Same.refl t
  · exact Same.refl s

theorem evalBase_keeps (L : Lang A P V) {rec : A → Node P → St A P V → Out A P V V}
    (hrec : ∀ a n s, Keeps s (rec a n s)) (a : A) (n : Node P) (s : St A P V) :
    Keeps s (evalBase L rec a n s) := by
  refine (checkPhylum_keeps L a n s).bind fun _ t => ?_
  refine Keeps.mono (Same.setAttr t a { t.attr a with started := true } rfl) ?_
  simp only []
  split
  · trivial
  · exact cycleEvaluate_keeps ..
  · exact get_keeps ..
  · exact get_keeps ..
  all_goals
  · exact (writeStat_keeps ..).bind fun _ u =>
      (Keeps.mono (s' := { u with log := u.log ++ [(a, n.index)] }) ⟨rfl, fun _ => rfl⟩
        (runComp_keeps hrec _ _)).bind fun v u =>
        (writeVal_keeps ..).bind fun _ u => (writeStat_keeps ..).bind fun _ u => get_keeps ..

theorem evalChanged_keeps (L : Lang A P V) {rec : A → Node P → St A P V → Out A P V V}
    (hrec : ∀ a n s, Keeps s (rec a n s)) (a : A) (n : Node P) (s : St A P V) :
    Keeps s (evalChanged L rec a n s) := by
  refine (get_keeps L a n s).bind fun old u =>
    (Keeps.mono (s' := { u with log := u.log ++ [(a, n.index)] }) ⟨rfl, fun _ => rfl⟩
        (runComp_keeps hrec _ _)).bind fun w u => ?_
  split
  · exact Same.refl u
  · exact (set_keeps ..).bind fun _ u => Same.refl u

theorem sweep_keeps (L : Lang A P V) {rec : A → Node P → St A P V → Out A P V V}
    (hrec : ∀ a n s, Keeps s (rec a n s)) (cs : List (A × Node P)) : ∀ k s,
    Keeps s (sweep L rec cs k s) := by
  induction cs with
  | nil => exact fun k s => Same.refl s
  | cons c cs ih =>
    intro k s
    refine (evalChanged_keeps L hrec c.1 c.2 s).bind fun ch t => ?_
    split
    · trivial
    · exact ih _ _

theorem clearPending_keeps (L : Lang A P V) {rec : A → Node P → St A P V → Out A P V V}
    (hrec : ∀ a n s, Keeps s (rec a n s)) (f : Nat) : ∀ s, Keeps s (clearPending L rec f s) := by
  induction f with
  | zero => exact fun _ => trivial
  | succ f ih =>
    intro s
    refine (sweep_keeps L hrec _ _ s).bind fun k t => ?_
    split
    · exact ih t
    · exact ⟨rfl, fun _ => rfl⟩

theorem leave_keeps {α : Type} {s : St A P V} {o : Out A P V α} (h : Keeps s o) :
    Keeps s o.leave := by
  cases o with
  | ok a t => exact h.trans ⟨rfl, fun _ => rfl⟩
  | exc e t => exact h.trans ⟨rfl, fun _ => rfl⟩
  | ub => trivial
  | nofuel => trivial

theorem evaluate_keeps (L : Lang A P V) (f : Nat) : ∀ a n s, Keeps s (evaluate L f a n s) := by
  induction f with
  | zero => exact fun _ _ _ => trivial
  | succ f ih =>
    intro a n s
    simp only [evaluate]
    split
    · refine leave_keeps (Keeps.mono (s' := { s with checks := s.checks + 1 }) ⟨rfl, fun _ => rfl⟩
        ((evalBase_keeps L ih a n _).bind fun v t => ?_))
      split
      · exact (clearPending_keeps L ih _ t).bind fun _ u => get_keeps ..
      · exact Same.refl t
    · exact evalBase_keeps L ih a n s

theorem finishLoop_keeps (L : Lang A P V) (f : Nat) (a : A) (k : Nat) : ∀ i s,
    Keeps s (finishLoop L f a k i s) := by
  induction k with
  | zero => exact fun i s => Same.refl s
  | succ k ih => exact fun i s => (evaluate_keeps L f a _ s).bind fun _ t => ih _ t

/-- How often nodes were made in phylum `p` by accepted calls, and whether it was finished. -/
structure PhInv (L : Lang A P V) (p : P) (made : Nat) (fin : Bool) (s : St A P V) : Prop where
  count : (s.phyla p).count = made
  comp : (s.phyla p).complete = fin
  attr : ∀ a, L.phylum a = p → (s.attr a).complete = true → fin = true

theorem PhInv.same {L : Lang A P V} {p : P} {k : Nat} {b : Bool} {s s' : St A P V}
    (h : PhInv L p k b s) (hs : Same s s') : PhInv L p k b s' :=
  ⟨by rw [hs.1]; exact h.count, by rw [hs.1]; exact h.comp,
    fun a ha hc => h.attr a ha (by rw [← hs.2]; exact hc)⟩

theorem finish_phinv {L : Lang A P V} {p : P} {k : Nat} {b : Bool} {s : St A P V} (f : Nat) (a : A)
    (h : PhInv L p k b s) :
    match finish L f a s with
    | .ok _ s' => PhInv L p k (b || decide (L.phylum a = p)) s'
    | .exc _ s' => PhInv L p k (b || decide (L.phylum a = p)) s'
    | .ub => True
    | .nofuel => True := by
  unfold finish
  cases hc : (s.attr a).complete with
  | true =>
    simp only [if_true]
    by_cases hp : L.phylum a = p
    · have := h.attr a hp hc
      subst this; simpa using h
    · simpa [hp] using h
  | false =>
    simp only [Bool.false_eq_true, if_false]
    generalize hs1 : (St.setAttr _ a _ : St A P V) = s1
    have h1 : PhInv L p k (b || decide (L.phylum a = p)) s1 := by
      subst hs1
      refine ⟨?_, ?_, ?_⟩
      · show (if p = L.phylum a then _ else _ : Phylum).count = k
        split
        · rename_i hp; rw [← hp]; exact h.count
        · exact h.count
      · show (if p = L.phylum a then _ else _ : Phylum).complete = _
        split
        · rename_i hp; simp [hp]
        · rename_i hp; simp [Ne.symm hp, h.comp]
      · intro a' ha' hc'
        simp only [St.setAttr] at hc'
        split at hc'
        · rename_i hb; subst hb; rw [hc] at hc'; cases hc'
        · simp [h.attr a' ha' hc']
    have hk := finishLoop_keeps L f a (s.phyla (L.phylum a)).count 0 s1
    cases hl : finishLoop L f a (s.phyla (L.phylum a)).count 0 s1 with
    | ub => trivial
    | nofuel => trivial
    | exc e t => rw [hl] at hk; exact h1.same hk
    | ok u t =>
      rw [hl] at hk
      have h2 := h1.same hk
      show PhInv L p k _ (St.setAttr t a _)
      refine ⟨h2.count, h2.comp, ?_⟩
      intro a' ha' hc'
      simp only [St.setAttr] at hc'
      split at hc'
      · rename_i hb; subst hb; simp [ha']
      · exact h2.attr a' ha' hc'

end Aps.Runtime
