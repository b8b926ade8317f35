import Verif.Proofs.RuntimePhyla
import Verif.Props.RuntimeMore
set_option linter.unusedSectionVars false
set_option linter.unusedVariables false
/-!
# C46: creation of nodes in a phylum
-/
namespace Aps.Props
open Aps.Runtime
variable {A P V : Type} [DecidableEq A] [DecidableEq P]

/-- Any calls, in which `k` creations of nodes of phylum `p` were accepted, and (`fin`) whether some
attribute of that phylum was finished. -/
inductive NodesMade (L : Lang A P V) (p : P) : Nat → Bool → St A P V → Prop
  | start : NodesMade L p 0 false init
  | created {k b s s' i} : NodesMade L p k b s → newNode p s = .ok i s' → NodesMade L p (k + 1) b s'
  | refused {k b s s' e} : NodesMade L p k b s → newNode p s = .exc e s' → NodesMade L p k b s'
  | elsewhere {k b s s' q i} : NodesMade L p k b s → q ≠ p → newNode q s = .ok i s' →
      NodesMade L p k b s'
  | elsewhere' {k b s s' q e} : NodesMade L p k b s → q ≠ p → newNode q s = .exc e s' →
      NodesMade L p k b s'
  | finished {k b s s' a u} (fuel : Nat) : NodesMade L p k b s → finish L fuel a s = .ok u s' →
      NodesMade L p k (b || decide (L.phylum a = p)) s'
  | finished' {k b s s' a e} (fuel : Nat) : NodesMade L p k b s → finish L fuel a s = .exc e s' →
      NodesMade L p k (b || decide (L.phylum a = p)) s'
  | other {k b s s' op r} (fuel : Nat) : NodesMade L p k b s → (∀ q, op ≠ .newNode q) →
      (∀ a, op ≠ .finish a) → call L fuel op s = .ok r s' → NodesMade L p k b s'
  | other' {k b s s' op e} (fuel : Nat) : NodesMade L p k b s → (∀ q, op ≠ .newNode q) →
      (∀ a, op ≠ .finish a) → call L fuel op s = .exc e s' → NodesMade L p k b s'

theorem call_keeps (L : Lang A P V) (f : Nat) (op : Op A P V) (s : St A P V)
    (h1 : ∀ q, op ≠ .newNode q) (h2 : ∀ a, op ≠ .finish a) : Keeps s (call L f op s) := by
  cases op with
  | newNode q => exact absurd rfl (h1 q)
  | finish a => exact absurd rfl (h2 a)
  | assign a n v =>
    have := assign_keeps L a n v s
    simp only [call]
    cases h : assign L a n v s <;> rw [h] at this <;> exact this
  | get a n =>
    have := get_keeps L a n s
    simp only [call]
    cases h : get L a n s <;> rw [h] at this <;> exact this
  | evaluate a n =>
    have := evaluate_keeps L f a n s
    simp only [call]
    cases h : evaluate L f a n s <;> rw [h] at this <;> exact this

theorem newNode_phinv {L : Lang A P V} {p q : P} {k : Nat} {b : Bool} {s s' : St A P V} {i : Nat}
    (h : PhInv L p k b s) (he : newNode q s = .ok i s') :
    PhInv L p (if q = p then k + 1 else k) b s' := by
  unfold newNode at he
  split at he
  · cases he
  · rename_i hc
    cases he
    refine ⟨?_, ?_, h.attr⟩
    · show (if p = q then _ else _ : Phylum).count = _
      by_cases hqp : q = p
      · subst hqp; simp [h.count]
      · simp [hqp, Ne.symm hqp, h.count]
    · show (if p = q then _ else _ : Phylum).complete = _
      by_cases hqp : q = p
      · subst hqp
        rw [if_pos rfl, ← h.comp]
        exact (Bool.eq_false_iff.2 hc).symm
      · rw [if_neg (Ne.symm hqp)]; exact h.comp

theorem NodesMade.inv {L : Lang A P V} {p : P} {k : Nat} {b : Bool} {s : St A P V}
    (h : NodesMade L p k b s) : PhInv L p k b s := by
  induction h with
  | start => exact ⟨rfl, rfl, fun a _ h => by cases h⟩
  | created _ he ih => simpa using newNode_phinv ih he
  | @refused k b s s' e _ he ih =>
    unfold newNode at he
    split at he
    · cases he; exact ih
    · cases he
  | elsewhere _ hq he ih => simpa [hq] using newNode_phinv ih he
  | @elsewhere' k b s s' q e _ hq he ih =>
    unfold newNode at he
    split at he
    · cases he; exact ih
    · cases he
  | @finished k b s s' a u f _ he ih =>
    have := finish_phinv f a ih; rw [he] at this; exact this
  | @finished' k b s s' a e f _ he ih =>
    have := finish_phinv f a ih; rw [he] at this; exact this
  | @other k b s s' op r f _ h1 h2 he ih =>
    have := call_keeps L f op s h1 h2; rw [he] at this; exact ih.same this
  | @other' k b s s' op e f _ h1 h2 he ih =>
    have := call_keeps L f op s h1 h2; rw [he] at this; exact ih.same this

/-- The next node of a phylum gets the number of nodes made in it so far (so indices are dense and
never reused), whatever else was called, as long as no attribute of the phylum was finished. -/
theorem C46_fresh_index (L : Lang A P V) (p : P) (k : Nat) (s : St A P V)
    (h : NodesMade L p k false s) : ∃ s', newNode p s = .ok k s' := by
  have := h.inv
  simp [newNode, this.comp, this.count]

/-- After any attribute of the phylum was finished (even if that failed) no node can be added to
it, and the refused creation changes nothing. -/
theorem C46_refused (L : Lang A P V) (p : P) (k : Nat) (s : St A P V)
    (h : NodesMade L p k true s) : newNode p s = .exc .tooLate s := by
  have := h.inv
  simp [newNode, this.comp]

example : ∃ s, NodesMade demo () 2 false s :=
  ⟨_, .created (.other 9 (op := .evaluate 1 ⟨(), 0⟩) (r := .value 21) (.other 9 (op := .assign 0 ⟨(), 0⟩ 5)
    (r := .unit) (.created .start rfl) (by simp) (by simp) rfl) (by simp) (by simp) rfl) rfl⟩
example : ∃ s, NodesMade demo () 1 true s :=
  ⟨_, .finished 9 (a := 1) (.other 9 (op := .assign 0 ⟨(), 0⟩ 5)
    (r := .unit) (.created .start rfl) (by simp) (by simp) rfl) rfl⟩

end Aps.Props
