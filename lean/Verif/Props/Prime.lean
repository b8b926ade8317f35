import Verif.Proofs.Prime
import Mathlib.Tactic.NormNum.Prime
import Mathlib.Tactic.IntervalCases
/-! # C01 — `next_twin_prime` is exact -/
namespace Aps.Props
open Aps.Prime

/-- Specification: `n` is the larger member of a pair of twin primes. -/
def LargerTwin (n : Nat) : Prop := n.Prime ∧ ∃ m, m.Prime ∧ m + 2 = n

theorem largerTwin_iff (n : Nat) : LargerTwin n ↔ IsTwin n := by
  constructor
  · rintro ⟨h1, m, h2, rfl⟩; exact ⟨by omega, h1, by simpa using h2⟩
  · rintro ⟨h1, h2, h3⟩; exact ⟨h2, n - 2, h3, by omega⟩

/-- **C01 (result).** Whatever table earlier calls left behind, if `next_twin_prime(p)` returns,
it returns the least `n ≥ p` that is the larger of a pair of twin primes. -/
theorem C01_result {st st' : Primes} (hst : Reachable st) {fuel p r : Nat}
    (hrun : nextTwinPrime fuel st p = .ok (r, st')) :
    IsLeast {n | p ≤ n ∧ LargerTwin n} r := by
  rcases nextTwinPrime_spec fuel st (reachable_correct hst) p with ⟨a, _⟩ | ⟨r', st2, a, _, _, b⟩
  · rw [a] at hrun; cases hrun
  · rw [a] at hrun; cases hrun; simpa only [largerTwin_iff] using b

/-- **C01 (termination).** It returns whenever there is something to find, and it never reads or
writes outside the table. -/
theorem C01_terminates {st : Primes} (hst : Reachable st) (p n : Nat) (hn : p ≤ n)
    (ht : LargerTwin n) : ∃ fuel r st', nextTwinPrime fuel st p = .ok (r, st') := by
  refine ⟨n + 1, ?_⟩
  rcases nextTwinPrime_spec (n + 1) st (reachable_correct hst) p with ⟨_, b⟩ | ⟨r', st2, a, _, _, _⟩
  · exact absurd ((largerTwin_iff n).1 ht) (b n hn (by simpa using Nat.lt_two_pow_self) (by omega))
  · exact ⟨r', st2, a⟩

/-- **C01 (safety).** No call on any reachable table accesses memory out of bounds or exits. -/
theorem C01_safe {st : Primes} (hst : Reachable st) (fuel p : Nat) :
    nextTwinPrime fuel st p ≠ .ub ∧ nextTwinPrime fuel st p ≠ .stop := by
  rcases nextTwinPrime_spec fuel st (reachable_correct hst) p with ⟨a, _⟩ | ⟨r', st2, a, _, _, _⟩ <;>
    rw [a] <;> simp

/-- **C01 (table).** The cached table marks exactly the primes below its size. -/
theorem C01_table {st : Primes} (hst : Reachable st) (k : Nat) (hk : k < st.size) :
    st.array[k]? = some true ↔ k.Prime := (reachable_correct hst).2 k hk

/-- **C01 (history independence).** Two calls with the same argument agree, whatever happened before. -/
theorem C01_history_independent {st₁ st₂ st₁' st₂' : Primes} (h₁ : Reachable st₁)
    (h₂ : Reachable st₂) {f₁ f₂ p r₁ r₂ : Nat} (e₁ : nextTwinPrime f₁ st₁ p = .ok (r₁, st₁'))
    (e₂ : nextTwinPrime f₂ st₂ p = .ok (r₂, st₂')) : r₁ = r₂ :=
  (C01_result h₁ e₁).unique (C01_result h₂ e₂)

/-- Non-vacuity: 13 is the larger of the twin pair (11,13), so the call for 8 returns on every
reachable table, and it returns 13. -/
example : ∃ fuel st', nextTwinPrime fuel Primes.init 8 = .ok (13, st') := by
  have h13 : LargerTwin 13 := ⟨by norm_num, 11, by norm_num, rfl⟩
  obtain ⟨fuel, r, st', h⟩ := C01_terminates Reachable.init 8 13 (by omega) h13
  have hl := C01_result Reachable.init h
  have hle : r ≤ 13 := hl.2 ⟨by omega, h13⟩
  have hge : 8 ≤ r := hl.1.1
  have hp := hl.1.2
  have : r = 13 := by
    obtain ⟨a, m, b, c⟩ := hp
    interval_cases r
    · revert a; norm_num
    · revert a; norm_num
    · revert a; norm_num
    · have : m = 9 := by omega
      subst this; revert b; norm_num
    · revert a; norm_num
    · rfl
  subst this
  exact ⟨fuel, st', h⟩

end Aps.Props
