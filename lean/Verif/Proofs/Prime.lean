import Verif.Model.Prime
import Mathlib.Data.Nat.Prime.Basic
import Mathlib.Order.Bounds.Defs
import Mathlib.Tactic.Ring
import Mathlib.Tactic.Linarith
/-! Helper lemmas for C01 (utilities/prime.c). -/
namespace Aps.Prime

theorem rd_nat {a : Array Bool} {i : Nat} (h : i < a.size) : rd a (i : Int) = .ok a[i] := by
  simp [rd, h]

theorem wr_ok {a : Array Bool} {i : Nat} {b : Bool} (h : i < a.size) :
    wr a i b = .ok (a.setIfInBounds i b) := by simp [wr, h]

/-- marking multiples from `j` on. -/
theorem markMultiples_spec (n i : Nat) (hi : 0 < i) (j : Nat) (a : Array Bool) (ha : a.size = n) :
    ∃ a', markMultiples n i j a = .ok a' ∧ a'.size = n ∧
      ∀ k, k < n → (a'[k]? = some true ↔ a[k]? = some true ∧ ¬ ∃ t, k = j + t * i) := by
  induction hm : n - j using Nat.strong_induction_on generalizing j a with
  | _ m ih =>
    rw [markMultiples]
    by_cases hj : j < n
    · have hlt : j < a.size := by omega
      simp only [hj, hi, and_self, dite_true, wr_ok hlt, Res.ok_bind]
      obtain ⟨a', h1, h2, h3⟩ := ih (n - (j + i)) (by omega) (j + i) (a.setIfInBounds j false)
        (by simpa using ha) rfl
      refine ⟨a', h1, h2, fun k hk => ?_⟩
      rw [h3 k hk]
      constructor
      · rintro ⟨h4, h5⟩
        by_cases hkj : j = k
        · subst hkj
          simp [hlt] at h4
        · rw [Array.getElem?_setIfInBounds_ne hkj] at h4
          refine ⟨h4, ?_⟩
          rintro ⟨t, ht⟩
          cases t with
          | zero => simp at ht; omega
          | succ t => exact h5 ⟨t, by rw [ht]; ring⟩
      · rintro ⟨h4, h5⟩
        have hkj : j ≠ k := by
          rintro rfl
          exact h5 ⟨0, by simp⟩
        rw [Array.getElem?_setIfInBounds_ne hkj]
        refine ⟨h4, ?_⟩
        rintro ⟨t, ht⟩
        exact h5 ⟨t + 1, by rw [ht]; ring⟩
    · simp only [hj, false_and, dite_false]
      refine ⟨a, rfl, ha, fun k hk => ⟨fun h => ⟨h, ?_⟩, fun h => h.1⟩⟩
      rintro ⟨t, ht⟩
      have : 0 ≤ t * i := Nat.zero_le _
      omega

/-- invariant of the outer sieve loop -/
def SieveInv (n i : Nat) (a : Array Bool) : Prop :=
  a.size = n ∧ ∀ k, k < n → (a[k]? = some true ↔ 2 ≤ k ∧ ∀ d, d.Prime → d < i → d * d ≤ k → ¬ d ∣ k)

theorem sieveInv_prime {n i : Nat} {a : Array Bool} (hi : n ≤ i * i) (h : SieveInv n i a) :
    ∀ k, k < n → (a[k]? = some true ↔ k.Prime) := by
  intro k hk
  rw [h.2 k hk]
  constructor
  · rintro ⟨h2, h3⟩
    by_contra hnp
    have hmf := Nat.minFac_sq_le_self (by omega : 0 < k) hnp
    have hp := Nat.minFac_prime (by omega : k ≠ 1)
    have hlt : k.minFac < i := by
      by_contra hge
      have : i * i ≤ k.minFac * k.minFac := Nat.mul_le_mul (by omega) (by omega)
      rw [pow_two] at hmf
      omega
    exact h3 _ hp hlt (by rw [← pow_two]; exact hmf) (Nat.minFac_dvd k)
  · intro hp
    refine ⟨hp.two_le, fun d hd _ hdd hdvd => ?_⟩
    have := (Nat.prime_dvd_prime_iff_eq hd hp).1 hdvd
    subst this
    have := hd.two_le
    nlinarith

theorem sieveInv_prime_at {n i : Nat} {a : Array Bool} (hin : i < n) (h : SieveInv n i a) :
    (a[i]? = some true ↔ i.Prime) := by
  rw [h.2 i hin]
  constructor
  · rintro ⟨h2, h3⟩
    by_contra hnp
    have hmf := Nat.minFac_sq_le_self (by omega : 0 < i) hnp
    have hp := Nat.minFac_prime (by omega : i ≠ 1)
    rw [pow_two] at hmf
    have h2' := hp.two_le
    refine h3 _ hp ?_ hmf (Nat.minFac_dvd i)
    nlinarith
  · intro hp
    refine ⟨hp.two_le, fun d hd _ hdd hdvd => ?_⟩
    have := (Nat.prime_dvd_prime_iff_eq hd hp).1 hdvd
    subst this
    have := hd.two_le
    nlinarith

theorem sieveLoop_spec (n i : Nat) (hi : 2 ≤ i) (a : Array Bool) (h : SieveInv n i a) :
    ∃ a', sieveLoop n i a = .ok a' ∧ a'.size = n ∧ ∀ k, k < n → (a'[k]? = some true ↔ k.Prime) := by
  induction hm : n - i using Nat.strong_induction_on generalizing i a with
  | _ m ih =>
    rw [sieveLoop]
    by_cases hlt : i * i < n
    · have hin : i < n := by nlinarith
      have hsz : i < a.size := by rw [h.1]; exact hin
      simp only [hlt, dite_true, rd_nat hsz, Res.ok_bind]
      have hpr := sieveInv_prime_at hin h
      rw [Array.getElem?_eq_getElem hsz] at hpr
      by_cases hb : a[i] = true
      · have hip : i.Prime := hpr.1 (by rw [hb])
        obtain ⟨a', h1, h2, h3⟩ := markMultiples_spec n i (by omega) (i * i) a h.1
        simp only [hb, if_true, h1, Res.ok_bind]
        refine ih (n - (i + 1)) (by omega) (i + 1) (by omega) a' ⟨h2, fun k hk => ?_⟩ rfl
        rw [h3 k hk, h.2 k hk]
        constructor
        · rintro ⟨⟨hk2, hall⟩, hnm⟩
          refine ⟨hk2, fun d hd hdi hdd hdvd => ?_⟩
          rcases Nat.lt_succ_iff_lt_or_eq.1 hdi with hdi | rfl
          · exact hall d hd hdi hdd hdvd
          · obtain ⟨c, rfl⟩ := hdvd
            have hdc : d ≤ c := Nat.le_of_mul_le_mul_left hdd (by omega)
            refine hnm ⟨c - d, ?_⟩
            obtain ⟨e, rfl⟩ := Nat.exists_eq_add_of_le hdc
            simp; ring
        · rintro ⟨hk2, hall⟩
          refine ⟨⟨hk2, fun d hd hdi => hall d hd (by omega)⟩, ?_⟩
          rintro ⟨t, rfl⟩
          exact hall i hip (by omega) (Nat.le_add_right _ _)
            ((Nat.dvd_add_right (Dvd.intro _ rfl)).2 (Dvd.intro_left _ rfl))
      · have hnp : ¬ i.Prime := fun hp => hb (by simpa using hpr.2 hp)
        simp only [hb]
        refine ih (n - (i + 1)) (by omega) (i + 1) (by omega) a ⟨h.1, fun k hk => ?_⟩ rfl
        rw [h.2 k hk]
        refine and_congr_right fun _ => ⟨fun hall d hd hdi => ?_, fun hall d hd hdi => hall d hd (by omega)⟩
        rcases Nat.lt_succ_iff_lt_or_eq.1 hdi with hdi | rfl
        · exact hall d hd hdi
        · exact absurd hd hnp
    · simp only [hlt, dite_false]
      exact ⟨a, rfl, h.1, sieveInv_prime (by omega) h⟩

/-- A table is *correct* when it marks exactly the primes below its size. -/
def Correct (st : Primes) : Prop :=
  st.array.size = st.size ∧ ∀ k, k < st.size → (st.array[k]? = some true ↔ k.Prime)

theorem sieve_spec (n : Nat) (hn : 2 ≤ n) : ∃ st, sieve n = .ok st ∧ st.size = n ∧ Correct st := by
  have hinv : SieveInv n 2 (((Array.replicate n true).setIfInBounds 0 false).setIfInBounds 1 false) := by
    refine ⟨by simp, fun k hk => ?_⟩
    by_cases h1 : k = 1
    · subst h1
      simp [hk]
    · by_cases h0 : k = 0
      · subst h0
        simp [hk]
      · rw [Array.getElem?_setIfInBounds_ne (by omega), Array.getElem?_setIfInBounds_ne (by omega)]
        simp only [Array.getElem?_replicate, hk, if_true, true_iff]
        refine ⟨by omega, fun d hd h2 => ?_⟩
        have := hd.two_le
        omega
  obtain ⟨a', h1, h2, h3⟩ := sieveLoop_spec n 2 le_rfl _ hinv
  refine ⟨⟨a', n⟩, ?_, rfl, h2, h3⟩
  unfold sieve
  simp only [Res.pure_eq]
  rw [wr_ok (by simp; omega), Res.ok_bind, wr_ok (by simp; omega), Res.ok_bind, h1, Res.ok_bind]

theorem correct_init : Correct Primes.init := by
  refine ⟨rfl, fun k hk => ?_⟩
  simp [Primes.init] at hk

/-- The specification of "larger of a twin pair". -/
def IsTwin (n : Nat) : Prop := 2 ≤ n ∧ n.Prime ∧ (n - 2).Prime

theorem scan_spec (st : Primes) (h : Correct st) (i : Nat) :
    (∃ r, scan st i = .ok (some r) ∧ r < st.size ∧ IsLeast {n | i ≤ n ∧ IsTwin n} r) ∨
    (scan st i = .ok none ∧ ∀ n, i ≤ n → n < st.size → ¬ IsTwin n) := by
  induction hm : st.size - i using Nat.strong_induction_on generalizing i with
  | _ m ih =>
    rw [scan]
    by_cases hi : i < st.size
    · have hsz : i < st.array.size := by rw [h.1]; exact hi
      have hp := h.2 i hi
      rw [Array.getElem?_eq_getElem hsz] at hp
      simp only [hi, dite_true, rd_nat hsz, Res.ok_bind]
      have step : ¬ IsTwin i →
          ((∃ r, scan st (i + 1) = .ok (some r) ∧ r < st.size ∧ IsLeast {n | i ≤ n ∧ IsTwin n} r) ∨
          (scan st (i + 1) = .ok none ∧ ∀ n, i ≤ n → n < st.size → ¬ IsTwin n)) := by
        intro hnt
        rcases ih (st.size - (i + 1)) (by omega) (i + 1) rfl with ⟨r, h1, h2, h3⟩ | ⟨h1, h2⟩
        · refine .inl ⟨r, h1, h2, ⟨by have := h3.1.1; omega, h3.1.2⟩, fun n hn => ?_⟩
          rcases Nat.eq_or_lt_of_le hn.1 with rfl | hlt
          · exact absurd hn.2 hnt
          · exact h3.2 ⟨hlt, hn.2⟩
        · refine .inr ⟨h1, fun n hn hns => ?_⟩
          rcases Nat.eq_or_lt_of_le hn with rfl | hlt
          · exact hnt
          · exact h2 n hlt hns
      by_cases hb : st.array[i] = true
      · have hip : i.Prime := hp.1 (by rw [hb])
        have h2 := hip.two_le
        have hsz2 : i - 2 < st.array.size := by omega
        have hcast : ((i : Int) - 2) = ((i - 2 : Nat) : Int) := by omega
        have hp2 := h.2 (i - 2) (by omega)
        rw [Array.getElem?_eq_getElem hsz2] at hp2
        simp only [hb, if_true, hcast, rd_nat hsz2, Res.ok_bind]
        by_cases hc : st.array[i - 2] = true
        · simp only [hc, if_true]
          refine .inl ⟨i, rfl, hi, ⟨le_rfl, h2, hip, hp2.1 (by rw [hc])⟩, fun n hn => hn.1⟩
        · simp only [hc]
          exact step fun ht => hc (by simpa using hp2.2 ht.2.2)
      · simp only [hb]
        exact step fun ht => hb (by simpa using hp.2 ht.2.1)
    · simp only [hi, dite_false]
      exact .inr ⟨trivial, fun n h1 h2 => by omega⟩

theorem searchLoop_spec (fuel : Nat) (st : Primes) (h : Correct st) (hs : 1 ≤ st.size) (p : Nat) :
    (searchLoop fuel st p = .nofuel ∧
      ∀ n, p ≤ n → n < st.size * 2 ^ (fuel - 1) → 0 < fuel → ¬ IsTwin n) ∨
    ∃ r st', searchLoop fuel st p = .ok (r, st') ∧ Correct st' ∧ r < st'.size ∧
      IsLeast {n | p ≤ n ∧ IsTwin n} r := by
  induction fuel generalizing st with
  | zero => exact .inl ⟨rfl, fun _ _ _ h => absurd h (lt_irrefl _)⟩
  | succ fuel ih =>
    rw [searchLoop]
    rcases scan_spec st h p with ⟨r, h1, h2, h3⟩ | ⟨h1, h2⟩
    · rw [h1]; exact .inr ⟨r, st, rfl, h, h2, h3⟩
    · obtain ⟨st2, s1, s2, s3⟩ := sieve_spec (doubleSize st.size) (by simp [doubleSize]; omega)
      rw [h1]
      simp only [Res.ok_bind, s1]
      rcases ih st2 s3 (by rw [s2]; simp [doubleSize]) with ⟨e1, e2⟩ | hok
      · refine .inl ⟨e1, fun n hn hlt _ => ?_⟩
        cases fuel with
        | zero => exact h2 n hn (by simpa using hlt)
        | succ f =>
          refine e2 n hn (lt_of_lt_of_le hlt ?_) (by omega)
          rw [s2]
          simp only [doubleSize, Nat.add_sub_cancel, pow_succ]
          have : 0 < 2 ^ f := by positivity
          nlinarith
      · exact .inr hok

theorem ensure_spec (st : Primes) (h : Correct st) (p : Nat) :
    ∃ st', ensure st p = .ok st' ∧ Correct st' ∧ p < st'.size := by
  unfold ensure
  by_cases hp : st.size ≤ p
  · simp only [hp, if_true]
    set ns := if doubleSize (st.size + initialTableSize) ≤ p then doubleSize p
      else doubleSize (st.size + initialTableSize) with hns
    have hge : p < ns ∧ 2 ≤ ns := by
      rw [hns]
      split <;> simp only [doubleSize, initialTableSize] at * <;> omega
    obtain ⟨st2, s1, s2, s3⟩ := sieve_spec ns hge.2
    exact ⟨st2, s1, s3, by rw [s2]; exact hge.1⟩
  · simp only [hp, if_false]
    exact ⟨st, rfl, h, by omega⟩

theorem nextTwinPrime_spec (fuel : Nat) (st : Primes) (h : Correct st) (p : Nat) :
    (nextTwinPrime fuel st p = .nofuel ∧
      ∀ n, p ≤ n → n < 2 ^ (fuel - 1) → 0 < fuel → ¬ IsTwin n) ∨
    ∃ r st', nextTwinPrime fuel st p = .ok (r, st') ∧ Correct st' ∧ r < st'.size ∧
      IsLeast {n | p ≤ n ∧ IsTwin n} r := by
  obtain ⟨st1, e1, e2, e3⟩ := ensure_spec st h p
  unfold nextTwinPrime
  rw [e1, Res.ok_bind]
  rcases searchLoop_spec fuel st1 e2 (by omega) p with ⟨a, b⟩ | hok
  · refine .inl ⟨a, fun n hn hlt => b n hn (lt_of_lt_of_le hlt ?_)⟩
    have : 0 < 2 ^ (fuel - 1) := by positivity
    nlinarith
  · exact .inr hok

theorem reachable_correct {st : Primes} (h : Reachable st) : Correct st := by
  induction h with
  | init => exact correct_init
  | @step st st' fuel p r _ hn ih =>
    rcases nextTwinPrime_spec fuel st ih p with ⟨a, _⟩ | ⟨r', st2, a, b, _⟩
    · rw [a] at hn; cases hn
    · rw [a] at hn; cases hn; exact b

end Aps.Prime
