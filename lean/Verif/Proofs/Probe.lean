import Verif.Model.HashTable
import Mathlib.Data.Nat.Prime.Basic
import Mathlib.Data.Nat.ModEq
import Mathlib.Data.Finset.Card
import Mathlib.Data.Finset.Range
import Mathlib.Tactic.Ring
/-! Helper lemmas on open addressing with double hashing (hashtable.c, hashcons.c). -/
namespace Aps.HashTable

/-- slot visited at probe number `t` by a key with hash `h` -/
def slot (cap h t : Nat) : Nat := (h % cap + t * (h % (cap - 2) + 1)) % cap

theorem slot_lt {cap h t : Nat} (hc : 0 < cap) : slot cap h t < cap := Nat.mod_lt _ hc

theorem probe_eq_some {stop : Nat → Bool} {cap step : Nat} (f i j : Nat) :
    probe stop cap step f (i % cap) = some j ↔
      ∃ t < f, j = (i + t * step) % cap ∧ stop j = true ∧
        ∀ t' < t, stop ((i + t' * step) % cap) = false := by
  induction f generalizing i with
  | zero => simp [probe]
  | succ f ih =>
    rw [probe]
    by_cases hs : stop (i % cap) = true
    · simp only [hs, if_true, Option.some.injEq]
      constructor
      · rintro rfl
        exact ⟨0, by omega, by simp, hs, by omega⟩
      · rintro ⟨t, _, h2, _, h4⟩
        cases t with
        | zero => simpa using h2.symm
        | succ t =>
          have := h4 0 (by omega)
          simp [hs] at this
    · have hs' : stop (i % cap) = false := by simpa using hs
      have e : (i % cap + step) % cap = (i + step) % cap := by rw [Nat.mod_add_mod]
      simp only [hs', e, Bool.false_eq_true, if_false]
      rw [ih]
      constructor
      · rintro ⟨t, h1, h2, h3, h4⟩
        refine ⟨t + 1, by omega, by rw [h2]; congr 1; ring, h3, fun t' ht' => ?_⟩
        cases t' with
        | zero => simpa using hs'
        | succ t' =>
          have := h4 t' (by omega)
          rw [← this]; congr 2; ring
      · rintro ⟨t, h1, h2, h3, h4⟩
        cases t with
        | zero =>
          simp at h2; subst h2
          rw [hs'] at h3; cases h3
        | succ t =>
          refine ⟨t, by omega, by rw [h2]; congr 1; ring, h3, fun t' ht' => ?_⟩
          have := h4 (t' + 1) (by omega)
          rw [← this]; congr 2; ring

theorem probe_eq_none {stop : Nat → Bool} {cap step : Nat} (f i : Nat) :
    probe stop cap step f (i % cap) = none ↔ ∀ t < f, stop ((i + t * step) % cap) = false := by
  induction f generalizing i with
  | zero => simp [probe]
  | succ f ih =>
    rw [probe]
    by_cases hs : stop (i % cap) = true
    · simp only [hs, if_true]
      constructor
      · intro h; cases h
      · intro h
        have := h 0 (by omega)
        simp [hs] at this
    · have hs' : stop (i % cap) = false := by simpa using hs
      have e : (i % cap + step) % cap = (i + step) % cap := by rw [Nat.mod_add_mod]
      simp only [hs', e, Bool.false_eq_true, if_false]
      rw [ih]
      constructor
      · intro h t ht
        cases t with
        | zero => simpa using hs'
        | succ t => rw [← h t (by omega)]; congr 2; ring
      · intro h t ht
        rw [← h (t + 1) (by omega)]; congr 2; ring

theorem cover_inj {cap step i : Nat} (hp : cap.Prime) (h1 : 0 < step) (h2 : step < cap)
    {t1 t2 : Nat} (ht1 : t1 < cap) (ht2 : t2 < cap)
    (h : (i + t1 * step) % cap = (i + t2 * step) % cap) : t1 = t2 := by
  have h' : t1 * step ≡ t2 * step [MOD cap] := Nat.ModEq.add_left_cancel' i h
  have hc : Nat.gcd cap step = 1 := Nat.coprime_of_lt_prime (by omega) h2 hp
  have h'' := Nat.ModEq.cancel_right_of_coprime hc h'
  exact Nat.ModEq.eq_of_lt_of_lt h'' ht1 ht2

/-- every slot is visited within `cap` probes -/
theorem cover {cap step : Nat} (i : Nat) (hp : cap.Prime) (h1 : 0 < step) (h2 : step < cap)
    {j : Nat} (hj : j < cap) : ∃ t < cap, (i + t * step) % cap = j := by
  have himg : (Finset.range cap).image (fun t => (i + t * step) % cap) = Finset.range cap := by
    apply Finset.eq_of_subset_of_card_le
    · intro x hx
      obtain ⟨t, _, rfl⟩ := Finset.mem_image.1 hx
      exact Finset.mem_range.2 (Nat.mod_lt _ hp.pos)
    · rw [Finset.card_image_of_injOn]
      intro a ha b hb hab
      exact cover_inj hp h1 h2 (by simpa using ha) (by simpa using hb) hab
  have := Finset.mem_range.2 hj
  rw [← himg] at this
  obtain ⟨t, ht, h⟩ := Finset.mem_image.1 this
  exact ⟨t, Finset.mem_range.1 ht, h⟩

theorem slot_cover {cap : Nat} (h : Nat) (hp : cap.Prime) (h3 : 3 ≤ cap) {j : Nat} (hj : j < cap) :
    ∃ t < cap, slot cap h t = j := by
  apply cover _ hp (by omega) _ hj
  have := Nat.mod_lt h (show 0 < cap - 2 by omega)
  omega

/-- the open-addressing invariant: the key in an occupied slot is found on its own probe
sequence behind occupied slots with different keys -/
def Chain {κ : Type*} (cap : Nat) (key : Nat → Option κ) (hash : κ → Nat) (eq : κ → κ → Prop) : Prop :=
  ∀ i, i < cap → ∀ k, key i = some k →
    ∃ t < cap, slot cap (hash k) t = i ∧ ∀ t' < t, ∃ k', key (slot cap (hash k) t') = some k' ∧ ¬ eq k' k

section
variable {κ : Type*} {cap : Nat} {key : Nat → Option κ} {hash : κ → Nat} {eq : κ → κ → Prop}

theorem Chain.unique (h : Chain cap key hash eq) (hsymm : ∀ a b, eq a b → eq b a)
    (hh : ∀ a b, eq a b → hash a = hash b) {i j : Nat} (hi : i < cap) (hj : j < cap) {a b : κ}
    (ha : key i = some a) (hb : key j = some b) (hab : eq a b) : i = j := by
  obtain ⟨t1, _, e1, c1⟩ := h i hi a ha
  obtain ⟨t2, _, e2, c2⟩ := h j hj b hb
  rw [hh a b hab] at e1 c1
  rcases Nat.lt_trichotomy t1 t2 with h | h | h
  · obtain ⟨k', e, ne⟩ := c2 t1 h
    rw [e1, ha] at e; cases e
    exact absurd hab ne
  · rw [← e1, ← e2, h]
  · obtain ⟨k', e, ne⟩ := c1 t2 h
    rw [e2, hb] at e; cases e
    exact absurd (hsymm _ _ hab) ne

/-- adding a key at the place where its own probing stopped keeps the invariant -/
theorem Chain.insert (h : Chain cap key hash eq) {k : κ} {t : Nat} (ht : t < cap)
    (hempty : key (slot cap (hash k) t) = none)
    (hprev : ∀ t' < t, ∃ k', key (slot cap (hash k) t') = some k' ∧ ¬ eq k' k)
    {key' : Nat → Option κ} (hat : key' (slot cap (hash k) t) = some k)
    (hother : ∀ i, i ≠ slot cap (hash k) t → key' i = key i) : Chain cap key' hash eq := by
  intro i hi a ha
  by_cases hit : i = slot cap (hash k) t
  · subst hit
    rw [hat] at ha; cases ha
    refine ⟨t, ht, rfl, fun t' ht' => ?_⟩
    obtain ⟨k', e, ne⟩ := hprev t' ht'
    refine ⟨k', ?_, ne⟩
    rw [hother _ (fun hh => by rw [hh, hempty] at e; cases e), e]
  · rw [hother i hit] at ha
    obtain ⟨t1, h1, e1, c1⟩ := h i hi a ha
    refine ⟨t1, h1, e1, fun t' ht' => ?_⟩
    obtain ⟨k', e, ne⟩ := c1 t' ht'
    refine ⟨k', ?_, ne⟩
    rw [hother _ (fun hh => by rw [hh, hempty] at e; cases e), e]

end
end Aps.HashTable
