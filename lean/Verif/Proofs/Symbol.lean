import Verif.Model.Symbol
import Mathlib.Data.List.Nodup
import Mathlib.Data.Finset.Card
import Mathlib.Data.Finset.Range
import Mathlib.Tactic.Common
set_option linter.unusedVariables false
namespace Aps.Symbol

/-- The number written. -/
def val (l : List Nat) : Nat := l.foldl (fun a d => 10 * a + (d - 48)) 0

theorem val_append_singleton (l : List Nat) (d : Nat) : val (l ++ [d]) = 10 * val l + (d - 48) := by
  simp [val]

theorem val_digits (f : Nat) : ∀ n, n ≤ f → val (digits f n) = n := by
  induction f with
  | zero => intro n h; simp [digits, val]; omega
  | succ f ih =>
    intro n h
    simp only [digits]
    split
    · simp [val]; omega
    · rw [val_append_singleton, ih _ (by omega)]; omega

theorem val_zeros (k : Nat) (l : List Nat) : val (List.replicate k 48 ++ l) = val l := by
  induction k with
  | zero => simp
  | succ k ih =>
    rw [List.replicate_succ, List.cons_append]
    show List.foldl _ _ _ = _
    exact ih

theorem genName_inj {m n : Nat} (h : genName m = genName n) : m = n := by
  simp only [genName, List.cons.injEq, true_and] at h
  have := congrArg val h
  rw [val_zeros, val_zeros, val_digits _ _ (le_refl _), val_digits _ _ (le_refl _)] at this
  exact this

theorem digits_length (k f : Nat) : ∀ n, n < 10 ^ k → (digits f n).length ≤ k := by
  induction k generalizing f with
  | zero => intro n h; cases f with
    | zero => simp [digits]
    | succ f => simp at h; subst h; simp [digits]
  | succ k ih =>
    intro n h
    cases f with
    | zero => simp [digits]
    | succ f =>
      simp only [digits]
      split
      · simp
      · have := ih f (n / 10) (by rw [Nat.pow_succ] at h; omega)
        simp; omega

theorem genName_length {n : Nat} (h : n < 10 ^ 8) : (genName n).length + 1 ≤ 10 := by
  have := digits_length 8 n n h
  simp only [genName, List.length_cons, List.length_append, List.length_replicate]
  omega

structure Inv (t : Tab) : Prop where
  size : 0 < t.size
  len : t.names.length = t.num
  max : t.num ≤ maxSymbol
  nodup : t.names.Nodup
  gen : ∀ u, 1 ≤ u → u ≤ t.unique → genName u ∈ t.names

theorem init_inv (base size : Nat) (h : 0 < size) : Inv (init base size) :=
  ⟨h, rfl, Nat.zero_le _, List.nodup_nil, fun u h1 h2 => by simp [init] at h2; omega⟩

theorem findFrom_spec (t : Tab) (s : List Nat) (k : Nat) : ∀ i,
    (∃ j, i ≤ j ∧ j < i + k ∧ t.names[j]? = some s ∧ findFrom t s k i = some (slot t j)) ∨
    ((∀ j, i ≤ j → j < i + k → t.names[j]? ≠ some s) ∧ findFrom t s k i = none) := by
  induction k with
  | zero => intro i; right; exact ⟨fun j h1 h2 => by omega, rfl⟩
  | succ k ih =>
    intro i
    simp only [findFrom]
    split
    · left; exact ⟨i, le_refl _, by omega, by assumption, rfl⟩
    · rename_i hne
      rcases ih (i + 1) with ⟨j, h1, h2, h3, h4⟩ | ⟨h1, h2⟩
      · left; exact ⟨j, by omega, by omega, h3, h4⟩
      · right
        refine ⟨fun j h3 h4 => ?_, h2⟩
        by_cases hj : j = i
        · subst hj; exact hne
        · exact h1 j (by omega) (by omega)

theorem find_spec {t : Tab} (hi : Inv t) (s : List Nat) :
    (∃ j, j < t.num ∧ t.names[j]? = some s ∧ find t s = some (slot t j)) ∨
    (s ∉ t.names ∧ find t s = none) := by
  rcases findFrom_spec t s t.num 0 with ⟨j, _, h2, h3, h4⟩ | ⟨h1, h2⟩
  · left; exact ⟨j, by omega, h3, h4⟩
  · right
    refine ⟨fun hm => ?_, h2⟩
    obtain ⟨j, hj⟩ := List.mem_iff_getElem?.1 hm
    have : j < t.names.length := (List.getElem?_eq_some_iff.1 hj).1
    exact h1 j (Nat.zero_le _) (by have := hi.len; omega) hj

theorem symbolId_slot {t : Tab} (h : 0 < t.size) (i : Nat) : symbolId t (slot t i) = i := by
  simp only [symbolId, slot]
  rw [Nat.add_sub_cancel_left, Nat.mul_div_cancel _ h]

theorem symbolName_slot {t : Tab} (h : 0 < t.size) (i : Nat) :
    symbolName t (slot t i) = t.names[i]? := by
  simp [symbolName, symbolId_slot h]

theorem slot_inj {t : Tab} (h : 0 < t.size) {i j : Nat} (he : slot t i = slot t j) : i = j := by
  rw [← symbolId_slot h i, he, symbolId_slot h]

theorem add_spec {t : Tab} (hi : Inv t) (s : List Nat) (hs : s ∉ t.names) :
    (t.num = maxSymbol ∧ add s t = .exit) ∨
    (∃ t', add s t = .ok (slot t t.num) t' ∧ Inv t' ∧ t'.names = t.names ++ [s] ∧ t'.base = t.base ∧
      t'.size = t.size ∧ t'.unique = t.unique) := by
  unfold add
  split
  · left; exact ⟨by assumption, rfl⟩
  · right
    have ht : t.names.take t.num = t.names := by rw [← hi.len, List.take_length]
    refine ⟨_, rfl, ⟨hi.size, ?_, ?_, ?_, ?_⟩, ?_, rfl, rfl, rfl⟩
    · simp [ht, hi.len]
    · have := hi.max; show t.num + 1 ≤ _; omega
    · show (List.take _ _ ++ [s]).Nodup
      rw [ht]
      rw [List.nodup_append]
      exact ⟨hi.nodup, List.nodup_singleton s, fun a ha b hb => by
        rw [List.mem_singleton] at hb; subst hb; rintro rfl; exact hs ha⟩
    · intro u h1 h2
      show _ ∈ List.take _ _ ++ [s]
      rw [ht]
      exact List.mem_append_left _ (hi.gen u h1 h2)
    · show List.take _ _ ++ [s] = _
      rw [ht]

theorem unique_le {t : Tab} (hi : Inv t) : t.unique ≤ t.num := by
  have h : ((Finset.range t.unique).image fun u => genName (u + 1)) ⊆ t.names.toFinset := by
    intro x hx
    simp only [Finset.mem_image, Finset.mem_range] at hx
    obtain ⟨u, hu, rfl⟩ := hx
    exact List.mem_toFinset.2 (hi.gen _ (by omega) (by omega))
  have h2 := Finset.card_le_card h
  rw [Finset.card_image_of_injective, Finset.card_range, List.toFinset_card_of_nodup hi.nodup,
    hi.len] at h2
  · exact h2
  · intro a b hab
    have := genName_inj hab
    omega

/-- `gensym`'s loop: ends, stays within the buffer, gives a name not in the table. -/
theorem genLoop_spec (f : Nat) : ∀ {t : Tab}, Inv t →
    (genLoop f t = .nofuel ∧ f + t.unique ≤ t.num) ∨
    (∃ u, genLoop f t = .ok (genName u) { t with unique := u } ∧ t.unique < u ∧ genName u ∉ t.names ∧
      (∀ w, 1 ≤ w → w < u → genName w ∈ t.names)) := by
  induction f with
  | zero => intro t hi; left; exact ⟨rfl, by have := unique_le hi; omega⟩
  | succ f ih =>
    intro t hi
    have hu := unique_le hi
    have hm := hi.max
    simp only [genLoop]
    have hlen := genName_length (n := t.unique + 1) (by simp [maxSymbol] at hm; omega)
    rw [if_neg (by omega)]
    have hf : ∀ s, find { t with unique := t.unique + 1 } s = find t s := by
      intro s
      have : ∀ k i, findFrom { t with unique := t.unique + 1 } s k i = findFrom t s k i := by
        intro k
        induction k with
        | zero => intro i; rfl
        | succ k ih => intro i; simp only [findFrom, ih]; rfl
      exact this _ _
    rw [hf]
    rcases find_spec hi (genName (t.unique + 1)) with ⟨j, h1, h2, h3⟩ | ⟨h1, h2⟩
    · rw [h3]
      simp only [Option.isSome_some, if_true]
      have hmem : genName (t.unique + 1) ∈ t.names := List.mem_of_getElem? h2
      have hi' : Inv { t with unique := t.unique + 1 } := by
        refine ⟨hi.size, hi.len, hi.max, hi.nodup, ?_⟩
        intro u hu1 hu2
        by_cases he : u = t.unique + 1
        · rw [he]; exact hmem
        · exact hi.gen u hu1 (by simp only at hu2; omega)
      rcases ih hi' with ⟨g1, g2⟩ | ⟨u, g1, g2, g3, g4⟩
      · left; exact ⟨g1, by simp only at g2; omega⟩
      · right; exact ⟨u, g1, by simp only at g2; omega, g3, g4⟩
    · rw [h2]
      right
      refine ⟨t.unique + 1, rfl, by omega, h1, ?_⟩
      intro w hw1 hw2
      exact hi.gen w hw1 (by omega)

/-- What a call does. -/
theorem call_spec {t : Tab} (hi : Inv t) (f : Nat) (op : Op) {p : Nat} {t' : Tab}
    (h : call f op t = .ok p t') : Inv t' ∧ t'.base = t.base ∧ t'.size = t.size ∧
    ((∃ s j, op = .intern s ∧ t' = t ∧ p = slot t j ∧ t.names[j]? = some s) ∨
     (∃ s, (op = .intern s ∨ (op = .gensym ∧ ∃ u, 1 ≤ u ∧ s = genName u)) ∧ s ∉ t.names ∧
        t'.names = t.names ++ [s] ∧ p = slot t t.num)) := by
  cases op with
  | intern s =>
    simp only [call, intern] at h
    rcases find_spec hi s with ⟨j, h1, h2, h3⟩ | ⟨h1, h2⟩
    · rw [h3] at h; cases h
      exact ⟨hi, rfl, rfl, Or.inl ⟨s, j, rfl, rfl, rfl, h2⟩⟩
    · rw [h2] at h
      rcases add_spec hi s h1 with ⟨_, e⟩ | ⟨t1, e, i1, n1, b1, z1, _⟩
      · rw [e] at h; cases h
      · rw [e] at h; cases h
        exact ⟨i1, b1, z1, Or.inr ⟨s, Or.inl rfl, h1, n1, rfl⟩⟩
  | gensym =>
    simp only [call, gensym] at h
    rcases genLoop_spec f hi with ⟨g, _⟩ | ⟨u, g, g1, g2, g3⟩
    · rw [g] at h; cases h
    · rw [g] at h
      simp only at h
      rw [add] at h
      split at h
      · cases h
      · rename_i hne
        cases h
        have ht : t.names.take t.num = t.names := by rw [← hi.len, List.take_length]
        refine ⟨⟨hi.size, ?_, ?_, ?_, ?_⟩, rfl, rfl, Or.inr ⟨genName u, Or.inr ⟨rfl, u, by omega, rfl⟩, g2, ?_, rfl⟩⟩
        · simp [ht, hi.len]
        · have := hi.max; show t.num + 1 ≤ _; simp only at hne; omega
        · show (List.take _ _ ++ [_]).Nodup
          rw [ht, List.nodup_append]
          exact ⟨hi.nodup, List.nodup_singleton _, fun a ha b hb => by
            rw [List.mem_singleton] at hb; subst hb; rintro rfl; exact g2 ha⟩
        · intro w h1 h2
          show _ ∈ List.take _ _ ++ [_]
          rw [ht]
          by_cases hw : w = u
          · subst hw; simp
          · exact List.mem_append_left _ (g3 w h1 (by simp only at h2; omega))
        · show List.take _ _ ++ [_] = _
          rw [ht]

theorem History.spec {t t' : Tab} {rs : List (Op × Nat)} (h : History t rs t') (hi : Inv t) :
    Inv t' ∧ t'.base = t.base ∧ t'.size = t.size ∧ t.names <+: t'.names ∧
    (∀ r ∈ rs, ∃ i, i < t'.num ∧ r.2 = slot t' i ∧ ∀ s, r.1 = .intern s → t'.names[i]? = some s) := by
  induction h with
  | nil t => exact ⟨hi, rfl, rfl, List.prefix_refl _, by simp⟩
  | @cons t t1 t2 op p rs f he _ ih =>
    obtain ⟨i1, b1, z1, hc⟩ := call_spec hi f op he
    obtain ⟨i2, b2, z2, p2, r2⟩ := ih i1
    have hslot : ∀ i, slot t2 i = slot t i := by intro i; simp [slot, b1, b2, z1, z2]
    have hp : t.names <+: t1.names := by
      rcases hc with ⟨s, j, _, ht, _⟩ | ⟨s, _, _, ht, _⟩
      · rw [ht]
      · rw [ht]; exact List.prefix_append _ _
    refine ⟨i2, b2.trans b1, z2.trans z1, hp.trans p2, ?_⟩
    intro r hr
    rcases List.mem_cons.1 hr with rfl | hr
    · have hget : ∀ (j : Nat) (s : List Nat), t1.names[j]? = some s →
          j < t2.num ∧ t2.names[j]? = some s := by
        intro j s hj
        obtain ⟨l, hl⟩ := p2
        have hjl : j < t1.names.length := (List.getElem?_eq_some_iff.1 hj).1
        have : t2.names[j]? = some s := by rw [← hl, List.getElem?_append_left hjl]; exact hj
        exact ⟨by rw [← i2.len]; exact (List.getElem?_eq_some_iff.1 this).1, this⟩
      rcases hc with ⟨s, j, ho, ht, hp', hn⟩ | ⟨s, ho, hs, ht, hp'⟩
      · obtain ⟨h1, h2⟩ := hget j s (by rw [ht]; exact hn)
        refine ⟨j, h1, by rw [hslot]; exact hp', ?_⟩
        intro s' hs'
        simp only at hs'
        rw [ho] at hs'; cases hs'; exact h2
      · have hn : t1.names[t.num]? = some s := by rw [ht, ← hi.len]; simp
        obtain ⟨h1, h2⟩ := hget t.num s hn
        refine ⟨t.num, h1, by rw [hslot]; exact hp', ?_⟩
        intro s' hs'
        simp only at hs'
        rcases ho with ho | ⟨ho, _⟩
        · rw [ho] at hs'; cases hs'; exact h2
        · rw [ho] at hs'; cases hs'
    · exact r2 r hr

end Aps.Symbol
