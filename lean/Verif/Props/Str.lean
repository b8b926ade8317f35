import Verif.Model.Str
import Verif.Props.Coll
import Mathlib.Tactic.Common
import Mathlib.Tactic.Ring
import Mathlib.Algebra.Group.Defs
import Mathlib.Algebra.Group.Basic

/-!
# C39 (printing integers), C40 (strings), C53 (powers), C54 (character and string order)
-/
namespace Aps.Props
open Aps Aps.Coll
open Aps.Str (Byte)
set_option linter.unusedVariables false

/-! ## C39 -/

/-- Reading a list of decimal digits, highest first. -/
def readNat (l : List Byte) : Nat := l.foldl (fun a c => a * 10 + (c.toNat - 48)) 0

/-- Reading a decimal numeral with an optional minus sign. -/
def readInt : List Byte → Int
  | [] => 0
  | c :: l => if c = 45 then -(readNat l : Int) else (readNat (c :: l) : Int)

/-- A numeral without superfluous zeros. -/
def Numeral (l : List Byte) : Prop :=
  l = [48] ∨ (l ≠ [] ∧ (∀ c ∈ l, 48 ≤ c.toNat ∧ c.toNat ≤ 57) ∧ l.head? ≠ some 48)

theorem readNat_append (l : List Byte) (c : Byte) :
    readNat (l ++ [c]) = readNat l * 10 + (c.toNat - 48) := by
  simp [readNat]

theorem digit_toNat {d : Nat} (h : d < 10) : (UInt8.ofNat (48 + d)).toNat = 48 + d := by
  simp only [UInt8.toNat_ofNat']
  omega

theorem digitLoop_spec : ∀ (fuel : Nat) (x : Int) (rev : List Byte), 0 ≤ x → x < 10 ^ fuel →
    ∃ d, Str.digitLoop (fuel + 1) x rev = .ok (rev ++ d) ∧ (readNat d.reverse : Int) = x ∧
      (∀ c ∈ d, 48 ≤ c.toNat ∧ c.toNat ≤ 57) ∧ (0 < x → d.reverse.head? ≠ some 48 ∧ d ≠ []) := by
  intro fuel
  induction fuel with
  | zero =>
    intro x rev h0 h1
    have : x = 0 := by simp at h1; omega
    subst this
    exact ⟨[], by simp [Str.digitLoop], by simp [readNat], by simp, by omega⟩
  | succ fuel ih =>
    intro x rev h0 h1
    rw [Str.digitLoop]
    by_cases hx : x = 0
    · subst hx
      exact ⟨[], by simp, by simp [readNat], by simp, by omega⟩
    rw [if_pos hx]
    have hd : Int.tdiv x 10 = x / 10 := Int.tdiv_eq_ediv_of_nonneg h0
    have hm : Int.tmod x 10 = x % 10 := Int.tmod_eq_emod_of_nonneg h0
    rw [hd, hm]
    have hlt : x / 10 < 10 ^ fuel := by
      rw [Int.pow_succ] at h1
      omega
    obtain ⟨d, h2, h3, h4, h5⟩ := ih (x / 10) (rev ++ [UInt8.ofNat (48 + (x % 10).toNat)])
      (by omega) hlt
    have hdig := digit_toNat (d := (x % 10).toNat) (by omega)
    refine ⟨UInt8.ofNat (48 + (x % 10).toNat) :: d, ?_, ?_, ?_, ?_⟩
    · rw [h2]; simp
    · rw [List.reverse_cons, readNat_append, hdig]
      push_cast
      rw [h3]
      omega
    · intro c hc
      rcases List.mem_cons.1 hc with rfl | hc
      · rw [hdig]; omega
      · exact h4 c hc
    · intro hpos
      refine ⟨?_, by simp⟩
      rw [List.reverse_cons]
      by_cases hq : 0 < x / 10
      · obtain ⟨h6, h7⟩ := h5 hq
        rw [List.head?_append_of_ne_nil _ (by simpa using h7)]
        exact h6
      · have h8 : x / 10 = 0 := by omega
        rw [h8] at h3
        have h9 : d = [] := by
          have := h2
          rw [h8] at this
          rw [Str.digitLoop, if_neg (by simp)] at this
          simpa using this
        subst h9
        simp only [List.reverse_nil, List.nil_append, List.head?_cons, ne_eq, Option.some.injEq]
        intro he
        have := congrArg UInt8.toNat he
        rw [hdig] at this
        simp at this
        omega

theorem posString_spec (x : Int) (h0 : 0 < x) (h1 : x ≤ intMax) :
    ∃ s, Str.posString x = .ok s ∧ (readNat s : Int) = x ∧ Numeral s ∧ s.head? ≠ some 45 ∧ s ≠ [] := by
  obtain ⟨d, h2, h3, h4, h5⟩ := digitLoop_spec 11 x [] (by omega) (by simp only [intMax] at h1; omega)
  obtain ⟨h6, h7⟩ := h5 h0
  refine ⟨d.reverse, ?_, h3, Or.inr ⟨by simpa using h7, by simpa using h4, h6⟩, ?_, by simpa using h7⟩
  · unfold Str.posString
    rw [h2]; simp
  · intro h
    have hm : (45 : Byte) ∈ d.reverse := List.mem_of_mem_head? (by rw [h]; rfl)
    have := h4 45 (by simpa using hm)
    revert this; decide

/-- The printed form of every `int` other than the smallest is a canonical decimal numeral (with a
minus sign exactly for negative numbers) that reads back as the number. -/
theorem C39_string (x : Int) (h0 : intMin < x) (h1 : x ≤ intMax) :
    ∃ s, Str.intString x = .ok s ∧ readInt s = x ∧
      (if x < 0 then ∃ t, s = 45 :: t ∧ Numeral t ∧ t ≠ [48] else Numeral s) := by
  unfold Str.intString
  by_cases hz : x = 0
  · subst hz
    exact ⟨[48], rfl, by decide, by simp [Numeral]⟩
  rw [if_neg hz]
  by_cases hn : x < 0
  · rw [if_pos hn, int32_ok (by simp only [intMin, intMax] at *; omega)
      (by simp only [intMin, intMax] at *; omega), Res.ok_bind]
    obtain ⟨s, h2, h3, h4, h5, h6⟩ := posString_spec (-x) (by omega)
      (by simp only [intMin, intMax] at *; omega)
    rw [h2]
    refine ⟨45 :: s, rfl, ?_, ?_⟩
    · simp only [readInt, if_true]
      omega
    · rw [if_pos hn]
      refine ⟨s, rfl, h4, ?_⟩
      rintro rfl
      have : (readNat [48] : Int) = 0 := by decide
      omega
  · rw [if_neg hn]
    obtain ⟨s, h2, h3, h4, h5, h6⟩ := posString_spec x (by omega) h1
    refine ⟨s, h2, ?_, ?_⟩
    · cases s with
      | nil => exact absurd rfl h6
      | cons c t =>
        simp only [readInt]
        rw [if_neg (by simpa using h5)]
        exact h3
    · rw [if_neg hn]; exact h4

/-- Different integers print differently. -/
theorem C39_injective (x y : Int) (hx : intMin < x ∧ x ≤ intMax) (hy : intMin < y ∧ y ≤ intMax)
    (h : Str.intString x = Str.intString y) : x = y := by
  obtain ⟨s, h1, h2, _⟩ := C39_string x hx.1 hx.2
  obtain ⟨t, h3, h4, _⟩ := C39_string y hy.1 hy.2
  rw [h1, h3] at h
  cases h
  omega

/-- **The full claim is false**: printing the smallest `int` negates it, which overflows. -/
theorem C39_min_refuted : Str.intString intMin = .ub := by decide

example : Str.intString (-1024) = .ok [45, 49, 48, 50, 52] := by decide
example : readInt [45, 49, 48, 50, 52] = -1024 := by decide
example : Str.intString intMax = .ok [50, 49, 52, 55, 52, 56, 51, 54, 52, 55] := by decide

/-! ## C40 -/

/-- The string is short enough for its length to be an `int`. -/
def ShortStr (l : List Byte) : Prop := (l.length : Int) ≤ intMax

/-- An `int`. -/
def IsInt (i : Int) : Prop := intMin ≤ i ∧ i ≤ intMax

theorem toSize_nonneg {i : Int} (h0 : 0 ≤ i) (h : i ≤ intMax) : Str.toSize i = i.toNat := by
  unfold Str.toSize; simp only [intMax] at h
  rw [Int.emod_eq_of_lt h0 (by omega)]

theorem toSize_neg {i : Int} (h0 : i < 0) (h : -(2 ^ 40) ≤ i) :
    (Str.toSize i : Int) = i + 18446744073709551616 := by
  unfold Str.toSize
  omega

/-- `nth` on strings is indexing from zero; every other index is refused. -/
theorem C40_nth (l : List Byte) (hl : ShortStr l) (i : Int) (hi : IsInt i) :
    Str.nth i l = if 0 ≤ i then (match l[i.toNat]? with | some c => .ok c | none => .stop)
      else .stop := by
  unfold Str.nth Str.strAt
  by_cases h0 : 0 ≤ i
  · rw [if_pos h0, toSize_nonneg h0 hi.2]
    cases l[i.toNat]? <;> rfl
  · rw [if_neg h0]
    have := toSize_neg (i := i) (by omega) (by have := hi.1; simp only [intMin] at this; omega)
    have h2 := hi.1
    simp only [intMin, ShortStr, intMax] at h2 hl
    rw [List.getElem?_eq_none (by omega)]

/-- `nth_from_end` on strings is indexing into the reversed string. -/
theorem C40_nth_from_end (l : List Byte) (hl : ShortStr l) (i : Int) (hi : IsInt i) :
    Str.nthFromEnd i l =
      if 0 ≤ i then (match l.reverse[i.toNat]? with | some c => .ok c | none => .stop)
      else .stop := by
  unfold Str.nthFromEnd Str.strAt
  have h1 := hi.1
  have h2 := hi.2
  simp only [intMin, ShortStr, intMax] at h1 h2 hl
  by_cases h0 : 0 ≤ i
  · rw [if_pos h0, toSize_nonneg h0 hi.2]
    by_cases hlt : i.toNat < l.length
    · rw [toSize_nonneg (by omega) (by simp only [intMax]; omega), List.getElem?_reverse hlt]
      congr 2
      omega
    · have := toSize_neg (i := (l.length : Int) - (i.toNat : Int) - 1) (by omega) (by omega)
      rw [List.getElem?_eq_none (by omega), List.getElem?_eq_none (by simp; omega)]
  · rw [if_neg h0]
    have e := toSize_neg (i := i) (by omega) (by omega)
    have : Str.toSize ((l.length : Int) - (Str.toSize i : Int) - 1) ≥ l.length := by
      rw [e]
      unfold Str.toSize
      omega
    rw [List.getElem?_eq_none this]

/-- `position` is the first index of the character, or -1. -/
theorem C40_position (x : Byte) (l : List Byte) :
    (x ∈ l → ∃ i : Nat, Str.position x l = i ∧ l[i]? = some x ∧ ∀ j : Nat, j < i → l[j]? ≠ some x) ∧
    (x ∉ l → Str.position x l = -1) := by
  unfold Str.position
  cases h : l.findIdx? (fun y => x == y) with
  | none =>
    rw [List.findIdx?_eq_none_iff] at h
    exact ⟨fun hx => absurd (h x hx) (by simp), fun _ => rfl⟩
  | some i =>
    rw [List.findIdx?_eq_some_iff_getElem] at h
    obtain ⟨hi, he, hj⟩ := h
    simp only [beq_iff_eq] at he
    refine ⟨fun _ => ⟨i, rfl, ?_, ?_⟩, fun hx => absurd (he ▸ List.getElem_mem hi) hx⟩
    · rw [List.getElem?_eq_getElem hi, ← he]
    · intro j hji hjx
      have := hj j hji
      rw [List.getElem?_eq_getElem (by omega)] at hjx
      simp only [Option.some.injEq] at hjx
      rw [hjx] at this
      simp at this

/-- `member` says whether the character occurs. -/
theorem C40_member (x : Byte) (l : List Byte) : Str.member x l = true ↔ x ∈ l := by
  unfold Str.member
  cases h : l.findIdx? (fun y => x == y) with
  | some i =>
    have h1 := findIdx?_lt h
    rw [List.findIdx?_eq_some_iff_getElem] at h
    obtain ⟨hi, he, _⟩ := h
    simp only [h1, decide_true, true_iff]
    simp only [beq_iff_eq] at he
    rw [he]
    exact List.getElem_mem hi
  | none =>
    rw [List.findIdx?_eq_none_iff] at h
    simp only [Bool.false_eq_true, false_iff]
    intro hx
    have := h x hx
    simp at this

/-- `butsubseq(l,s,f)` drops the characters with index from `s` up to `f`. -/
theorem C40_butsubseq (l : List Byte) (hl : ShortStr l) (s f : Int) (h0 : 0 ≤ s) (hsf : s ≤ f)
    (hf : f ≤ l.length) :
    Str.butsubseq l s f = .ok (l.take s.toNat ++ l.drop f.toNat) := by
  simp only [ShortStr] at hl
  unfold Str.butsubseq Str.substr
  rw [toSize_nonneg h0 (by omega), toSize_nonneg (by omega) (by omega), if_neg (by omega),
    if_neg (by omega)]
  simp only [Res.ok_bind, List.drop_zero]
  rw [List.take_of_length_le (l := l.drop f.toNat) (by simp)]

/-- Unlike on lists, dropping more characters than there are is refused. -/
theorem C40_butsubseq_past_end_refuted (l : List Byte) (hl : ShortStr l) (s f : Int)
    (hf : (l.length : Int) < f) (hi : f ≤ intMax) :
    Str.butsubseq l s f = .stop := by
  unfold Str.butsubseq Str.substr
  rw [toSize_nonneg (i := f) (by omega) hi]
  rw [if_neg (by omega), if_pos (by omega)]
  rfl

/-- `subseq(l,s,f)` is the string of at most `f` characters from index `s` on: the end is used as a
length. -/
theorem C40_subseq_value (l : List Byte) (hl : ShortStr l) (s f : Int) (h0 : 0 ≤ s)
    (hs : s ≤ l.length) (hf : 0 ≤ f) (hi : f ≤ intMax) :
    Str.subseq l s f = .ok ((l.drop s.toNat).take f.toNat) := by
  simp only [ShortStr] at hl
  unfold Str.subseq Str.substr
  rw [toSize_nonneg h0 (by omega), toSize_nonneg hf hi, if_neg (by omega)]

/-- **The full claim is false**: on a string `subseq(l,s,f)` agrees with the characters of indices
`s` to `f` exactly when `s` is zero or `f` is the length. -/
theorem C40_subseq_refuted (l : List Byte) (hl : ShortStr l) (s f : Int) (h0 : 0 ≤ s)
    (hsf : s ≤ f) (hf : f ≤ l.length) :
    Str.subseq l s f = .ok ((l.take f.toNat).drop s.toNat) ↔ s = 0 ∨ f = l.length := by
  rw [C40_subseq_value l hl s f h0 (by omega) (by omega) (by simp only [ShortStr] at hl; omega)]
  simp only [Res.ok.injEq]
  rw [List.drop_take]
  constructor
  · intro h
    have := congrArg List.length h
    simp only [List.length_take, List.length_drop] at this
    omega
  · rintro (rfl | rfl)
    · simp
    · rw [List.take_of_length_le (by simp), List.take_of_length_le (by simp)]

/-- `firstn` works. -/
theorem C40_firstn (l : List Byte) (hl : ShortStr l) (n : Int) (h0 : 0 ≤ n) (hn : n ≤ intMax) :
    Str.firstn n l = .ok (l.take n.toNat) := by
  unfold Str.firstn
  rw [C40_subseq_value l hl 0 n (le_refl _) (by omega) h0 hn]
  simp

/-- `butfirst` works on a non-empty string. -/
theorem C40_butfirst (l : List Byte) (hl : ShortStr l) (hne : l ≠ []) :
    Str.butfirst l = .ok l.tail := by
  have := List.length_pos_iff.2 hne
  unfold Str.butfirst
  rw [C40_butsubseq l hl 0 1 (le_refl _) (by omega) (by omega)]
  simp

/-- **The full claim is false**: `butlast` of a string of at least two characters drops the last
character but one and keeps the last. -/
theorem C40_butlast_refuted (l : List Byte) (hl : ShortStr l) (c d : Byte) :
    ShortStr (l ++ [c, d]) → Str.butlast (l ++ [c, d]) = .ok (l ++ [d]) := by
  intro hs
  simp only [ShortStr, List.length_append, List.length_cons, List.length_nil] at hs hl
  simp only [intMax] at hs
  unfold Str.butlast Str.butsubseqFromEnd Str.substr
  rw [toSize_nonneg (by simp; omega) (by simp only [intMax, List.length_append, List.length_cons, List.length_nil]; omega),
    toSize_nonneg (by simp; omega) (by simp only [intMax, List.length_append, List.length_cons, List.length_nil]; omega)]
  rw [if_neg (by omega), if_neg (by simp)]
  simp only [Res.ok_bind, List.drop_zero, List.length_append, List.length_cons, List.length_nil]
  have e1 : (((l.length + (0 + 1 + 1) : Nat) : Int) - 1 - 1).toNat = l.length := by omega
  have e2 : (((l.length + (0 + 1 + 1) : Nat) : Int) - 0 - 1).toNat = l.length + 1 := by omega
  rw [e1, e2]
  simp [List.take_append, List.drop_append]

/-- So `butlast` is right exactly when the last two characters are the same. -/
theorem C40_butlast_right_iff (l : List Byte) (hl : ShortStr l) (c d : Byte)
    (hs : ShortStr (l ++ [c, d])) :
    Str.butlast (l ++ [c, d]) = .ok (l ++ [c, d]).dropLast ↔ c = d := by
  rw [C40_butlast_refuted l hl c d hs]
  have : (l ++ [c, d]).dropLast = l ++ [c] := by
    rw [List.dropLast_append_of_ne_nil (by simp)]; rfl
  rw [this]
  simp only [Res.ok.injEq, List.append_cancel_left_eq, List.cons.injEq, and_true]
  exact ⟨fun h => h.symm, fun h => h.symm⟩

/-- `butlast` doubles a string of one character and refuses the empty one. -/
theorem C40_butlast_short_refuted (c : Byte) :
    Str.butlast [c] = .ok [c, c] ∧ Str.butlast [] = .stop := by
  constructor
  · unfold Str.butlast Str.butsubseqFromEnd Str.substr
    simp [Str.toSize]
  · decide

/-- **The full claim is false**: `lastn(1,l)` of a string of at least two characters is the last
character but one and, when the string is longer than two, the last. -/
theorem C40_lastn_refuted (l : List Byte) (c d : Byte) (hs : ShortStr (l ++ [c, d])) :
    Str.lastn 1 (l ++ [c, d]) = .ok (if l = [] then [c] else [c, d]) := by
  simp only [ShortStr, List.length_append, List.length_cons, List.length_nil] at hs
  simp only [intMax] at hs
  unfold Str.lastn Str.subseqFromEnd Str.substr
  rw [toSize_nonneg (by simp; omega) (by simp only [intMax, List.length_append, List.length_cons, List.length_nil]; omega),
    toSize_nonneg (by simp; omega) (by simp only [intMax, List.length_append, List.length_cons, List.length_nil]; omega)]
  rw [if_neg (by simp; omega)]
  simp only [List.length_append, List.length_cons, List.length_nil]
  have e1 : (((l.length + (0 + 1 + 1) : Nat) : Int) - 1 - 1).toNat = l.length := by omega
  have e2 : (((l.length + (0 + 1 + 1) : Nat) : Int) - 0 - 1).toNat = l.length + 1 := by omega
  rw [e1, e2]
  rw [List.drop_left']
  · by_cases hl : l = []
    · subst hl; simp
    · rw [if_neg hl, List.take_of_length_le]
      have := List.length_pos_iff.2 hl
      simp; omega
  · rfl

/-- **The full claim is false**: `position_from_end` on a string counts from the start: it gives
the index of the *last* occurrence, where the list version counts from the end. -/
theorem C40_position_from_end_refuted :
    Str.positionFromEnd 97 [97, 98, 99] = 0 ∧
    Coll.positionFromEnd (fun a b => a == b) (97 : Byte)
      (.append (.single 97) (.append (.single 98) (.single 99))) = .ok 2 := by
  constructor <;> decide

/-- What `position_from_end` does give: the index, from the start, of the last occurrence. -/
theorem C40_position_from_end_value (x : Byte) (l : List Byte) (hx : x ∈ l) :
    ∃ i : Nat, Str.positionFromEnd x l = i ∧ l[i]? = some x ∧
      ∀ j : Nat, i < j → l[j]? ≠ some x := by
  unfold Str.positionFromEnd
  cases h : l.reverse.findIdx? (fun y => x == y) with
  | none =>
    rw [List.findIdx?_eq_none_iff] at h
    have := h x (by simpa using hx)
    simp at this
  | some i =>
    have hlt := findIdx?_lt h
    rw [List.findIdx?_eq_some_iff_getElem] at h
    obtain ⟨hi, he, hj⟩ := h
    simp only [List.length_reverse] at hlt hi
    refine ⟨l.length - 1 - i, by simp only; omega, ?_, ?_⟩
    · simp only [beq_iff_eq] at he
      rw [List.getElem?_eq_getElem (by omega)]
      rw [List.getElem_reverse] at he
      rw [he]
    · intro j hij hjx
      have hjl : j < l.length := by
        by_contra hc
        rw [List.getElem?_eq_none (by omega)] at hjx
        cases hjx
      have := hj (l.length - 1 - j) (by omega)
      rw [List.getElem_reverse] at this
      rw [List.getElem?_eq_getElem hjl] at hjx
      have e : l.length - 1 - (l.length - 1 - j) = j := by omega
      simp only [e] at this
      simp only [Option.some.injEq] at hjx
      rw [hjx] at this
      simp at this

example : ShortStr [104, 101, 108, 108, 111] := by unfold ShortStr; decide
example : Str.butsubseq [104, 101, 108, 108, 111] 1 3 = .ok [104, 108, 111] := by decide
example : Str.subseq [104, 101, 108, 108, 111] 1 3 = .ok [101, 108, 108] := by decide

/-! ## C53: powers -/

/-- With the C++ `odd`, `x ^ y` for a non-negative `y` is the product of `y` copies of `x`, in any
numeric type whose multiplication is associative with unit `one`; for a negative `y` it is `one`
divided by that. -/
theorem C53_power {T : Type _} [Monoid T] (divide : T → T → T) (x : T) (n : Nat) :
    ∃ fuel, Str.power 1 (fun a b : T => a * b) divide Str.oddCpp fuel x n = .ok (x ^ n) := by
  suffices h : ∀ m n : Nat, n ≤ m → ∀ x : T,
      Str.power 1 (fun a b : T => a * b) divide Str.oddCpp (m + 1) x n = .ok (x ^ n) from
    ⟨n + 1, h n n (le_refl _) x⟩
  intro m
  induction m with
  | zero =>
    intro n hn x
    have : n = 0 := by omega
    subst this
    simp [Str.power]
  | succ m ih =>
    intro n hn x
    rw [Str.power]
    by_cases h0 : n = 0
    · subst h0; simp
    rw [if_neg (by omega), if_neg (by omega)]
    by_cases h1 : n = 1
    · subst h1; simp
    rw [if_neg (by omega)]
    by_cases hodd : n % 2 = 1
    · rw [if_pos (by simp only [Str.oddCpp, decide_eq_true_eq]; omega)]
      have e : (n : Int) - 1 = ((n - 1 : Nat) : Int) := by omega
      rw [e, ih (n - 1) (by omega) x]
      simp only [Res.ok_bind]
      rw [← pow_succ']
      congr 2
      omega
    · rw [if_neg (by simp only [Str.oddCpp, decide_eq_true_eq]; omega)]
      have e : Int.tdiv (n : Int) 2 = ((n / 2 : Nat) : Int) := by
        rw [Int.tdiv_eq_ediv_of_nonneg (by omega)]; omega
      rw [e, ih (n / 2) (by omega) (x * x)]
      rw [← pow_two, ← pow_mul]
      congr 2
      omega

theorem C53_power_negative {T : Type _} [Monoid T] (divide : T → T → T) (x : T) (n : Nat)
    (hn : 0 < n) :
    ∃ fuel, Str.power 1 (fun a b : T => a * b) divide Str.oddCpp fuel x (-(n : Int)) =
      .ok (divide 1 (x ^ n)) := by
  obtain ⟨fuel, h⟩ := C53_power divide x n
  refine ⟨fuel + 1, ?_⟩
  rw [Str.power, if_neg (by omega), if_pos (by omega)]
  simp only [Int.neg_neg, h, Res.ok_bind]

/-- **False for the Scala runtime**, whose `odd` is true of the even numbers: there `2 ^ 3` is 4,
`3 ^ 2` is 9, `2 ^ 5` is 16 and `2 ^ 7` is 16 again. -/
theorem C53_scala_refuted :
    Str.power (1 : Int) (· * ·) Int.tdiv Str.oddScala 10 2 3 = .ok 4 ∧
    Str.power (1 : Int) (· * ·) Int.tdiv Str.oddScala 10 2 5 = .ok 16 ∧
    Str.power (1 : Int) (· * ·) Int.tdiv Str.oddScala 10 2 7 = .ok 16 ∧
    Str.power (1 : Int) (· * ·) Int.tdiv Str.oddScala 10 3 2 = .ok 9 := by
  decide

/-- The Scala `odd` is wrong for every integer. -/
theorem C53_scala_odd_refuted (x : Int) : Str.oddScala x = !Str.oddCpp x := by
  unfold Str.oddScala Str.oddCpp
  rcases Int.emod_two_eq_zero_or_one x with h | h <;> simp [h]

/-- `abs` is the absolute value except at the smallest `int`, where it is undefined behaviour. -/
theorem C53_abs (x : Int) (h0 : intMin ≤ x) (h1 : x ≤ intMax) :
    Str.absInt x = if x = intMin then .ub else .ok |x| := by
  unfold Str.absInt
  have e1 : intMin = -2147483648 := rfl
  have e2 : intMax = 2147483647 := rfl
  by_cases hn : x < 0
  · rw [if_pos hn]
    unfold int32
    by_cases hm : x = intMin
    · rw [if_pos hm, if_neg (by omega)]
    · rw [if_neg hm, if_pos (by omega), abs_of_neg hn]
  · rw [if_neg hn, if_neg (by omega), abs_of_nonneg (by omega)]

example : Str.power (1 : Int) (· * ·) Int.tdiv Str.oddCpp 10 2 7 = .ok 128 := by decide

/-! ## C54: character codes and orders -/

/-- The character of a character's code is the character. -/
theorem C54_int_char_code (c : Byte) : Str.intChar (Str.charCode c) = c := by
  have := c.toNat_lt
  unfold Str.intChar Str.charCode
  apply UInt8.toNat_inj.1
  split
  · rw [UInt8.toNat_ofNat']; omega
  · rw [UInt8.toNat_ofNat']; omega

/-- The code of the character with code `i` is `i` exactly for the codes of characters. -/
theorem C54_char_code_int (i : Int) :
    Str.charCode (Str.intChar i) = i ↔ -128 ≤ i ∧ i < 128 := by
  unfold Str.intChar Str.charCode
  rw [UInt8.toNat_ofNat']
  split <;> omega

/-- The string order is a strict total order. -/
theorem C54_string_irrefl (x : List Byte) : Str.less x x = false := by
  induction x with
  | nil => rfl
  | cons a l ih => simp [Str.less, ih]

theorem C54_string_trans (x y z : List Byte) (h1 : Str.less x y = true) (h2 : Str.less y z = true) :
    Str.less x z = true := by
  induction x generalizing y z with
  | nil =>
    cases y with
    | nil => simp [Str.less] at h1
    | cons b m =>
      cases z with
      | nil => simp [Str.less] at h2
      | cons c n => rfl
  | cons a l ih =>
    cases y with
    | nil => simp [Str.less] at h1
    | cons b m =>
      cases z with
      | nil => simp [Str.less] at h2
      | cons c n =>
        simp only [Str.less] at h1 h2 ⊢
        by_cases hab : a.toNat < b.toNat
        · by_cases hbc : b.toNat < c.toNat
          · rw [if_pos (by omega)]
          · rw [if_neg hbc] at h2
            by_cases hcb : c.toNat < b.toNat
            · rw [if_pos hcb] at h2; cases h2
            · rw [if_pos (by omega)]
        · rw [if_neg hab] at h1
          by_cases hba : b.toNat < a.toNat
          · rw [if_pos hba] at h1; cases h1
          · rw [if_neg hba] at h1
            by_cases hbc : b.toNat < c.toNat
            · rw [if_pos (by omega)]
            · rw [if_neg hbc] at h2
              by_cases hcb : c.toNat < b.toNat
              · rw [if_pos hcb] at h2; cases h2
              · rw [if_neg hcb] at h2
                rw [if_neg (by omega), if_neg (by omega)]
                exact ih m n h1 h2

theorem C54_string_total (x y : List Byte) : Str.less x y = true ∨ x = y ∨ Str.less y x = true := by
  induction x generalizing y with
  | nil => cases y <;> simp [Str.less]
  | cons a l ih =>
    cases y with
    | nil => simp [Str.less]
    | cons b m =>
      simp only [Str.less]
      by_cases hab : a.toNat < b.toNat
      · simp [hab]
      · by_cases hba : b.toNat < a.toNat
        · simp [hba]
        · have e : a = b := UInt8.toNat_inj.1 (by omega)
          subst e
          simp only [lt_irrefl, if_false, List.cons.injEq, true_and]
          exact ih m

/-- `x <= y` is `x < y` or `x = y`. -/
theorem C54_string_less_equal (x y : List Byte) :
    Str.lessEqual x y = true ↔ Str.less x y = true ∨ x = y := by
  unfold Str.lessEqual
  simp only [Bool.not_eq_true']
  constructor
  · intro h
    rcases C54_string_total x y with h1 | h1 | h1
    · exact Or.inl h1
    · exact Or.inr h1
    · rw [h] at h1; cases h1
  · rintro (h | rfl)
    · cases hh : Str.less y x with
      | false => rfl
      | true =>
        have := C54_string_trans x y x h hh
        rw [C54_string_irrefl] at this
        cases this
    · exact C54_string_irrefl x

/-- On single characters below 128 the string order is the character order. -/
theorem C54_order_ascii (a b : Byte) (ha : a.toNat < 128) (hb : b.toNat < 128) :
    Str.less [a] [b] = Str.charLess a b := by
  unfold Str.charLess Str.charCode
  rw [if_pos ha, if_pos hb]
  simp only [Str.less]
  by_cases h : a.toNat < b.toNat
  · simp [h]
  · rw [if_neg h]
    have : ¬ ((a.toNat : Int) < b.toNat) := by omega
    simp [this]

/-- **The full claim is false**: beyond 127 the string `"é"` (first byte 195) is greater than
`"a"` but its first character is less than `'a'`. -/
theorem C54_order_refuted : Str.less [97] [195] = true ∧ Str.charLess 195 97 = true := by decide

end Aps.Props
