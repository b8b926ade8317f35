import Verif.Model.Coll
import Mathlib.Tactic.Common
import Mathlib.Data.List.Basic
import Mathlib.Data.List.Forall2
import Mathlib.Order.Basic

/-!
# C37, C38, C52: collections of the C++ runtime

A collection denotes the sequence `elems` of its elements, left to right.
-/
namespace Aps.Props
open Aps Aps.Coll
set_option linter.unusedVariables false

variable {α : Type _}

/-- The sequence a collection denotes. -/
def elems : Coll α → List α
  | .append a b => elems a ++ elems b
  | .single x => [x]
  | .none => []

/-- The collection is small enough for its length to be an `int`. -/
def Small (l : Coll α) : Prop := ((elems l).length : Int) ≤ intMax

instance (l : Coll α) : Decidable (Small l) := inferInstanceAs (Decidable (_ ≤ _))

theorem int32_ok {x : Int} (h : intMin ≤ x) (h' : x ≤ intMax) : int32 x = .ok x := by
  simp [int32, h, h']

theorem Small.left {a b : Coll α} (h : Small (.append a b)) : Small a := by
  simp only [Small, elems, List.length_append] at *; omega
theorem Small.right {a b : Coll α} (h : Small (.append a b)) : Small b := by
  simp only [Small, elems, List.length_append] at *; omega

/-! ## Length -/

/-- `length` is the number of elements. -/
theorem C37_length (l : Coll α) (h : Small l) : Coll.length l = .ok ((elems l).length : Int) := by
  induction l with
  | append a b iha ihb =>
    simp only [Coll.length, iha h.left, ihb h.right, Res.ok_bind]
    rw [int32_ok]
    · simp [elems]
    · simp only [intMin]; omega
    · simpa [Small, elems] using h
  | single x => rfl
  | none => rfl

/-- When the number of elements does not fit an `int`, `length` is undefined behaviour. -/
theorem C37_length_overflow (l : Coll α) (h : ¬ Small l) : Coll.length l = .ub := by
  induction l with
  | append a b iha ihb =>
    by_cases ha : Small a
    · by_cases hb : Small b
      · simp only [Coll.length, C37_length a ha, C37_length b hb, Res.ok_bind, int32]
        rw [if_neg]
        simp only [Small, elems, List.length_append] at h
        intro h2
        exact h (by push_cast; exact h2.2)
      · simp only [Coll.length, C37_length a ha, ihb hb, Res.ok_bind, Res.ub_bind]
    · simp only [Coll.length, iha ha, Res.ub_bind]
  | single x => simp [Small, elems, intMax] at h
  | none => simp [Small, elems, intMax] at h

/-- `empty` says whether there is no element (whatever the size). -/
theorem C37_empty (l : Coll α) : Coll.empty l = (elems l).isEmpty := by
  induction l with
  | append a b iha ihb =>
    simp only [Coll.empty, iha, ihb, elems]
    cases elems a <;> simp
  | single x => rfl
  | none => rfl

/-! ## Indexing -/

/-- `nth(i,l)` is the `i`-th element, counted from zero; any other index is refused. -/
theorem C37_nth (l : Coll α) (h : Small l) (i : Int) (hi : i ≤ intMax) :
    Coll.nth i l = if 0 ≤ i then (match (elems l)[i.toNat]? with | some x => .ok x | none => .stop)
      else .stop := by
  induction l generalizing i with
  | append a b iha ihb =>
    simp only [Coll.nth, C37_length a h.left, Res.ok_bind]
    by_cases hc : ((elems a).length : Int) > i
    · rw [if_pos hc, iha h.left i hi]
      by_cases h0 : 0 ≤ i
      · simp only [if_pos h0, elems]
        rw [List.getElem?_append_left (by omega)]
      · simp only [if_neg h0]
    · rw [if_neg hc, int32_ok (by simp only [intMin]; omega) (by omega)]
      simp only [Res.ok_bind]
      rw [ihb h.right _ (by omega), if_pos (by omega), if_pos (by omega)]
      simp only [elems]
      rw [List.getElem?_append_right (by omega)]
      congr 3
      omega
  | single x =>
    simp only [Coll.nth, elems]
    by_cases h0 : i = 0
    · subst h0; simp
    · rw [if_neg h0]
      by_cases h1 : 0 ≤ i
      · rw [if_pos h1, List.getElem?_eq_none (by simp; omega)]
      · rw [if_neg h1]
  | none => simp [Coll.nth, elems]

/-- `nth_from_end(i,l)` is the `i`-th element of the reversed sequence; any other index is
refused. -/
theorem C37_nth_from_end (l : Coll α) (h : Small l) (i : Int) (hi : i ≤ intMax) :
    Coll.nthFromEnd i l =
      if 0 ≤ i then (match (elems l).reverse[i.toNat]? with | some x => .ok x | none => .stop)
      else .stop := by
  induction l generalizing i with
  | append a b iha ihb =>
    simp only [Coll.nthFromEnd, C37_length b h.right, Res.ok_bind]
    by_cases hc : ((elems b).length : Int) > i
    · rw [if_pos hc, ihb h.right i hi]
      by_cases h0 : 0 ≤ i
      · simp only [if_pos h0, elems, List.reverse_append]
        rw [List.getElem?_append_left (by simp; omega)]
      · simp only [if_neg h0]
    · rw [if_neg hc, int32_ok (by simp only [intMin]; omega) (by omega)]
      simp only [Res.ok_bind]
      rw [iha h.left _ (by omega), if_pos (by omega), if_pos (by omega)]
      simp only [elems, List.reverse_append]
      rw [List.getElem?_append_right (by simp; omega)]
      congr 3
      simp
  | single x =>
    simp only [Coll.nthFromEnd, elems]
    by_cases h0 : i = 0
    · subst h0; simp
    · rw [if_neg h0]
      by_cases h1 : 0 ≤ i
      · rw [if_pos h1, List.getElem?_eq_none (by simp; omega)]
      · rw [if_neg h1]
  | none => simp [Coll.nthFromEnd, elems]

/-- The position of the first element equal to `x` (as `findIdx?` finds it), or -1. -/
def firstPos (eq : α → α → Bool) (x : α) (l : List α) : Int :=
  match l.findIdx? (eq x) with
  | some i => i
  | none => -1

theorem findIdx?_lt {p : α → Bool} : ∀ {l : List α} {i : Nat}, l.findIdx? p = some i →
    i < l.length := by
  intro l i h
  rw [List.findIdx?_eq_some_iff_getElem] at h
  exact h.1

/-- `position(x,l)` is the index of the first element equal to `x`, or -1. -/
theorem C37_position (eq : α → α → Bool) (x : α) (l : Coll α) (h : Small l) :
    Coll.position eq x l = .ok (firstPos eq x (elems l)) := by
  induction l with
  | append a b iha ihb =>
    simp only [Coll.position, iha h.left, Res.ok_bind, elems, firstPos, List.findIdx?_append]
    cases ha : (elems a).findIdx? (eq x) with
    | some i => simp
    | none =>
      simp only [ihb h.right, Res.ok_bind, firstPos]
      rw [if_neg (by simp)]
      cases hb : (elems b).findIdx? (eq x) with
      | none => simp
      | some j =>
        have := findIdx?_lt hb
        simp only [C37_length a h.left, Res.ok_bind]
        rw [if_pos (by simp), int32_ok]
        · simp
        · simp only [intMin]; omega
        · simp only [Small, elems, List.length_append] at h; omega
  | single y =>
    simp only [Coll.position, elems, firstPos, List.findIdx?_cons]
    by_cases he : eq x y <;> simp [he]
  | none => simp [Coll.position, elems, firstPos]

theorem firstPos_range (eq : α → α → Bool) (x : α) (l : List α) :
    -1 ≤ firstPos eq x l ∧ firstPos eq x l < l.length := by
  unfold firstPos
  split
  · rename_i i hi; have := findIdx?_lt hi; omega
  · omega

/-- `position_from_end(x,l)` is the index, counted from the end, of the *first* element equal to
`x`, or -1. -/
theorem C37_position_from_end (eq : α → α → Bool) (x : α) (l : Coll α) (h : Small l) :
    Coll.positionFromEnd eq x l =
      .ok (if (elems l).any (eq x) then ((elems l).length : Int) - 1 - firstPos eq x (elems l)
           else -1) := by
  simp only [Coll.positionFromEnd, C37_position eq x l h, Res.ok_bind, C37_length l h]
  have hr := firstPos_range eq x (elems l)
  by_cases hany : (elems l).any (eq x)
  · rw [if_pos hany]
    have hne : firstPos eq x (elems l) ≠ -1 := by
      unfold firstPos
      split
      · omega
      · rename_i hn
        rw [List.findIdx?_eq_none_iff] at hn
        simp only [List.any_eq_true] at hany
        obtain ⟨y, hy, hey⟩ := hany
        rw [hn y hy] at hey
        cases hey
    rw [if_neg hne, int32_ok]
    · simp only [intMin]; omega
    · simp only [Small] at h; omega
  · rw [if_neg hany, if_pos]
    unfold firstPos
    rw [List.findIdx?_eq_none_iff.2]
    intro y hy
    simp only [List.any_eq_true, not_exists, not_and] at hany
    exact Bool.eq_false_iff.2 (hany y hy)

/-- `member(x,l)` says whether some element is equal to `x`. -/
theorem C37_member (eq : α → α → Bool) (x : α) (l : Coll α) (h : Small l) :
    Coll.member eq x l = .ok ((elems l).any (eq x)) := by
  simp only [Coll.member, C37_position eq x l h, Res.ok_bind, Res.ok.injEq]
  unfold firstPos
  cases hf : (elems l).findIdx? (eq x) with
  | some i =>
    rw [List.findIdx?_eq_some_iff_getElem] at hf
    obtain ⟨hi, he, _⟩ := hf
    have : (elems l).any (eq x) = true := List.any_eq_true.2 ⟨_, List.getElem_mem hi, he⟩
    simp [this]
  | none =>
    rw [List.findIdx?_eq_none_iff] at hf
    have : (elems l).any (eq x) = false := by
      rw [List.any_eq_false]
      intro y hy; simp [hf y hy]
    simp [this]

/-! ## Subsequences -/

mutual
theorem subseq_spec (l : Coll α) (h : Small l) (s f : Int) (h0 : 0 ≤ s) (hsf : s ≤ f)
    (hf : f ≤ intMax) :
    ∃ r, Coll.subseq l s f = .ok r ∧
      elems r = ((elems l).drop s.toNat).take (f - s).toNat := by
  unfold Coll.subseq
  by_cases he : s = f
  · rw [if_pos he]
    exact ⟨_, rfl, by subst he; simp [elems]⟩
  rw [if_neg he]
  cases l with
  | append a b =>
    simp only [C37_length a h.left, Res.ok_bind]
    by_cases h1 : s ≥ ((elems a).length : Int)
    · rw [if_pos h1, int32_ok (by simp only [intMin]; omega) (by omega), Res.ok_bind,
        int32_ok (by simp only [intMin]; omega) (by omega), Res.ok_bind]
      obtain ⟨r, hr, hre⟩ := subseq_spec b h.right (s - (elems a).length) (f - (elems a).length)
        (by omega) (by omega) (by omega)
      refine ⟨r, hr, ?_⟩
      rw [hre]
      simp only [elems]
      rw [List.drop_append, List.drop_eq_nil_of_le (as := elems a) (by omega), List.nil_append]
      congr 2 <;> omega
    · rw [if_neg h1]
      by_cases h2 : f ≤ ((elems a).length : Int)
      · rw [if_pos h2]
        by_cases h3 : f = ((elems a).length : Int)
        · rw [if_pos h3]
          obtain ⟨r, hr, hre⟩ := butsubseq_spec a h.left 0 s (by omega) h0 (by omega)
          refine ⟨r, hr, ?_⟩
          rw [hre]
          simp only [elems, Int.toNat_zero, List.take_zero, List.nil_append]
          rw [List.drop_append_of_le_length (by omega), List.take_append_of_le_length (by simp; omega),
            List.take_of_length_le (by simp; omega)]
        · rw [if_neg h3]
          obtain ⟨r, hr, hre⟩ := subseq_spec a h.left s f h0 hsf hf
          refine ⟨r, hr, ?_⟩
          rw [hre]
          simp only [elems]
          rw [List.drop_append_of_le_length (by omega), List.take_append_of_le_length (by simp; omega)]
      · rw [if_neg h2]
        obtain ⟨r1, hr1, hre1⟩ := butsubseq_spec a h.left 0 s (by omega) h0 (by omega)
        obtain ⟨r2, hr2, hre2⟩ := subseq_spec b h.right 0 (f - (elems a).length)
          (by omega) (by omega) (by omega)
        rw [hr1, Res.ok_bind, int32_ok (by simp only [intMin]; omega) (by omega), Res.ok_bind, hr2,
          Res.ok_bind]
        refine ⟨_, rfl, ?_⟩
        simp only [elems, hre1, hre2]
        rw [List.drop_append_of_le_length (by omega), List.take_append,
          List.take_of_length_le (l := List.drop s.toNat (elems a)) (by simp; omega)]
        simp
        congr 1
        omega
  | single x =>
    simp only [elems]
    by_cases h1 : s = 0
    · subst h1
      rw [if_pos rfl]
      refine ⟨_, rfl, ?_⟩
      simp only [elems, Int.toNat_zero, List.drop_zero]
      rw [List.take_of_length_le (by simp; omega)]
    · rw [if_neg h1]
      refine ⟨_, rfl, ?_⟩
      rw [List.drop_eq_nil_of_le (by simp; omega)]
      simp [elems]
  | none => exact ⟨.none, by simp, by simp [elems]⟩

theorem butsubseq_spec (l : Coll α) (h : Small l) (s f : Int) (h0 : 0 ≤ s) (hsf : s ≤ f)
    (hf : f ≤ intMax) :
    ∃ r, Coll.butsubseq l s f = .ok r ∧
      elems r = (elems l).take s.toNat ++ (elems l).drop f.toNat := by
  unfold Coll.butsubseq
  by_cases he : s ≥ f
  · rw [if_pos he]
    exact ⟨_, rfl, by have : s = f := by omega
                      subst this; simp⟩
  rw [if_neg he]
  cases l with
  | append a b =>
    simp only [C37_length a h.left, Res.ok_bind]
    by_cases h1 : s ≥ ((elems a).length : Int)
    · rw [if_pos h1, int32_ok (by simp only [intMin]; omega) (by omega), Res.ok_bind,
        int32_ok (by simp only [intMin]; omega) (by omega), Res.ok_bind]
      obtain ⟨r, hr, hre⟩ := butsubseq_spec b h.right (s - (elems a).length) (f - (elems a).length)
        (by omega) (by omega) (by omega)
      rw [hr, Res.ok_bind]
      refine ⟨_, rfl, ?_⟩
      simp only [elems, hre]
      rw [List.take_append, List.take_of_length_le (l := elems a) (by omega),
        List.drop_append, List.drop_eq_nil_of_le (as := elems a) (by omega),
        List.nil_append, List.append_assoc]
      congr 3 <;> omega
    · rw [if_neg h1]
      by_cases h2 : f ≤ ((elems a).length : Int)
      · rw [if_pos h2]
        by_cases h3 : s = 0 ∧ f = ((elems a).length : Int)
        · rw [if_pos h3]
          refine ⟨_, rfl, ?_⟩
          obtain ⟨rfl, rfl⟩ := h3
          simp [elems]
        · rw [if_neg h3]
          obtain ⟨r, hr, hre⟩ := butsubseq_spec a h.left s f h0 hsf hf
          rw [hr, Res.ok_bind]
          refine ⟨_, rfl, ?_⟩
          simp only [elems, hre]
          rw [List.drop_append_of_le_length (by omega), List.take_append_of_le_length (by omega),
            List.append_assoc]
      · rw [if_neg h2]
        obtain ⟨r1, hr1, hre1⟩ := subseq_spec a h.left 0 s (by omega) h0 (by omega)
        obtain ⟨r2, hr2, hre2⟩ := butsubseq_spec b h.right 0 (f - (elems a).length)
          (by omega) (by omega) (by omega)
        rw [hr1, Res.ok_bind, int32_ok (by simp only [intMin]; omega) (by omega), Res.ok_bind, hr2,
          Res.ok_bind]
        refine ⟨_, rfl, ?_⟩
        simp only [elems, hre1, hre2, Int.toNat_zero, List.drop_zero, List.take_zero,
          List.nil_append, Int.sub_zero]
        rw [List.take_append_of_le_length (by omega), List.drop_append,
          List.drop_eq_nil_of_le (as := elems a) (by omega), List.nil_append]
        congr 2
        omega
  | single x =>
    simp only [elems]
    by_cases h1 : s = 0
    · subst h1
      rw [if_pos rfl]
      refine ⟨_, rfl, ?_⟩
      rw [List.drop_eq_nil_of_le (by simp; omega)]
      simp [elems]
    · rw [if_neg h1]
      refine ⟨_, rfl, ?_⟩
      rw [List.drop_eq_nil_of_le (by simp; omega), List.take_of_length_le (by simp; omega)]
      simp [elems]
  | none => exact ⟨.none, by simp, by simp [elems]⟩
end

/-- `subseq(l,s,f)` has the elements with index at least `s` and less than `f`, in order. -/
theorem C37_subseq (l : Coll α) (h : Small l) (s f : Int) (h0 : 0 ≤ s) (hsf : s ≤ f)
    (hf : f ≤ intMax) :
    ∃ r, Coll.subseq l s f = .ok r ∧ elems r = ((elems l).take f.toNat).drop s.toNat := by
  obtain ⟨r, hr, he⟩ := subseq_spec l h s f h0 hsf hf
  refine ⟨r, hr, ?_⟩
  rw [he, List.drop_take]
  congr 1
  omega

/-- `butsubseq(l,s,f)` has the elements with index less than `s` or at least `f`, in order. -/
theorem C37_butsubseq (l : Coll α) (h : Small l) (s f : Int) (h0 : 0 ≤ s) (hsf : s ≤ f)
    (hf : f ≤ intMax) :
    ∃ r, Coll.butsubseq l s f = .ok r ∧
      elems r = (elems l).take s.toNat ++ (elems l).drop f.toNat :=
  butsubseq_spec l h s f h0 hsf hf

/-- `butsubseq_from_end(l,s,f)` drops the elements whose index counted from the end is at least
`s` and less than `f`, for `f` up to the length. -/
theorem C37_butsubseq_from_end (l : Coll α) (h : Small l) (s f : Int) (h0 : 0 ≤ s) (hsf : s ≤ f)
    (hf : f ≤ (elems l).length) :
    ∃ r, Coll.butsubseqFromEnd l s f = .ok r ∧
      (elems r).reverse = (elems l).reverse.take s.toNat ++ (elems l).reverse.drop f.toNat := by
  have hs := h
  simp only [Small] at hs
  unfold Coll.butsubseqFromEnd
  rw [C37_length l h, Res.ok_bind, int32_ok (by simp only [intMin]; omega) (by omega), Res.ok_bind,
    int32_ok (by simp only [intMin]; omega) (by omega), Res.ok_bind]
  obtain ⟨r, hr, he⟩ := butsubseq_spec l h ((elems l).length - f) ((elems l).length - s)
    (by omega) (by omega) (by omega)
  refine ⟨r, hr, ?_⟩
  rw [he, List.reverse_append, List.take_reverse, List.drop_reverse]
  congr 3 <;> omega

/-- Counting past the front from the end does not work: `butlastn(5,{a,b})` is `{a}`, where
`butfirstn(5,{a,b})` is `{}`. -/
theorem C37_butlastn_long_refuted :
    Coll.butlastn 5 (.append (.single 1) (.single 2)) = .ok (.append (.single 1) .none) ∧
    (∃ r : Coll Nat, Coll.butfirstn 5 (.append (.single 1) (.single 2)) = .ok r ∧ elems r = []) := by
  refine ⟨by decide, .append .none .none, by decide, by decide⟩

/-- A negative end is not an empty subsequence: `firstn(-1,{a})` is `{a}`. -/
theorem C37_firstn_negative_refuted :
    Coll.firstn (-1) (.single 1) = .ok (.single (1 : Nat)) := by decide

/-- `butlast` drops the last element (of a non-empty collection). -/
theorem C37_butlast (l : Coll α) (h : Small l) (hne : elems l ≠ []) :
    ∃ r, Coll.butlast l = .ok r ∧ elems r = (elems l).dropLast := by
  have hl : 0 < (elems l).length := List.length_pos_iff.2 hne
  obtain ⟨r, hr, he⟩ := C37_butsubseq_from_end l h 0 1 (by omega) (by omega) (by omega)
  refine ⟨r, hr, ?_⟩
  have := congrArg List.reverse he
  simp only [List.reverse_reverse] at this
  rw [this, List.dropLast_eq_take]
  simp [List.drop_reverse]

/-- `butfirst` drops the first element. -/
theorem C37_butfirst (l : Coll α) (h : Small l) :
    ∃ r, Coll.butfirst l = .ok r ∧ elems r = (elems l).tail := by
  obtain ⟨r, hr, he⟩ := C37_butsubseq l h 0 1 (by omega) (by omega) (by simp [intMax])
  exact ⟨r, hr, by rw [he]; simp⟩

/-- `firstn(n,l)` has the first `n` elements. -/
theorem C37_firstn (l : Coll α) (h : Small l) (n : Int) (h0 : 0 ≤ n) (hn : n ≤ intMax) :
    ∃ r, Coll.firstn n l = .ok r ∧ elems r = (elems l).take n.toNat := by
  obtain ⟨r, hr, he⟩ := C37_subseq l h 0 n (by omega) h0 hn
  exact ⟨r, hr, by rw [he]; simp⟩

/-- `butnth(n,l)` drops the `n`-th element. -/
theorem C37_butnth (l : Coll α) (h : Small l) (n : Int) (h0 : 0 ≤ n) (hn : n < intMax) :
    ∃ r, Coll.butnth n l = .ok r ∧ elems r = (elems l).eraseIdx n.toNat := by
  obtain ⟨r, hr, he⟩ := C37_butsubseq l h n (n + 1) (by omega) (by omega) (by omega)
  refine ⟨r, ?_, ?_⟩
  · unfold Coll.butnth
    rw [int32_ok (by simp only [intMin]; omega) (by omega), Res.ok_bind, hr]
  · rw [he, List.eraseIdx_eq_take_drop_succ]
    congr 2
    omega

/-- `first` and `last`. -/
theorem C37_first_last (l : Coll α) (h : Small l) :
    (Coll.first l = match (elems l).head? with | some x => .ok x | none => .stop) ∧
    (Coll.last l = match (elems l).getLast? with | some x => .ok x | none => .stop) := by
  constructor
  · unfold Coll.first
    rw [C37_nth l h 0 (by simp [intMax]), if_pos (Int.le_refl 0)]
    simp [List.head?_eq_getElem?]
  · unfold Coll.last
    rw [C37_nth_from_end l h 0 (by simp [intMax]), if_pos (Int.le_refl 0)]
    simp only [Int.toNat_zero]
    rw [← List.head?_eq_getElem?, List.head?_reverse]

/-- `subseq` and `butsubseq` partition a collection. -/
theorem C37_partition (l : Coll α) (h : Small l) (s f : Int) (h0 : 0 ≤ s) (hsf : s ≤ f)
    (hf : f ≤ intMax) :
    ∃ a b, Coll.subseq l s f = .ok a ∧ Coll.butsubseq l s f = .ok b ∧
      (elems a ++ elems b).Perm (elems l) := by
  obtain ⟨a, ha, hea⟩ := C37_subseq l h s f h0 hsf hf
  obtain ⟨b, hb, heb⟩ := C37_butsubseq l h s f h0 hsf hf
  refine ⟨a, b, ha, hb, ?_⟩
  rw [hea, heb]
  have h1 : (elems l).take s.toNat = ((elems l).take f.toNat).take s.toNat := by
    rw [List.take_take]; congr 1; omega
  have h2 : elems l = ((elems l).take f.toNat).take s.toNat ++ ((elems l).take f.toNat).drop s.toNat
      ++ (elems l).drop f.toNat := by
    rw [List.take_append_drop, List.take_append_drop]
  rw [h1]
  conv_rhs => rw [h2]
  rw [← List.append_assoc]
  exact List.Perm.append_right _ List.perm_append_comm

/-! ## Equality -/

/-- `equal(l1,l2)` holds exactly when the two sequences are equal element by element, whatever the
shapes of the trees. -/
theorem C37_equal (eq : α → α → Bool) (l1 l2 : Coll α) (h1 : Small l1) (h2 : Small l2) :
    ∃ b, Coll.equal eq l1 l2 = .ok b ∧
      (b = true ↔ List.Forall₂ (fun x y => eq x y = true) (elems l1) (elems l2)) := by
  induction l1 generalizing l2 with
  | append a b iha ihb =>
    simp only [Coll.equal, C37_length a h1.left, Res.ok_bind]
    have hs : ((elems a).length : Int) ≤ intMax := h1.left
    obtain ⟨p, hp, hpe⟩ := C37_subseq l2 h2 0 (elems a).length (by omega) (by omega) hs
    obtain ⟨q, hq, hqe⟩ := C37_butsubseq l2 h2 0 (elems a).length (by omega) (by omega) hs
    simp only [Int.toNat_zero, List.drop_zero, Int.toNat_natCast, List.take_zero,
      List.nil_append] at hpe hqe
    have sp : Small p := by
      simp only [Small, hpe, List.length_take] at *
      omega
    have sq : Small q := by
      simp only [Small, hqe, List.length_drop] at *
      omega
    obtain ⟨r1, hr1, hb1⟩ := iha p h1.left sp
    obtain ⟨r2, hr2, hb2⟩ := ihb q h1.right sq
    rw [hp, Res.ok_bind, hr1, Res.ok_bind]
    have key : List.Forall₂ (fun x y => eq x y = true) (elems a ++ elems b) (elems l2) ↔
        (r1 = true ∧ r2 = true) := by
      rw [hb1, hb2, hpe, hqe]
      constructor
      · intro hf
        refine ⟨?_, ?_⟩
        · have := List.forall₂_take (elems a).length hf
          simpa using this
        · have := List.forall₂_drop (elems a).length hf
          simpa using this
      · rintro ⟨hf1, hf2⟩
        have := List.rel_append hf1 hf2
        simpa using this
    simp only [elems]
    cases r1 with
    | true =>
      rw [if_pos rfl, hq, Res.ok_bind]
      exact ⟨r2, hr2, by rw [key]; simp⟩
    | false =>
      rw [if_neg (by simp)]
      exact ⟨false, rfl, by rw [key]; simp⟩
  | single x =>
    simp only [Coll.equal, C37_length l2 h2, Res.ok_bind, elems]
    by_cases hn : ((elems l2).length : Int) = 1
    · rw [if_pos hn, C37_nth l2 h2 0 (by simp [intMax]), if_pos (Int.le_refl 0)]
      obtain ⟨y, hy⟩ := List.length_eq_one_iff.1 (by omega : (elems l2).length = 1)
      rw [hy]
      exact ⟨_, rfl, by simp⟩
    · rw [if_neg hn]
      refine ⟨_, rfl, ?_⟩
      constructor
      · simp
      · intro hf
        have := hf.length_eq
        simp at this
        omega
  | none =>
    simp only [Coll.equal, C37_length l2 h2, Res.ok_bind, elems]
    refine ⟨_, rfl, ?_⟩
    rw [List.forall₂_nil_left_iff]
    simp

/-- `append` concatenates and `cons` puts an element in front. -/
theorem C37_append (a b : Coll α) (x : α) :
    elems (.append a b) = elems a ++ elems b ∧ elems (Coll.cons x a) = x :: elems a := ⟨rfl, rfl⟩

/-! ## Printing -/

/-- The elements separated by commas. -/
def commas (str : α → String) : List α → String
  | [] => ""
  | [x] => str x
  | x :: y :: l => str x ++ "," ++ commas str (y :: l)

/-- The elements, each with a comma before it unless it is the first one printed. -/
def printAfter (str : α → String) (printed : Nat) : List α → String → String
  | [], res => res
  | x :: l, res => printAfter str (printed + 1) l
      ((if printed ≠ 0 then res ++ "," else res) ++ str x)

theorem printAfter_pos (str : α → String) : ∀ (l : List α) (n : Nat) (x : α) (res : String),
    printAfter str (n + 1) l (res ++ str x) = res ++ commas str (x :: l)
  | [], n, x, res => by simp [printAfter, commas]
  | y :: l, n, x, res => by
    simp only [printAfter, commas]
    rw [if_pos (by omega)]
    rw [printAfter_pos str l (n + 1) y (res ++ str x ++ ",")]
    simp [String.append_assoc]

theorem printAfter_zero (str : α → String) (l : List α) (res : String) :
    printAfter str 0 l res = res ++ commas str l := by
  cases l with
  | nil => simp [printAfter, commas]
  | cons x l =>
    simp only [printAfter]
    rw [if_neg (by simp)]
    exact printAfter_pos str l 0 x res

def stackElems : List (Coll α) → List α
  | [] => []
  | l :: s => elems l ++ stackElems s

def stackSize : List (Coll α) → Nat
  | [] => 0
  | l :: s => size l + stackSize s

theorem size_pos (l : Coll α) : 0 < size l := by cases l <;> simp [size]

theorem strLoop_spec (str : α → String) : ∀ (fuel : Nat) (stack : List (Coll α)) (printed : Nat)
    (res : String), stackSize stack < fuel → printed ≤ 5 →
    ∃ st, strLoop str fuel stack printed res =
        .ok (st, printAfter str printed ((stackElems stack).take (5 - printed)) res) ∧
      stackElems st = (stackElems stack).drop (5 - printed) ∧
      ((stackElems stack).length < 5 - printed → st = []) := by
  intro fuel
  induction fuel with
  | zero => intro stack printed res h; omega
  | succ fuel ih =>
    intro stack printed res h hp
    cases stack with
    | nil => exact ⟨[], by simp [strLoop, stackElems, printAfter], by simp [stackElems], fun _ => rfl⟩
    | cons l rest =>
      by_cases hlt : printed < 5
      · cases l with
        | append a b =>
          have hs : stackSize (a :: b :: rest) < fuel := by
            simp only [stackSize, size] at h ⊢; omega
          simp only [strLoop, if_pos hlt]
          obtain ⟨st, h1, h2, h3⟩ := ih (a :: b :: rest) printed res hs hp
          have : stackElems (a :: b :: rest) = stackElems (.append a b :: rest) := by
            simp [stackElems, elems]
          rw [this] at h1 h2 h3
          exact ⟨st, h1, h2, h3⟩
        | single x =>
          have hs : stackSize rest < fuel := by
            simp only [stackSize, size] at h; omega
          simp only [strLoop, if_pos hlt]
          obtain ⟨st, h1, h2, h3⟩ := ih rest (printed + 1)
            ((if printed ≠ 0 then res ++ "," else res) ++ str x) hs (by omega)
          have e : 5 - printed = (5 - (printed + 1)) + 1 := by omega
          refine ⟨st, ?_, ?_, ?_⟩
          · rw [h1, e]
            simp [stackElems, elems, printAfter]
          · rw [h2, e]; simp [stackElems, elems]
          · intro hl; apply h3
            simp [stackElems, elems] at hl; omega
        | none =>
          have hs : stackSize rest < fuel := by
            simp only [stackSize, size] at h; omega
          simp only [strLoop, if_pos hlt]
          obtain ⟨st, h1, h2, h3⟩ := ih rest printed res hs hp
          exact ⟨st, by simpa [stackElems, elems] using h1, by simpa [stackElems, elems] using h2,
            by simpa [stackElems, elems] using h3⟩
      · have : 5 - printed = 0 := by omega
        have hr : strLoop str (fuel + 1) (l :: rest) printed res = .ok (l :: rest, res) := by
          cases l <;> simp only [strLoop, if_neg hlt]
        exact ⟨l :: rest, by rw [hr]; simp [this, printAfter], by simp [this], by omega⟩

/-- The printed form shows the first five elements between braces; when there are fewer it shows
exactly the elements, and when there are more it says so with `...`. -/
theorem C37_string (str : α → String) (l : Coll α) :
    ∃ dots, (dots = "" ∨ dots = "...") ∧
      Coll.toString str l = .ok ("{" ++ commas str ((elems l).take 5) ++ dots ++ "}") ∧
      ((elems l).length < 5 → dots = "") ∧ (5 < (elems l).length → dots = "...") := by
  obtain ⟨st, h1, h2, h3⟩ := strLoop_spec str (size l + 1) [l] 0 "{"
    (by simp [stackSize]) (by omega)
  have e : stackElems [l] = elems l := by simp [stackElems]
  rw [e] at h1 h2 h3
  rw [printAfter_zero] at h1
  refine ⟨if st.isEmpty then "" else "...", by split <;> simp, ?_, ?_, ?_⟩
  · unfold Coll.toString
    rw [h1, Res.ok_bind]
    cases st <;> simp
  · intro hl
    rw [h3 (by omega)]; rfl
  · intro hl
    cases st with
    | nil =>
      simp only [stackElems] at h2
      have := congrArg List.length h2
      simp at this; omega
    | cons a b => rfl

/-- With exactly five elements the printed form depends on the shape: two equal collections print
differently. -/
theorem C37_string_shape_refuted :
    ∃ a b : Coll Nat, elems a = elems b ∧
      Coll.toString (fun _ => "x") a = .ok "{x,x,x,x,x}" ∧
      Coll.toString (fun _ => "x") b = .ok "{x,x,x,x,x...}" :=
  ⟨.append (.single 0) (.append (.single 0) (.append (.single 0) (.append (.single 0) (.single 0)))),
   .append (.single 0) (.append (.single 0) (.append (.single 0) (.append (.single 0)
     (.append (.single 0) .none)))), by decide, by decide, by decide⟩

/-- Non-vacuity: a collection of four elements with an empty part inside. -/
def c37ex : Coll Nat :=
  .append (.append (.single 3) .none) (.append (.single 5) (.append (.single 3) (.single 7)))

example : Small c37ex := by decide
example : Coll.subseq c37ex 1 3 = .ok (.append (.single 5) (.single 3)) := by decide
example : ∃ r, Coll.butsubseqFromEnd c37ex 1 3 = .ok r ∧ elems r = [3, 7] := ⟨_, rfl, by decide⟩
example : Coll.position (fun a b => a == b) 5 c37ex = .ok 1 := by decide
example : Coll.positionFromEnd (fun a b => a == b) 3 c37ex = .ok 3 := by decide
example : Coll.equal (fun a b => a == b) c37ex
    (.append (.append (.append (.single 3) (.single 5)) (.single 3)) (.single 7)) = .ok true := by
  decide
example : Coll.toString (fun _ => "x") c37ex = .ok "{x,x,x,x}" := by decide

end Aps.Props
