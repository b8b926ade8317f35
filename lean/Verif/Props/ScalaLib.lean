import Verif.Model.ScalaLib
import Verif.Props.CollSet
import Verif.Props.Lattice

/-!
# C51: the collections of the Scala library
-/
set_option linter.unusedVariables false
namespace Aps.Props

open Aps Aps.ScalaLib

variable {α : Type _}

/-! ## Multisets -/

section
variable {eq : α → α → Bool}

theorem count_congr (he : Equality eq) {x y : α} (h : eq x y = true) (l : List α) :
    count eq x l = count eq y l := by
  induction l with
  | nil => rfl
  | cons z l ih =>
    have : eq x z = eq y z := by
      cases h1 : eq x z <;> cases h2 : eq y z <;> try rfl
      · rw [he.trans _ _ _ h h2] at h1; cases h1
      · rw [he.trans _ _ _ (he.symm _ _ h) h1] at h2; cases h2
    simp [count, ih, this]

/-- The number of times an element occurs in the union of two multisets is the larger of its
numbers in the two. -/
theorem C51_multiset_union (he : Equality eq) (l1 l2 : List α) (v : α) :
    count eq v (msUnion eq l1 l2) = max (count eq v l1) (count eq v l2) := by
  induction l1 with
  | nil => simp [msUnion, count]
  | cons x r ih =>
    simp only [msUnion]
    by_cases h : eq v x = true
    · have hr := count_congr he h r
      have h2 := count_congr he h l2
      split
      · simp only [count, h, if_true, ih]; omega
      · simp only [count, h, if_true, ih]; omega
    · split <;> simp [count, h, ih]

/-- In the intersection: the smaller. -/
theorem C51_multiset_intersect (he : Equality eq) (l1 l2 : List α) (v : α) :
    count eq v (msIntersect eq l1 l2) = min (count eq v l1) (count eq v l2) := by
  induction l1 with
  | nil => simp [msIntersect, count]
  | cons x r ih =>
    simp only [msIntersect]
    by_cases h : eq v x = true
    · have hr := count_congr he h r
      have h2 := count_congr he h l2
      split
      · simp only [count, h, if_true, ih]; omega
      · simp only [count, h, if_true, ih]; omega
    · split <;> simp [count, h, ih]

/-- In the difference: the difference, or none if negative. -/
theorem C51_multiset_difference (he : Equality eq) (l1 l2 : List α) (v : α) :
    count eq v (msDifference eq l1 l2) = count eq v l1 - count eq v l2 := by
  induction l1 with
  | nil => simp [msDifference, count]
  | cons x r ih =>
    simp only [msDifference]
    by_cases h : eq v x = true
    · have hr := count_congr he h r
      have h2 := count_congr he h l2
      split
      · simp only [count, h, if_true, ih]; omega
      · simp only [count, h, if_true, ih]; omega
    · split <;> simp [count, h, ih]

/-- `combine` adds the numbers. -/
theorem C51_multiset_combine (l1 l2 : List α) (v : α) :
    count eq v (bagCombine l1 l2) = count eq v l1 + count eq v l2 := by
  unfold bagCombine
  induction l1 with
  | nil => simp [count]
  | cons x r ih => simp [count, ih]; omega

/-- `<=` compares the numbers of every element. -/
theorem C51_multiset_less_equal (he : Equality eq) (l1 l2 : List α) :
    msLessEqual eq l1 l2 = true ↔ ∀ v, count eq v l1 ≤ count eq v l2 := by
  induction l1 with
  | nil => simp [msLessEqual, count]
  | cons x r ih =>
    simp only [msLessEqual, Bool.and_eq_true, decide_eq_true_eq, ih]
    constructor
    · rintro ⟨h1, h2⟩ v
      by_cases h : eq v x = true
      · rw [count_congr he h l2, count_congr he h (x :: r)]; exact h1
      · simp only [count, h]; simpa using h2 v
    · intro h
      refine ⟨h x, fun v => ?_⟩
      have := h v
      simp only [count] at this
      omega

/-- Two multisets are equal exactly when every element occurs the same number of times. -/
theorem C51_multiset_equal (he : Equality eq) (l1 l2 : List α) :
    msEqual eq l1 l2 = true ↔ ∀ v, count eq v l1 = count eq v l2 := by
  simp only [msEqual, Bool.and_eq_true, C51_multiset_less_equal he]
  exact ⟨fun ⟨h1, h2⟩ v => Nat.le_antisymm (h1 v) (h2 v),
    fun h => ⟨fun v => Nat.le_of_eq (h v), fun v => Nat.le_of_eq (h v).symm⟩⟩

/-- `<` is `<=` without equality. -/
theorem C51_multiset_less (he : Equality eq) (l1 l2 : List α) :
    msLess eq l1 l2 = true ↔
      (∀ v, count eq v l1 ≤ count eq v l2) ∧ ∃ v, count eq v l1 < count eq v l2 := by
  simp only [msLess, Bool.and_eq_true, Bool.not_eq_true', ← Bool.not_eq_true,
    C51_multiset_less_equal he, not_forall, Nat.not_le]

example : msUnion (fun a b : Nat => a == b) [1, 1, 2] [2, 1, 2, 3] = [1, 2, 1, 2, 3] ∧
    msIntersect (fun a b : Nat => a == b) [1, 1, 2] [2, 1, 2, 3] = [1, 2] ∧
    msDifference (fun a b : Nat => a == b) [1, 1, 2] [2, 1, 2, 3] = [1] ∧
    msEqual (fun a b : Nat => a == b) [1, 1, 2] [1, 2, 1] = true := by decide

/-- Bags (and lists) are equal only with the same elements in the same order. -/
theorem C51_bag_equal (l1 l2 : List α) :
    bagEqual eq l1 l2 = true ↔ List.Forall₂ (fun x y => eq x y = true) l1 l2 := by
  induction l1 generalizing l2 with
  | nil => cases l2 <;> simp [bagEqual]
  | cons x l ih => cases l2 <;> simp [bagEqual, ih]

/-- So the value of a bag depends on the order its parts were combined in: combining is not
commutative up to the bag's own equality. -/
theorem C51_bag_order_refuted (x y : α) (h : eq x y = false) :
    bagEqual eq (bagCombine [x] [y]) (bagCombine [y] [x]) = false := by
  simp [bagCombine, bagEqual, h]
end

/-! ## Lists -/

/-- `length` by patterns counts the elements. -/
theorem C51_length (l : List α) (h : (l.length : Int) ≤ 2147483647) (fuel : Nat)
    (hf : l.length < fuel) : ScalaLib.length fuel l = .ok l.length := by
  induction fuel generalizing l with
  | zero => omega
  | succ fuel ih =>
    cases l with
    | nil => rfl
    | cons x1 l =>
      cases l with
      | nil => rfl
      | cons x2 l =>
        simp only [List.length_cons] at h hf
        have e1 := ih [x1] (by simp) (by simp; omega)
        have e2 := ih (x2 :: l) (by simp only [List.length_cons]; omega)
          (by simp only [List.length_cons]; omega)
        show (ScalaLib.length fuel [x1] >>= fun a => ScalaLib.length fuel (x2 :: l) >>= fun b =>
          Res.ok (wrap (a + b))) = _
        rw [e1, e2]
        simp only [Res.ok_bind, wrap, List.length_cons, List.length_nil]
        have : ∀ n : Nat, ((n + 1 + 1 : Nat) : Int) ≤ 2147483647 →
            (((0 + 1 : Nat) : Int) + ((n + 1 : Nat) : Int) + 2147483648) % 4294967296 - 2147483648 =
              ((n + 1 + 1 : Nat) : Int) := by
          intro n hn; omega
        rw [this l.length h]

/-- `nth` and `nth_from_end` count from zero and throw outside. -/
theorem C51_nth (l : List α) (i : Int) :
    (∀ x, nth i l = .ok x ↔ 0 ≤ i ∧ l[i.toNat]? = some x) ∧
    (nth i l = .stop ↔ i < 0 ∨ (l.length : Int) ≤ i) := by
  unfold nth at'
  by_cases h : i < 0
  · simp [h]; omega
  · simp only [h, if_false]
    cases hx : l[i.toNat]? with
    | none =>
      have := List.getElem?_eq_none_iff.1 hx
      simp; omega
    | some y =>
      have := (List.getElem?_eq_some_iff.1 hx).1
      simp only [Res.ok.injEq, Option.some.injEq, reduceCtorEq, false_iff]
      refine ⟨fun z => ⟨fun e => ⟨by omega, e⟩, fun e => e.2⟩, ?_⟩
      rintro (e | e) <;> omega

theorem C51_nth_from_end (l : List α) (i : Int) (h0 : 0 ≤ i) (h : i < l.length) :
    nthFromEnd i l = nth ((l.length : Int) - 1 - i) l := by
  unfold nthFromEnd nth at'
  rw [if_neg (by omega), if_neg (by omega), List.getElem?_reverse (by omega)]
  have : l.length - 1 - i.toNat = ((l.length : Int) - 1 - i).toNat := by omega
  rw [this]

/-- `position` is the first place of an equal element, or -1. -/
theorem C51_position (eq : α → α → Bool) (x : α) (l : List α) :
    (position eq x l = -1 ↔ ∀ y ∈ l, eq x y = false) ∧
    ∀ i : Nat, position eq x l = i ↔
      (∃ y, l[i]? = some y ∧ eq x y = true) ∧ ∀ j < i, ∀ y, l[j]? = some y → eq x y = false := by
  unfold position indexOf
  cases h : l.findIdx? (eq x) with
  | none =>
    rw [List.findIdx?_eq_none_iff] at h
    simp only [true_iff]
    refine ⟨h, fun i => ⟨fun hi => by omega, ?_⟩⟩
    rintro ⟨⟨y, hy, he⟩, _⟩
    rw [h y (List.mem_of_getElem? hy)] at he; cases he
  | some k =>
    obtain ⟨hk, h1, h2⟩ := List.findIdx?_eq_some_iff_getElem.1 h
    constructor
    · constructor
      · intro hh; simp only at hh; omega
      · intro hh; rw [hh _ (List.getElem_mem hk)] at h1; cases h1
    · intro i
      simp only
      constructor
      · intro hki
        have : k = i := by omega
        subst this
        refine ⟨⟨_, List.getElem?_eq_getElem hk, h1⟩, fun j hj y hy => ?_⟩
        have := h2 j hj
        obtain ⟨hj', rfl⟩ := List.getElem?_eq_some_iff.1 hy
        simpa using this
      · rintro ⟨⟨y, hy, he⟩, h3⟩
        rcases Nat.lt_trichotomy k i with hlt | rfl | hlt
        · rw [h3 k hlt _ (List.getElem?_eq_getElem hk)] at h1; cases h1
        · rfl
        · obtain ⟨hi, rfl⟩ := List.getElem?_eq_some_iff.1 hy
          exact absurd he (h2 i hlt)

/-- `position_from_end` is wrong for lists: it looks for the list among its own elements, so for
elements that are not lists it is always -1, whatever the list contains. -/
theorem C51_position_from_end_refuted (eqList : α → List α → Bool) (x : α) (l : List α)
    (h : ∀ y ∈ l, eqList y l = false) : positionFromEnd eqList x l = -1 := by
  unfold positionFromEnd indexOf
  have : l.reverse.findIdx? (fun y => eqList y l) = none := by
    rw [List.findIdx?_eq_none_iff]
    intro y hy
    exact h y (List.mem_reverse.1 hy)
  rw [this]

/-- `subseq` is the part from `s` up to `f`. -/
theorem C51_subseq (l : List α) (s f : Nat) :
    subseq l s f = .ok ((l.take f).drop s) := by
  simp only [subseq, slice, Int.toNat_natCast, List.take_drop, Res.ok.injEq]
  by_cases h : s ≤ f
  · rw [Nat.add_sub_cancel' h]
  · have h1 : s + (f - s) = s := by omega
    rw [h1]
    rw [List.drop_eq_nil_of_le (by simp; omega), List.drop_eq_nil_of_le (by simp; omega)]

/-- `butsubseq` is the rest. -/
theorem C51_butsubseq (l : List α) (s f : Nat) :
    butsubseq l s f = .ok (l.take s ++ l.drop f) := by
  simp [butsubseq, slice]

theorem C51_firstn (l : List α) (n : Nat) : firstn n l = .ok (l.take n) := by
  simpa [firstn] using C51_subseq l 0 n

theorem C51_butfirst (l : List α) : butfirst l = .ok l.tail := by
  have := C51_butsubseq l 0 1
  simpa [butfirst] using this

theorem C51_butfirstn (l : List α) (n : Nat) : butfirstn n l = .ok (l.drop n) := by
  have := C51_butsubseq l 0 n
  simpa [butfirstn] using this

/-- `butnth` removes one element. -/
theorem C51_butnth (l : List α) (n : Nat) (h : (n : Int) < 2147483647) :
    butnth n l = .ok (l.eraseIdx n) := by
  have h1 : wrap ((n : Int) + 1) = ((n + 1 : Nat) : Int) := by unfold wrap; omega
  rw [butnth, h1, C51_butsubseq, List.eraseIdx_eq_take_drop_succ]

/-- `lastn` and `butlast` always throw. -/
theorem C51_lastn_butlast_refuted (l : List α) (n : Int) : lastn n l = .stop ∧ butlast l = .stop :=
  ⟨rfl, rfl⟩

example : butnth 1 ["a", "b", "c"] = .ok ["a", "c"] ∧ position (fun a b : String => a == b) "c" ["a", "b", "c"] = 2
    ∧ firstn 2 ["a", "b", "c"] = .ok ["a", "b"] := by decide

/-! ## Sequences -/

theorem seqToList_eq (l : Coll.Coll α) : seqToList l = elems l := by
  induction l with
  | append a b iha ihb => simp [seqToList, elems, iha, ihb]
  | single x => rfl
  | none => rfl

theorem seqSize_eq (l : Coll.Coll α) : seqSize l = (elems l).length := by
  induction l with
  | append a b iha ihb => simp [seqSize, elems, iha, ihb]
  | single x => rfl
  | none => rfl

/-- `nth` of a sequence is the element of the flattened sequence; outside it throws. -/
theorem C51_sequence_nth (i : Int) (l : Coll.Coll α) : seqNth i l = at' (elems l) i := by
  induction l generalizing i with
  | append a b iha ihb =>
    simp only [seqNth, elems, seqSize_eq, iha, ihb, at']
    split
    · next h =>
      by_cases h0 : i < 0
      · simp [h0]
      · rw [if_neg h0, if_neg h0, List.getElem?_append_left (by omega)]
    · next h =>
      rw [if_neg (by omega), if_neg (by omega), List.getElem?_append_right (by omega)]
      have : i.toNat - (elems a).length = (i - ((elems a).length : Int)).toNat := by omega
      rw [this]
  | single x =>
    simp only [seqNth, at', elems]
    by_cases h : i = 0
    · subst h; rfl
    · rw [if_neg h]
      by_cases h0 : i < 0
      · simp [h0]
      · have : i.toNat = i.toNat - 1 + 1 := by omega
        rw [if_neg h0, this]; simp
  | none => simp [seqNth, at', elems]

/-- The other operations on sequences are those on the flattened list. -/
theorem C51_sequence (eq : α → α → Bool) (x : α) (i : Int) (l : Coll.Coll α) :
    seqSize l = (elems l).length ∧ seqNthFromEnd i l = nthFromEnd i (elems l) ∧
    seqPosition eq x l = position eq x (elems l) ∧
    seqPositionFromEnd eq x l = position eq x (elems l).reverse ∧
    (seqMember eq x l = true ↔ ∃ y ∈ elems l, eq x y = true) := by
  simp [seqSize_eq, seqNthFromEnd, nthFromEnd, seqPosition, position, seqPositionFromEnd, seqMember,
    seqToList_eq]

example : seqNth 2 (.append (.append (.single 'a') .none) (.append (.single 'b') (.single 'c'))) =
    .ok 'c' := by decide

/-! ## Strings -/

theorem C51_string_nth_from_end (l : List α) (i : Int) (h : (l.length : Int) ≤ 2147483647)
    (h0 : 0 ≤ i) (h1 : i ≤ 2147483647) : strNthFromEnd i l = nthFromEnd i l := by
  unfold strNthFromEnd nthFromEnd
  have hw : wrap ((l.length : Int) - 1 - i) = (l.length : Int) - 1 - i := by unfold wrap; omega
  rw [hw]
  unfold at'
  by_cases hi : i < l.length
  · rw [if_neg (by omega), if_neg (by omega), List.getElem?_reverse (by omega)]
    have : l.length - 1 - i.toNat = ((l.length : Int) - 1 - i).toNat := by omega
    rw [this]
  · rw [if_pos (by omega), if_neg (by omega)]
    have : l.reverse[i.toNat]? = none := List.getElem?_eq_none_iff.2 (by simp; omega)
    rw [this]

/-- `subseq` of a string is the part from `s` up to `f`, and it throws exactly when that is not a
part of the string. -/
theorem C51_string_subseq (l : List α) (s f : Int) :
    (0 ≤ s → s ≤ f → f ≤ l.length → strSubseq l s f = .ok ((l.take f.toNat).drop s.toNat)) ∧
    (¬ (0 ≤ s ∧ s ≤ f ∧ f ≤ l.length) → strSubseq l s f = .stop) := by
  unfold strSubseq substring
  constructor
  · intro h0 h1 h2
    rw [if_neg (by omega), List.take_drop, Nat.add_sub_cancel' (by omega)]
  · intro h
    rw [if_pos (by omega)]

/-- `butsubseq` of a string is the rest. -/
theorem C51_string_butsubseq (l : List α) (s f : Int) (h0 : 0 ≤ s) (h1 : s ≤ l.length)
    (h2 : 0 ≤ f) (h3 : f ≤ l.length) :
    strButsubseq l s f = .ok (l.take s.toNat ++ l.drop f.toNat) := by
  unfold strButsubseq substring
  rw [if_neg (by omega), if_neg (by omega)]
  simp only [Res.ok_bind, Int.toNat_zero, List.drop_zero, Nat.sub_zero, Int.toNat_natCast]
  rw [List.take_of_length_le (l := List.drop _ l) (by simp)]

/-- Unlike lists, `firstn` of a string throws when asked for more than there is. -/
theorem C51_string_firstn_refuted (l : List α) (n : Int) (h : (l.length : Int) < n) :
    strSubseq l 0 n = .stop := (C51_string_subseq l 0 n).2 (by omega)

/-- `position` in a string is wrong: always 0, whatever the character. -/
theorem C51_string_position_refuted [BEq α] [LawfulBEq α] (x : α) (l : List α) :
    strPosition x l = 0 := by
  unfold strPosition
  cases l with
  | nil => simp [indexOfString]
  | cons y l => simp [indexOfString]

theorem indexOfString_short [BEq α] [LawfulBEq α] (p : List α) : ∀ (l : List α) (i : Nat),
    l.length < p.length → indexOfString p l i = -1
  | [], i, h => by
      unfold indexOfString
      rw [if_neg]
      cases p <;> simp_all
  | x :: l, i, h => by
      unfold indexOfString
      rw [if_neg, indexOfString_short p l _ (by simp at h; omega)]
      intro hp
      have := List.IsPrefix.length_le (List.isPrefixOf_iff_prefix.1 hp)
      omega

/-- `position_from_end` in a string only tells whether the string is a palindrome. -/
theorem C51_string_position_from_end_refuted [BEq α] [LawfulBEq α] [DecidableEq α] (x : α)
    (l : List α) : strPositionFromEnd x l = if l.reverse = l then 0 else -1 := by
  unfold strPositionFromEnd
  by_cases h : l.reverse = l
  · rw [if_pos h, h]
    exact C51_string_position_refuted x l
  · rw [if_neg h]
    have hlen : l.reverse.length = l.length := by simp
    cases hr : l.reverse with
    | nil => exact absurd (by rw [hr]; exact (List.reverse_eq_nil_iff.1 hr).symm) h
    | cons y m =>
      unfold indexOfString
      rw [if_neg, indexOfString_short l m _ (by rw [hr] at hlen; simp at hlen; omega)]
      intro hp
      have := List.isPrefixOf_iff_prefix.1 hp
      have e := this.eq_of_length (by rw [← hr]; simp)
      rw [hr] at h
      exact h e.symm

/-- `member` in a string is right. -/
theorem C51_string_member (eq : α → α → Bool) (x : α) (l : List α) :
    strMember eq x l = true ↔ ∃ y ∈ l, eq x y = true := by
  have := (C51_position eq x l).1
  unfold strMember
  rw [decide_eq_true_eq]
  unfold position at this
  rw [Ne, this]
  simp

/-! ## Tuple lattices -/

/-- Position-wise join; what the longer tuple has beyond the shorter is kept. -/
def zipLong (join : α → α → α) : List α → List α → List α
  | [], m => m
  | l, [] => l
  | x :: l, y :: m => join x y :: zipLong join l m

theorem C51_tuple_join (join : α → α → α) (t1 t2 : List α) (fuel : Nat)
    (hf : t1.length + t2.length < fuel) : tupleCombine join fuel t1 t2 = .ok (zipLong join t1 t2) := by
  induction fuel generalizing t1 t2 with
  | zero => omega
  | succ fuel ih =>
    match t1, t2 with
    | [], t2 => cases t2 <;> simp [tupleCombine, view, zipLong]
    | [x], [] => simp [tupleCombine, view, zipLong]
    | [x], [y] => simp [tupleCombine, view, zipLong]
    | [x], y :: z :: m =>
      simp only [List.length_cons, List.length_nil] at hf
      simp only [tupleCombine, view]
      rw [ih [x] [y] (by simp; omega)]
      simp [zipLong]
    | x :: x' :: l, [] => simp [tupleCombine, view, zipLong]
    | x :: x' :: l, [y] =>
      simp only [List.length_cons, List.length_nil] at hf
      simp only [tupleCombine, view]
      rw [ih [x] [y] (by simp; omega)]
      simp [zipLong]
    | x :: x' :: l, y :: y' :: m =>
      simp only [List.length_cons] at hf
      simp only [tupleCombine, view]
      rw [ih [x] [y] (by simp; omega), ih (x' :: l) (y' :: m) (by simp; omega)]
      simp [zipLong]

theorem C51_tuple_meet (meet : α → α → α) (t1 t2 : List α) (fuel : Nat)
    (hf : t1.length + t2.length < fuel) :
    tupleMeet meet fuel t1 t2 = .ok (List.zipWith meet t1 t2) := by
  induction fuel generalizing t1 t2 with
  | zero => omega
  | succ fuel ih =>
    match t1, t2 with
    | [], t2 => cases t2 <;> simp [tupleMeet, view]
    | [x], [] => simp [tupleMeet, view]
    | [x], [y] => simp [tupleMeet, view]
    | [x], y :: z :: m =>
      simp only [List.length_cons, List.length_nil] at hf
      simp only [tupleMeet, view]
      rw [ih [x] [y] (by simp; omega)]
      simp
    | x :: x' :: l, [] => simp [tupleMeet, view]
    | x :: x' :: l, [y] =>
      simp only [List.length_cons, List.length_nil] at hf
      simp only [tupleMeet, view]
      rw [ih [x] [y] (by simp; omega)]
      simp
    | x :: x' :: l, y :: y' :: m =>
      simp only [List.length_cons] at hf
      simp only [tupleMeet, view]
      rw [ih [x] [y] (by simp; omega), ih (x' :: l) (y' :: m) (by simp; omega)]
      simp

/-- The value of an outcome that is known to be normal. -/
def valueOf (r : Res α) (d : α) : α := match r with
  | .ok a => a
  | _ => d

/-- The tuple lattice over an element lattice, each operation run with enough fuel. -/
def tupleLattice (eq : α → α → Bool) (join meet : α → α → α) : Lattice.Ops (List α) where
  initial := []
  combine := fun a b => valueOf (tupleCombine join (a.length + b.length + 1) a b) []
  bottom := []
  compare := fun a b => valueOf (tupleCompare eq join (a.length + b.length + 1) a b) false
  compareEqual := fun a b => valueOf (tupleCompareEqual eq join (a.length + b.length + 1) a b) false
  join := fun a b => valueOf (tupleCombine join (a.length + b.length + 1) a b) []
  meet := fun a b => valueOf (tupleMeet meet (a.length + b.length + 1) a b) []

/-- What `x <= y` means for tuples: `x` is not longer and below `y` place by place. -/
def TupleLe (le : α → α → Bool) : List α → List α → Prop
  | [], _ => True
  | _ :: _, [] => False
  | x :: l, y :: m => le x y = true ∧ TupleLe le l m

section tuple
variable {o : Lattice.Ops α} {eq : α → α → Bool}

theorem tupleEq_iff (he : Equality eq) (h : LatticeLaws o eq (fun _ => True)) (a b : List α) :
    bagEqual eq a b = true ↔ TupleLe o.compareEqual a b ∧ TupleLe o.compareEqual b a := by
  induction a generalizing b with
  | nil => cases b <;> simp [bagEqual, TupleLe]
  | cons x a ih =>
    cases b with
    | nil => simp [bagEqual, TupleLe]
    | cons y b =>
      simp only [bagEqual, TupleLe, Bool.and_eq_true, ih]
      constructor
      · rintro ⟨h1, h2, h3⟩
        exact ⟨⟨h.refl _ _ trivial trivial h1, h2⟩, h.refl _ _ trivial trivial (he.symm _ _ h1), h3⟩
      · rintro ⟨⟨h1, h2⟩, h3, h4⟩
        exact ⟨h.antisymm _ _ trivial trivial h1 h3, h2, h4⟩

theorem le_zip (he : Equality eq) (h : LatticeLaws o eq (fun _ => True)) (a b : List α) :
    bagEqual eq (zipLong o.join a b) b = true ↔ TupleLe o.compareEqual a b := by
  induction a generalizing b with
  | nil =>
    simp only [zipLong, TupleLe, iff_true]
    exact (tupleEq_iff he h b b).2 (by
      have : ∀ b : List α, TupleLe o.compareEqual b b := by
        intro b
        induction b with
        | nil => simp [TupleLe]
        | cons x b ih => exact ⟨h.refl _ _ trivial trivial (he.refl x), ih⟩
      exact ⟨this b, this b⟩)
  | cons x a ih =>
    cases b with
    | nil => simp [zipLong, bagEqual, TupleLe]
    | cons y b =>
      simp only [zipLong, bagEqual, TupleLe, Bool.and_eq_true, ih]
      have : eq (o.join x y) y = true ↔ o.compareEqual x y = true := by
        constructor
        · intro e
          exact h.trans _ _ _ trivial trivial trivial (h.join_left x y trivial trivial)
            (h.refl _ _ trivial trivial e)
        · intro e
          exact h.antisymm _ _ trivial trivial
            (h.join_least _ _ _ trivial trivial trivial e (h.refl _ _ trivial trivial (he.refl y)))
            (h.join_right x y trivial trivial)
      rw [this]

/-- `<=` on tuples is the place-by-place order; `<` its strict part. -/
theorem C51_tuple_compare (he : Equality eq) (h : LatticeLaws o eq (fun _ => True)) (a b : List α) :
    ((tupleLattice eq o.join o.meet).compareEqual a b = true ↔ TupleLe o.compareEqual a b) ∧
    ((tupleLattice eq o.join o.meet).compare a b = true ↔
      TupleLe o.compareEqual a b ∧ bagEqual eq a b = false) := by
  simp only [tupleLattice, tupleCompare, tupleCompareEqual]
  rw [C51_tuple_join _ _ _ _ (Nat.lt_succ_self _)]
  simp [valueOf, le_zip he h]

theorem TupleLe.refl (he : Equality eq) (h : LatticeLaws o eq (fun _ => True)) :
    ∀ a : List α, TupleLe o.compareEqual a a
  | [] => trivial
  | x :: a => ⟨h.refl _ _ trivial trivial (he.refl x), TupleLe.refl he h a⟩

theorem TupleLe.trans (h : LatticeLaws o eq (fun _ => True)) : ∀ {a b c : List α},
    TupleLe o.compareEqual a b → TupleLe o.compareEqual b c → TupleLe o.compareEqual a c
  | [], _, _, _, _ => by simp [TupleLe]
  | x :: a, [], _, h1, _ => by simp [TupleLe] at h1
  | x :: a, y :: b, [], _, h2 => by simp [TupleLe] at h2
  | x :: a, y :: b, z :: c, h1, h2 =>
      ⟨h.trans _ _ _ trivial trivial trivial h1.1 h2.1, TupleLe.trans h h1.2 h2.2⟩

/-- Tuples over a lattice form a lattice. -/
theorem C51_tuple_lattice (he : Equality eq) (h : LatticeLaws o eq (fun _ => True)) :
    LatticeLaws (tupleLattice eq o.join o.meet) (bagEqual eq) (fun _ => True) := by
  have le := fun a b => (C51_tuple_compare he h a b).1
  have lt := fun a b => (C51_tuple_compare he h a b).2
  have hj : ∀ a b, (tupleLattice eq o.join o.meet).join a b = zipLong o.join a b := by
    intro a b
    simp [tupleLattice, C51_tuple_join _ _ _ _ (Nat.lt_succ_self _), valueOf]
  have hm : ∀ a b, (tupleLattice eq o.join o.meet).meet a b = List.zipWith o.meet a b := by
    intro a b
    simp [tupleLattice, C51_tuple_meet _ _ _ _ (Nat.lt_succ_self _), valueOf]
  refine ⟨?_, ?_, ?_, ?_, fun _ _ _ _ => trivial, ?_, ?_, ?_, fun _ _ _ _ => trivial, ?_, ?_, ?_,
    trivial, ?_, rfl, fun _ _ => rfl⟩
  · intro x y _ _ e; exact (le x y).2 ((tupleEq_iff he h x y).1 e).1
  · intro x y _ _ h1 h2; exact (tupleEq_iff he h x y).2 ⟨(le x y).1 h1, (le y x).1 h2⟩
  · intro x y z _ _ _ h1 h2; exact (le x z).2 (((le x y).1 h1).trans h ((le y z).1 h2))
  · intro x y _ _; rw [lt, le]
  · intro x y _ _
    rw [le, hj]
    induction x generalizing y with
    | nil => trivial
    | cons x l ih =>
      cases y with
      | nil => exact TupleLe.refl he h _
      | cons y m => exact ⟨h.join_left _ _ trivial trivial, ih m⟩
  · intro x y _ _
    rw [le, hj]
    induction x generalizing y with
    | nil => simp only [zipLong]; exact TupleLe.refl he h _
    | cons x l ih =>
      cases y with
      | nil => trivial
      | cons y m => exact ⟨h.join_right _ _ trivial trivial, ih m⟩
  · intro x y z _ _ _ h1 h2
    rw [le] at h1 h2 ⊢
    rw [hj]
    induction x generalizing y z with
    | nil => simpa [zipLong] using h2
    | cons x l ih =>
      cases y with
      | nil => exact h1
      | cons y m =>
        cases z with
        | nil => exact h1
        | cons z n =>
          exact ⟨h.join_least _ _ _ trivial trivial trivial h1.1 h2.1,
            ih m n h1.2 h2.2⟩
  · intro x y _ _
    rw [le, hm]
    induction x generalizing y with
    | nil => trivial
    | cons x l ih =>
      cases y with
      | nil => trivial
      | cons y m => exact ⟨h.meet_left _ _ trivial trivial, ih m⟩
  · intro x y _ _
    rw [le, hm]
    induction x generalizing y with
    | nil => trivial
    | cons x l ih =>
      cases y with
      | nil => trivial
      | cons y m => exact ⟨h.meet_right _ _ trivial trivial, ih m⟩
  · intro x y z _ _ _ h1 h2
    rw [le] at h1 h2 ⊢
    rw [hm]
    induction z generalizing x y with
    | nil => trivial
    | cons z n ih =>
      cases x with
      | nil => exact h1
      | cons x l =>
        cases y with
        | nil => exact h2
        | cons y m =>
          exact ⟨h.meet_greatest _ _ _ trivial trivial trivial h1.1 h2.1,
            ih l m h1.2 h2.2⟩
  · intro x _; rw [le]; trivial
end tuple

example : LatticeLaws (tupleLattice (fun a b : Bool => a == b) or and) (bagEqual (fun a b => a == b))
    (fun _ => True) :=
  C51_tuple_lattice (o := Lattice.orLattice)
    ⟨by simp, by simp, by simp⟩ C43_or
example : (tupleLattice (fun a b : Bool => a == b) or and).join [true, false] [false, true, false] =
    [true, true, false] := by decide

/-! ## Ranges -/

/-- A Scala range of numbers with small ends is the interval. -/
theorem C51_range (x y : Int) (hx : 0 ≤ x ∨ y ≤ x) (hy : 2 * y ≤ 2147483647) :
    ∃ fuel, ScalaLib.range fuel x y = .ok (interval x y) := by
  suffices h : ∀ n : Nat, ∀ x y : Int, (0 ≤ x ∨ y ≤ x) → 2 * y ≤ 2147483647 → (y - x).toNat < n →
      ScalaLib.range n x y = .ok (interval x y) from
    ⟨(y - x).toNat + 1, h _ x y hx hy (by omega)⟩
  intro n
  induction n with
  | zero => intro x y _ _ h; omega
  | succ n ih =>
    intro x y hx hy hn
    rw [ScalaLib.range]
    by_cases h1 : x = y
    · rw [if_pos h1, h1]
      have : (y + 1 - y).toNat = 1 := by omega
      simp [interval, this]
    · rw [if_neg h1]
      by_cases h2 : x > y
      · rw [if_pos h2]
        have : (y + 1 - x).toNat = 0 := by omega
        simp [interval, this]
      · rw [if_neg h2]
        have hw : wrap (x + y) = x + y := by unfold wrap; omega
        have hm : Int.tdiv (x + y) 2 = (x + y) / 2 := Int.tdiv_eq_ediv_of_nonneg (by omega)
        rw [hw, hm]
        have hw2 : wrap ((x + y) / 2 + 1) = (x + y) / 2 + 1 := by unfold wrap; omega
        show (ScalaLib.range n x ((x + y) / 2) >>= fun a =>
          ScalaLib.range n (wrap ((x + y) / 2 + 1)) y >>= fun b => Res.ok (a ++ b)) = _
        rw [hw2, ih x _ (by omega) (by omega) (by omega), ih _ y (by omega) (by omega) (by omega)]
        simp only [Res.ok_bind]
        rw [interval_append (by omega) (by omega)]

theorem tdiv_two (s : Int) : 2 * Int.tdiv s 2 ≤ s + 1 ∧ s - 1 ≤ 2 * Int.tdiv s 2 ∧
    (s < 0 → s ≤ 2 * Int.tdiv s 2) ∧ (0 ≤ s → 2 * Int.tdiv s 2 ≤ s) := by
  rcases Int.le_total 0 s with h | h
  · rw [Int.tdiv_eq_ediv_of_nonneg h]; omega
  · have e : Int.tdiv s 2 = -((-s) / 2) := by
      rw [← Int.tdiv_eq_ediv_of_nonneg (by omega), Int.neg_tdiv, Int.neg_neg]
    rw [e]; omega

theorem range_negative (x : Int) (hx : x < 0) (hx' : -2147483648 ≤ x) (fuel : Nat) (y : Int)
    (hxy : x < y) (hy : y ≤ 2147483647) (r : List Int) : ScalaLib.range fuel x y ≠ .ok r := by
  induction fuel generalizing y r with
  | zero => simp [ScalaLib.range]
  | succ fuel ih =>
    intro h
    rw [ScalaLib.range, if_neg (by omega), if_neg (by omega)] at h
    obtain ⟨a, ha, h⟩ := Res.bind_eq_ok.1 h
    have hm : x < Int.tdiv (wrap (x + y)) 2 ∧ Int.tdiv (wrap (x + y)) 2 ≤ 2147483647 := by
      have : x + y = wrap (x + y) ∨ 0 ≤ wrap (x + y) := by unfold wrap; omega
      have hw : wrap (x + y) ≤ 2147483647 := by unfold wrap; omega
      have : wrap (x + y) > 2 * x ∨ 0 ≤ wrap (x + y) := by omega
      have := tdiv_two (wrap (x + y))
      omega
    exact ih _ hm.1 hm.2 _ ha

/-- A Scala range that starts below zero never ends (it overflows the stack). -/
theorem C51_range_negative_refuted (x y : Int) (hx : x < 0) (hx' : -2147483648 ≤ x) (hxy : x < y)
    (hy : y ≤ 2147483647) (fuel : Nat) (r : List Int) : ScalaLib.range fuel x y ≠ .ok r :=
  range_negative x hx hx' fuel y hxy hy r

/-- Nor does one of non-negative numbers whose sum is too large for an `Int`. -/
theorem C51_range_overflow_refuted (x y : Int) (hx : 0 ≤ x) (hxy : x < y) (hy : y ≤ 2147483647)
    (hs : 2147483647 < x + y) (fuel : Nat) (r : List Int) : ScalaLib.range fuel x y ≠ .ok r := by
  have key : ∀ (x y : Int) (fuel : Nat) (r : List Int), 0 ≤ x → x < y → y ≤ 2147483647 →
      2147483647 < x + y → x + y ≠ 4294967293 → ScalaLib.range fuel x y ≠ .ok r := by
    intro x y fuel r hx hxy hy hs hne h
    cases fuel with
    | zero => simp [ScalaLib.range] at h
    | succ fuel =>
      rw [ScalaLib.range, if_neg (by omega), if_neg (by omega)] at h
      obtain ⟨a, ha, h⟩ := Res.bind_eq_ok.1 h
      obtain ⟨b, hb, h⟩ := Res.bind_eq_ok.1 h
      have hw : wrap (x + y) = x + y - 4294967296 := by unfold wrap; omega
      rw [hw] at hb
      have := tdiv_two (x + y - 4294967296)
      have hw2 : wrap (Int.tdiv (x + y - 4294967296) 2 + 1) = Int.tdiv (x + y - 4294967296) 2 + 1 := by
        unfold wrap; omega
      rw [hw2] at hb
      exact range_negative _ (by omega) (by omega) fuel y (by omega) hy _ hb
  by_cases hne : x + y = 4294967293
  · intro h
    have hy' : y = 2147483647 := by omega
    have hx' : x = 2147483646 := by omega
    subst hy' hx'
    cases fuel with
    | zero => simp [ScalaLib.range] at h
    | succ fuel =>
      rw [ScalaLib.range, if_neg (by omega), if_neg (by omega)] at h
      obtain ⟨a, ha, h⟩ := Res.bind_eq_ok.1 h
      obtain ⟨b, hb, h⟩ := Res.bind_eq_ok.1 h
      have e : wrap (Int.tdiv (wrap (2147483646 + 2147483647)) 2 + 1) = 0 := by decide
      rw [e] at hb
      cases fuel with
      | zero => simp [ScalaLib.range] at hb
      | succ fuel =>
        rw [ScalaLib.range, if_neg (by omega), if_neg (by omega)] at hb
        obtain ⟨c, hc, hb⟩ := Res.bind_eq_ok.1 hb
        obtain ⟨d, hd, hb⟩ := Res.bind_eq_ok.1 hb
        have e : wrap (Int.tdiv (wrap (0 + 2147483647)) 2 + 1) = 1073741824 := by decide
        rw [e] at hd
        exact key _ _ _ _ (by omega) (by omega) (by omega) (by omega) (by omega) hd
  · exact key x y fuel r hx hxy hy hs hne

end Aps.Props
