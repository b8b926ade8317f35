import Verif.Props.Coll

/-!
# C38: sets of the C++ runtime; C52: integer ranges
-/
namespace Aps.Props
open Aps Aps.Coll
set_option linter.unusedVariables false

variable {α : Type _}

/-- The equality of the element type is an equivalence (as `BASIC` requires of `equal`). -/
structure Equality (eq : α → α → Bool) : Prop where
  refl : ∀ x, eq x x = true
  symm : ∀ x y, eq x y = true → eq y x = true
  trans : ∀ x y z, eq x y = true → eq y z = true → eq x z = true

/-- `x` belongs to the set denoted by a collection: some element is equal to it. -/
def In (eq : α → α → Bool) (x : α) (s : Coll α) : Prop := ∃ y ∈ elems s, eq y x = true

/-- No two elements of the collection are equal. -/
def NoDup (eq : α → α → Bool) (s : Coll α) : Prop :=
  (elems s).Pairwise (fun x y => eq x y = false)

theorem in_append {eq : α → α → Bool} {x : α} {a b : Coll α} :
    In eq x (.append a b) ↔ In eq x a ∨ In eq x b := by
  simp only [In, elems, List.mem_append]
  constructor
  · rintro ⟨y, h | h, e⟩
    · exact Or.inl ⟨y, h, e⟩
    · exact Or.inr ⟨y, h, e⟩
  · rintro (⟨y, h, e⟩ | ⟨y, h, e⟩)
    · exact ⟨y, Or.inl h, e⟩
    · exact ⟨y, Or.inr h, e⟩

theorem in_single {eq : α → α → Bool} {x y : α} : In eq x (.single y) ↔ eq y x = true := by
  simp [In, elems]

theorem in_none {eq : α → α → Bool} {x : α} : In eq x (.none) ↔ False := by
  simp [In, elems]

theorem Equality.in_congr {eq : α → α → Bool} (he : Equality eq) {x z : α} (h : eq x z = true)
    (s : Coll α) : In eq x s ↔ In eq z s := by
  constructor
  · rintro ⟨y, hy, e⟩; exact ⟨y, hy, he.trans _ _ _ e h⟩
  · rintro ⟨y, hy, e⟩; exact ⟨y, hy, he.trans _ _ _ e (he.symm _ _ h)⟩

/-- `member` is membership. -/
theorem C38_member (eq : α → α → Bool) (x : α) (s : Coll α) :
    Coll.setMember eq x s = true ↔ In eq x s := by
  induction s with
  | append a b iha ihb => rw [in_append, ← iha, ← ihb]; simp [Coll.setMember]
  | single y => rw [in_single]; rfl
  | none => rw [in_none]; simp [Coll.setMember]

/-- `union` has the members of either set. -/
theorem C38_union (eq : α → α → Bool) (he : Equality eq) (s1 s2 : Coll α) (x : α) :
    In eq x (Coll.union eq s1 s2) ↔ In eq x s1 ∨ In eq x s2 := by
  induction s1 generalizing s2 with
  | append a b iha ihb =>
    simp only [Coll.union]
    rw [iha, ihb, in_append, or_assoc]
  | single y =>
    simp only [Coll.union]
    by_cases h : Coll.setMember eq y s2 = true
    · rw [if_pos h, in_single]
      rw [C38_member] at h
      constructor
      · exact Or.inr
      · rintro (h1 | h1)
        · exact (he.in_congr h1 s2).1 h
        · exact h1
    · rw [if_neg h, in_append]
  | none => simp [Coll.union, in_none]

/-- `intersect` has the members of both sets. -/
theorem C38_intersect (eq : α → α → Bool) (he : Equality eq) (s1 s2 : Coll α) (x : α) :
    In eq x (Coll.intersect eq s1 s2) ↔ In eq x s1 ∧ In eq x s2 := by
  induction s1 with
  | append a b iha ihb =>
    simp only [Coll.intersect]
    rw [in_append, iha, ihb, in_append, or_and_right]
  | single y =>
    simp only [Coll.intersect]
    by_cases h : Coll.setMember eq y s2 = true
    · rw [if_pos h, in_single]
      rw [C38_member] at h
      exact ⟨fun h1 => ⟨h1, (he.in_congr h1 s2).1 h⟩, fun h1 => h1.1⟩
    · rw [if_neg h, in_none, in_single]
      rw [C38_member] at h
      exact ⟨False.elim, fun ⟨h1, h2⟩ => h ((he.in_congr h1 s2).2 h2)⟩
  | none => simp [Coll.intersect, in_none]

/-- `difference` has the members of the first set that are not in the second. -/
theorem C38_difference (eq : α → α → Bool) (he : Equality eq) (s1 s2 : Coll α) (x : α) :
    In eq x (Coll.difference eq s1 s2) ↔ In eq x s1 ∧ ¬ In eq x s2 := by
  induction s1 with
  | append a b iha ihb =>
    simp only [Coll.difference]
    rw [in_append, iha, ihb, in_append, or_and_right]
  | single y =>
    simp only [Coll.difference]
    by_cases h : Coll.setMember eq y s2 = true
    · rw [if_pos h, in_none, in_single]
      rw [C38_member] at h
      exact ⟨False.elim, fun ⟨h1, h2⟩ => h2 ((he.in_congr h1 s2).1 h)⟩
    · rw [if_neg h, in_single]
      rw [C38_member] at h
      exact ⟨fun h1 => ⟨h1, fun h2 => h ((he.in_congr h1 s2).2 h2)⟩, fun h1 => h1.1⟩
  | none => simp [Coll.difference, in_none]

/-- `<=` is set inclusion. -/
theorem C38_less_equal (eq : α → α → Bool) (he : Equality eq) (s1 s2 : Coll α) :
    Coll.setLe eq s1 s2 = true ↔ ∀ x, In eq x s1 → In eq x s2 := by
  induction s1 with
  | append a b iha ihb =>
    simp only [Coll.setLe, Bool.and_eq_true, iha, ihb]
    constructor
    · rintro ⟨h1, h2⟩ x hx
      rcases in_append.1 hx with h | h
      · exact h1 x h
      · exact h2 x h
    · intro h
      exact ⟨fun x hx => h x (in_append.2 (Or.inl hx)), fun x hx => h x (in_append.2 (Or.inr hx))⟩
  | single y =>
    simp only [Coll.setLe, C38_member]
    constructor
    · intro h x hx
      exact (he.in_congr (in_single.1 hx) s2).1 h
    · intro h
      exact h y (in_single.2 (he.refl y))
  | none => simp [Coll.setLe, in_none]

/-- Set equality is having the same members, whatever the representation. -/
theorem C38_equal (eq : α → α → Bool) (he : Equality eq) (s1 s2 : Coll α) :
    Coll.setEqual eq s1 s2 = true ↔ ∀ x, In eq x s1 ↔ In eq x s2 := by
  simp only [Coll.setEqual, Bool.and_eq_true, C38_less_equal eq he]
  exact ⟨fun ⟨h1, h2⟩ x => ⟨h1 x, h2 x⟩, fun h => ⟨fun x => (h x).1, fun x => (h x).2⟩⟩

/-- `<` is strict inclusion. -/
theorem C38_less (eq : α → α → Bool) (he : Equality eq) (s1 s2 : Coll α) :
    Coll.setLess eq s1 s2 = true ↔
      (∀ x, In eq x s1 → In eq x s2) ∧ ∃ x, In eq x s2 ∧ ¬ In eq x s1 := by
  simp only [Coll.setLess, Bool.and_eq_true, Bool.not_eq_true', ← Bool.not_eq_true,
    C38_less_equal eq he, not_forall, exists_prop]

theorem Equality.false_symm {eq : α → α → Bool} (he : Equality eq) {x y : α}
    (h : eq x y = false) : eq y x = false := by
  cases hh : eq y x with
  | false => rfl
  | true => rw [he.symm _ _ hh] at h; cases h

theorem union_nodup {eq : α → α → Bool} (he : Equality eq) (s1 s2 : Coll α) (h : NoDup eq s2) :
    NoDup eq (Coll.union eq s1 s2) := by
  induction s1 generalizing s2 with
  | append a b iha ihb => exact iha _ (ihb _ h)
  | single y =>
    simp only [Coll.union]
    by_cases hm : Coll.setMember eq y s2 = true
    · rw [if_pos hm]; exact h
    · rw [if_neg hm]
      rw [C38_member] at hm
      simp only [NoDup, elems, List.singleton_append, List.pairwise_cons]
      refine ⟨fun z hz => ?_, h⟩
      cases hh : eq y z with
      | false => rfl
      | true => exact absurd ⟨z, hz, he.symm _ _ hh⟩ hm
  | none => exact h

theorem intersect_sublist (eq : α → α → Bool) (s1 s2 : Coll α) :
    (elems (Coll.intersect eq s1 s2)).Sublist (elems s1) := by
  induction s1 with
  | append a b iha ihb => exact List.Sublist.append iha ihb
  | single y => simp only [Coll.intersect]; split <;> simp [elems]
  | none => exact List.Sublist.refl _

theorem difference_sublist (eq : α → α → Bool) (s1 s2 : Coll α) :
    (elems (Coll.difference eq s1 s2)).Sublist (elems s1) := by
  induction s1 with
  | append a b iha ihb => exact List.Sublist.append iha ihb
  | single y => simp only [Coll.difference]; split <;> simp [elems]
  | none => exact List.Sublist.refl _

/-- A set built with the operations of `SET` never has the same element twice. -/
theorem C38_no_duplicates (eq : α → α → Bool) (he : Equality eq) (e : SetExpr α) :
    NoDup eq (e.value eq) := by
  induction e with
  | none => simp [NoDup, SetExpr.value, elems]
  | single x => simp [NoDup, SetExpr.value, elems]
  | union a b iha ihb => exact union_nodup he _ _ ihb
  | intersect a b iha ihb => exact List.Pairwise.sublist (intersect_sublist eq _ _) iha
  | difference a b iha ihb => exact List.Pairwise.sublist (difference_sublist eq _ _) iha
  | without a x iha => exact List.Pairwise.sublist (difference_sublist eq _ _) iha

/-- The mathematical set a set expression denotes. -/
def _root_.Aps.Coll.SetExpr.denote (eq : α → α → Bool) : SetExpr α → α → Prop
  | .none, _ => False
  | .single y, x => eq y x = true
  | .union a b, x => a.denote eq x ∨ b.denote eq x
  | .intersect a b, x => a.denote eq x ∧ b.denote eq x
  | .difference a b, x => a.denote eq x ∧ ¬ b.denote eq x
  | .without a y, x => a.denote eq x ∧ ¬ eq y x = true

/-- Every set expression evaluates to the set it denotes. -/
theorem C38_expr (eq : α → α → Bool) (he : Equality eq) (e : SetExpr α) (x : α) :
    Coll.setMember eq x (e.value eq) = true ↔ e.denote eq x := by
  rw [C38_member]
  induction e with
  | none => exact in_none
  | single y => exact in_single
  | union a b iha ihb => simp only [SetExpr.value, SetExpr.denote]; rw [C38_union eq he, iha, ihb]
  | intersect a b iha ihb =>
    simp only [SetExpr.value, SetExpr.denote]; rw [C38_intersect eq he, iha, ihb]
  | difference a b iha ihb =>
    simp only [SetExpr.value, SetExpr.denote]; rw [C38_difference eq he, iha, ihb]
  | without a y iha =>
    simp only [SetExpr.value, SetExpr.denote]; rw [C38_difference eq he, iha, in_single]

theorem card_le {eq : α → α → Bool} (he : Equality eq) : ∀ (l1 l2 : List α),
    l1.Pairwise (fun x y => eq x y = false) → (∀ x ∈ l1, ∃ y ∈ l2, eq y x = true) →
    l1.length ≤ l2.length := by
  intro l1
  induction l1 with
  | nil => intros; simp
  | cons x t ih =>
    intro l2 hp hm
    obtain ⟨y, hy, hyx⟩ := hm x (by simp)
    obtain ⟨a, b, rfl⟩ := List.append_of_mem hy
    rw [List.pairwise_cons] at hp
    have := ih (a ++ b) hp.2 (fun z hz => by
      obtain ⟨w, hw, hwz⟩ := hm z (by simp [hz])
      rcases List.mem_append.1 hw with h | h
      · exact ⟨w, by simp [h], hwz⟩
      · rcases List.mem_cons.1 h with rfl | h
        · have h1 := he.trans _ _ _ (he.symm _ _ hyx) hwz
          rw [hp.1 z hz] at h1; cases h1
        · exact ⟨w, by simp [h], hwz⟩)
    simp only [List.length_cons, List.length_append] at *
    omega

/-- The length of a set built by the `SET` operations is its number of members: it depends only on
the set denoted, and a strict subset is shorter. -/
theorem C38_length (eq : α → α → Bool) (he : Equality eq) (e1 e2 : SetExpr α)
    (hs1 : Small (e1.value eq)) (hs2 : Small (e2.value eq))
    (hsame : ∀ x, e1.denote eq x ↔ e2.denote eq x) :
    Coll.length (e1.value eq) = Coll.length (e2.value eq) := by
  have key : ∀ a b : SetExpr α, (∀ x, a.denote eq x ↔ b.denote eq x) →
      (elems (a.value eq)).length ≤ (elems (b.value eq)).length := by
    intro a b hab
    apply card_le he _ _ (C38_no_duplicates eq he a)
    intro x hx
    have h1 : In eq x (a.value eq) := ⟨x, hx, he.refl x⟩
    rw [← C38_member, C38_expr eq he, hab, ← C38_expr eq he, C38_member] at h1
    exact h1
  rw [C37_length _ hs1, C37_length _ hs2]
  have h1 := key e1 e2 hsame
  have h2 := key e2 e1 (fun x => (hsame x).symm)
  congr 1
  omega

/-- The raw representation may repeat elements (a `BAG`), and then its length is not the number of
members: the `SET` operations are needed for `C38_length`. -/
theorem C38_length_bag_refuted :
    Coll.setEqual (fun a b : Nat => a == b) (.append (.single 1) (.single 1)) (.single 1) = true ∧
    Coll.length (.append (.single 1) (.single 1)) ≠ Coll.length (.single 1) := by
  constructor <;> decide

/-- Non-vacuity: `==` on numbers is an equality, `({1} ∪ {2}) ∪ ({2} ∪ {3})` has three elements. -/
def c38ex : SetExpr Nat :=
  .union (.union (.single 1) (.single 2)) (.union (.single 2) (.single 3))

theorem natEq : Equality (fun a b : Nat => a == b) where
  refl := by simp
  symm := by intro x y; simp; exact fun h => h.symm
  trans := by intro x y z; simp; exact fun h h' => h.trans h'

example : Coll.length (c38ex.value (fun a b => a == b)) = .ok 3 := by decide
example : Coll.length ((SetExpr.without c38ex 2).value (fun a b => a == b)) = .ok 2 := by decide

/-! ## C52: integer ranges -/

/-- `x, x+1, ..., y` (nothing when `x > y`). -/
def interval (x y : Int) : List Int := (List.range (y + 1 - x).toNat).map (fun i : Nat => x + (i : Int))

theorem interval_append {x m y : Int} (h1 : x ≤ m + 1) (h2 : m ≤ y) :
    interval x m ++ interval (m + 1) y = interval x y := by
  unfold interval
  have : (y + 1 - x).toNat = (m + 1 - x).toNat + (y + 1 - (m + 1)).toNat := by omega
  rw [this, List.range_add, List.map_append, List.map_map]
  congr 1
  apply List.map_congr_left
  intro i _
  simp only [Function.comp]
  push_cast
  omega

/-- For a range that starts at zero or above (or is empty or a singleton), `x..y` ends and has
exactly the integers from `x` to `y` in order, provided twice the end fits an `int`. -/
theorem C52_range (x y : Int) (hx : 0 ≤ x ∨ y ≤ x) (hy : 2 * y ≤ intMax) :
    ∃ fuel r, Coll.range fuel x y = .ok r ∧ elems r = interval x y := by
  suffices h : ∀ n : Nat, ∀ x y : Int, (0 ≤ x ∨ y ≤ x) → 2 * y ≤ intMax → (y - x).toNat < n →
      ∃ r, Coll.range n x y = .ok r ∧ elems r = interval x y from
    ⟨(y - x).toNat + 1, h _ x y hx hy (by omega)⟩
  intro n
  induction n with
  | zero => intro x y _ _ h; omega
  | succ n ih =>
    intro x y hx hy hn
    rw [Coll.range]
    by_cases h1 : x = y
    · rw [if_pos h1]
      refine ⟨_, rfl, ?_⟩
      subst h1
      have : (x + 1 - x).toNat = 1 := by omega
      simp [elems, interval, this]
    rw [if_neg h1]
    by_cases h2 : x > y
    · rw [if_pos h2]
      refine ⟨_, rfl, ?_⟩
      have : (y + 1 - x).toNat = 0 := by omega
      simp [elems, interval, this]
    rw [if_neg h2]
    have hx0 : 0 ≤ x := by omega
    rw [int32_ok (by simp only [intMin]; omega) (by omega), Res.ok_bind]
    have hm : Int.tdiv (x + y) 2 = (x + y) / 2 := Int.tdiv_eq_ediv_of_nonneg (by omega)
    simp only [hm]
    obtain ⟨a, ha, hea⟩ := ih x ((x + y) / 2) (Or.inl hx0) (by omega) (by omega)
    obtain ⟨b, hb, heb⟩ := ih ((x + y) / 2 + 1) y (Or.inl (by omega)) hy (by omega)
    rw [ha, Res.ok_bind, int32_ok (by simp only [intMin]; omega) (by simp only [intMax] at *; omega),
      Res.ok_bind, hb, Res.ok_bind]
    refine ⟨_, rfl, ?_⟩
    simp only [elems, hea, heb]
    exact interval_append (by omega) (by omega)

/-- **The full claim is false**: a range of at least two integers that starts below zero never
ends (`-1..0` calls itself with the same arguments because division truncates toward zero), or is
undefined behaviour. -/
theorem C52_negative_refuted (x y : Int) (hx : x < 0) (hxy : x < y) (fuel : Nat) (r : Coll Int) :
    Coll.range fuel x y ≠ .ok r := by
  induction fuel generalizing y r with
  | zero => simp [Coll.range]
  | succ fuel ih =>
    intro h
    rw [Coll.range, if_neg (by omega), if_neg (by omega)] at h
    obtain ⟨s, hs, h⟩ := Res.bind_eq_ok.1 h
    have hs' : s = x + y := by
      unfold int32 at hs
      split at hs
      · exact (Res.ok.inj hs).symm
      · cases hs
    simp only [hs'] at h
    obtain ⟨a, ha, _⟩ := Res.bind_eq_ok.1 h
    refine ih (Int.tdiv (x + y) 2) ?_ a ha
    have hcases : 0 ≤ x + y ∨ x + y < 0 := by omega
    rcases hcases with h0 | h0
    · rw [Int.tdiv_eq_ediv_of_nonneg h0]; omega
    · have : Int.tdiv (x + y) 2 = -(Int.tdiv (-(x + y)) 2) := by
        rw [Int.neg_tdiv]; omega
      rw [this, Int.tdiv_eq_ediv_of_nonneg (by omega)]
      omega

/-- In particular `-1..0` is neither of the values `-1, 0`: it runs forever. -/
theorem C52_minus_one_zero_refuted (fuel : Nat) : Coll.range fuel (-1) 0 = .nofuel := by
  induction fuel with
  | zero => rfl
  | succ fuel ih =>
    rw [Coll.range]
    have : Int.tdiv (-1 + 0) 2 = 0 := by decide
    simp [int32, intMin, intMax, ih]

/-- A range whose ends sum past the largest `int` is undefined behaviour. -/
theorem C52_overflow_refuted (fuel : Nat) (x y : Int) (hxy : x < y) (h : x + y > intMax) :
    Coll.range (fuel + 1) x y = .ub := by
  rw [Coll.range, if_neg (by omega), if_neg (by omega)]
  unfold int32
  rw [if_neg (by omega)]
  rfl

example : (match Coll.range 10 2 6 with | .ok r => elems r == [2, 3, 4, 5, 6] | _ => false) = true := by
  decide
example : interval 2 6 = [2, 3, 4, 5, 6] := by decide

end Aps.Props
