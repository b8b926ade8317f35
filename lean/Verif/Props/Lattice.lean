import Verif.Model.Lattice
import Verif.Props.CollSet

/-!
# C42, C43: the lattice types satisfy the lattice laws
-/
set_option linter.unusedVariables false
namespace Aps.Props

open Aps Aps.Lattice

/-- What it means that a lattice type is a lattice on the values `valid`: `eqv` is its equality;
`compare_equal` is a partial order up to it, `compare` its strict part, `join` and `meet` the least
upper and greatest lower bound, `bottom` the least element, and collection attributes start at the
least element and accumulate joins. -/
structure LatticeLaws {L : Type _} (o : Lattice.Ops L) (eqv : L → L → Bool) (valid : L → Prop) :
    Prop where
  refl : ∀ x y, valid x → valid y → eqv x y = true → o.compareEqual x y = true
  antisymm : ∀ x y, valid x → valid y → o.compareEqual x y = true → o.compareEqual y x = true →
    eqv x y = true
  trans : ∀ x y z, valid x → valid y → valid z → o.compareEqual x y = true →
    o.compareEqual y z = true → o.compareEqual x z = true
  strict : ∀ x y, valid x → valid y →
    (o.compare x y = true ↔ o.compareEqual x y = true ∧ eqv x y = false)
  join_valid : ∀ x y, valid x → valid y → valid (o.join x y)
  join_left : ∀ x y, valid x → valid y → o.compareEqual x (o.join x y) = true
  join_right : ∀ x y, valid x → valid y → o.compareEqual y (o.join x y) = true
  join_least : ∀ x y z, valid x → valid y → valid z → o.compareEqual x z = true →
    o.compareEqual y z = true → o.compareEqual (o.join x y) z = true
  meet_valid : ∀ x y, valid x → valid y → valid (o.meet x y)
  meet_left : ∀ x y, valid x → valid y → o.compareEqual (o.meet x y) x = true
  meet_right : ∀ x y, valid x → valid y → o.compareEqual (o.meet x y) y = true
  meet_greatest : ∀ x y z, valid x → valid y → valid z → o.compareEqual z x = true →
    o.compareEqual z y = true → o.compareEqual z (o.meet x y) = true
  bottom_valid : valid o.bottom
  bottom_least : ∀ x, valid x → o.compareEqual o.bottom x = true
  initial_bottom : o.initial = o.bottom
  combine_join : ∀ x y, o.combine x y = o.join x y

/-! ## Booleans -/

theorem C43_or : LatticeLaws orLattice (fun a b => a == b) (fun _ => True) := by
  constructor <;> simp [orLattice, makeLattice, cand, implies]

theorem C43_and : LatticeLaws andLattice (fun a b => a == b) (fun _ => True) := by
  constructor <;> simp [andLattice, makeLattice, andc, revimplies]

example : andLattice.compareEqual true false = true ∧ andLattice.join true false = false ∧
  orLattice.join true false = true := by decide

/-! ## Ordered types -/

/-- A totally ordered type: `eqv` is an equivalence, `less` a strict total order that respects it,
and `less_equal` its reflexive version. -/
structure TotalOrd {T : Type _} (o : Lattice.Ord T) (eqv : T → T → Bool) : Prop where
  eq_refl : ∀ x, eqv x x = true
  symm : ∀ x y, eqv x y = true → eqv y x = true
  eq_trans : ∀ x y z, eqv x y = true → eqv y z = true → eqv x z = true
  irrefl : ∀ x y, eqv x y = true → o.less x y = false
  trans : ∀ x y z, o.less x y = true → o.less y z = true → o.less x z = true
  total : ∀ x y, eqv x y = true ∨ o.less x y = true ∨ o.less y x = true
  le_iff : ∀ x y, o.lessEqual x y = true ↔ o.less x y = true ∨ eqv x y = true

namespace TotalOrd
variable {T : Type _} {o : Lattice.Ord T} {eqv : T → T → Bool}

theorem asymm (h : TotalOrd o eqv) {x y : T} (h1 : o.less x y = true) : o.less y x = false := by
  cases h2 : o.less y x with
  | false => rfl
  | true =>
    have h3 := h.trans _ _ _ h1 h2
    rw [h.irrefl x x (h.eq_refl x)] at h3; cases h3

theorem congr_left (h : TotalOrd o eqv) {x y z : T} (he : eqv x y = true) (hl : o.less y z = true) :
    o.less x z = true := by
  rcases h.total x z with h1 | h1 | h1
  · have := h.eq_trans _ _ _ (h.symm _ _ he) h1
    rw [h.irrefl _ _ this] at hl; cases hl
  · exact h1
  · have := h.trans _ _ _ hl h1
    rw [h.irrefl _ _ (h.symm _ _ he)] at this; cases this

theorem congr_right (h : TotalOrd o eqv) {x y z : T} (hl : o.less x y = true) (he : eqv y z = true) :
    o.less x z = true := by
  rcases h.total x z with h1 | h1 | h1
  · have := h.eq_trans _ _ _ h1 (h.symm _ _ he)
    rw [h.irrefl _ _ this] at hl; cases hl
  · exact h1
  · have := h.trans _ _ _ h1 hl
    rw [h.irrefl _ _ (h.symm _ _ he)] at this; cases this

theorem le_trans (h : TotalOrd o eqv) {x y z : T} (h1 : o.lessEqual x y = true)
    (h2 : o.lessEqual y z = true) : o.lessEqual x z = true := by
  rw [h.le_iff] at *
  rcases h1 with h1 | h1 <;> rcases h2 with h2 | h2
  · exact .inl (h.trans _ _ _ h1 h2)
  · exact .inl (h.congr_right h1 h2)
  · exact .inl (h.congr_left h1 h2)
  · exact .inr (h.eq_trans _ _ _ h1 h2)

theorem le_refl' (h : TotalOrd o eqv) (x : T) : o.lessEqual x x = true :=
  (h.le_iff x x).2 (.inr (h.eq_refl x))

theorem le_of_not (h : TotalOrd o eqv) {x y : T} (h1 : o.less y x = false) :
    o.lessEqual x y = true := by
  rw [h.le_iff]
  rcases h.total x y with h2 | h2 | h2
  · exact .inr h2
  · exact .inl h2
  · rw [h1] at h2; cases h2

theorem lt_iff (h : TotalOrd o eqv) (x y : T) :
    o.less x y = true ↔ o.lessEqual x y = true ∧ eqv x y = false := by
  rw [h.le_iff]
  constructor
  · intro hl
    refine ⟨.inl hl, ?_⟩
    cases he : eqv x y with
    | false => rfl
    | true => rw [h.irrefl _ _ he] at hl; cases hl
  · rintro ⟨h1 | h1, h2⟩
    · exact h1
    · rw [h1] at h2; cases h2

theorem antisymm (h : TotalOrd o eqv) {x y : T} (h1 : o.lessEqual x y = true)
    (h2 : o.lessEqual y x = true) : eqv x y = true := by
  rw [h.le_iff] at h1 h2
  rcases h1 with h1 | h1
  · rcases h2 with h2 | h2
    · rw [h.asymm h1] at h2; cases h2
    · exact h.symm _ _ h2
  · exact h1

theorem max_left (h : TotalOrd o eqv) (x y : T) : o.lessEqual x (o.max x y) = true := by
  unfold Lattice.Ord.max Lattice.Ord.greater
  split
  · exact h.le_refl' x
  · next h1 => exact h.le_of_not (by simpa using h1)

theorem max_right (h : TotalOrd o eqv) (x y : T) : o.lessEqual y (o.max x y) = true := by
  unfold Lattice.Ord.max Lattice.Ord.greater
  split
  · next h1 => exact (h.le_iff _ _).2 (.inl h1)
  · exact h.le_refl' y

theorem max_cases (o : Lattice.Ord T) (x y : T) : o.max x y = x ∨ o.max x y = y := by
  unfold Lattice.Ord.max; split <;> simp

theorem min_left (h : TotalOrd o eqv) (x y : T) : o.lessEqual (o.min x y) x = true := by
  unfold Lattice.Ord.min
  split
  · exact h.le_refl' x
  · next h1 => exact h.le_of_not (by simpa using h1)

theorem min_right (h : TotalOrd o eqv) (x y : T) : o.lessEqual (o.min x y) y = true := by
  unfold Lattice.Ord.min
  split
  · next h1 => exact (h.le_iff _ _).2 (.inl h1)
  · exact h.le_refl' y

theorem min_cases (o : Lattice.Ord T) (x y : T) : o.min x y = x ∨ o.min x y = y := by
  unfold Lattice.Ord.min; split <;> simp

end TotalOrd

/-- MAX_LATTICE over a total order with least element `m` is a lattice (on the values that are at
least `m`). -/
theorem C43_max {T : Type _} (o : Lattice.Ord T) (eqv : T → T → Bool) (h : TotalOrd o eqv) (m : T) :
    LatticeLaws (maxLattice o m) eqv (fun x => o.lessEqual m x = true) where
  refl x y _ _ he := (h.le_iff _ _).2 (.inr he)
  antisymm x y _ _ h1 h2 := h.antisymm h1 h2
  trans x y z _ _ _ h1 h2 := h.le_trans h1 h2
  strict x y _ _ := h.lt_iff x y
  join_valid x y hx hy := h.le_trans hx (h.max_left x y)
  join_left x y _ _ := h.max_left x y
  join_right x y _ _ := h.max_right x y
  join_least x y z _ _ _ h1 h2 := by
    show o.lessEqual (o.max x y) z = true
    rcases TotalOrd.max_cases o x y with e | e <;> rw [e] <;> assumption
  meet_valid x y hx hy := by
    show o.lessEqual m (o.min x y) = true
    rcases TotalOrd.min_cases o x y with e | e <;> rw [e] <;> assumption
  meet_left x y _ _ := h.min_left x y
  meet_right x y _ _ := h.min_right x y
  meet_greatest x y z _ _ _ h1 h2 := by
    show o.lessEqual z (o.min x y) = true
    rcases TotalOrd.min_cases o x y with e | e <;> rw [e] <;> assumption
  bottom_valid := h.le_refl' m
  bottom_least x hx := hx
  initial_bottom := rfl
  combine_join _ _ := rfl

/-- MIN_LATTICE over a total order with greatest element `m` is a lattice (on the values that are
at most `m`). -/
theorem C43_min {T : Type _} (o : Lattice.Ord T) (eqv : T → T → Bool) (h : TotalOrd o eqv) (m : T) :
    LatticeLaws (minLattice o m) eqv (fun x => o.lessEqual x m = true) where
  refl x y _ _ he := (h.le_iff _ _).2 (.inr (h.symm _ _ he))
  antisymm x y _ _ h1 h2 := h.antisymm h2 h1
  trans x y z _ _ _ h1 h2 := h.le_trans h2 h1
  strict x y _ _ := by
    show o.less y x = true ↔ o.lessEqual y x = true ∧ eqv x y = false
    rw [h.lt_iff]
    constructor
    · rintro ⟨h1, h2⟩
      refine ⟨h1, ?_⟩
      cases he : eqv x y with
      | false => rfl
      | true => rw [h.symm _ _ he] at h2; cases h2
    · rintro ⟨h1, h2⟩
      refine ⟨h1, ?_⟩
      cases he : eqv y x with
      | false => rfl
      | true => rw [h.symm _ _ he] at h2; cases h2
  join_valid x y hx hy := h.le_trans (h.min_left x y) hx
  join_left x y _ _ := h.min_left x y
  join_right x y _ _ := h.min_right x y
  join_least x y z _ _ _ h1 h2 := by
    show o.lessEqual z (o.min x y) = true
    rcases TotalOrd.min_cases o x y with e | e <;> rw [e] <;> assumption
  meet_valid x y hx hy := by
    show o.lessEqual (o.max x y) m = true
    rcases TotalOrd.max_cases o x y with e | e <;> rw [e] <;> assumption
  meet_left x y _ _ := h.max_left x y
  meet_right x y _ _ := h.max_right x y
  meet_greatest x y z _ _ _ h1 h2 := by
    show o.lessEqual (o.max x y) z = true
    rcases TotalOrd.max_cases o x y with e | e <;> rw [e] <;> assumption
  bottom_valid := h.le_refl' m
  bottom_least x hx := hx
  initial_bottom := rfl
  combine_join _ _ := rfl

/-- The order of the integers (`basic.aps:112-130`, C++ `basic.handcode.h:26-27`). -/
def intOrd : Lattice.Ord Int where
  less x y := decide (x < y)
  lessEqual x y := decide (x ≤ y)

theorem intOrd_total : TotalOrd intOrd (fun x y => x == y) := by
  constructor <;> simp [intOrd] <;> intros <;> omega

example : LatticeLaws (maxLattice intOrd 0) (fun x y => x == y) (fun x => intOrd.lessEqual 0 x = true)
    := C43_max intOrd _ intOrd_total 0
example : (maxLattice intOrd 0).join 3 7 = 7 ∧ (minLattice intOrd 100).join 3 7 = 3 ∧
    (minLattice intOrd 100).compareEqual 7 3 = true := by decide

/-- The order of the IEEE numbers, seen as integers with an added not-a-number
(`basic.aps:157-186`; every comparison with a NaN is false). -/
def nanOrd : Lattice.Ord (Option Int) where
  less x y := match x, y with
    | some a, some b => decide (a < b)
    | _, _ => false
  lessEqual x y := match x, y with
    | some a, some b => decide (a ≤ b)
    | _, _ => false

/-- `MAX_LATTICE` over floating-point numbers is not a lattice: the join of a NaN and a number is the
number in one order and the NaN in the other, and the NaN is below neither. -/
theorem C43_max_nan_refuted (m n : Int) :
    (maxLattice nanOrd (some m)).join none (some n) = some n ∧
    (maxLattice nanOrd (some m)).join (some n) none = none ∧
    (maxLattice nanOrd (some m)).compareEqual none (some n) = false ∧
    (maxLattice nanOrd (some m)).compareEqual (some n) none = false := by
  simp [maxLattice, makeLattice, Lattice.Ord.max, Lattice.Ord.greater, nanOrd]

/-- A minimum that is not one breaks the lattice: the join of `bottom` with a smaller value is
`bottom`, so `bottom` is not neutral. -/
theorem C43_max_bottom_refuted (m x : Int) (h : x < m) :
    (maxLattice intOrd m).join (maxLattice intOrd m).bottom x ≠ x := by
  simp [maxLattice, makeLattice, Lattice.Ord.max, Lattice.Ord.greater, intOrd, h]
  omega

/-! ## Sets -/

/-- UNION_LATTICE: sets ordered by inclusion. -/
theorem C43_union {α : Type _} (eq : α → α → Bool) (he : Equality eq) :
    LatticeLaws (unionLattice eq) (Coll.setEqual eq) (fun _ => True) := by
  have le : ∀ s1 s2, Coll.setLe eq s1 s2 = true ↔ ∀ x, In eq x s1 → In eq x s2 :=
    C38_less_equal eq he
  constructor
  all_goals intros
  all_goals first | rfl | skip
  all_goals try trivial
  all_goals simp only [unionLattice, makeLattice, le, C38_union eq he, C38_intersect eq he,
    Coll.setEqual, Coll.setLess, Bool.and_eq_true, in_none, ← Bool.not_eq_true, Bool.not_eq_true'] at *
  all_goals try (first | tauto | (intro x hx; tauto) | skip)
  all_goals grind

/-- INTERSECTION_LATTICE: subsets of the universe ordered by reverse inclusion. -/
theorem C43_intersection {α : Type _} (eq : α → α → Bool) (he : Equality eq) (u : Coll.Coll α) :
    LatticeLaws (intersectionLattice eq u) (Coll.setEqual eq)
      (fun s => ∀ x, In eq x s → In eq x u) := by
  have le : ∀ s1 s2, Coll.setLe eq s1 s2 = true ↔ ∀ x, In eq x s1 → In eq x s2 :=
    C38_less_equal eq he
  constructor
  all_goals intros
  all_goals first | rfl | skip
  all_goals simp only [intersectionLattice, makeLattice, le, C38_union eq he, C38_intersect eq he,
    Coll.setEqual, Coll.setLess, Bool.and_eq_true, in_none, ← Bool.not_eq_true, Bool.not_eq_true'] at *
  all_goals grind

/-! ## Flat lattices -/

/-- The flat order on the constructors: bottom is below everything, top above everything, and a
normal element only below equal ones. -/
def FlatLe {E : Type _} (eqE : E → E → Bool) : Flat E → Flat E → Prop
  | .fbottom, _ => True
  | _, .ftop => True
  | .normal x, .normal y => eqE x y = true
  | _, _ => False

/-- A representation is faithful when its constants have the right constructors and its equality
tells values apart exactly by constructor and (up to `eqE`) element. -/
structure Faithful {N E : Type _} (r : Rep N E) (eqE : E → E → Bool) (valid : N → Prop) : Prop where
  bottom : r.shape r.bottom = .fbottom
  top : r.shape r.top = .ftop
  normal : ∀ e, r.shape (r.normal e) = .normal e
  bottom_valid : valid r.bottom
  top_valid : valid r.top
  eq_iff : ∀ a b, valid a → valid b →
    (r.eq a b = true ↔ FlatLe eqE (r.shape a) (r.shape b) ∧ FlatLe eqE (r.shape b) (r.shape a))

section flat
variable {N E : Type _} {r : Rep N E} {eqE : E → E → Bool} {valid : N → Prop}

theorem FlatLe.refl (he : Equality eqE) (a : Flat E) : FlatLe eqE a a := by
  cases a <;> simp [FlatLe, he.refl]

theorem FlatLe.le_top (a : Flat E) : FlatLe eqE a .ftop := by cases a <;> simp [FlatLe]

theorem FlatLe.trans (he : Equality eqE) {a b c : Flat E} (h1 : FlatLe eqE a b)
    (h2 : FlatLe eqE b c) : FlatLe eqE a c := by
  cases a <;> cases b <;> cases c <;> simp_all [FlatLe]
  exact he.trans _ _ _ h1 h2

theorem flat_le (he : Equality eqE) (h : Faithful r eqE valid) (a b : N) (ha : valid a)
    (hb : valid b) : r.compareEqual a b = true ↔ FlatLe eqE (r.shape a) (r.shape b) := by
  have e1 := h.eq_iff a b ha hb
  have e2 := h.eq_iff b r.top hb h.top_valid
  rw [h.top] at e2
  unfold Rep.compareEqual
  cases hs : r.shape a <;> cases ht : r.shape b <;> rw [hs, ht] at e1 <;> rw [ht] at e2 <;>
    simp [FlatLe] at e1 e2 ⊢ <;> simp [e1, e2]
  · exact he.symm _ _

theorem flat_join_shape (he : Equality eqE) (h : Faithful r eqE valid) (a b : N) (ha : valid a)
    (hb : valid b) : r.join a b = a ∧ (r.shape b = .fbottom ∨ FlatLe eqE (r.shape b) (r.shape a)) ∨
      r.join a b = b ∧ r.shape a = .fbottom ∨
      r.shape (r.join a b) = .ftop ∧ valid (r.join a b) ∧ ∀ z, FlatLe eqE (r.shape a) z →
        FlatLe eqE (r.shape b) z → z = .ftop := by
  have e1 := h.eq_iff b a hb ha
  have e2 := h.eq_iff b r.bottom hb h.bottom_valid
  have ht := h.top
  have htv := h.top_valid
  rw [h.bottom] at e2
  unfold Rep.join
  cases hs : r.shape a
  · right; left; simp
  · right; right; refine ⟨ht, htv, fun z => ?_⟩; cases z <;> simp [FlatLe]
  · next x =>
    simp only [hs] at e1 e2 ⊢
    split
    · next hc =>
      left
      refine ⟨rfl, ?_⟩
      simp only [Bool.or_eq_true] at hc
      rcases hc with hc | hc
      · left
        have := e2.1 hc
        revert this
        cases r.shape b <;> simp [FlatLe]
      · right; exact (e1.1 hc).1
    · next hc =>
      right; right
      refine ⟨ht, htv, ?_⟩
      simp only [Bool.or_eq_true, not_or] at hc
      rw [e2, e1] at hc
      intro z h1 h2
      have t1 := he.trans
      have t2 := he.symm
      cases hb' : r.shape b <;> cases z <;> rw [hb'] at hc h2 <;> simp only [FlatLe] at hc h1 h2 ⊢ <;>
        grind

theorem flat_meet_shape (he : Equality eqE) (h : Faithful r eqE valid) (a b : N) (ha : valid a)
    (hb : valid b) : r.meet a b = a ∧ (r.shape b = .ftop ∨ FlatLe eqE (r.shape a) (r.shape b)) ∨
      r.meet a b = b ∧ r.shape a = .ftop ∨
      r.shape (r.meet a b) = .fbottom ∧ valid (r.meet a b) ∧ ∀ z, FlatLe eqE z (r.shape a) →
        FlatLe eqE z (r.shape b) → z = .fbottom := by
  have e1 := h.eq_iff b a hb ha
  have e2 := h.eq_iff b r.top hb h.top_valid
  have ht := h.bottom
  have htv := h.bottom_valid
  rw [h.top] at e2
  unfold Rep.meet
  cases hs : r.shape a
  · right; right; refine ⟨ht, htv, fun z => ?_⟩; cases z <;> simp [FlatLe]
  · right; left; simp
  · next x =>
    simp only [hs] at e1 e2 ⊢
    split
    · next hc =>
      left
      refine ⟨rfl, ?_⟩
      simp only [Bool.or_eq_true] at hc
      rcases hc with hc | hc
      · left
        have := e2.1 hc
        revert this
        cases r.shape b <;> simp [FlatLe]
      · right; exact (e1.1 hc).2
    · next hc =>
      right; right
      refine ⟨ht, htv, ?_⟩
      simp only [Bool.or_eq_true, not_or] at hc
      rw [e2, e1] at hc
      intro z h1 h2
      have t1 := he.trans
      have t2 := he.symm
      cases hb' : r.shape b <;> cases z <;> rw [hb'] at hc h2 <;> simp only [FlatLe] at hc h1 h2 ⊢ <;>
        grind

/-- **C42.** A flat lattice with a faithful representation is a lattice. -/
theorem C42_lattice (he : Equality eqE) (h : Faithful r eqE valid) :
    LatticeLaws (flatLattice r) r.eq valid := by
  have le := flat_le (r := r) (valid := valid) he h
  have vj : ∀ x y, valid x → valid y → valid (r.join x y) := by
    intro x y hx hy
    rcases flat_join_shape he h x y hx hy with ⟨e, _⟩ | ⟨e, _⟩ | ⟨_, v, _⟩
    · rw [e]; exact hx
    · rw [e]; exact hy
    · exact v
  have vm : ∀ x y, valid x → valid y → valid (r.meet x y) := by
    intro x y hx hy
    rcases flat_meet_shape he h x y hx hy with ⟨e, _⟩ | ⟨e, _⟩ | ⟨_, v, _⟩
    · rw [e]; exact hx
    · rw [e]; exact hy
    · exact v
  refine ⟨?_, ?_, ?_, ?_, vj, ?_, ?_, ?_, vm, ?_, ?_, ?_, h.bottom_valid, ?_, rfl, fun _ _ => rfl⟩
  · intro x y hx hy e
    exact (le x y hx hy).2 ((h.eq_iff x y hx hy).1 e).1
  · intro x y hx hy h1 h2
    exact (h.eq_iff x y hx hy).2 ⟨(le x y hx hy).1 h1, (le y x hy hx).1 h2⟩
  · intro x y z hx hy hz h1 h2
    exact (le x z hx hz).2 (((le x y hx hy).1 h1).trans he ((le y z hy hz).1 h2))
  · intro x y hx hy
    show r.compare x y = true ↔ r.compareEqual x y = true ∧ r.eq x y = false
    have e0 := h.eq_iff x y hx hy
    have e1 := h.eq_iff y x hy hx
    have e2 := h.eq_iff y r.top hy h.top_valid
    rw [h.top] at e2
    rw [le x y hx hy, ← Bool.not_eq_true, e0]
    unfold Rep.compare
    cases hs : r.shape x <;> cases ht : r.shape y <;> rw [hs, ht] at e0 e1 <;> rw [ht] at e2 <;>
      simp [FlatLe, ← Bool.not_eq_true] at e0 e1 e2 ⊢ <;> simp [e0, e1, e2]
    · exact fun hh => ⟨hh, he.symm _ _ hh⟩
  · intro x y hx hy
    refine (le _ _ hx (vj x y hx hy)).2 ?_
    rcases flat_join_shape he h x y hx hy with ⟨e, _⟩ | ⟨e, h1⟩ | ⟨e, _, _⟩
    · rw [e]; exact FlatLe.refl he _
    · rw [h1]; simp [FlatLe]
    · rw [e]; cases r.shape x <;> simp [FlatLe]
  · intro x y hx hy
    refine (le _ _ hy (vj x y hx hy)).2 ?_
    rcases flat_join_shape he h x y hx hy with ⟨e, h1 | h1⟩ | ⟨e, h1⟩ | ⟨e, _, _⟩
    · rw [h1]; simp [FlatLe]
    · rw [e]; exact h1
    · rw [e]; exact FlatLe.refl he _
    · rw [e]; cases r.shape y <;> simp [FlatLe]
  · intro x y z hx hy hz h1 h2
    refine (le _ _ (vj x y hx hy) hz).2 ?_
    have h1' := (le x z hx hz).1 h1
    have h2' := (le y z hy hz).1 h2
    rcases flat_join_shape he h x y hx hy with ⟨e, _⟩ | ⟨e, _⟩ | ⟨e, _, h3⟩
    · rw [e]; exact h1'
    · rw [e]; exact h2'
    · rw [h3 _ h1' h2']; exact FlatLe.le_top _
  · intro x y hx hy
    refine (le _ _ (vm x y hx hy) hx).2 ?_
    rcases flat_meet_shape he h x y hx hy with ⟨e, _⟩ | ⟨e, h1⟩ | ⟨e, _, _⟩
    · rw [e]; exact FlatLe.refl he _
    · rw [h1]; cases r.shape (r.meet x y) <;> simp [FlatLe]
    · rw [e]; simp [FlatLe]
  · intro x y hx hy
    refine (le _ _ (vm x y hx hy) hy).2 ?_
    rcases flat_meet_shape he h x y hx hy with ⟨e, h1 | h1⟩ | ⟨e, h1⟩ | ⟨e, _, _⟩
    · rw [h1]; cases r.shape (r.meet x y) <;> simp [FlatLe]
    · rw [e]; exact h1
    · rw [e]; exact FlatLe.refl he _
    · rw [e]; simp [FlatLe]
  · intro x y z hx hy hz h1 h2
    refine (le _ _ hz (vm x y hx hy)).2 ?_
    have h1' := (le z x hz hx).1 h1
    have h2' := (le z y hz hy).1 h2
    rcases flat_meet_shape he h x y hx hy with ⟨e, _⟩ | ⟨e, _⟩ | ⟨e, _, h3⟩
    · rw [e]; exact h1'
    · rw [e]; exact h2'
    · rw [h3 _ h1' h2']; simp [FlatLe]
  · intro x hx
    refine (le _ _ h.bottom_valid hx).2 ?_
    rw [h.bottom]; simp [FlatLe]

/-- The order of a faithful flat lattice is the flat order. -/
theorem C42_order (he : Equality eqE) (h : Faithful r eqE valid) (a b : N) (ha : valid a)
    (hb : valid b) : r.compareEqual a b = true ↔ FlatLe eqE (r.shape a) (r.shape b) :=
  flat_le he h a b ha hb

/-- `applyf1` applies the function to a normal element and keeps bottom and top. -/
theorem C42_applyf1 (h : Faithful r eqE valid) (f : E → E) (x : N) :
    r.shape (r.applyf1 f x) =
      match r.shape x with
      | .fbottom => .fbottom
      | .ftop => .ftop
      | .normal v => .normal (f v) := by
  unfold Rep.applyf1
  cases hs : r.shape x <;> simp [hs, h.normal]

/-- `applyf1` is monotone when the function respects equality. -/
theorem C42_applyf1_monotone (he : Equality eqE) (h : Faithful r eqE valid) (f : E → E)
    (hf : ∀ x y, eqE x y = true → eqE (f x) (f y) = true) (x y : N)
    (hxy : FlatLe eqE (r.shape x) (r.shape y)) :
    FlatLe eqE (r.shape (r.applyf1 f x)) (r.shape (r.applyf1 f y)) := by
  rw [C42_applyf1 h, C42_applyf1 h]
  cases hs : r.shape x <;> cases ht : r.shape y <;> rw [hs, ht] at hxy <;> simp_all [FlatLe]

/-- `applyf2` gives bottom when an argument is bottom, else top when one is top, else the lifted
result. -/
theorem C42_applyf2 (he : Equality eqE) (h : Faithful r eqE valid) (f : E → E → E) (x y : N)
    (hx : valid x) (hy : valid y) :
    r.shape (r.applyf2 f x y) =
      match r.shape x, r.shape y with
      | .fbottom, _ => .fbottom
      | _, .fbottom => .fbottom
      | .ftop, _ => .ftop
      | _, .ftop => .ftop
      | .normal v, .normal w => .normal (f v w) := by
  have e2 := h.eq_iff y r.bottom hy h.bottom_valid
  rw [h.bottom] at e2
  unfold Rep.applyf2
  cases hs : r.shape x <;> cases ht : r.shape y <;> rw [ht] at e2 <;>
    simp [FlatLe] at e2 <;> simp [hs, ht, e2, h.normal]

/-- `applyf2` is monotone in both arguments when the function respects equality. -/
theorem C42_applyf2_monotone (he : Equality eqE) (h : Faithful r eqE valid) (f : E → E → E)
    (hf : ∀ x y v w, eqE x y = true → eqE v w = true → eqE (f x v) (f y w) = true) (x y v w : N)
    (hx : valid x) (hy : valid y) (hv : valid v) (hw : valid w)
    (hxy : FlatLe eqE (r.shape x) (r.shape y)) (hvw : FlatLe eqE (r.shape v) (r.shape w)) :
    FlatLe eqE (r.shape (r.applyf2 f x v)) (r.shape (r.applyf2 f y w)) := by
  rw [C42_applyf2 he h f x v hx hv, C42_applyf2 he h f y w hy hw]
  clear hx hy hv hw
  generalize r.shape x = a at *
  generalize r.shape y = b at *
  generalize r.shape v = c at *
  generalize r.shape w = d at *
  cases a <;> cases b <;> cases c <;> cases d <;> simp_all [FlatLe]

/-- `lift` makes a normal element, and printing shows the constructor and the element. -/
theorem C42_lift (h : Faithful r eqE valid) (str : E → String) (e : E) :
    r.shape (r.lift e) = .normal e ∧ r.string str (r.lift e) = "LIFT(" ++ str e ++ ")" ∧
    r.string str r.bottom = "BOT" ∧ r.string str r.top = "TOP" := by
  simp [Rep.lift, Rep.string, h.normal, h.bottom, h.top]

end flat

/-- In Scala the flat lattice is a lattice over all values. -/
theorem C42_scala {E : Type _} (eqE : E → E → Bool) (he : Equality eqE) :
    LatticeLaws (flatLattice (scalaRep eqE)) (scalaRep eqE).eq (fun _ => True) := by
  refine C42_lattice he ⟨rfl, rfl, fun _ => rfl, trivial, trivial, ?_⟩
  intro a b _ _
  cases a <;> cases b <;> simp [scalaRep, FlatLe]
  exact fun h => he.symm _ _ h

/-- The nodes of a C++ program in which no two nodes have the same constructor and equal elements
(every value is made once and shared); the nodes of `bottom` and `top` are among them. -/
structure Interned {E : Type _} (eqE : E → E → Bool) (nodes : List (Nat × Flat E)) : Prop where
  bottom : (0, Flat.fbottom) ∈ nodes
  top : (1, Flat.ftop) ∈ nodes
  address : ∀ a ∈ nodes, ∀ b ∈ nodes, a.1 = b.1 → a = b
  once : ∀ a ∈ nodes, ∀ b ∈ nodes, FlatLe eqE a.2 b.2 → FlatLe eqE b.2 a.2 → a.1 = b.1

/-- In C++ the flat lattice is a lattice on nodes of which no two hold the same value. -/
theorem C42_cpp {E : Type _} (eqE : E → E → Bool) (he : Equality eqE)
    (nodes : List (Nat × Flat E)) (h : Interned eqE nodes) (addr : Nat) :
    LatticeLaws (flatLattice (cppRep E addr)) (cppRep E addr).eq (fun n => n ∈ nodes) := by
  refine C42_lattice he ⟨rfl, rfl, fun _ => rfl, h.bottom, h.top, ?_⟩
  intro a b ha hb
  show (a.1 == b.1) = true ↔ _
  rw [beq_iff_eq]
  constructor
  · intro e
    rw [h.address a ha b hb e]
    exact ⟨FlatLe.refl he _, FlatLe.refl he _⟩
  · rintro ⟨h1, h2⟩
    exact h.once a ha b hb h1 h2

example : Interned (fun a b : Nat => a == b)
    [(0, .fbottom), (1, .ftop), (2, .normal 5), (3, .normal 7)] := by
  refine ⟨by decide, by decide, by decide, ?_⟩
  intro a ha b hb h1 h2
  simp only [List.mem_cons, List.not_mem_nil, or_false] at ha hb
  rcases ha with rfl | rfl | rfl | rfl <;> rcases hb with rfl | rfl | rfl | rfl <;>
    simp_all [FlatLe]

/-- In C++ equality is pointer equality, so two values lifted separately from the same element are
neither equal nor ordered, and their join is `top`: `lift(e) |\/| lift(e)` is not `lift(e)`. -/
theorem C42_cpp_refuted {E : Type _} (e : E) (p q : Nat) (hp : 1 < p) (hq : 1 < q) (hpq : p ≠ q) :
    (cppRep E p).compareEqual ((cppRep E p).lift e) ((cppRep E q).lift e) = false ∧
    (cppRep E p).join ((cppRep E p).lift e) ((cppRep E q).lift e) = (1, .ftop) ∧
    (cppRep E p).meet ((cppRep E p).lift e) ((cppRep E q).lift e) = (0, .fbottom) := by
  have h1 : (p == q) = false := by simpa using hpq
  have h2 : (q == p) = false := by simpa using Ne.symm hpq
  have h3 : (q == 1) = false := by simp; omega
  have h4 : (q == 0) = false := by simp; omega
  simp [Rep.compareEqual, Rep.join, Rep.meet, Rep.lift, cppRep, h1, h2, h3, h4]

/-- Scala: the join of equal lifted elements is that element, of different ones is `top`. -/
theorem C42_scala_join {E : Type _} (eqE : E → E → Bool) (x y : E) :
    (scalaRep eqE).join (.normal x) (.normal y) = if eqE y x then .normal x else .ftop := by
  simp [Rep.join, scalaRep]

example : (scalaRep (fun a b : Nat => a == b)).join (.normal 3) (.normal 3) = .normal 3 ∧
    (scalaRep (fun a b : Nat => a == b)).join (.normal 3) (.normal 4) = .ftop ∧
    (scalaRep (fun a b : Nat => a == b)).compare (.normal 3) .ftop = true := by decide

end Aps.Props
