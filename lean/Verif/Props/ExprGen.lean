import Verif.Proofs.ExprGen
/-!
# C94: code for expressions
-/
namespace Aps.Props
open Aps.ExprGen

variable {V : Type}

/-- **C94**: the code generated for an expression has the value of the expression, in both languages: for every expression for which
code is generated, if its literals are written as usual and no function other than `{}` takes a sequence of actuals.
(Appending is taken to be associative, with a unit: see C37, C38, C51; values are values up to equality there.) -/
theorem C94_value (A : Alg V) (M : Monoidal A) (same : Nat → Nat → Bool) (lang : Lang) (ρ : Nat → V) (e : Exp) (x : TExp)
    (h : dump same e = some x) (hs : Simple Usual e) (v : V) :
    eval A lang ρ x = some v ↔ Means A ρ e v := by
  obtain ⟨w, hw, ew⟩ := dump_means M same lang ρ e x h hs
  rw [ew]
  exact ⟨fun h => by cases h; exact hw, fun h => by rw [means_fun hw h]⟩

/-- **C94**: an expression has at most one value (so C94_value says which), and one that can be printed has one. -/
theorem C94_defined (A : Alg V) (M : Monoidal A) (same : Nat → Nat → Bool) (lang : Lang) (ρ : Nat → V) (e : Exp)
    (hc : Covered same e) (hs : Simple Usual e) :
    ∃ x v, dump same e = some x ∧ eval A lang ρ x = some v ∧ Means A ρ e v ∧ ∀ w, Means A ρ e w → w = v := by
  obtain ⟨x, hx⟩ := Option.isSome_iff_exists.1 ((dump_covered same e).2 hc)
  obtain ⟨w, hw, ew⟩ := dump_means M same lang ρ e x hx hs
  exact ⟨x, w, hx, ew, hw, fun u hu => means_fun hu hw⟩

/-- **C94**: an error is reported for exactly the other expressions: those with characters, or with `e...` anywhere but in
a collection of the same type. -/
theorem C94_error (same : Nat → Nat → Bool) (e : Exp) : dump same e = none ↔ ¬ Covered same e := by
  rw [← dump_covered same e]
  cases dump same e <;> simp

/-- **C94** (collections as they are, trees): whatever the parts are, the elements of the collection that is built are those of
its parts, in the order of the text, none lost and none twice. -/
theorem C94_elements (A : Alg V) (elems : V → List V) (t : Nat) (h0 : elems (A.none t) = []) (h1 : ∀ v, elems (A.single t v) = [v])
    (h2 : ∀ a b, elems (A.append t a b) = elems a ++ elems b) (same : Nat → Nat → Bool) (lang : Lang) (ρ : Nat → V)
    (as : Acts) (x : TExp) (v : V) (h : dump same (.coll t as) = some x) (hv : eval A lang ρ x = some v) :
    Elements elems (fun e w => ∃ y, dump same e = some y ∧ eval A lang ρ y = some w) as (elems v) :=
  dumpColl_elems h0 h1 h2 same lang ρ (fun _ y _ h1 h2 => ⟨y, h1, h2⟩) as x v (by simpa [dump] using h) hv

/-! ### Cases -/

/-- Numbers, and collections as the library has them: trees (`base/cpp/basic.handcode.h`, C37). -/
inductive EgVal where
  | num (n : Int)
  | none
  | single (v : EgVal)
  | append (a b : EgVal)

/-- The elements of a collection. -/
def EgVal.elems : EgVal → List EgVal
  | .num _ => []
  | .none => []
  | .single v => [v]
  | .append a b => a.elems ++ b.elems

/-- `apply f vs` adds numbers. -/
def egAlg : Alg (List Int) where
  num n := [n]
  real _ := []
  str _ := []
  apply _ vs := [vs.flatten.sum]
  none _ := []
  single _ v := v
  append _ a b := a ++ b

/-- `f({1,x...,30})`. -/
def egExp : Exp := .call (.use 0) 0 (.one (.coll 4 (.app (.app (.one (.int ['1'])) (.one (.rep (.use 1) 4))) (.one (.int ['3', '0'])))))

example : Monoidal egAlg ∧ Covered (fun a b => a == b) egExp ∧ Simple Usual egExp := by
  refine ⟨⟨fun _ _ _ _ => List.append_assoc _ _ _, fun _ _ => rfl, fun _ _ => List.append_nil _⟩,
    by simp [egExp, Covered, CoveredAll, CoveredColl], ?_⟩
  simp only [egExp, Simple, SimpleAll, true_and, and_true]
  exact ⟨⟨.inr (by decide), 1, by decide, by decide⟩, ⟨.inr (by decide), 30, by decide, by decide⟩⟩

example : ∃ x, dump (fun a b => a == b) egExp = some x ∧ ∀ lang, eval egAlg lang (fun _ => [10, 20]) x = some [61] :=
  ⟨_, by with_unfolding_all rfl, fun lang => by cases lang <;> decide⟩

/-- Trees. -/
def egTrees : Alg EgVal := ⟨.num, fun _ => .none, fun _ => .none, fun _ _ => .none, fun _ => .none, fun _ v => .single v, fun _ a b => .append a b⟩

/-- `{1,x...,{2}}` for the collection `x` with the elements 8, 9: the elements are 1, 8, 9, `{2}`. -/
example : ∃ x v, dump (fun a b => a == b) (.coll 4 (.app (.app (.one (.int ['1'])) (.one (.rep (.use 1) 4))) (.one (.coll 4 (.one (.int ['2'])))))) = some x ∧
    eval egTrees .scala (fun _ => .append (.single (.num 8)) (.single (.num 9))) x = some v ∧
    v.elems = [.num 1, .num 8, .num 9, .single (.num 2)] := by
  refine ⟨.append 4 (.append 4 (.single 4 (.lit ['1'])) (.var 1)) (.single 4 (.single 4 (.lit ['2']))),
    .append (.append (.single (.num 1)) (.append (.single (.num 8)) (.single (.num 9)))) (.single (.single (.num 2))), by with_unfolding_all rfl,
    by with_unfolding_all rfl, by with_unfolding_all rfl⟩

/-! ### What does not hold -/

/-- A literal with a `0` in front: the C++ compiler takes `010` for 8. -/
theorem C94_octal_refuted : ∃ e : Exp, Covered (fun _ _ => true) e ∧ Means egAlg (fun _ => []) e [10] ∧
    ∃ x, dump (fun _ _ => true) e = some x ∧ eval egAlg .cpp (fun _ => []) x = some [8] ∧
      eval egAlg .scala (fun _ => []) x = none :=
  ⟨.int ['0', '1', '0'], trivial, .int (by decide), .lit ['0', '1', '0'], rfl, by decide, by decide⟩

/-- A literal that is too large: C++ makes a negative number of it. -/
theorem C94_large_refuted : ∃ e : Exp, Covered (fun _ _ => true) e ∧ Means egAlg (fun _ => []) e [3000000000] ∧
    ∃ x, dump (fun _ _ => true) e = some x ∧ eval egAlg .cpp (fun _ => []) x = some [-1294967296] :=
  ⟨.int "3000000000".toList, trivial, .int (by decide +kernel), .lit "3000000000".toList, rfl, by decide +kernel⟩

/-- A function that takes a sequence of actuals gets one more than is written, the number 0 (which ends the list in C++, but
not in Scala). -/
theorem C94_stopper_refuted : ∃ e : Exp, Covered (fun _ _ => true) e ∧ ∃ x, dump (fun _ _ => true) e = some x ∧
    ∃ (A : Alg Nat) (v w : Nat), Means A (fun _ => 0) e v ∧ eval A .scala (fun _ => 0) x = some w ∧ v ≠ w :=
  ⟨.call (.use 0) 1 (.one (.int ['7'])), ⟨trivial, trivial⟩, .call (.var 0) [.lit ['7'], .lit ['0']], by with_unfolding_all rfl,
    ⟨fun n => n.toNat, fun _ => 0, fun _ => 0, fun _ vs => vs.length, fun _ => 0, fun _ v => v, fun _ a b => a + b⟩, 1, 2,
    .call .use (.one (.int (n := 7) (by decide))), by decide, by decide⟩

end Aps.Props
