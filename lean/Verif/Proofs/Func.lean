import Verif.Spec.Func
import Verif.Proofs.Locals
/-! # Proofs about functions -/
namespace Aps.Func
open Aps.DynGen
variable {V : Type}

mutual
/-- Matching does not depend on the combiner. -/
theorem pmatch_combine (W : World V) (c : V → V → V) : ∀ (p : Pat V) (n : V) (ρ : Env V),
    pmatch { W with combine := c } p n ρ = pmatch W p n ρ
  | .typed t p, n, ρ => by simp only [pmatch, pmatch_combine W c p]
  | .call k ps, n, ρ => by simp only [pmatch, pmatchAll_combine W c ps]
  | .seq ps, n, ρ => by simp only [pmatch, pmatchSeq_combine W c ps]
  | .and p q, n, ρ => by simp only [pmatch, pmatch_combine W c p, pmatch_combine W c q]
  | .var x, n, ρ => rfl
  | .wild, n, ρ => rfl
  | .cond e, n, ρ => rfl
  | .rest, n, ρ => rfl
/-- The same for several patterns. -/
theorem pmatchAll_combine (W : World V) (c : V → V → V) : ∀ (ps : List (Pat V)) (vs : List V) (ρ : Env V),
    pmatchAll { W with combine := c } ps vs ρ = pmatchAll W ps vs ρ
  | [], [], ρ => rfl
  | [], _ :: _, ρ => rfl
  | _ :: _, [], ρ => rfl
  | p :: ps, v :: vs, ρ => by simp only [pmatchAll, pmatch_combine W c p, pmatchAll_combine W c ps]
/-- The same for a sequence pattern. -/
theorem pmatchSeq_combine (W : World V) (c : V → V → V) : ∀ (ps : List (Pat V)) (vs : List V) (ρ : Env V),
    pmatchSeq { W with combine := c } ps vs ρ = pmatchSeq W ps vs ρ
  | [], vs, ρ => by simp only [pmatchSeq]
  | p :: ps, vs, ρ => by
    cases p with
    | rest =>
      cases ps with
      | nil => simp only [pmatchSeq]
      | cons q qs =>
        cases qs with
        | nil => simp only [pmatchSeq, pmatch_combine W c q]
        | cons q' qs => simp only [pmatchSeq]
    | typed t p => cases vs with
      | nil => simp only [pmatchSeq]
      | cons v vs => simp only [pmatchSeq, pmatch_combine W c (.typed t p), pmatchSeq_combine W c ps]
    | call k qs => cases vs with
      | nil => simp only [pmatchSeq]
      | cons v vs => simp only [pmatchSeq, pmatch_combine W c (.call k qs), pmatchSeq_combine W c ps]
    | seq qs => cases vs with
      | nil => simp only [pmatchSeq]
      | cons v vs => simp only [pmatchSeq, pmatch_combine W c (.seq qs), pmatchSeq_combine W c ps]
    | and p q => cases vs with
      | nil => simp only [pmatchSeq]
      | cons v vs => simp only [pmatchSeq, pmatch_combine W c (.and p q), pmatchSeq_combine W c ps]
    | var x => cases vs with
      | nil => simp only [pmatchSeq]
      | cons v vs => simp only [pmatchSeq, pmatch_combine W c (.var x), pmatchSeq_combine W c ps]
    | wild => cases vs with
      | nil => simp only [pmatchSeq]
      | cons v vs => simp only [pmatchSeq, pmatch_combine W c .wild, pmatchSeq_combine W c ps]
    | cond e => cases vs with
      | nil => simp only [pmatchSeq]
      | cons v vs => simp only [pmatchSeq, pmatch_combine W c (.cond e), pmatchSeq_combine W c ps]
end

theorem bindArgs_eq : ∀ (xs : List Nat) (vs : List V) (ρ : Env V), xs.Nodup → bindArgs xs vs ρ = argsEnv xs vs ρ
  | [], vs, ρ, _ => by funext y; simp [bindArgs, argsEnv]
  | x :: xs, [], ρ, _ => by funext y; simp [bindArgs, argsEnv]
  | x :: xs, v :: vs, ρ, h => by
    obtain ⟨h1, h2⟩ := List.nodup_cons.1 h
    rw [bindArgs, bindArgs_eq xs vs _ h2]
    funext y
    by_cases e : y = x
    · subst e
      have : (xs.zip vs).find? (fun b => b.1 == y) = none := by
        rw [List.find?_eq_none]
        intro b hb hy
        have hy : b.1 = y := by simpa using hy
        exact h1 (hy ▸ (List.of_mem_zip hb).1)
      simp [argsEnv, this]
    · have e' : ¬ x = y := fun h => e h.symm
      simp [argsEnv, List.find?_cons, e, e']

theorem start_eq (r : Result V) (ρ : Env V) : r.start ρ = r.dflt ρ := by
  unfold Result.start Result.dflt
  cases r.col <;> cases r.deft <;> rfl

end Aps.Func
