import Verif.Spec.Traits
import Verif.Proofs.Service
/-! # Proofs about the traits of instances -/
namespace Aps.Traits
open Aps.Bind (Kind)
open Aps.Service

theorem traitMembers_defines {k : Kind} {m : Pre} (h : m ∈ traitMembers k) : m ∈ Defines k ∧ Transferred k := by
  cases k <;> simp [traitMembers] at h <;> (first | subst h | rcases h with rfl | rfl) <;> simp [Defines, Transferred]

theorem defines_traitMembers {k : Kind} {m : Pre} (h : m ∈ Defines k) (hk : Transferred k) : m ∈ traitMembers k := by
  cases k <;> simp [Transferred] at hk <;> simpa [Defines, traitMembers] using h

/-- The declarations that are looked at. -/
def looked (base : String) (csigs : List Csig) : List (String × Decl) :=
  (csigs.filter fun c => c.isPublic).flatMap fun c => c.contents.map fun d => ("t_" ++ base, d)

theorem mem_looked {base : String} {csigs : List Csig} {x : String × Decl} :
    x ∈ looked base csigs ↔ x.1 = "t_" ++ base ∧ Declared csigs x.2 := by
  obtain ⟨a, d⟩ := x
  simp only [looked, List.mem_flatMap, List.mem_filter, List.mem_map, Prod.mk.injEq, Declared]
  constructor
  · rintro ⟨c, ⟨h1, h2⟩, e, h3, h4, rfl⟩; exact ⟨h4.symm, c, h1, h2, h3⟩
  · rintro ⟨h1, c, h2, h3, h4⟩; exact ⟨c, ⟨h2, h3⟩, d, h4, h1.symm, rfl⟩

theorem foldl_round (P : Prog) (base : String) (csigs : List Csig) : ∀ s,
    core (csigs.foldl (round P base) s).st = (looked base csigs).foldl (stepC P) (core s.st) ∧
    (csigs.foldl (round P base) s).withs = s.withs ++ ((csigs.filter fun c => c.isPublic).map fun c =>
      ⟨"C_" ++ c.cls, ("T_" ++ base) :: c.actuals.map fun a => "T_" ++ a⟩) := by
  induction csigs with
  | nil => intro s; simp [looked]
  | cons c cs ih =>
    intro s
    rw [List.foldl_cons]
    obtain ⟨h1, h2⟩ := ih (round P base s c)
    rw [h1, h2]
    unfold round
    cases hc : c.isPublic with
    | false => simp [looked, hc]
    | true => simp [looked, hc, core_foldl, List.foldl_append]

theorem traits_eq {P : Prog} {g : Bool} {own : List Decl} {base : String} {csigs : List Csig} {ws ls}
    (h : traits P g own base csigs = some (ws, ls)) : g = false ∧
      (ws = (csigs.filter fun c => c.isPublic).map fun c =>
        (⟨"C_" ++ c.cls, ("T_" ++ base) :: c.actuals.map fun a => "T_" ++ a⟩ : With)) ∧
      ∃ s, (looked base csigs).foldl (stepC P) (own.foldl addRec (fun _ => 0), []) = s ∧ s.2 = ls := by
  unfold traits at h
  cases g with
  | true => simp at h
  | false =>
    simp only [Bool.false_eq_true, if_false, Option.some.injEq, Prod.mk.injEq] at h
    obtain ⟨rfl, rfl⟩ := h
    obtain ⟨h1, h2⟩ := foldl_round P base csigs ⟨⟨own.foldl addRec fun _ => 0, [], 0⟩, []⟩
    exact ⟨rfl, by simpa using h2, _, rfl, by rw [show (own.foldl addRec (fun _ => 0), ([] : List Line)) =
      core ⟨own.foldl addRec fun _ => 0, [], 0⟩ from rfl, ← h1]; rfl⟩

end Aps.Traits
