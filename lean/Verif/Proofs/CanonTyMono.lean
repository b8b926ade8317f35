import Verif.Model.SigInfer
import Mathlib.Tactic.Common
/-! More fuel does not change results. -/
namespace Aps.CanonTy
open Aps.CType
set_option linter.unusedVariables false

/-- `y` gives whatever `x` gives. -/
def Le {α : Type} (x y : Res α) : Prop := ∀ c, x = .ok c → y = .ok c

theorem Le.refl {α : Type} (x : Res α) : Le x x := fun _ h => h

theorem Le.nofuel {α : Type} (x : Res α) : Le .nofuel x := fun _ h => by cases h

theorem Le.bind {α β : Type} {x y : Res α} {f g : α → Res β} (h : Le x y) (k : ∀ a, Le (f a) (g a)) : Le (x >>= f) (y >>= g) := by
  intro c hc
  rw [Res.bind_eq_ok] at hc
  obtain ⟨a, h1, h2⟩ := hc
  rw [h a h1, Res.ok_bind]
  exact k a c h2

/-- one more unit of fuel -/
structure Mono (P : Prog) (n : Nat) : Prop where
  canon : ∀ t, Le (CanonTy.canon P n t) (CanonTy.canon P (n + 1) t)
  canonAll : ∀ t, Le (CanonTy.canonAll P n t) (CanonTy.canonAll P (n + 1) t)
  canonUse : ∀ d, Le (CanonTy.canonUse P n d) (CanonTy.canonUse P (n + 1) d)
  join : ∀ o i b, Le (CanonTy.join P n o i b) (CanonTy.join P (n + 1) o i b)
  joinAll : ∀ o i b, Le (CanonTy.joinAll P n o i b) (CanonTy.joinAll P (n + 1) o i b)
  useUse : ∀ t d b, Le (useUseJoin P n t d b) (useUseJoin P (n + 1) t d b)
  qualUse : ∀ s t d b, Le (qualUseJoin P n s t d b) (qualUseJoin P (n + 1) s t d b)
  qualQual : ∀ s t si d b, Le (qualQualJoin P n s t si d b) (qualQualJoin P (n + 1) s t si d b)
  base : ∀ c, Le (baseType P n c) (baseType P (n + 1) c)
  baseAll : ∀ c, Le (CanonTy.baseAll P n c) (CanonTy.baseAll P (n + 1) c)

theorem mono_succ {P : Prog} {n : Nat} (m : Mono P n) : Mono P (n + 1) where
  canon t := by
    cases t with
    | opq => simp only [CanonTy.canon]; exact Le.refl _
    | inst => simp only [CanonTy.canon]; exact Le.refl _
    | use d => simp only [CanonTy.canon]; exact m.canonUse d
    | qual t d =>
      simp only [CanonTy.canon]
      exact (m.canon t).bind fun o => (m.canonUse d).bind fun i => m.join o i false
    | func ps r =>
      simp only [CanonTy.canon]
      exact (m.canon r).bind fun o => (m.canonAll ps).bind fun i => Le.refl _
    | remote t => simp only [CanonTy.canon]; exact m.canon t
  canonAll l := by
    cases l with
    | nil => simp only [CanonTy.canonAll]; exact Le.refl _
    | cons t ts =>
      simp only [CanonTy.canonAll]
      exact (m.canon t).bind fun o => (m.canonAll ts).bind fun i => Le.refl _
  canonUse d := by
    simp only [CanonTy.canonUse]
    cases P.decl d with
    | type t =>
      cases t <;> simp only [] <;> first | exact Le.refl _ | exact m.canon _ | (split <;> first | exact Le.refl _ | exact m.canon _)
    | formal b => cases b <;> exact Le.refl _
    | «renaming» t => exact m.canon t
    | module_ => exact Le.refl _
    | other => exact Le.refl _
  join o i b := by
    cases o with
    | use t =>
      cases i with
      | use d => simp only [CanonTy.join]; exact m.useUse t d b
      | qual s d => simp only [CanonTy.join]; exact Le.refl _
      | func ps r => simp only [CanonTy.join]; exact (m.join _ r b).bind fun _ => (m.joinAll _ ps b).bind fun _ => Le.refl _
    | qual s t =>
      cases i with
      | use d => simp only [CanonTy.join]; exact m.qualUse s t d b
      | qual si d => simp only [CanonTy.join]; exact m.qualQual s t si d b
      | func ps r => simp only [CanonTy.join]; exact (m.join _ r b).bind fun _ => (m.joinAll _ ps b).bind fun _ => Le.refl _
    | func ps r => simp only [CanonTy.join]; exact Le.refl _
  joinAll o l b := by
    cases l with
    | nil => simp only [CanonTy.joinAll]; exact Le.refl _
    | cons t ts =>
      simp only [CanonTy.joinAll]
      exact (m.join o t b).bind fun _ => (m.joinAll o ts b).bind fun _ => Le.refl _
  useUse t d b := by
    simp only [useUseJoin]
    cases instance? P t with
    | none => exact Le.refl _
    | some x =>
      obtain ⟨mm, g, r, fs, as⟩ := x
      simp only []
      split; · exact Le.refl _
      split; · exact Le.refl _
      split; · exact Le.refl _
      cases P.decl d with
      | type t =>
        cases t <;> simp only [] <;> first | exact Le.refl _ | exact (m.canon _).bind fun _ => m.join _ _ b
      | formal _ => exact (Le.refl _).bind fun _ => m.canon _
      | «renaming» t => exact Le.refl _
      | module_ => exact Le.refl _
      | other => exact Le.refl _
  qualUse s t d b := by
    simp only [qualUseJoin]
    cases instance? P t with
    | none => exact Le.refl _
    | some x =>
      obtain ⟨mm, g, r, fs, as⟩ := x
      simp only []
      split; · exact Le.refl _
      split; · exact Le.refl _
      split; · exact Le.refl _
      cases P.decl d with
      | type t =>
        cases t <;> simp only [] <;> first | exact Le.refl _ | exact (m.canon _).bind fun _ => m.join _ _ b | skip
        cases instance? P d with
        | none => exact Le.refl _
        | some x =>
          obtain ⟨_, g', _, _, _⟩ := x
          cases g' <;> simp only []
          · exact (m.join _ _ b).bind fun _ => (m.join _ _ b).bind fun _ => m.join _ _ b
          · exact (m.join _ _ b).bind fun _ => m.join _ _ b
      | formal _ => exact (Le.refl _).bind fun _ => (m.canon _).bind fun _ => m.join _ _ b
      | «renaming» t => exact Le.refl _
      | module_ => exact Le.refl _
      | other => exact Le.refl _
  qualQual s t si d b := by
    simp only [qualQualJoin]
    cases instance? P t with
    | none => exact Le.refl _
    | some x =>
      obtain ⟨mm, g, r, fs, as⟩ := x
      simp only []
      split; · exact Le.refl _
      split; · exact Le.refl _
      split; · exact Le.refl _
      cases P.decl d with
      | type t =>
        cases t <;> simp only [] <;> first | exact Le.refl _ | exact (m.canon _).bind fun _ => m.join _ _ b | skip
        cases instance? P d with
        | none => exact Le.refl _
        | some x =>
          obtain ⟨_, g', _, _, _⟩ := x
          cases g' <;> simp only []
          · exact (m.join _ _ b).bind fun _ => (m.join _ _ b).bind fun _ => (m.join _ _ b).bind fun _ => m.join _ _ b
          · exact (m.join _ _ b).bind fun _ => m.join _ _ b
      | formal _ => exact (Le.refl _).bind fun _ => (m.canon _).bind fun _ => m.join _ _ b
      | «renaming» t => exact Le.refl _
      | module_ => exact Le.refl _
      | other => exact Le.refl _
  base c := by
    cases c with
    | use d =>
      simp only [baseType]
      cases P.decl d with
      | type t =>
        cases t <;> simp only [] <;> first | exact Le.refl _ | exact (m.canon _).bind fun _ => m.base _ | skip
        cases instance? P d with
        | none => exact Le.refl _
        | some x =>
          obtain ⟨_, g', _, _, _⟩ := x
          cases g' <;> simp only []
          · exact (m.base _).bind fun _ => m.join _ _ true
          · exact Le.refl _
      | formal _ => exact Le.refl _
      | «renaming» t => exact Le.refl _
      | module_ => exact Le.refl _
      | other => exact Le.refl _
    | qual s d =>
      simp only [baseType]
      cases P.decl d with
      | type t =>
        cases t <;> simp only [] <;> first | exact Le.refl _ | exact (m.canon _).bind fun _ => m.base _ | skip
        cases instance? P d with
        | none => exact Le.refl _
        | some x =>
          obtain ⟨_, g', _, _, _⟩ := x
          cases g' <;> simp only []
          · exact (m.base _).bind fun _ => (m.join _ _ true).bind fun _ => m.join _ _ true
          · exact Le.refl _
      | formal _ => exact Le.refl _
      | «renaming» t => exact Le.refl _
      | module_ => exact Le.refl _
      | other => exact Le.refl _
    | func ps r =>
      simp only [baseType]
      exact (m.base _).bind fun _ => (m.baseAll _).bind fun _ => Le.refl _
  baseAll l := by
    cases l with
    | nil => simp only [CanonTy.baseAll]; exact Le.refl _
    | cons t ts =>
      simp only [CanonTy.baseAll]
      exact (m.base _).bind fun _ => (m.baseAll _).bind fun _ => Le.refl _

theorem mono {P : Prog} : ∀ n, Mono P n
  | 0 => by constructor <;> intros <;> simp only [canon, canonAll, canonUse, join, joinAll, useUseJoin, qualUseJoin, qualQualJoin, baseType, baseAll] <;> exact Le.nofuel _
  | n + 1 => mono_succ (mono n)

theorem canon_mono {P : Prog} {n n' : Nat} (h : n ≤ n') (t : TExp) : Le (canon P n t) (canon P n' t) := by
  induction h with
  | refl => exact Le.refl _
  | step _ ih => exact fun c hc => (mono _).canon t c (ih c hc)

theorem base_mono {P : Prog} {n n' : Nat} (h : n ≤ n') (t : Ty) : Le (baseType P n t) (baseType P n' t) := by
  induction h with
  | refl => exact Le.refl _
  | step _ ih => exact fun c hc => (mono _).base t c (ih c hc)

/-- results do not depend on the fuel -/
theorem canon_det {P : Prog} {n n' : Nat} {t : TExp} {c c' : Ty} (h : canon P n t = .ok c) (h' : canon P n' t = .ok c') : c = c' := by
  rcases Nat.le_total n n' with k | k
  · have := canon_mono k t c h; rw [this] at h'; cases h'; rfl
  · have := canon_mono k t c' h'; rw [this] at h; cases h; rfl

theorem base_det {P : Prog} {n n' : Nat} {t : Ty} {c c' : Ty} (h : baseType P n t = .ok c) (h' : baseType P n' t = .ok c') : c = c' := by
  rcases Nat.le_total n n' with k | k
  · have := base_mono k t c h; rw [this] at h'; cases h'; rfl
  · have := base_mono k t c' h'; rw [this] at h; cases h; rfl

end Aps.CanonTy
