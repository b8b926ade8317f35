import Verif.Spec.TypeCheck
import Mathlib.Tactic.Common
/-!
# Equality of types: what the checker finds equal is the same
-/
set_option linter.unusedVariables false
namespace Aps.TyCk

variable {P : Prog}

/-- A type and its base type are the same. -/
theorem base_same : ∀ (n : Nat) (t b : Ty), base P n t = .ok b → Same P t b := by
  intro n
  induction n with
  | zero => intro t b h; simp [base] at h
  | succ n ih =>
    intro t b h
    cases t with
    | remote t => simp only [base] at h; exact .trans (.remote t) (ih t b h)
    | use d =>
      simp only [base] at h
      split at h
      · rename_i t ht
        exact .trans (.alias ht) (ih t b h)
      · cases h; exact .refl _
    | func fs r => simp only [base] at h; cases h; exact .refl _
    | other k => simp only [base] at h; cases h; exact .refl _

theorem Sames.refl : ∀ fs : Tys, Sames P fs fs
  | .nil => .nil
  | .seq t => .seq (.refl t)
  | .cons t fs => .cons (.refl t) (Sames.refl fs)

theorem equal_same : ∀ n : Nat,
    (∀ t s : Ty, baseEqual P n t s = .ok true → Same P t s) ∧
    (∀ fs gs : Tys, formalsEqual P n fs gs = .ok true → Sames P fs gs) := by
  intro n
  induction n with
  | zero =>
    constructor
    · intro t s h; simp [baseEqual] at h
    · intro fs gs h; simp [formalsEqual] at h
  | succ n ih =>
    have two : ∀ t s : Ty, (do let t' ← base P n t; let s' ← base P n s; baseEqual P n t' s') = Res.ok true → Same P t s := by
      intro t s h
      obtain ⟨t', ht, h⟩ := Res.bind_eq_ok.1 h
      obtain ⟨s', hs, h⟩ := Res.bind_eq_ok.1 h
      exact .trans (base_same n _ _ ht) (.trans (ih.1 _ _ h) (.symm (base_same n _ _ hs)))
    constructor
    · intro t s h
      cases t <;> cases s <;> simp only [baseEqual] at h
      case func.func fs r gs s =>
        obtain ⟨b, hb, h⟩ := Res.bind_eq_ok.1 h
        cases b
        · simp at h
        · simp only [if_true] at h
          exact .func (ih.2 _ _ hb) (two _ _ h)
      case use.use d e =>
        have : d = e := by simpa using h
        subst this; exact .refl _
      case other.other a b =>
        have : a = b := by simpa using h
        subst this; exact .refl _
      all_goals simp at h
    · intro fs gs h
      cases fs <;> cases gs <;> simp only [formalsEqual] at h
      case nil.nil => exact .nil
      case seq.seq t s => exact .seq (two _ _ h)
      case cons.cons t fs s gs =>
        obtain ⟨t', ht, h⟩ := Res.bind_eq_ok.1 h
        obtain ⟨s', hs, h⟩ := Res.bind_eq_ok.1 h
        obtain ⟨b, hb, h⟩ := Res.bind_eq_ok.1 h
        cases b
        · simp at h
        · simp only [if_true] at h
          exact .cons (.trans (base_same n _ _ ht) (.trans (ih.1 _ _ hb) (.symm (base_same n _ _ hs)))) (ih.2 _ _ h)
      all_goals simp at h

/-- The check passes only for types that are the same. -/
theorem checkEq_same {n : Nat} {t s : Ty} (h : checkEq P n t s = .ok ()) : Same P t s := by
  simp only [checkEq] at h
  obtain ⟨t', ht, h⟩ := Res.bind_eq_ok.1 h
  obtain ⟨s', hs, h⟩ := Res.bind_eq_ok.1 h
  obtain ⟨b, hb, h⟩ := Res.bind_eq_ok.1 h
  cases b
  · simp at h
  · exact .trans (base_same n _ _ ht) (.trans ((equal_same n).1 _ _ hb) (.symm (base_same n _ _ hs)))

theorem elemType_elem : ∀ (n : Nat) (t e : Ty), elemType P n t = .ok e → Elem P t e := by
  intro n
  induction n with
  | zero => intro t e h; simp [elemType] at h
  | succ n ih =>
    intro t e h
    cases t with
    | remote t => simp only [elemType] at h; exact .remote (ih t e h)
    | use d =>
      simp only [elemType] at h
      split at h
      · rename_i t ht; exact .alias ht (ih t e h)
      · rename_i ht; cases h; exact .inst ht
      · simp at h
      · rename_i ht; cases h; exact .sig ht (by simp)
      · simp at h
    | func fs r => simp [elemType] at h
    | other k => simp [elemType] at h

end Aps.TyCk
