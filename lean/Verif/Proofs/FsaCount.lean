import Verif.Proofs.Fsa
set_option linter.unusedVariables false
/-!
# The numbers of declarations and uses
-/
namespace Aps.Fsa
open Aps.Dfa (Lab Edge addNode)

structure NumOk (N : Num) : Prop where
  decl : ∀ d, N.decl d = 0 ∨ (4 ≤ N.decl d ∧ N.decl d + 2 ≤ N.next ∧ N.decl d % 2 = 0)
  expr : ∀ i, N.expr i = 0 ∨ (4 ≤ N.expr i ∧ N.expr i + 2 ≤ N.next ∧ N.expr i % 2 = 0)
  next : 4 ≤ N.next ∧ N.next % 2 = 0
  omega : ∀ n, n ∈ N.omega ↔ ∃ d, N.decl d ≠ 0 ∧ (n = N.decl d ∨ n = N.decl d + 1)
  declInj : ∀ d d', N.decl d ≠ 0 → N.decl d = N.decl d' → d = d'
  exprInj : ∀ i i', N.expr i ≠ 0 → N.expr i = N.expr i' → i = i'
  apart : ∀ d i, N.decl d ≠ 0 → N.decl d ≠ N.expr i
  fields : N.fields.Nodup

theorem numOk_zero : NumOk Num.zero where
  decl := fun _ => .inl rfl
  expr := fun _ => .inl rfl
  next := ⟨Nat.le_refl _, rfl⟩
  omega := fun n => by simp [Num.zero]
  declInj := fun d d' h _ => absurd rfl h
  exprInj := fun d d' h _ => absurd rfl h
  apart := fun d d' h => absurd rfl h
  fields := List.nodup_nil

/-- nothing is lost -/
structure Grows (N M : Num) : Prop where
  decl : ∀ d, N.decl d ≠ 0 → M.decl d = N.decl d
  expr : ∀ i, N.expr i ≠ 0 → M.expr i = N.expr i
  fields : ∀ d ∈ N.fields, d ∈ M.fields

theorem Grows.refl (N : Num) : Grows N N := ⟨fun _ _ => rfl, fun _ _ => rfl, fun _ h => h⟩
theorem Grows.trans {A B C : Num} (h : Grows A B) (k : Grows B C) : Grows A C where
  decl := fun d hd => (k.decl d (by rw [h.decl d hd]; exact hd)).trans (h.decl d hd)
  expr := fun d hd => (k.expr d (by rw [h.expr d hd]; exact hd)).trans (h.expr d hd)
  fields := fun d hd => k.fields d (h.fields d hd)

theorem idDecl_ok {N : Num} (h : NumOk N) (d : Nat) : NumOk (idDecl d N) ∧ Grows N (idDecl d N) ∧
    (idDecl d N).decl d ≠ 0 ∧ (idDecl d N).next ≤ N.next + 2 ∧ (0 < N.decl d → idDecl d N = N) := by
  unfold idDecl
  split
  · rename_i hd
    exact ⟨h, .refl _, by omega, by omega, fun _ => rfl⟩
  · rename_i hd
    have hd0 : N.decl d = 0 := by omega
    have hn := h.next
    refine ⟨⟨fun x => ?_, fun i => ?_, ⟨by simp only; omega, by simp only; omega⟩, fun n => ?_, fun x y h1 h2 => ?_,
      h.exprInj, fun x i hx => ?_, h.fields⟩, ⟨fun x hx => ?_, fun _ _ => rfl, fun _ h => h⟩, ?_, Nat.le_refl _,
      fun h => absurd h hd⟩
    · by_cases e : x = d
      · simp only [if_pos e]; right; omega
      · simp only [if_neg e]
        rcases h.decl x with h | h
        · exact .inl h
        · right; omega
    · rcases h.expr i with h | h
      · exact .inl h
      · right; simp only; omega
    · simp only [mem_addNode, h.omega]
      constructor
      · rintro (rfl | rfl | ⟨x, h1, h2⟩)
        · exact ⟨d, by simp; omega, by simp⟩
        · exact ⟨d, by simp; omega, by simp⟩
        · have : x ≠ d := fun e => h1 (e ▸ hd0)
          exact ⟨x, by simpa [this] using h1, by simpa [this] using h2⟩
      · rintro ⟨x, h1, h2⟩
        by_cases e : x = d
        · simp only [if_pos e] at h2; tauto
        · simp only [if_neg e] at h1 h2
          exact .inr (.inr ⟨x, h1, h2⟩)
    · by_cases e : x = d
      · by_cases e' : y = d
        · rw [e, e']
        · simp only [if_pos e, if_neg e'] at h2
          rcases h.decl y with h | h <;> omega
      · by_cases e' : y = d
        · simp only [if_neg e, if_pos e'] at h2
          rcases h.decl x with h | h <;> omega
        · simp only [if_neg e, if_neg e'] at h1 h2
          exact h.declInj x y h1 h2
    · simp only at hx ⊢
      by_cases e : x = d
      · simp only [if_pos e]
        rcases h.expr i with h | h <;> omega
      · simp only [if_neg e] at hx ⊢
        exact h.apart x i hx
    · have : x ≠ d := fun e => hx (e ▸ hd0)
      simp [this]
    · simp only [if_true]; omega

theorem idExpr_ok {N : Num} (h : NumOk N) (d : Nat) : NumOk (idExpr d N) ∧ Grows N (idExpr d N) ∧
    (idExpr d N).expr d ≠ 0 ∧ (idExpr d N).next ≤ N.next + 2 := by
  unfold idExpr
  split
  · rename_i hd
    exact ⟨h, .refl _, by omega, by omega⟩
  · rename_i hd
    have hd0 : N.expr d = 0 := by omega
    have hn := h.next
    refine ⟨⟨fun x => ?_, fun x => ?_, ⟨by simp only; omega, by simp only; omega⟩, h.omega, h.declInj, fun x y h1 h2 => ?_,
      fun i x hx => ?_, h.fields⟩, ⟨fun _ _ => rfl, fun x hx => ?_, fun _ h => h⟩, ?_, Nat.le_refl _⟩
    · rcases h.decl x with h | h
      · exact .inl h
      · right; simp only; omega
    · by_cases e : x = d
      · simp only [if_pos e]; right; omega
      · simp only [if_neg e]
        rcases h.expr x with h | h
        · exact .inl h
        · right; omega
    · by_cases e : x = d
      · by_cases e' : y = d
        · rw [e, e']
        · simp only [if_pos e, if_neg e'] at h2
          rcases h.expr y with h | h <;> omega
      · by_cases e' : y = d
        · simp only [if_neg e, if_pos e'] at h2
          rcases h.expr x with h | h <;> omega
        · simp only [if_neg e, if_neg e'] at h1 h2
          exact h.exprInj x y h1 h2
    · simp only at hx ⊢
      by_cases e : x = d
      · simp only [if_pos e]
        rcases h.decl i with h | h <;> omega
      · simp only [if_neg e]
        exact h.apart i x hx
    · have : x ≠ d := fun e => hx (e ▸ hd0)
      simp [this]
    · simp only [if_true]; omega

theorem noteField_ok {N : Num} (h : NumOk N) (d : Nat) : NumOk (noteField d N) ∧ Grows N (noteField d N) ∧
    d ∈ (noteField d N).fields ∧ (noteField d N).next = N.next ∧ (noteField d N).decl = N.decl := by
  unfold noteField
  split
  · rename_i hd
    exact ⟨h, .refl _, hd, rfl, rfl⟩
  · rename_i hd
    exact ⟨⟨h.decl, h.expr, h.next, h.omega, h.declInj, h.exprInj, h.apart, List.nodup_cons.2 ⟨hd, h.fields⟩⟩,
      ⟨fun _ _ => rfl, fun _ _ => rfl, fun _ h => .tail _ h⟩, List.mem_cons_self .., rfl, rfl⟩

theorem countItem_ok {st : Points.St} {N : Num} (h : NumOk N) (it : Item) :
    NumOk (countItem st it N) ∧ Grows N (countItem st it N) ∧ (countItem st it N).next ≤ N.next + 2 ∧
      (∀ d k, it = .decl d k → st.O d ≠ [] ∨ st.U d ≠ [] ∨ k = true → (countItem st it N).decl d ≠ 0) ∧
      (∀ d, it = .decl d true → d ∈ (countItem st it N).fields) ∧
      ∀ i, it = .use i → (countItem st it N).expr i ≠ 0 := by
  cases it with
  | use i =>
    obtain ⟨h1, h2, h3, h4⟩ := idExpr_ok h i
    exact ⟨h1, h2, h4, fun _ _ e => (by cases e), fun _ e => (by cases e), fun _ e => by cases e; exact h3⟩
  | decl d k =>
    simp only [countItem]
    by_cases c : st.O d ≠ [] ∨ st.U d ≠ []
    · rw [if_pos c]
      obtain ⟨h1, h2, h3, h4, -⟩ := idDecl_ok h d
      cases k with
      | false =>
        simp only [Bool.false_eq_true, if_false]
        exact ⟨h1, h2, h4, fun _ _ e _ => by cases e; exact h3, fun _ e => (by cases e), fun _ e => by cases e⟩
      | true =>
        simp only [if_true]
        obtain ⟨-, -, -, -, h5⟩ := idDecl_ok h1 d
        rw [h5 (Nat.pos_of_ne_zero h3)]
        obtain ⟨f1, f2, f3, f4, f5⟩ := noteField_ok h1 d
        exact ⟨f1, h2.trans f2, by omega, fun _ _ e _ => by cases e; rw [f5]; exact h3, fun _ e => by cases e; exact f3,
          fun _ e => by cases e⟩
    · rw [if_neg c]
      cases k with
      | false =>
        simp only [Bool.false_eq_true, if_false]
        exact ⟨h, .refl _, by omega, fun _ _ e h => by cases e; simp at h; exact absurd h (by simpa using c),
          fun _ e => (by cases e), fun _ e => by cases e⟩
      | true =>
        simp only [if_true]
        obtain ⟨h1, h2, h3, h4, -⟩ := idDecl_ok h d
        obtain ⟨f1, f2, f3, f4, f5⟩ := noteField_ok h1 d
        exact ⟨f1, h2.trans f2, by omega, fun _ _ e _ => by cases e; rw [f5]; exact h3, fun _ e => by cases e; exact f3,
          fun _ e => by cases e⟩

theorem count_ok {st : Points.St} : ∀ (its : List Item) {N : Num}, NumOk N →
    NumOk (count st its N) ∧ Grows N (count st its N) ∧ (count st its N).next ≤ N.next + 2 * its.length ∧
      (∀ d k, .decl d k ∈ its → st.O d ≠ [] ∨ st.U d ≠ [] ∨ k = true → (count st its N).decl d ≠ 0) ∧
      (∀ d, .decl d true ∈ its → d ∈ (count st its N).fields) ∧
      ∀ i, .use i ∈ its → (count st its N).expr i ≠ 0
  | [], N, h => ⟨h, .refl _, by simp [count], by simp, by simp, by simp⟩
  | it :: its, N, h => by
    obtain ⟨a1, a2, a3, a4, a5, a6⟩ := countItem_ok (st := st) h it
    obtain ⟨b1, b2, b3, b4, b5, b6⟩ := count_ok its a1
    simp only [count]
    refine ⟨b1, a2.trans b2, by simp only [List.length_cons]; omega, fun d k hm hc => ?_, fun d hm => ?_, fun i hm => ?_⟩
    · rcases List.mem_cons.1 hm with e | hm
      · have := a4 d k e.symm hc
        rw [b2.decl d this]; exact this
      · exact b4 d k hm hc
    · rcases List.mem_cons.1 hm with e | hm
      · exact b2.fields d (a5 d e.symm)
      · exact b5 d hm
    · rcases List.mem_cons.1 hm with e | hm
      · have := a6 i e.symm
        rw [b2.expr i this]; exact this
      · exact b6 i hm

theorem mem_omegaOf {N : Num} (h : NumOk N) {n : Nat} :
    n ∈ omegaOf N ↔ n = 2 ∨ n = 3 ∨ ∃ d, N.decl d ≠ 0 ∧ (n = N.decl d ∨ n = N.decl d + 1) := by
  unfold omegaOf dfltNode
  simp only [mem_addNode, h.omega]
  constructor
  · rintro (h | h | h); exacts [.inr (.inl h), .inl h, .inr (.inr h)]
  · rintro (h | h | h); exacts [.inr (.inl h), .inl h, .inr (.inr h)]

end Aps.Fsa
