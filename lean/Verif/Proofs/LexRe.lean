import Verif.Model.Lex
import Mathlib.Tactic.Common
/-!
# Regular expressions: the longest match
-/
set_option linter.unusedVariables false
namespace Aps.Lex

/-- the strings of a regular expression -/
inductive Acc : Re → List Nat → Prop
  | cls {p : Nat → Bool} {c : Nat} : p c = true → Acc (.cls p) [c]
  | eps : Acc .eps []
  | left {a b : Re} {u : List Nat} : Acc a u → Acc (.alt a b) u
  | right {a b : Re} {u : List Nat} : Acc b u → Acc (.alt a b) u
  | cat {a b : Re} {u v : List Nat} : Acc a u → Acc b v → Acc (.cat a b) (u ++ v)
  | done {a : Re} : Acc (.star a) []
  | more {a : Re} {u v : List Nat} : Acc a u → Acc (.star a) v → Acc (.star a) (u ++ v)

theorem acc_cls {p : Nat → Bool} {u : List Nat} : Acc (.cls p) u ↔ ∃ c, u = [c] ∧ p c = true := by
  constructor
  · intro h; cases h with | cls h => exact ⟨_, rfl, h⟩
  · rintro ⟨c, rfl, h⟩; exact .cls h
theorem acc_chr {c : Nat} {u : List Nat} : Acc (Re.chr c) u ↔ u = [c] := by
  unfold Re.chr
  rw [acc_cls]
  constructor
  · rintro ⟨x, rfl, h⟩; simpa using h
  · rintro rfl; exact ⟨c, rfl, by simp⟩
theorem acc_eps {u : List Nat} : Acc .eps u ↔ u = [] := by
  constructor
  · intro h; cases h; rfl
  · rintro rfl; exact .eps
theorem acc_alt {a b : Re} {u : List Nat} : Acc (.alt a b) u ↔ Acc a u ∨ Acc b u := by
  constructor
  · intro h
    cases h with
    | left h => exact .inl h
    | right h => exact .inr h
  · rintro (h | h)
    · exact .left h
    · exact .right h
theorem acc_cat {a b : Re} {w : List Nat} : Acc (.cat a b) w ↔ ∃ u v, w = u ++ v ∧ Acc a u ∧ Acc b v := by
  constructor
  · intro h; cases h with | cat h k => exact ⟨_, _, rfl, h, k⟩
  · rintro ⟨u, v, rfl, h, k⟩; exact .cat h k
theorem acc_cls_cat {p : Nat → Bool} {b : Re} {w : List Nat} : Acc (.cat (.cls p) b) w ↔ ∃ c v, w = c :: v ∧ p c = true ∧ Acc b v := by
  rw [acc_cat]
  constructor
  · rintro ⟨u, v, rfl, h, k⟩
    obtain ⟨c, rfl, hc⟩ := acc_cls.1 h
    exact ⟨c, v, rfl, hc, k⟩
  · rintro ⟨c, v, rfl, hc, k⟩
    exact ⟨[c], v, rfl, .cls hc, k⟩
theorem acc_chr_cat {c : Nat} {b : Re} {w : List Nat} : Acc (.cat (Re.chr c) b) w ↔ ∃ v, w = c :: v ∧ Acc b v := by
  unfold Re.chr
  rw [acc_cls_cat]
  constructor
  · rintro ⟨x, v, rfl, h, k⟩
    have : x = c := by simpa using h
    subst this
    exact ⟨v, rfl, k⟩
  · rintro ⟨v, rfl, k⟩
    exact ⟨c, v, rfl, by simp, k⟩
theorem acc_str : ∀ {s u : List Nat}, Acc (Re.str s) u ↔ u = s
  | [], u => acc_eps
  | c :: s, u => by
    simp only [Re.str]
    rw [acc_chr_cat]
    constructor
    · rintro ⟨v, rfl, k⟩; rw [acc_str.1 k]
    · rintro rfl; exact ⟨s, rfl, acc_str.2 rfl⟩

/-- every character of a string of a class repeated is in the class -/
theorem acc_star_cls {p : Nat → Bool} {u : List Nat} : Acc (.star (.cls p)) u ↔ ∀ c ∈ u, p c = true := by
  constructor
  · intro h
    generalize hr : Re.star (.cls p) = r at h
    induction h with
    | cls _ => cases hr
    | eps => cases hr
    | left _ _ => cases hr
    | right _ _ => cases hr
    | cat _ _ _ _ => cases hr
    | done => simp
    | @more a u v h1 h2 ih1 ih2 =>
      cases hr
      obtain ⟨c, rfl, hc⟩ := acc_cls.1 h1
      have := ih2 rfl
      intro x hx
      rcases List.mem_append.1 hx with hx | hx
      · simp only [List.mem_singleton] at hx; subst hx; exact hc
      · exact this x hx
  · intro h
    induction u with
    | nil => exact .done
    | cons c u ih =>
      exact .more (u := [c]) (.cls (h c (by simp))) (ih fun x hx => h x (by simp [hx]))

theorem acc_null : ∀ r : Re, r.null = true ↔ Acc r []
  | .cls p => by simp [Re.null, acc_cls]
  | .eps => by simp [Re.null, acc_eps]
  | .alt a b => by
    simp only [Re.null, Bool.or_eq_true, acc_alt, acc_null a, acc_null b]
  | .cat a b => by
    simp only [Re.null, Bool.and_eq_true, acc_cat, acc_null a, acc_null b]
    constructor
    · rintro ⟨h, k⟩; exact ⟨[], [], rfl, h, k⟩
    · rintro ⟨u, v, huv, h, k⟩
      have := List.append_eq_nil_iff.1 huv.symm
      rw [this.1] at h; rw [this.2] at k
      exact ⟨h, k⟩
  | .star a => by simp only [Re.null, true_iff]; exact .done

theorem no_acc {u : List Nat} : ¬ Acc Re.no u := by
  intro h
  obtain ⟨c, _, hc⟩ := acc_cls.1 h
  cases hc

theorem acc_star_cons {a : Re} {c : Nat} {s : List Nat} (h : Acc (.star a) (c :: s)) :
    ∃ u v, s = u ++ v ∧ Acc a (c :: u) ∧ Acc (.star a) v := by
  generalize hr : Re.star a = r at h
  generalize hs : c :: s = w at h
  induction h with
  | cls _ => cases hr
  | eps => cases hr
  | left _ _ => cases hr
  | right _ _ => cases hr
  | cat _ _ _ _ => cases hr
  | done => cases hs
  | @more b u v h1 h2 ih1 ih2 =>
    cases hr
    cases u with
    | nil => exact ih2 rfl (by simpa using hs)
    | cons x u =>
      simp only [List.cons_append, List.cons.injEq] at hs
      obtain ⟨rfl, rfl⟩ := hs
      exact ⟨u, v, rfl, h1, h2⟩

theorem acc_der (c : Nat) : ∀ (r : Re) (s : List Nat), Acc (r.der c) s ↔ Acc r (c :: s)
  | .cls p, s => by
    simp only [Re.der]
    split
    · rename_i h
      rw [acc_eps, acc_cls]
      constructor
      · rintro rfl; exact ⟨c, rfl, h⟩
      · rintro ⟨x, hx, _⟩; simp at hx; exact hx.2
    · rename_i h
      rw [acc_cls]
      constructor
      · intro k; exact (no_acc k).elim
      · rintro ⟨x, hx, hp⟩
        simp at hx
        rw [← hx.1] at hp
        exact (h hp).elim
  | .eps, s => by
    simp only [Re.der, acc_eps]
    constructor
    · intro k; exact (no_acc k).elim
    · intro k; cases k
  | .alt a b, s => by simp only [Re.der, acc_alt, acc_der c a s, acc_der c b s]
  | .cat a b, s => by
    have main : Acc (.cat (a.der c) b) s ↔ ∃ u v, s = u ++ v ∧ Acc a (c :: u) ∧ Acc b v := by
      rw [acc_cat]
      constructor
      · rintro ⟨u, v, rfl, h, k⟩; exact ⟨u, v, rfl, (acc_der c a u).1 h, k⟩
      · rintro ⟨u, v, rfl, h, k⟩; exact ⟨u, v, rfl, (acc_der c a u).2 h, k⟩
    have split' : Acc (.cat a b) (c :: s) ↔ (∃ u v, s = u ++ v ∧ Acc a (c :: u) ∧ Acc b v) ∨ (Acc a [] ∧ Acc b (c :: s)) := by
      rw [acc_cat]
      constructor
      · rintro ⟨u, v, huv, h, k⟩
        cases u with
        | nil => simp at huv; subst huv; exact .inr ⟨h, k⟩
        | cons x u =>
          simp only [List.cons_append, List.cons.injEq] at huv
          obtain ⟨rfl, rfl⟩ := huv
          exact .inl ⟨u, v, rfl, h, k⟩
      · rintro (⟨u, v, rfl, h, k⟩ | ⟨h, k⟩)
        · exact ⟨c :: u, v, rfl, h, k⟩
        · exact ⟨[], c :: s, rfl, h, k⟩
    simp only [Re.der]
    split
    · rename_i hn
      have := (acc_null a).1 hn
      rw [acc_alt, main, split', acc_der c b s]
      simp [this]
    · rename_i hn
      have : ¬ Acc a [] := fun k => hn ((acc_null a).2 k)
      rw [main, split']
      simp [this]
  | .star a, s => by
    simp only [Re.der]
    rw [acc_cat]
    constructor
    · rintro ⟨u, v, rfl, h, k⟩
      exact .more (u := c :: u) ((acc_der c a u).1 h) k
    · intro h
      obtain ⟨u, v, rfl, h1, h2⟩ := acc_star_cons h
      exact ⟨u, v, rfl, (acc_der c a u).2 h1, h2⟩

/-- `longest` finds the longest match. -/
theorem longest_iff : ∀ (s : List Nat) (r : Re) (n : Nat), r.longest s = some n ↔
    n ≤ s.length ∧ Acc r (s.take n) ∧ ∀ m, n < m → m ≤ s.length → ¬ Acc r (s.take m)
  | [], r, n => by
    simp only [Re.longest]
    constructor
    · intro h
      split at h
      · rename_i hn
        cases h
        exact ⟨Nat.le_refl _, by simpa using (acc_null r).1 hn, fun m h1 h2 => by simp at h2; omega⟩
      · cases h
    · rintro ⟨h1, h2, h3⟩
      have : n = 0 := by simpa using h1
      subst this
      rw [if_pos ((acc_null r).2 (by simpa using h2))]
  | c :: s, r, n => by
    have ih := longest_iff s (r.der c)
    simp only [Re.longest]
    cases hk : (r.der c).longest s with
    | some k =>
      obtain ⟨h1, h2, h3⟩ := (ih k).1 hk
      simp only [Option.some.injEq]
      have hacc : ∀ m, Acc r ((c :: s).take (m + 1)) ↔ Acc (r.der c) (s.take m) := fun m => by
        rw [List.take_succ_cons, acc_der]
      constructor
      · rintro rfl
        refine ⟨by simp; omega, (hacc k).2 h2, ?_⟩
        intro m hm hl hA
        obtain ⟨j, rfl⟩ : ∃ j, m = j + 1 := ⟨m - 1, by omega⟩
        simp only [List.length_cons] at hl
        exact h3 j (by omega) (by omega) ((hacc j).1 hA)
      · rintro ⟨a1, a2, a3⟩
        simp only [List.length_cons] at a1 a3
        by_contra hne
        rcases Nat.lt_or_ge n (k + 1) with hlt | hge
        · exact a3 (k + 1) hlt (by omega) ((hacc k).2 h2)
        · obtain ⟨j, rfl⟩ : ∃ j, n = j + 1 := ⟨n - 1, by omega⟩
          exact h3 j (by omega) (by omega) ((hacc j).1 a2)
    | none =>
      have hno : ∀ m, m ≤ s.length → ¬ Acc (r.der c) (s.take m) := by
        intro m
        -- the longest of all accepted lengths would have been found
        have : ∀ k, ∀ m, m ≤ s.length → s.length - m ≤ k → ¬ Acc (r.der c) (s.take m) := by
          intro k
          induction k with
          | zero =>
            intro m hm hk' hA
            have : (r.der c).longest s = some m := (ih m).2 ⟨hm, hA, fun j h1 h2 => by omega⟩
            rw [hk] at this; cases this
          | succ k ihk =>
            intro m hm hk' hA
            have : (r.der c).longest s = some m :=
              (ih m).2 ⟨hm, hA, fun j h1 h2 => ihk j h2 (by omega)⟩
            rw [hk] at this; cases this
        exact fun hm => this s.length m hm (by omega)
      simp only
      constructor
      · intro h
        split at h
        · rename_i hn
          cases h
          refine ⟨by omega, by simpa using (acc_null r).1 hn, ?_⟩
          intro m hm hl hA
          obtain ⟨j, rfl⟩ : ∃ j, m = j + 1 := ⟨m - 1, by omega⟩
          simp only [List.length_cons] at hl
          rw [List.take_succ_cons, ← acc_der] at hA
          exact hno j (by omega) hA
        · cases h
      · rintro ⟨a1, a2, a3⟩
        cases n with
        | zero => rw [if_pos ((acc_null r).2 (by simpa using a2))]
        | succ j =>
          simp only [List.length_cons] at a1
          rw [List.take_succ_cons, ← acc_der] at a2
          exact (hno j (by omega) a2).elim

/-- a match has a longest one -/
theorem longest_ge {r : Re} {s : List Nat} {m : Nat} (hm : m ≤ s.length) (h : Acc r (s.take m)) :
    ∃ n, r.longest s = some n ∧ m ≤ n := by
  have : ∀ k, ∀ m, m ≤ s.length → s.length - m ≤ k → Acc r (s.take m) → ∃ n, r.longest s = some n ∧ m ≤ n := by
    intro k
    induction k with
    | zero =>
      intro m hm hk hA
      exact ⟨m, (longest_iff s r m).2 ⟨hm, hA, fun j h1 h2 => by omega⟩, Nat.le_refl m⟩
    | succ k ih =>
      intro m hm hk hA
      by_cases hex : ∃ j, m < j ∧ j ≤ s.length ∧ Acc r (s.take j)
      · obtain ⟨j, h1, h2, h3⟩ := hex
        obtain ⟨n, hn, hjn⟩ := ih j h2 (by omega) h3
        exact ⟨n, hn, by omega⟩
      · refine ⟨m, (longest_iff s r m).2 ⟨hm, hA, ?_⟩, Nat.le_refl m⟩
        intro j h1 h2 h3
        exact hex ⟨j, h1, h2, h3⟩
  exact this _ m hm (Nat.le_refl _) h

/-! ## the rule chosen -/

theorem choose_some {s : List Nat} : ∀ {rs : List Rule} {r : Rule} {n : Nat}, choose s rs = some (r, n) →
    ∃ pre post, rs = pre ++ r :: post ∧ r.len s = some n ∧ (∀ q ∈ pre, ∀ m, q.len s = some m → m < n) ∧
      (∀ q ∈ post, ∀ m, q.len s = some m → m ≤ n)
  | [], r, n, h => by simp [choose] at h
  | q :: rs, r, n, h => by
    have none_case : ∀ {rs : List Rule}, choose s rs = none → ∀ q ∈ rs, q.len s = none := by
      intro rs
      induction rs with
      | nil => intro _ q hq; simp at hq
      | cons a rs ih =>
        intro h q hq
        simp only [choose] at h
        cases ha : a.len s with
        | some m =>
          rw [ha] at h
          cases hc : choose s rs with
          | none => rw [hc] at h; cases h
          | some p =>
            obtain ⟨r', m'⟩ := p
            rw [hc] at h
            simp only at h
            split at h <;> cases h
        | none =>
          rw [ha] at h
          simp only at h
          rcases List.mem_cons.1 hq with rfl | hq
          · exact ha
          · exact ih h q hq
    simp only [choose] at h
    cases hq : q.len s with
    | none =>
      rw [hq] at h
      simp only at h
      obtain ⟨pre, post, e, h1, h2, h3⟩ := choose_some h
      refine ⟨q :: pre, post, by rw [e]; rfl, h1, ?_, h3⟩
      intro x hx m hm
      rcases List.mem_cons.1 hx with rfl | hx
      · rw [hq] at hm; cases hm
      · exact h2 x hx m hm
    | some k =>
      rw [hq] at h
      cases hc : choose s rs with
      | none =>
        rw [hc] at h
        simp only [Option.some.injEq, Prod.mk.injEq] at h
        obtain ⟨rfl, rfl⟩ := h
        refine ⟨[], rs, rfl, hq, by simp, ?_⟩
        intro x hx m hm
        rw [none_case hc x hx] at hm; cases hm
      | some p =>
        obtain ⟨r', m'⟩ := p
        rw [hc] at h
        simp only at h
        obtain ⟨pre, post, e, h1, h2, h3⟩ := choose_some hc
        split at h
        · rename_i hlt
          simp only [Option.some.injEq, Prod.mk.injEq] at h
          obtain ⟨rfl, rfl⟩ := h
          refine ⟨q :: pre, post, by rw [e]; rfl, h1, ?_, h3⟩
          intro x hx m hm
          rcases List.mem_cons.1 hx with rfl | hx
          · rw [hq] at hm; cases hm; exact hlt
          · exact h2 x hx m hm
        · rename_i hlt
          simp only [Option.some.injEq, Prod.mk.injEq] at h
          obtain ⟨rfl, rfl⟩ := h
          refine ⟨[], rs, rfl, hq, by simp, ?_⟩
          intro x hx m hm
          rw [e] at hx
          rcases List.mem_append.1 hx with hx | hx
          · have := h2 x hx m hm; omega
          · rcases List.mem_cons.1 hx with rfl | hx
            · rw [h1] at hm; cases hm; omega
            · have := h3 x hx m hm; omega

theorem choose_of {s : List Nat} {r : Rule} {n : Nat} {post : List Rule} (hr : r.len s = some n)
    (h2 : ∀ q ∈ post, ∀ m, q.len s = some m → m ≤ n) : ∀ {pre : List Rule}, (∀ q ∈ pre, ∀ m, q.len s = some m → m < n) →
    choose s (pre ++ r :: post) = some (r, n)
  | [], _ => by
    simp only [List.nil_append, choose, hr]
    cases hc : choose s post with
    | none => rfl
    | some p =>
      obtain ⟨r', m'⟩ := p
      obtain ⟨a, b, e, h1, _, _⟩ := choose_some hc
      have := h2 r' (by rw [e]; simp) m' h1
      simp only
      rw [if_neg (by omega)]
  | q :: pre, h => by
    have ih := choose_of (pre := pre) hr h2 (fun x hx => h x (by simp [hx]))
    simp only [List.cons_append, choose, ih]
    cases hq : q.len s with
    | none => rfl
    | some m =>
      have := h q (by simp) m hq
      simp only
      rw [if_pos this]

end Aps.Lex
