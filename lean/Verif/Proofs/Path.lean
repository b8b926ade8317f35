import Verif.Spec.Path
import Mathlib.Tactic.Common
import Mathlib.Data.List.Basic
/-! # Lemmas about paths -/
namespace Aps.Path

theorem strchr_none {c : Nat} {s : Str} : strchr c s = none ↔ c ∉ s := by
  induction s with
  | nil => simp [strchr]
  | cons x xs ih =>
    simp only [strchr, List.mem_cons, not_or]
    by_cases h : x = c
    · simp [h]
    · simp [h, ih, Ne.symm h]

theorem strchr_some {c : Nat} {s r : Str} (h : strchr c s = some r) : ∃ a b, s = a ++ c :: b ∧ r = c :: b ∧ c ∉ a := by
  induction s with
  | nil => cases h
  | cons x xs ih =>
    simp only [strchr] at h
    by_cases hx : x = c
    · simp only [hx, if_true, Option.some.injEq] at h
      exact ⟨[], xs, by rw [hx]; rfl, h.symm, by simp⟩
    · simp only [hx, if_false] at h
      obtain ⟨a, b, h1, h2, h3⟩ := ih h
      exact ⟨x :: a, b, by rw [h1]; rfl, h2, by simp [h3, Ne.symm hx]⟩

theorem strrchr_none {c : Nat} {s : Str} : strrchr c s = none ↔ c ∉ s := by
  induction s with
  | nil => simp [strrchr]
  | cons x xs ih =>
    simp only [strrchr, List.mem_cons, not_or]
    cases hr : strrchr c xs with
    | none => rw [hr] at ih; by_cases h : x = c <;> simp_all; exact fun hc => h hc.symm
    | some r => rw [hr] at ih; simp at ih; simp [ih]

theorem strrchr_some {c : Nat} {s r : Str} (h : strrchr c s = some r) : ∃ a b, s = a ++ c :: b ∧ r = c :: b ∧ c ∉ b := by
  induction s generalizing r with
  | nil => cases h
  | cons x xs ih =>
    simp only [strrchr] at h
    cases hr : strrchr c xs with
    | none =>
      rw [hr] at h
      by_cases hx : x = c
      · simp only [hx, if_true, Option.some.injEq] at h
        exact ⟨[], xs, by rw [hx]; rfl, h.symm, strrchr_none.1 hr⟩
      · simp [hx] at h
    | some q =>
      rw [hr] at h
      cases h
      obtain ⟨a, b, h1, h2, h3⟩ := ih hr
      exact ⟨x :: a, b, by rw [h1]; rfl, h2, h3⟩

theorem countDirs_eq (path : Str) : countDirs path = path.count 58 + 1 := by
  unfold countDirs
  have : ∀ (l : Str) k, l.foldl (fun n c => if c = 58 then n + 1 else n) k = l.count 58 + k := by
    intro l
    induction l with
    | nil => simp
    | cons x xs ih =>
      intro k
      rw [List.foldl_cons, ih, List.count_cons]
      by_cases h : x = 58
      · simp [h]; omega
      · simp [h]
  exact this path 1

theorem dirsLoop_spec : ∀ (k : Nat) (p : Str), k = p.count 58 → ∃ ds, dirsLoop (k + 1) (some p) = .ok ds ∧ Dirs p ds := by
  intro k
  induction k with
  | zero =>
    intro p hk
    have hn : 58 ∉ p := List.count_eq_zero.1 hk.symm
    refine ⟨[p], ?_, by simp, rfl, by simpa using hn⟩
    simp [dirsLoop, strchr_none.2 hn]
  | succ k ih =>
    intro p hk
    have hm : 58 ∈ p := List.count_pos_iff.1 (by omega)
    obtain ⟨r, hr⟩ := Option.ne_none_iff_exists'.1 (fun h => strchr_none.1 h hm)
    obtain ⟨a, b, h1, h2, h3⟩ := strchr_some hr
    have ha : a.count 58 = 0 := List.count_eq_zero.2 h3
    have hb : k = b.count 58 := by
      rw [h1, List.count_append, List.count_cons_self] at hk; omega
    obtain ⟨ds, e, hne, hj, hd⟩ := ih b hb
    refine ⟨a :: ds, ?_, by simp, ?_, ?_⟩
    · rw [dirsLoop]
      simp only [hr, Option.map_some, h2, List.tail_cons, e, Res.bind, Res.ok.injEq, List.cons.injEq, and_true]
      rw [h1]
      simp
    · cases ds with
      | nil => exact absurd rfl hne
      | cons d ds => rw [joined, hj, h1]; simp
    · intro d hd'
      rcases List.mem_cons.1 hd' with rfl | hd'
      · exact h3
      · exact hd d hd'

theorem openLoop_spec (maxPath : Nat) (F : Str → Bool) (f : Str) (ds : List Str) : ∃ r, openLoop maxPath F f ds = .ok r ∧
    (r = none ↔ ∀ d ∈ ds, ¬ Has maxPath F f d) ∧
    ∀ b, r = some b → ∃ pre d post, ds = pre ++ d :: post ∧ b = d ++ [47] ++ f ∧ Has maxPath F f d ∧ ∀ d' ∈ pre, ¬ Has maxPath F f d' := by
  induction ds with
  | nil => exact ⟨none, rfl, by simp, by simp⟩
  | cons d ds ih =>
    obtain ⟨r, e, h1, h2⟩ := ih
    have skip : ¬ Has maxPath F f d → openLoop maxPath F f (d :: ds) = openLoop maxPath F f ds →
        ∃ r, openLoop maxPath F f (d :: ds) = .ok r ∧ (r = none ↔ ∀ d' ∈ d :: ds, ¬ Has maxPath F f d') ∧
        ∀ b, r = some b → ∃ pre x post, d :: ds = pre ++ x :: post ∧ b = x ++ [47] ++ f ∧ Has maxPath F f x ∧ ∀ d' ∈ pre, ¬ Has maxPath F f d' := by
      intro hno he
      refine ⟨r, by rw [he, e], by simp [h1, hno], fun b hb => ?_⟩
      obtain ⟨pre, x, post, e1, e2, e3, e4⟩ := h2 b hb
      refine ⟨d :: pre, x, post, by rw [e1]; rfl, e2, e3, fun d' hd' => ?_⟩
      rcases List.mem_cons.1 hd' with rfl | hd'
      · exact hno
      · exact e4 d' hd'
    by_cases hl : maxPath ≤ d.length + f.length
    · exact skip (fun h => by have := h.1; omega) (by rw [openLoop, if_pos hl])
    · have b1 : bufAppend (maxPath + 1) [] d = .ok d := by
        unfold bufAppend; rw [if_pos (by simp; omega)]; rfl
      have b2 : bufAppend (maxPath + 1) d [47] = .ok (d ++ [47]) := by
        unfold bufAppend; rw [if_pos (by simp only [List.length_singleton]; omega)]
      have b3 : bufAppend (maxPath + 1) (d ++ [47]) f = .ok (d ++ [47] ++ f) := by
        unfold bufAppend; rw [if_pos (by simp only [List.length_append, List.length_singleton]; omega)]
      have he : openLoop maxPath F f (d :: ds) = if F (d ++ [47] ++ f) then .ok (some (d ++ [47] ++ f)) else openLoop maxPath F f ds := by
        rw [openLoop, if_neg hl, b1, Res.bind, b2, Res.bind, b3, Res.bind]
      by_cases hF : F (d ++ [47] ++ f) = true
      · have hh : Has maxPath F f d := ⟨by omega, hF⟩
        refine ⟨some (d ++ [47] ++ f), by rw [he, if_pos hF], ?_, fun b hb => ?_⟩
        · simp only [reduceCtorEq, List.mem_cons, false_iff, not_forall]
          exact ⟨d, .inl rfl, fun h => h hh⟩
        · cases hb
          exact ⟨[], d, ds, rfl, rfl, hh, by simp⟩
      · exact skip (fun h => hF h.2) (by rw [he, if_neg hF])

theorem append_unique {c : Nat} {a b a' b' : Str} (h : a ++ c :: b = a' ++ c :: b') (hb : c ∉ b) (hb' : c ∉ b') : a = a' ∧ b = b' := by
  induction a generalizing a' with
  | nil =>
    cases a' with
    | nil => simpa using h
    | cons x a' =>
      simp only [List.nil_append, List.cons_append, List.cons.injEq] at h
      exact absurd (by rw [h.2]; simp) hb
  | cons x a ih =>
    cases a' with
    | nil =>
      simp only [List.nil_append, List.cons_append, List.cons.injEq] at h
      exact absurd (by rw [← h.2]; simp) hb'
    | cons y a' =>
      simp only [List.cons_append, List.cons.injEq] at h
      obtain ⟨h1, h2⟩ := ih h.2
      exact ⟨by rw [h.1, h1], h2⟩

theorem fileBase_ext {n b : Str} (h : LastPart n b) : fileBase (n ++ ext) = b := by
  obtain ⟨hb, hn⟩ := h
  have hext : 47 ∉ ext := by decide
  have hbe : 47 ∉ b ++ ext := by simp [hb, hext]
  have hdot : (46 : Nat) ∉ [97, 112, 115] := by decide
  have hs : rootStart (n ++ ext) = b ++ ext := by
    unfold rootStart
    rcases hn with rfl | ⟨d, rfl⟩
    · rw [strrchr_none.2 hbe]
    · have hm : 47 ∈ d ++ 47 :: b ++ ext := by simp
      obtain ⟨r, hr⟩ := Option.ne_none_iff_exists'.1 (fun h => strrchr_none.1 h hm)
      obtain ⟨a, c, h1, h2, h3⟩ := strrchr_some hr
      rw [hr, h2]
      have : d ++ 47 :: (b ++ ext) = a ++ 47 :: c := by rw [← h1]; simp
      exact (append_unique this hbe h3).2.symm
  unfold fileBase beforeEnd
  rw [hs]
  have hm : 46 ∈ b ++ ext := by simp [ext]
  obtain ⟨r, hr⟩ := Option.ne_none_iff_exists'.1 (fun h => strrchr_none.1 h hm)
  obtain ⟨a, c, h1, h2, h3⟩ := strrchr_some hr
  have := append_unique (a := b) (b := [97, 112, 115]) (a' := a) (b' := c) (c := 46) (by rw [← h1]; rfl) hdot h3
  rw [hr]
  simp only
  rw [h1, h2, ← this.1]
  simp

theorem base_lastPart (n : Str) : LastPart n (Read.base n) := by
  induction n with
  | nil => exact ⟨by simp [Read.base], .inl rfl⟩
  | cons c cs ih =>
    rw [Read.base]
    by_cases h : 47 ∈ c :: cs
    · rw [if_pos h]
      obtain ⟨h1, h2⟩ := ih
      refine ⟨h1, .inr ?_⟩
      rcases h2 with h2 | ⟨d, h2⟩
      · rw [← h2] at h1
        rcases List.mem_cons.1 h with rfl | h
        · exact ⟨[], by rw [← h2]; rfl⟩
        · exact absurd h h1
      · exact ⟨c :: d, by rw [List.cons_append, ← h2]⟩
    · rw [if_neg h]
      exact ⟨h, .inl rfl⟩

end Aps.Path
