import Verif.Proofs.LexRules
/-!
# What the scanner does with an input
-/
set_option linter.unusedVariables false
namespace Aps.Lex
open Re

/-- the rule matches the first `k` characters, and what has to follow does -/
def Rule.Matches (r : Rule) (s : List Nat) (k : Nat) : Prop :=
  k ≤ s.length ∧ Acc r.re (s.take k) ∧ (r.trail = true → ∃ c, s[k]? = some c ∧ c ≠ 45)

/-- with what has to follow -/
def Rule.total (r : Rule) (k : Nat) : Nat := if r.trail then k + 1 else k

theorem taken_total (r : Rule) (k : Nat) : r.taken (r.total k) = k := by
  unfold Rule.taken Rule.total; split <;> omega

theorem full_matches {r : Rule} {s : List Nat} {n : Nat} :
    (n ≤ s.length ∧ Acc r.full (s.take n)) ↔ ∃ k, n = r.total k ∧ r.Matches s k := by
  unfold Rule.full Rule.total Rule.Matches
  by_cases ht : r.trail = true
  · simp only [ht, if_true, true_imp_iff]
    constructor
    · rintro ⟨hn, h⟩
      obtain ⟨u, v, e, hu, hv⟩ := acc_cat.1 h
      obtain ⟨c, rfl, hc⟩ := acc_cls.1 hv
      have hl := congrArg List.length e
      simp only [List.length_take, List.length_append, List.length_singleton] at hl
      have hs : s = u ++ c :: s.drop n := by
        conv_lhs => rw [← List.take_append_drop n s, e]
        simp
      refine ⟨u.length, by omega, by omega, ?_, c, ?_, by simpa using hc⟩
      · rw [hs]; simpa using hu
      · rw [hs]; simp
    · rintro ⟨k, rfl, hk, h, c, hc, hne⟩
      have hlt : k < s.length := by
        by_contra hge
        rw [List.getElem?_eq_none (by omega)] at hc; cases hc
      refine ⟨by omega, ?_⟩
      rw [List.take_add_one, hc]
      exact .cat h (.cls (by simpa using hne))
  · have : r.trail = false := by simpa using ht
    simp only [this]
    simp

theorem len_iff {r : Rule} {s : List Nat} {n : Nat} :
    r.len s = some n ↔ ∃ k, n = r.total k ∧ r.Matches s k ∧ ∀ k', k < k' → ¬ r.Matches s k' := by
  unfold Rule.len
  rw [longest_iff, ← and_assoc, full_matches]
  have tot : ∀ k k', r.total k < r.total k' ↔ k < k' := by intro k k'; unfold Rule.total; split <;> omega
  constructor
  · rintro ⟨⟨k, rfl, hk⟩, hmax⟩
    refine ⟨k, rfl, hk, ?_⟩
    intro k' hlt hm
    have := full_matches.2 ⟨k', rfl, hm⟩
    exact hmax _ ((tot k k').2 hlt) this.1 this.2
  · rintro ⟨k, rfl, hk, hmax⟩
    refine ⟨⟨k, rfl, hk⟩, ?_⟩
    intro m hlt hle hA
    obtain ⟨k', rfl, hm⟩ := full_matches.1 ⟨hle, hA⟩
    exact hmax k' ((tot k k').1 hlt) hm

theorem len_ge {r : Rule} {s : List Nat} {k : Nat} (h : r.Matches s k) : ∃ n, r.len s = some n ∧ r.total k ≤ n := by
  have := full_matches.2 ⟨k, rfl, h⟩
  exact longest_ge this.1 this.2

/-- The rule chosen: it is of the rules, matches, and no other matches more. -/
theorem choose_rule {s : List Nat} {r : Rule} {n : Nat} (h : choose s rules = some (r, n)) :
    ∃ pre post k, rules = pre ++ r :: post ∧ n = r.total k ∧ r.Matches s k ∧
      (∀ q ∈ rules, ∀ k', q.Matches s k' → q.total k' ≤ n) ∧ (∀ q ∈ pre, ∀ k', q.Matches s k' → q.total k' < n) := by
  obtain ⟨pre, post, e, h1, h2, h3⟩ := choose_some h
  obtain ⟨k, hk, hm, hmax⟩ := len_iff.1 h1
  have hpre : ∀ q ∈ pre, ∀ k', q.Matches s k' → q.total k' < n := by
    intro q hq k' hk'
    obtain ⟨m, hm', hle⟩ := len_ge hk'
    have := h2 q hq m hm'
    omega
  refine ⟨pre, post, k, e, hk, hm, ?_, hpre⟩
  intro q hq k' hk'
  rw [e] at hq
  rcases List.mem_append.1 hq with hq | hq
  · exact Nat.le_of_lt (hpre q hq k' hk')
  · obtain ⟨m, hm', hle⟩ := len_ge hk'
    rcases List.mem_cons.1 hq with rfl | hq
    · rw [h1] at hm'; cases hm'; exact hle
    · have := h3 q hq m hm'; omega

theorem choose_of_matches {s : List Nat} {r : Rule} {k : Nat} {pre post : List Rule} (e : rules = pre ++ r :: post) (hm : r.Matches s k)
    (h1 : ∀ q ∈ rules, ∀ k', q.Matches s k' → q.total k' ≤ r.total k) (h2 : ∀ q ∈ pre, ∀ k', q.Matches s k' → q.total k' < r.total k) :
    choose s rules = some (r, r.total k) := by
  have tot : ∀ k k', r.total k < r.total k' ↔ k < k' := by intro k k'; unfold Rule.total; split <;> omega
  rw [e]
  apply choose_of
  · rw [len_iff]
    refine ⟨k, rfl, hm, ?_⟩
    intro k' hlt hm'
    have := h1 r (by rw [e]; simp) k' hm'
    have := (tot k k').2 hlt
    omega
  · intro q hq m hq'
    obtain ⟨k', rfl, hk', _⟩ := len_iff.1 hq'
    exact h1 q (by rw [e]; simp [hq]) k' hk'
  · intro q hq m hq'
    obtain ⟨k', rfl, hk', _⟩ := len_iff.1 hq'
    exact h2 q hq k' hk'

theorem choose_none {s : List Nat} : ∀ {rs : List Rule}, choose s rs = none → ∀ q ∈ rs, q.len s = none := by
  intro rs
  induction rs with
  | nil => intro _ q hq; simp at hq
  | cons a rs ih =>
    intro h q hq
    simp only [choose] at h
    cases ha : a.len s with
    | some m =>
      rw [ha] at h
      cases hc : choose s rs with
      | none => rw [hc] at h; cases h
      | some p =>
        obtain ⟨r', m'⟩ := p
        rw [hc] at h
        simp only at h
        split at h <;> cases h
    | none =>
      rw [ha] at h
      simp only at h
      rcases List.mem_cons.1 hq with rfl | hq
      · exact ha
      · exact ih h q hq

/-- Some rule always matches. -/
theorem choose_total (c : Nat) (s : List Nat) : ∃ r n, choose (c :: s) rules = some (r, n) := by
  cases h : choose (c :: s) rules with
  | some p => exact ⟨p.1, p.2, rfl⟩
  | none =>
    exfalso
    have hn := choose_none h
    by_cases hc : c = 10
    · have h1 := hn ⟨chr 10, false, .newline⟩ (by simp [rules])
      have hm : (⟨chr 10, false, .newline⟩ : Rule).Matches (c :: s) 1 := by
        refine ⟨by simp, ?_, by simp⟩
        simp only [List.take_succ_cons, List.take_zero]
        rw [acc_chr, hc]
      obtain ⟨n, hn', _⟩ := len_ge hm
      rw [h1] at hn'; cases hn'
    · have h1 := hn ⟨cls fun c => c != 10, false, .ignored⟩ (by simp [rules])
      have hm : (⟨cls fun c => c != 10, false, .ignored⟩ : Rule).Matches (c :: s) 1 := by
        refine ⟨by simp, ?_, by simp⟩
        simp only [List.take_succ_cons, List.take_zero]
        exact .cls (by simpa using hc)
      obtain ⟨n, hn', _⟩ := len_ge hm
      rw [h1] at hn'; cases hn'

/-- What one step takes. -/
theorem choose_taken {s : List Nat} {r : Rule} {n : Nat} (h : choose s rules = some (r, n)) :
    r ∈ rules ∧ 1 ≤ r.taken n ∧ r.Matches s (r.taken n) ∧ n = r.total (r.taken n) := by
  obtain ⟨pre, post, k, e, rfl, hm, _, _⟩ := choose_rule h
  have hr : r ∈ rules := by rw [e]; simp
  rw [taken_total]
  refine ⟨hr, ?_, hm, rfl⟩
  obtain ⟨c, v, hcv⟩ := acc_cons hm.2.1 (rules_null r hr)
  by_contra h0
  have : k = 0 := by omega
  subst this
  simp at hcv

/-! ## pieces -/

/-- the pieces of an input, one after another -/
inductive Pieces : List Nat → St → List Item → Prop
  | nil {st : St} : Pieces [] st []
  | cons {s : List Nat} {st : St} {r : Rule} {n : Nat} {is : List Item} : s ≠ [] → choose s rules = some (r, n) →
      Pieces (s.drop (r.taken n)) (act r.act (s.take (r.taken n)) st).2 is →
      Pieces s st ((act r.act (s.take (r.taken n)) st).1 :: is)

theorem scan_pieces : ∀ (n : Nat) (s : List Nat) (st : St), s.length ≤ n → ∃ is, scan n s st = .ok is ∧ Pieces s st is
  | n, [], st, _ => ⟨[], by cases n <;> rfl, .nil⟩
  | 0, c :: s, st, h => by simp at h
  | n + 1, c :: s, st, h => by
    obtain ⟨r, m, hc⟩ := choose_total c s
    obtain ⟨_, h1, hm, _⟩ := choose_taken hc
    have hl : ((c :: s).drop (r.taken m)).length ≤ n := by
      simp only [List.length_drop, List.length_cons] at h ⊢; omega
    obtain ⟨is, h2, h3⟩ := scan_pieces n _ (act r.act ((c :: s).take (r.taken m)) st).2 hl
    refine ⟨_, ?_, .cons (by simp) hc h3⟩
    simp only [scan, hc, h2]
    rfl

theorem pieces_scan : ∀ {n : Nat} {s : List Nat} {st : St} {is : List Item}, s.length ≤ n → Pieces s st is → scan n s st = .ok is
  | n, s, st, is, hn, h => by
    cases h with
    | nil => cases n <;> rfl
    | @cons _ _ r m is' hs hc hp =>
      cases s with
      | nil => exact (hs rfl).elim
      | cons c s =>
        obtain ⟨_, h1, hm, _⟩ := choose_taken hc
        cases n with
        | zero => simp at hn
        | succ n =>
          have := pieces_scan (n := n) (by simp only [List.length_drop, List.length_cons] at hn ⊢; omega) hp
          simp only [scan, hc, this]
          rfl

theorem lex_pieces (s : List Nat) : ∃ is, lex s = .ok is ∧ Pieces s ⟨1, 0, false⟩ is := scan_pieces _ _ _ (Nat.le_refl _)

theorem pieces_of_lex {s : List Nat} {is : List Item} (h : lex s = .ok is) : Pieces s ⟨1, 0, false⟩ is := by
  obtain ⟨is', h1, h2⟩ := lex_pieces s
  rw [h] at h1; cases h1; exact h2

theorem act_text (a : Act) (t : List Nat) (st : St) : (act a t st).1.text = t := by cases a <;> rfl
theorem act_act (a : Act) (t : List Nat) (st : St) : (act a t st).1.act = a := by cases a <;> rfl
theorem act_line (a : Act) (t : List Nat) (st : St) : (act a t st).1.line = st.line := by cases a <;> rfl
theorem act_tok (a : Act) (t : List Nat) (st : St) : (act a t st).1.tok.isSome = a.isTok := by cases a <;> rfl

theorem pieces_text {s : List Nat} {st : St} {is : List Item} (h : Pieces s st is) : (is.map Item.text).flatten = s := by
  induction h with
  | nil => rfl
  | cons _ _ _ ih =>
    simp only [List.map_cons, List.flatten_cons, ih, act_text, List.take_append_drop]

end Aps.Lex
