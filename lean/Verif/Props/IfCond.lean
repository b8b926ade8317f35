import Verif.Proofs.IfCond
/-! Property C24. -/
set_option linter.unusedVariables false
namespace Aps.Props
open Aps.Dnc Aps.Oag Aps.IfCond

theorem analyse_ok {b : Blk} {rules : List (Nat × Nat)} {conds : List (Nat × Cond)} (h : analyse b = .ok (rules, conds)) :
    (countB b 0).2 ≤ 32 ∧ rules = rulesB (countB b 0).1 ∧ conds = condsB ⟨0, 0⟩ (countB b 0).1 := by
  unfold analyse at h
  simp only at h
  split at h
  · cases h
  · simp at h; exact ⟨by omega, h.1.symm, h.2.symm⟩

theorem nobits (i : Nat) : ¬ (⟨0, 0⟩ : Cond).bit i := by rintro (h | h) <;> simp at h

/-- C24. The conditionals collected are numbered `0, 1, 2, ...` without gaps or repetitions, below 32; so every choice of
outcomes for the conditionals is a branch assignment. More than 32 are refused. -/
theorem C24_numbering (b : Blk) (hn : noForB b) :
    (∀ rules conds, analyse b = .ok (rules, conds) →
      rules.length ≤ 32 ∧ rules.map Prod.fst = List.range rules.length ∧
      ∀ τ : Nat → Bool, ∃ σ : Nat → Bool, ∀ p ∈ rules, σ p.1 = τ p.2) ∧
    ((∃ r, analyse b = .ok r) ∨ analyse b = .stop) ∧
    (analyse b = .stop ↔ 32 < (rulesB (countB b 0).1).length) := by
  have hr := rulesB_range b 0 hn
  have hlen : (rulesB (countB b 0).1).length = (countB b 0).2 := by
    have := congrArg List.length hr
    simpa using this
  refine ⟨?_, ?_, ?_⟩
  · intro rules conds h
    obtain ⟨h32, rfl, rfl⟩ := analyse_ok h
    refine ⟨by omega, ?_, ?_⟩
    · rw [hr, hlen, List.range_eq_range']; simp
    · intro τ
      have hnd : ((rulesB (countB b 0).1).map Prod.fst).Nodup := by rw [hr]; exact List.nodup_range'
      refine ⟨fun i => match (rulesB (countB b 0).1).find? (fun p => p.1 == i) with
        | some p => τ p.2
        | none => false, ?_⟩
      intro p hp
      have : (rulesB (countB b 0).1).find? (fun q => q.1 == p.1) = some p := by
        generalize rulesB (countB b 0).1 = l at hp hnd
        clear hr hlen
        induction l with
        | nil => cases hp
        | cons q l ih =>
          rw [List.map_cons, List.nodup_cons] at hnd
          rcases List.mem_cons.1 hp with rfl | hp
          · simp
          · have : q.1 ≠ p.1 := fun he => hnd.1 (by rw [he]; exact List.mem_map_of_mem hp)
            rw [List.find?_cons_of_neg (by simpa using this)]
            exact ih hp hnd.2
      simp only [this]
  · unfold analyse
    simp only
    split
    · exact .inr rfl
    · exact .inl ⟨_, rfl⟩
  · unfold analyse
    simp only
    rw [hlen]
    split
    · simp; assumption
    · simp; omega

/-- C24. For programs without for statements: control reaches a declaration (or tries a match) exactly under the branch
assignments that satisfy a condition stored for it. -/
theorem C24_reaches {b : Blk} (hn : noForB b) {rules : List (Nat × Nat)} {conds : List (Nat × Cond)}
    (h : analyse b = .ok (rules, conds)) (σ τ : Nat → Bool) (hστ : ∀ p ∈ rules, σ p.1 = τ p.2) (id : Nat) :
    id ∈ reachB τ b ↔ ∃ c, (id, c) ∈ conds ∧ Sat σ c := by
  obtain ⟨h32, rfl, rfl⟩ := analyse_ok h
  exact (condsB_exact b 0 ⟨0, 0⟩ hn (fun i hi => absurd hi (nobits i)) h32 hστ).1 (sat_nil σ) id

/-- C24. If the conditionals are different nodes, two nodes can be reached together exactly if conditions stored for them
are not contradictory by the test the scheduler uses. In particular declarations in opposite branches are contradictory. -/
theorem C24_exclusive {b : Blk} (hn : noForB b) {rules : List (Nat × Nat)} {conds : List (Nat × Cond)}
    (h : analyse b = .ok (rules, conds)) (hd : (rules.map Prod.snd).Nodup) (id1 id2 : Nat) :
    (∃ τ, id1 ∈ reachB τ b ∧ id2 ∈ reachB τ b) ↔
      ∃ c1 c2, (id1, c1) ∈ conds ∧ (id2, c2) ∈ conds ∧ (c1.pos ||| c2.pos) &&& (c1.neg ||| c2.neg) = 0 := by
  constructor
  · rintro ⟨τ, h1, h2⟩
    obtain ⟨σ, hσ⟩ := ((C24_numbering b hn).1 rules conds h).2.2 τ
    obtain ⟨c1, m1, s1⟩ := (C24_reaches hn h σ τ hσ id1).1 h1
    obtain ⟨c2, m2, s2⟩ := (C24_reaches hn h σ τ hσ id2).1 h2
    exact ⟨c1, c2, m1, m2, ok_of_sat (sat_both.2 ⟨s1, s2⟩)⟩
  · rintro ⟨c1, c2, m1, m2, hok⟩
    obtain ⟨σ, hs⟩ := exists_sat (c := both c1 c2) hok
    obtain ⟨s1, s2⟩ := sat_both.1 hs
    have key : ∃ τ : Nat → Bool, ∀ p ∈ rules, σ p.1 = τ p.2 := by
      refine ⟨fun i => match rules.find? (fun p => p.2 == i) with
        | some p => σ p.1
        | none => false, ?_⟩
      intro p hp
      have : rules.find? (fun q => q.2 == p.2) = some p := by
        clear h hok hs s1 s2
        induction rules with
        | nil => cases hp
        | cons q l ih =>
          rw [List.map_cons, List.nodup_cons] at hd
          rcases List.mem_cons.1 hp with rfl | hp
          · simp
          · have : q.2 ≠ p.2 := fun he => hd.1 (by rw [he]; exact List.mem_map_of_mem hp)
            rw [List.find?_cons_of_neg (by simpa using this)]
            exact ih hd.2 hp
      simp only [this]
    obtain ⟨τ, hτ⟩ := key
    exact ⟨τ, (C24_reaches hn h σ τ hτ id1).2 ⟨c1, m1, s1⟩, (C24_reaches hn h σ τ hτ id2).2 ⟨c2, m2, s2⟩⟩

/-- C24. Every conditional mentioned in a stored condition is a collected one whose own condition is a proper part of
it. (This is what the scheduler's guards, C26, are made from.) -/
theorem C24_nested {b : Blk} (hn : noForB b) {rules : List (Nat × Nat)} {conds : List (Nat × Cond)}
    (h : analyse b = .ok (rules, conds)) (id : Nat) (c : Cond) (hm : (id, c) ∈ conds) (k : Nat) (hk : c.bit k) :
    ∃ r, (k, r) ∈ rules ∧ ∃ c', (r, c') ∈ conds ∧ c'.sub c ∧ ¬ c'.bit k := by
  obtain ⟨h32, rfl, rfl⟩ := analyse_ok h
  exact ((condsB_nested b 0 ⟨0, 0⟩ hn (fun i hi => absurd hi (nobits i)) h32).1 _ hm k hk).resolve_left (nobits k)

/-- An if with a case in its true branch, the case with two matches and a default. -/
def condExample : Blk :=
  .cons (.ifS 1 0 (.cons (.caseS 2 (.cons 3 0 (.cons (.plain 4) .nil) (.cons 5 0 (.cons (.plain 6) .nil) .nil))
    (.cons (.plain 7) .nil)) .nil) (.cons (.plain 8) .nil)) .nil

example : noForB condExample ∧ analyse condExample = .ok ([(0, 1), (1, 3), (2, 5)],
    [(1, ⟨0, 0⟩), (2, ⟨1, 0⟩), (3, ⟨1, 0⟩), (4, ⟨3, 0⟩), (5, ⟨1, 2⟩), (6, ⟨5, 2⟩), (7, ⟨1, 6⟩), (8, ⟨0, 1⟩)]) := by
  refine ⟨by simp [condExample, noForB, noForD, noForM], by decide +kernel⟩

/-- A for statement in the false branch of the first conditional. -/
def forExample : Blk :=
  .cons (.ifS 1 0 .nil (.cons (.forS 2 (.cons 3 0 (.cons (.plain 4) .nil) .nil)) .nil)) .nil

/-- C24 fails for for statements: their matches are never numbered, so they share number 0 with the first conditional. Here
the declaration in the body of the loop is reached whenever the condition is false and the pattern matches, but the condition
stored for it is contradictory; the scheduler drops it. -/
theorem C24_for_refuted : ∃ rules conds, analyse forExample = .ok (rules, conds) ∧
    (∃ τ, 4 ∈ reachB τ forExample) ∧ ¬ ∃ c, (4, c) ∈ conds ∧ ∃ σ, Sat σ c := by
  refine ⟨[(0, 1)], [(1, ⟨0, 0⟩), (2, ⟨0, 1⟩), (3, ⟨0, 1⟩), (4, ⟨1, 1⟩)], by decide +kernel,
    ⟨fun i => i == 3, by decide +kernel⟩, ?_⟩
  rintro ⟨c, hc, σ, hs⟩
  simp at hc
  subst hc
  have := ok_of_sat hs
  unfold Cond.ok at this
  revert this
  decide

end Aps.Props
