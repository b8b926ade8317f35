import Verif.Spec.EdgeGen
import Verif.Proofs.DncPaths
import Verif.Proofs.OagCto
set_option linter.unusedVariables false
/-! Recorded dependencies. -/
namespace Aps.Gen
open Aps.Dnc Aps.Oag

/-! ## Conditions -/

theorem mask_bit (i : Nat) (c : Cond) : cmask i &&& (c.pos ||| c.neg) ≠ 0 ↔ c.bit i := by
  constructor
  · intro h
    by_contra hb
    apply h
    apply BitVec.eq_of_getLsbD_eq
    intro j hj
    by_cases hi : i < 32
    · simp only [BitVec.getLsbD_and, BitVec.getLsbD_or, cmask_bit hi]
      by_cases hij : j = i
      · subst hij
        unfold Cond.bit at hb
        rw [not_or] at hb
        simp [hb.1, hb.2]
      · simp [hij]
    · have : cmask i = 0 := by
        unfold cmask
        exact BitVec.shiftLeft_eq_zero (by omega)
      rw [this]; simp
  · intro h he
    have hi := bit_lt h
    have : (cmask i &&& (c.pos ||| c.neg)).getLsbD i = true := by
      simp only [BitVec.getLsbD_and, BitVec.getLsbD_or, cmask_bit hi]
      rcases h with h | h <;> simp [h]
    rw [he] at this
    simp at this

theorem recordCondFrom_mem {sink : Vertex} {c : Cond} : ∀ (rs : List (Nat × Cond)) (i : Nat) {x : Call},
    x ∈ recordCondFrom sink c i rs ↔ ∃ j r, rs[j]? = some r ∧ c.bit (i + j) ∧ x = ⟨⟨r.1, none, []⟩, sink, r.2, controlDependency⟩
  | [], i, x => by simp [recordCondFrom]
  | r :: rs, i, x => by
    have ih := recordCondFrom_mem (sink := sink) (c := c) rs (i + 1) (x := x)
    have key : (∃ j r', (r :: rs)[j]? = some r' ∧ c.bit (i + j) ∧ x = ⟨⟨r'.1, none, []⟩, sink, r'.2, controlDependency⟩) ↔
        (c.bit i ∧ x = ⟨⟨r.1, none, []⟩, sink, r.2, controlDependency⟩) ∨
        ∃ j r', rs[j]? = some r' ∧ c.bit (i + 1 + j) ∧ x = ⟨⟨r'.1, none, []⟩, sink, r'.2, controlDependency⟩ := by
      constructor
      · rintro ⟨j, r', h1, h2, h3⟩
        cases j with
        | zero => simp at h1; subst h1; exact .inl ⟨h2, h3⟩
        | succ j => simp at h1; exact .inr ⟨j, r', h1, by rw [show i + 1 + j = i + (j + 1) by omega]; exact h2, h3⟩
      · rintro (⟨h1, h2⟩ | ⟨j, r', h1, h2, h3⟩)
        · exact ⟨0, r, rfl, h1, h2⟩
        · exact ⟨j + 1, r', h1, by rw [show i + (j + 1) = i + 1 + j by omega]; exact h2, h3⟩
    rw [key, recordCondFrom]
    by_cases hb : c.bit i
    · rw [if_pos ((mask_bit i c).2 hb), List.mem_cons, ih]
      simp [hb]
    · rw [if_neg (fun h => hb ((mask_bit i c).1 h)), ih]
      simp [hb]

theorem recordCond_mem {env : Env} {sink : Vertex} {c : Cond} {x : Call} :
    x ∈ recordCond env sink c ↔ ∃ j r, env.ifRules[j]? = some r ∧ c.bit j ∧ x = ⟨⟨r.1, none, []⟩, sink, r.2, controlDependency⟩ := by
  unfold recordCond
  rw [recordCondFrom_mem]
  simp

/-- the condition is that of the way -/
structure OnWay (w : Way) (c : Cond) (used : List Nat) : Prop where
  pos : ∀ k, c.pos.getLsbD k = true ↔ (k, true) ∈ w
  neg : ∀ k, c.neg.getLsbD k = true ↔ (k, false) ∈ w
  used : ∀ x ∈ w, x.1 ∈ used
  one : ∀ k, ¬ ((k, true) ∈ w ∧ (k, false) ∈ w)

theorem OnWay.bit {w c used} (h : OnWay w c used) {k : Nat} : c.bit k ↔ ∃ x ∈ w, x.1 = k := by
  unfold Cond.bit
  rw [h.pos, h.neg]
  constructor
  · rintro (h | h) <;> exact ⟨_, h, rfl⟩
  · rintro ⟨⟨k', b⟩, hx, rfl⟩
    cases b
    · exact .inr hx
    · exact .inl hx

theorem OnWay.sat {w c used} (h : OnWay w c used) {σ : Nat → Bool} : Sat σ c ↔ Way.holds σ w := by
  unfold Sat Way.holds
  constructor
  · rintro hs ⟨k, b⟩ hx
    cases b
    · exact (hs k).2 ((h.neg k).2 hx)
    · exact (hs k).1 ((h.pos k).2 hx)
  · intro hs k
    exact ⟨fun hp => hs _ ((h.pos k).1 hp), fun hp => hs _ ((h.neg k).1 hp)⟩

theorem OnWay.exists_sat {w c used} (h : OnWay w c used) : ∃ σ, Sat σ c := by
  classical
  refine ⟨fun k => decide ((k, true) ∈ w), h.sat.2 ?_⟩
  rintro ⟨k, b⟩ hx
  cases b
  · simp only [decide_eq_false_iff_not]
    exact fun ht => h.one k ⟨ht, hx⟩
  · simpa using hx

theorem OnWay.nil (used : List Nat) : OnWay [] ⟨0, 0⟩ used :=
  ⟨by simp, by simp, by simp, by simp⟩

theorem OnWay.mono {w c used used'} (h : OnWay w c used) (hu : ∀ x ∈ used, x ∈ used') : OnWay w c used' :=
  ⟨h.pos, h.neg, fun x hx => hu _ (h.used x hx), h.one⟩

theorem OnWay.yes {w c used} (h : OnWay w c used) {ix : Nat} (hi : ix < 32) (hf : ix ∉ used) :
    OnWay (w ++ [(ix, true)]) ⟨c.pos ||| cmask ix, c.neg⟩ (ix :: used) := by
  refine ⟨?_, ?_, ?_, ?_⟩
  · intro k
    simp only [BitVec.getLsbD_or, Bool.or_eq_true, cmask_bit hi, decide_eq_true_eq, h.pos, List.mem_append, List.mem_singleton,
      Prod.mk.injEq, and_true]
  · intro k
    simp only [h.neg, List.mem_append, List.mem_singleton, Prod.mk.injEq, Bool.false_eq_true, and_false, or_false]
  · intro x hx
    rcases List.mem_append.1 hx with hx | hx
    · exact List.mem_cons_of_mem _ (h.used x hx)
    · simp at hx; subst hx; simp
  · rintro k ⟨h1, h2⟩
    simp at h1 h2
    rcases h1 with h1 | rfl
    · exact h.one k ⟨h1, h2⟩
    · exact hf (h.used _ h2)

theorem OnWay.no {w c used} (h : OnWay w c used) {ix : Nat} (hi : ix < 32) (hf : ix ∉ used) :
    OnWay (w ++ [(ix, false)]) ⟨c.pos, c.neg ||| cmask ix⟩ (ix :: used) := by
  refine ⟨?_, ?_, ?_, ?_⟩
  · intro k
    simp only [h.pos, List.mem_append, List.mem_singleton, Prod.mk.injEq, Bool.true_eq_false, and_false, or_false]
  · intro k
    simp only [BitVec.getLsbD_or, Bool.or_eq_true, cmask_bit hi, decide_eq_true_eq, h.neg, List.mem_append, List.mem_singleton,
      Prod.mk.injEq, and_true]
  · intro x hx
    rcases List.mem_append.1 hx with hx | hx
    · exact List.mem_cons_of_mem _ (h.used x hx)
    · simp at hx; subst hx; simp
  · rintro k ⟨h1, h2⟩
    simp at h1 h2
    rcases h2 with h2 | rfl
    · exact h.one k ⟨h1, h2⟩
    · exact hf (h.used _ h1)

theorem OnWay.clear {w c used} (h : OnWay w c used) {ix : Nat} (hi : ix < 32) (hf : ix ∉ used) :
    (c.pos ||| cmask ix) &&& ~~~cmask ix = c.pos := by
  apply BitVec.eq_of_getLsbD_eq
  intro j hj
  simp only [BitVec.getLsbD_and, BitVec.getLsbD_or, BitVec.getLsbD_not, cmask_bit hi, hj, decide_true, Bool.true_and]
  by_cases hji : j = ix
  · subst hji
    simp only [decide_true, Bool.or_true, Bool.not_true, Bool.and_false]
    by_contra hc
    have hp : c.pos.getLsbD j = true := by
      cases hx : c.pos.getLsbD j with
      | true => rfl
      | false => rw [hx] at hc; simp at hc
    exact hf (h.used _ ((h.pos j).1 hp))
  · simp [hji]

end Aps.Gen
