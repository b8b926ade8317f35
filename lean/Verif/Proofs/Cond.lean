import Verif.Model.Dnc
import Mathlib.Tactic.Tauto
import Mathlib.Tactic.ByContra
/-! Semantics of conditions. -/
namespace Aps.Dnc

/-- A branch assignment says for each conditional which way it goes. It satisfies a condition if every
conditional listed as positive goes that way and every one listed as negative goes the other way. -/
def Sat (σ : Nat → Bool) (c : Cond) : Prop :=
  ∀ i, (c.pos.getLsbD i = true → σ i = true) ∧ (c.neg.getLsbD i = true → σ i = false)

/-- A condition no assignment contradicts by itself. -/
def Cond.ok (c : Cond) : Prop := c.pos &&& c.neg = 0

/-- `c1` has (at most) the literals of `c2`. -/
def Cond.sub (c1 c2 : Cond) : Prop :=
  ∀ i, (c1.pos.getLsbD i = true → c2.pos.getLsbD i = true) ∧ (c1.neg.getLsbD i = true → c2.neg.getLsbD i = true)

theorem Cond.ext' {c1 c2 : Cond} (hp : ∀ i, c1.pos.getLsbD i = c2.pos.getLsbD i)
    (hn : ∀ i, c1.neg.getLsbD i = c2.neg.getLsbD i) : c1 = c2 := by
  cases c1; cases c2
  simp only [Cond.mk.injEq]
  exact ⟨BitVec.eq_of_getLsbD_eq fun i _ => hp i, BitVec.eq_of_getLsbD_eq fun i _ => hn i⟩

theorem Cond.sub_refl (c : Cond) : c.sub c := fun _ => ⟨id, id⟩

theorem Cond.sub_trans {a b c : Cond} (h1 : a.sub b) (h2 : b.sub c) : a.sub c :=
  fun i => ⟨fun h => (h2 i).1 ((h1 i).1 h), fun h => (h2 i).2 ((h1 i).2 h)⟩

theorem Cond.sub_antisymm {a b : Cond} (h1 : a.sub b) (h2 : b.sub a) : a = b := by
  apply Cond.ext'
  · intro i; exact Bool.eq_iff_iff.2 ⟨(h1 i).1, (h2 i).1⟩
  · intro i; exact Bool.eq_iff_iff.2 ⟨(h1 i).2, (h2 i).2⟩

theorem Sat.mono {σ : Nat → Bool} {c1 c2 : Cond} (h : c1.sub c2) (hs : Sat σ c2) : Sat σ c1 :=
  fun i => ⟨fun hp => (hs i).1 ((h i).1 hp), fun hn => (hs i).2 ((h i).2 hn)⟩

theorem Cond.ok_iff {c : Cond} : c.ok ↔ ∀ i, ¬ (c.pos.getLsbD i = true ∧ c.neg.getLsbD i = true) := by
  unfold Cond.ok
  constructor
  · intro h i hi
    have := congrArg (fun v => v.getLsbD i) h
    simp [BitVec.getLsbD_and, hi.1, hi.2] at this
  · intro h
    apply BitVec.eq_of_getLsbD_eq
    intro i _
    have := h i
    simp only [BitVec.getLsbD_and]
    cases hp : c.pos.getLsbD i <;> cases hn : c.neg.getLsbD i <;> simp_all

theorem or_eq_left_iff {a b : Word} : (a ||| b) = a ↔ ∀ i, b.getLsbD i = true → a.getLsbD i = true := by
  constructor
  · intro h i hi
    rw [← h]; simp [BitVec.getLsbD_or, hi]
  · intro h
    apply BitVec.eq_of_getLsbD_eq
    intro i _
    have := h i
    simp only [BitVec.getLsbD_or]
    cases ha : a.getLsbD i <;> cases hb : b.getLsbD i <;> simp_all

theorem sub_eq_andnot {a b : Word} (h : ∀ i, b.getLsbD i = true → a.getLsbD i = true) :
    a - b = a &&& ~~~b := by
  have h1 : b &&& (a &&& ~~~b) = 0 := by
    apply BitVec.eq_of_getLsbD_eq
    intro i hi
    simp only [BitVec.getLsbD_and, BitVec.getLsbD_not, hi]
    cases ha : a.getLsbD i <;> cases hb : b.getLsbD i <;> simp_all
  have h2 : b ||| (a &&& ~~~b) = a := by
    apply BitVec.eq_of_getLsbD_eq
    intro i hi
    have := h i
    simp only [BitVec.getLsbD_and, BitVec.getLsbD_not, BitVec.getLsbD_or]
    cases ha : a.getLsbD i <;> cases hb : b.getLsbD i <;> simp_all
  have h3 := BitVec.add_eq_or_of_and_eq_zero b (a &&& ~~~b) h1
  rw [h2] at h3
  conv_lhs => rw [← h3]
  rw [BitVec.add_comm, BitVec.add_sub_cancel]

theorem oneBit_iff {v : Word} (hv : v ≠ 0) :
    oneBit v = true ↔ ∃ i, i < 32 ∧ ∀ j, v.getLsbD j = true ↔ j = i := by
  have hn : v.toNat ≠ 0 := by
    intro h; apply hv; apply BitVec.eq_of_toNat_eq; simpa using h
  have hlt := v.isLt
  have e : oneBit v = true ↔ (v.toNat &&& (v.toNat - 1)) = 0 := by
    unfold oneBit
    rw [beq_iff_eq]
    have h1 : (v - 1).toNat = v.toNat - 1 := by
      rw [BitVec.toNat_sub]
      simp only [BitVec.toNat_ofNat, BitVec.ofNat_eq_ofNat]
      omega
    constructor
    · intro h
      have := congrArg BitVec.toNat h
      rw [BitVec.toNat_and, h1] at this
      simpa using this
    · intro h
      apply BitVec.eq_of_toNat_eq
      rw [BitVec.toNat_and, h1, h]; rfl
  rw [e, Nat.and_sub_one_eq_zero_iff_isPowerOfTwo hn]
  constructor
  · rintro ⟨k, hk⟩
    refine ⟨k, ?_, ?_⟩
    · by_contra hc
      have : 2 ^ 32 ≤ 2 ^ k := Nat.pow_le_pow_right (by omega) (by omega)
      omega
    · intro j
      rw [BitVec.getLsbD, hk, Nat.testBit_two_pow]
      simp [eq_comm]
  · rintro ⟨i, hi, h⟩
    refine ⟨i, ?_⟩
    apply Nat.eq_of_testBit_eq
    intro j
    have := h j
    rw [BitVec.getLsbD] at this
    rw [Nat.testBit_two_pow, Bool.eq_iff_iff, this]
    simp [eq_comm]

theorem sat_sub_iff {c1 c2 : Cond} (h2 : c2.ok) : (∀ σ, Sat σ c2 → Sat σ c1) ↔ c1.sub c2 := by
  constructor
  · intro h i
    rw [Cond.ok_iff] at h2
    have key : ∀ b : Bool, (b = true → c2.neg.getLsbD i = false) → (b = false → c2.pos.getLsbD i = false) →
        Sat (fun j => if j = i then b else c2.pos.getLsbD j) c2 := by
      intro b hb1 hb2 j
      by_cases hj : j = i
      · subst hj
        simp only [if_true]
        cases b <;> simp_all
      · simp only [if_neg hj]
        have := h2 j
        cases hp : c2.pos.getLsbD j <;> cases hn : c2.neg.getLsbD j <;> simp_all
    constructor
    · intro hp
      by_contra hc
      have := h _ (key false (by simp) (by simpa using hc)) i
      simp [hp] at this
    · intro hn
      by_contra hc
      have := h _ (key true (by simpa using hc) (by simp)) i
      simp [hn] at this
  · intro h σ hs
    exact hs.mono h

theorem exists_sat {c : Cond} (h : c.ok) : ∃ σ, Sat σ c := by
  rw [Cond.ok_iff] at h
  refine ⟨fun j => c.pos.getLsbD j, fun j => ⟨id, fun hn => ?_⟩⟩
  have := h j
  cases hp : c.pos.getLsbD j <;> simp_all

/-- The two conditions differ in one literal: `c1` has `i` positively, `c2` negatively. -/
def CompAt (i : Nat) (c1 c2 : Cond) : Prop :=
  c1.pos.getLsbD i = true ∧ c2.pos.getLsbD i = false ∧ c1.neg.getLsbD i = false ∧ c2.neg.getLsbD i = true ∧
  ∀ j, j ≠ i → c1.pos.getLsbD j = c2.pos.getLsbD j ∧ c1.neg.getLsbD j = c2.neg.getLsbD j

theorem andnot_getLsbD {a b : Word} {i : Nat} : (a &&& ~~~b).getLsbD i = (a.getLsbD i && !b.getLsbD i) := by
  rw [BitVec.getLsbD_and, BitVec.getLsbD_not]
  by_cases h : i < 32
  · simp [h]
  · rw [BitVec.getLsbD_of_ge a i (by omega)]; simp

theorem comp_branch {c1 c2 : Cond} (hp : ∀ i, c2.pos.getLsbD i = true → c1.pos.getLsbD i = true)
    (hn : ∀ i, c1.neg.getLsbD i = true → c2.neg.getLsbD i = true) (hne : ¬ (c1.pos = c2.pos ∧ c1.neg = c2.neg)) :
    (c1.pos - c2.pos = c2.neg - c1.neg ∧ oneBit (c1.pos - c2.pos) = true) ↔ ∃ i, CompAt i c1 c2 := by
  rw [sub_eq_andnot hp, sub_eq_andnot hn]
  constructor
  · rintro ⟨he, ho⟩
    have hnz : c1.pos &&& ~~~c2.pos ≠ 0 := by
      intro h0
      apply hne
      constructor
      · apply BitVec.eq_of_getLsbD_eq
        intro i _
        have h1 : (c1.pos &&& ~~~c2.pos).getLsbD i = false := by rw [h0]; simp
        rw [andnot_getLsbD] at h1
        have := hp i
        revert h1 this
        cases c1.pos.getLsbD i <;> cases c2.pos.getLsbD i <;> simp
      · rw [h0] at he
        apply BitVec.eq_of_getLsbD_eq
        intro i _
        have h1 : (c2.neg &&& ~~~c1.neg).getLsbD i = false := by rw [← he]; simp
        rw [andnot_getLsbD] at h1
        have := hn i
        revert h1 this
        cases c1.neg.getLsbD i <;> cases c2.neg.getLsbD i <;> simp
    obtain ⟨i, hi, h⟩ := (oneBit_iff hnz).1 ho
    have hbit : ∀ j, (c1.pos.getLsbD j && !c2.pos.getLsbD j) = true ↔ j = i := by
      intro j; rw [← andnot_getLsbD]; exact h j
    have hbit2 : ∀ j, (c2.neg.getLsbD j && !c1.neg.getLsbD j) = true ↔ j = i := by
      intro j; rw [← andnot_getLsbD, ← he]; exact h j
    refine ⟨i, ?_⟩
    have h1 := (hbit i).2 rfl
    have h2 := (hbit2 i).2 rfl
    simp only [Bool.and_eq_true, Bool.not_eq_true'] at h1 h2
    refine ⟨h1.1, h1.2, h2.2, h2.1, fun j hj => ?_⟩
    have h3 := mt (hbit j).1 hj
    have h4 := mt (hbit2 j).1 hj
    have h5 := hp j
    have h6 := hn j
    constructor
    · cases ha : c1.pos.getLsbD j <;> cases hb : c2.pos.getLsbD j <;> simp_all
    · cases ha : c1.neg.getLsbD j <;> cases hb : c2.neg.getLsbD j <;> simp_all
  · rintro ⟨i, h1, h2, h3, h4, h5⟩
    have hi : i < 32 := by
      by_contra hc
      rw [BitVec.getLsbD_of_ge _ _ (by omega)] at h1; cases h1
    have b1 : ∀ j, (c1.pos &&& ~~~c2.pos).getLsbD j = true ↔ j = i := by
      intro j
      rw [andnot_getLsbD]
      by_cases hj : j = i
      · subst hj; simp [h1, h2]
      · rw [(h5 j hj).1]; simp [hj]
    have b2 : ∀ j, (c2.neg &&& ~~~c1.neg).getLsbD j = true ↔ j = i := by
      intro j
      rw [andnot_getLsbD]
      by_cases hj : j = i
      · subst hj; simp [h3, h4]
      · rw [(h5 j hj).2]; simp [hj]
    refine ⟨?_, ?_⟩
    · apply BitVec.eq_of_getLsbD_eq
      intro j _
      rw [Bool.eq_iff_iff, b1, b2]
    · rw [oneBit_iff]
      · exact ⟨i, hi, b1⟩
      · intro h0
        have := (b1 i).2 rfl
        rw [h0] at this; simp at this

/-- complete syntactic characterisation of `cond_compare` -/
theorem condCompare_spec (c1 c2 : Cond) :
    (condCompare c1 c2 = .eq ↔ c1 = c2) ∧
    (condCompare c1 c2 = .lt ↔ c2.sub c1 ∧ c1 ≠ c2) ∧
    (condCompare c1 c2 = .gt ↔ c1.sub c2 ∧ c1 ≠ c2) ∧
    (condCompare c1 c2 = .comp ↔ (∃ i, CompAt i c1 c2) ∨ ∃ i, CompAt i c2 c1) := by
  have heq : (c1.pos = c2.pos ∧ c1.neg = c2.neg) ↔ c1 = c2 := by
    cases c1; cases c2; simp
  have hlt : ((c1.pos ||| c2.pos) = c1.pos ∧ (c1.neg ||| c2.neg) = c1.neg) ↔ c2.sub c1 := by
    rw [or_eq_left_iff, or_eq_left_iff]
    unfold Cond.sub
    exact ⟨fun h i => ⟨h.1 i, h.2 i⟩, fun h => ⟨fun i => (h i).1, fun i => (h i).2⟩⟩
  have hgt : ((c2.pos ||| c1.pos) = c2.pos ∧ (c2.neg ||| c1.neg) = c2.neg) ↔ c1.sub c2 := by
    rw [or_eq_left_iff, or_eq_left_iff]
    unfold Cond.sub
    exact ⟨fun h i => ⟨h.1 i, h.2 i⟩, fun h => ⟨fun i => (h i).1, fun i => (h i).2⟩⟩
  have noCompEq : ∀ {a b : Cond} {i}, CompAt i a b → a ≠ b := by
    rintro a b i ⟨h1, h2, _⟩ rfl; rw [h1] at h2; cases h2
  have noCompSub : ∀ {a b : Cond} {i}, CompAt i a b → ¬ a.sub b ∧ ¬ b.sub a := by
    rintro a b i ⟨h1, h2, h3, h4, _⟩
    refine ⟨fun h => ?_, fun h => ?_⟩
    · have := (h i).1 h1; rw [h2] at this; cases this
    · have := (h i).2 h4; rw [h3] at this; cases this
  have compImp : ∀ {a b : Cond} {i}, CompAt i a b →
      (∀ j, b.pos.getLsbD j = true → a.pos.getLsbD j = true) ∧ (∀ j, a.neg.getLsbD j = true → b.neg.getLsbD j = true) := by
    rintro a b i ⟨h1, h2, h3, h4, h5⟩
    constructor <;> intro j hj
    · by_cases hji : j = i
      · subst hji; exact h1
      · rw [(h5 j hji).1]; exact hj
    · by_cases hji : j = i
      · subst hji; exact h4
      · rw [← (h5 j hji).2]; exact hj
  have hq1 : ((c1.pos ||| c2.pos) = c1.pos ∧ (c2.neg ||| c1.neg) = c2.neg) ↔
      (∀ i, c2.pos.getLsbD i = true → c1.pos.getLsbD i = true) ∧ ∀ i, c1.neg.getLsbD i = true → c2.neg.getLsbD i = true := by
    rw [or_eq_left_iff, or_eq_left_iff]
  have hq2 : ((c2.pos ||| c1.pos) = c2.pos ∧ (c1.neg ||| c2.neg) = c1.neg) ↔
      (∀ i, c1.pos.getLsbD i = true → c2.pos.getLsbD i = true) ∧ ∀ i, c2.neg.getLsbD i = true → c1.neg.getLsbD i = true := by
    rw [or_eq_left_iff, or_eq_left_iff]
  classical
  unfold condCompare
  simp only [if_congr heq rfl rfl, if_congr hlt rfl rfl, if_congr hgt rfl rfl, if_congr hq1 rfl rfl, if_congr hq2 rfl rfl]
  by_cases h1 : c1 = c2
  · subst h1
    simp only [if_true]
    refine ⟨by simp, by simp, by simp, ?_⟩
    simp only [reduceCtorEq, false_iff, not_or, not_exists]
    exact ⟨fun i h => noCompEq h rfl, fun i h => noCompEq h rfl⟩
  rw [if_neg h1]
  by_cases h2 : c2.sub c1
  · rw [if_pos h2]
    refine ⟨by simp [h1], by simp [h1, h2], ?_, ?_⟩
    · simp only [reduceCtorEq, false_iff]
      rintro ⟨h, _⟩; exact h1 (Cond.sub_antisymm h h2)
    · simp only [reduceCtorEq, false_iff, not_or, not_exists]
      exact ⟨fun i h => (noCompSub h).2 h2, fun i h => (noCompSub h).1 h2⟩
  rw [if_neg h2]
  by_cases h3 : c1.sub c2
  · rw [if_pos h3]
    refine ⟨by simp [h1], by simp [h2], by simp [h1, h3], ?_⟩
    simp only [reduceCtorEq, false_iff, not_or, not_exists]
    exact ⟨fun i h => (noCompSub h).1 h3, fun i h => (noCompSub h).2 h3⟩
  rw [if_neg h3]
  have hne12 : ¬ (c1.pos = c2.pos ∧ c1.neg = c2.neg) := by rw [heq]; exact h1
  have hne21 : ¬ (c2.pos = c1.pos ∧ c2.neg = c1.neg) := fun h => hne12 ⟨h.1.symm, h.2.symm⟩
  by_cases h4 : (∀ i, c2.pos.getLsbD i = true → c1.pos.getLsbD i = true) ∧ ∀ i, c1.neg.getLsbD i = true → c2.neg.getLsbD i = true
  · rw [if_pos h4, if_congr (comp_branch h4.1 h4.2 hne12) rfl rfl]
    have hno : ¬ ∃ i, CompAt i c2 c1 := by
      rintro ⟨i, g1, g2, _⟩
      have := h4.1 i g1; rw [g2] at this; cases this
    by_cases h5 : ∃ i, CompAt i c1 c2
    · rw [if_pos h5]; exact ⟨by simp [h1], by simp [h2], by simp [h3], by simp [h5]⟩
    · rw [if_neg h5]; exact ⟨by simp [h1], by simp [h2], by simp [h3], by simp [h5, hno]⟩
  · rw [if_neg h4]
    have hno : ¬ ∃ i, CompAt i c1 c2 := fun ⟨i, h⟩ => h4 (compImp h)
    by_cases h6 : (∀ i, c1.pos.getLsbD i = true → c2.pos.getLsbD i = true) ∧ ∀ i, c2.neg.getLsbD i = true → c1.neg.getLsbD i = true
    · rw [if_pos h6, if_congr (comp_branch h6.1 h6.2 hne21) rfl rfl]
      by_cases h5 : ∃ i, CompAt i c2 c1
      · rw [if_pos h5]; exact ⟨by simp [h1], by simp [h2], by simp [h3], by simp [h5]⟩
      · rw [if_neg h5]; exact ⟨by simp [h1], by simp [h2], by simp [h3], by simp [h5, hno]⟩
    · rw [if_neg h6]
      have hno' : ¬ ∃ i, CompAt i c2 c1 := fun ⟨i, h⟩ => h6 (compImp h)
      exact ⟨by simp [h1], by simp [h2], by simp [h3], by simp [hno, hno']⟩

/-- the merged condition of complementary conditions -/
theorem mergeCond_spec {i : Nat} {c1 c2 : Cond} (h : CompAt i c1 c2) (hok : c1.ok) :
    ∃ m, mergeCond c1 c2 = some m ∧ mergeCond c2 c1 = some m ∧ m.ok ∧ m.sub c1 ∧ m.sub c2 ∧
      ∀ σ, Sat σ m ↔ (Sat σ c1 ∨ Sat σ c2) := by
  obtain ⟨h1, h2, h3, h4, h5⟩ := h
  rw [Cond.ok_iff] at hok
  have hi : i < 32 := by
    by_contra hc
    rw [BitVec.getLsbD_of_ge _ _ (by omega)] at h1; cases h1
  have hcom : ∀ j, ((c1.pos ||| c2.pos) &&& (c1.neg ||| c2.neg)).getLsbD j = true ↔ j = i := by
    intro j
    rw [BitVec.getLsbD_and, BitVec.getLsbD_or, BitVec.getLsbD_or]
    by_cases hj : j = i
    · subst hj; simp [h1, h4]
    · have := hok j
      rw [← (h5 j hj).1, ← (h5 j hj).2]
      simp only [Bool.or_self, hj, iff_false]
      simpa using this
  have hnz : (c1.pos ||| c2.pos) &&& (c1.neg ||| c2.neg) ≠ 0 := by
    intro h0
    have := (hcom i).2 rfl
    rw [h0] at this; simp at this
  have hob : oneBit ((c1.pos ||| c2.pos) &&& (c1.neg ||| c2.neg)) = true := (oneBit_iff hnz).2 ⟨i, hi, hcom⟩
  have hsw : mergeCond c2 c1 = mergeCond c1 c2 := by
    unfold mergeCond
    rw [BitVec.or_comm c2.pos, BitVec.or_comm c2.neg]
  have hm : mergeCond c1 c2 = some ⟨(c1.pos ||| c2.pos) &&& ~~~((c1.pos ||| c2.pos) &&& (c1.neg ||| c2.neg)),
      (c1.neg ||| c2.neg) &&& ~~~((c1.pos ||| c2.pos) &&& (c1.neg ||| c2.neg))⟩ := by
    unfold mergeCond
    rw [if_neg]
    rw [hob]; simp
  have mp : ∀ j, ((c1.pos ||| c2.pos) &&& ~~~((c1.pos ||| c2.pos) &&& (c1.neg ||| c2.neg))).getLsbD j = true ↔
      j ≠ i ∧ c1.pos.getLsbD j = true := by
    intro j
    rw [andnot_getLsbD, Bool.and_eq_true, Bool.not_eq_true', ← Bool.not_eq_true, hcom, BitVec.getLsbD_or]
    by_cases hj : j = i
    · simp [hj]
    · rw [← (h5 j hj).1]; simp [hj]
  have mn : ∀ j, ((c1.neg ||| c2.neg) &&& ~~~((c1.pos ||| c2.pos) &&& (c1.neg ||| c2.neg))).getLsbD j = true ↔
      j ≠ i ∧ c1.neg.getLsbD j = true := by
    intro j
    rw [andnot_getLsbD, Bool.and_eq_true, Bool.not_eq_true', ← Bool.not_eq_true, hcom, BitVec.getLsbD_or]
    by_cases hj : j = i
    · simp [hj]
    · rw [← (h5 j hj).2]; simp [hj]
  refine ⟨_, hm, hsw.trans hm, ?_, ?_, ?_, ?_⟩
  · rw [Cond.ok_iff]
    intro j hj
    exact hok j ⟨((mp j).1 hj.1).2, ((mn j).1 hj.2).2⟩
  · intro j; exact ⟨fun h => ((mp j).1 h).2, fun h => ((mn j).1 h).2⟩
  · intro j
    refine ⟨fun h => ?_, fun h => ?_⟩
    · have := (mp j).1 h; rw [← (h5 j this.1).1]; exact this.2
    · have := (mn j).1 h; rw [← (h5 j this.1).2]; exact this.2
  · intro σ
    constructor
    · intro hs
      rcases hσ : σ i with _ | _
      · right
        intro j
        by_cases hj : j = i
        · subst hj; simp [h2, hσ]
        · have := hs j
          simp only [mp, mn] at this
          rw [← (h5 j hj).1, ← (h5 j hj).2]
          exact ⟨fun h => this.1 ⟨hj, h⟩, fun h => this.2 ⟨hj, h⟩⟩
      · left
        intro j
        by_cases hj : j = i
        · subst hj; simp [h3, hσ]
        · have := hs j
          simp only [mp, mn] at this
          exact ⟨fun h => this.1 ⟨hj, h⟩, fun h => this.2 ⟨hj, h⟩⟩
    · rintro (hs | hs) <;> intro j <;> simp only [mp, mn]
      · exact ⟨fun h => (hs j).1 h.2, fun h => (hs j).2 h.2⟩
      · refine ⟨fun h => (hs j).1 ?_, fun h => (hs j).2 ?_⟩
        · rw [← (h5 j h.1).1]; exact h.2
        · rw [← (h5 j h.1).2]; exact h.2

/-- Two satisfiable conditions are complementary exactly if their sets of assignments are disjoint and the
union is the set of a condition. -/
theorem comp_semantic {c1 c2 : Cond} (h1 : c1.ok) (h2 : c2.ok) :
    ((∃ i, CompAt i c1 c2) ∨ ∃ i, CompAt i c2 c1) ↔
      (¬ ∃ σ, Sat σ c1 ∧ Sat σ c2) ∧ ∃ m : Cond, ∀ σ, Sat σ m ↔ (Sat σ c1 ∨ Sat σ c2) := by
  constructor
  · rintro (⟨i, h⟩ | ⟨i, h⟩)
    · refine ⟨?_, ?_⟩
      · rintro ⟨σ, s1, s2⟩
        have a := (s1 i).1 h.1
        have b := (s2 i).2 h.2.2.2.1
        rw [a] at b; cases b
      · obtain ⟨m, _, _, _, _, _, hm⟩ := mergeCond_spec h h1
        exact ⟨m, hm⟩
    · refine ⟨?_, ?_⟩
      · rintro ⟨σ, s1, s2⟩
        have a := (s2 i).1 h.1
        have b := (s1 i).2 h.2.2.2.1
        rw [a] at b; cases b
      · obtain ⟨m, _, _, _, _, _, hm⟩ := mergeCond_spec h h2
        exact ⟨m, fun σ => by rw [hm σ, or_comm]⟩
  · rintro ⟨hd, m, hm⟩
    obtain ⟨τ, hτ⟩ := exists_sat h1
    obtain ⟨ρ, hρ⟩ := exists_sat h2
    have mok : m.ok := by
      rw [Cond.ok_iff]
      rintro i ⟨a, b⟩
      have := (hm τ).2 (.inl hτ) i
      rw [this.1 a] at this
      exact absurd (this.2 b) (by simp)
    have s1 : m.sub c1 := (sat_sub_iff h1).1 fun σ h => (hm σ).2 (.inl h)
    have s2 : m.sub c2 := (sat_sub_iff h2).1 fun σ h => (hm σ).2 (.inr h)
    -- a variable is fixed by `c`
    let fx : Cond → Nat → Prop := fun c i => c.pos.getLsbD i = true ∨ c.neg.getLsbD i = true
    -- flipping one variable of an assignment
    let flip : (Nat → Bool) → Nat → Nat → Bool := fun σ i j => if j = i then !σ j else σ j
    have flip_m : ∀ i, ¬ fx m i → ∀ σ, Sat σ m → Sat (flip σ i) m := by
      intro i hi σ hs j
      by_cases hj : j = i
      · subst hj
        exact ⟨fun h => absurd (.inl h) hi, fun h => absurd (.inr h) hi⟩
      · simpa [flip, hj] using hs j
    have flip_c1 : ∀ i, fx c1 i → ∀ σ, Sat σ c1 → ¬ Sat (flip σ i) c1 := by
      intro i hi σ hs hf
      have a := hs i; have b := hf i
      simp only [flip, if_true] at b
      rcases hi with h | h
      · have a1 := a.1 h; have b1 := b.1 h; rw [a1] at b1; cases b1
      · have a1 := a.2 h; have b1 := b.2 h; rw [a1] at b1; cases b1
    -- exactly one variable is fixed by `c1` and not by `m`
    have ex : ∃ i, fx c1 i ∧ ¬ fx m i := by
      by_contra hc
      push Not at hc
      have : c1.sub m := by
        rw [Cond.ok_iff] at h1
        intro j
        constructor
        · intro h
          rcases hc j (.inl h) with h' | h'
          · exact h'
          · exact absurd ⟨h, (s1 j).2 h'⟩ (h1 j)
        · intro h
          rcases hc j (.inr h) with h' | h'
          · exact absurd ⟨(s1 j).1 h', h⟩ (h1 j)
          · exact h'
      have hρ1 : Sat ρ c1 := ((hm ρ).2 (.inr hρ)).mono this
      exact hd ⟨ρ, hρ1, hρ⟩
    obtain ⟨i, hi1, hi2⟩ := ex
    have sτm : Sat τ m := (hm τ).2 (.inl hτ)
    have f2 : ∀ k, fx c1 k → ¬ fx m k → Sat (flip τ k) c2 := by
      intro k hk1 hk2
      rcases (hm _).1 (flip_m k hk2 τ sτm) with h | h
      · exact absurd h (flip_c1 k hk1 τ hτ)
      · exact h
    have uniq : ∀ j, fx c1 j → ¬ fx m j → j = i := by
      intro j hj1 hj2
      by_contra hji
      apply hd
      refine ⟨τ, hτ, fun k => ?_⟩
      have a := f2 i hi1 hi2 k
      have b := f2 j hj1 hj2 k
      simp only [flip] at a b
      by_cases hk : k = i
      · subst hk
        rw [if_neg (fun h => hji h.symm)] at b; exact b
      · rw [if_neg hk] at a; exact a
    have hsat2 := f2 i hi1 hi2
    -- `c2` fixes `i` the other way, and only variables of `m` otherwise
    have c2i : fx c2 i := by
      by_contra hc
      apply hd
      refine ⟨τ, hτ, fun k => ?_⟩
      have a := hsat2 k
      simp only [flip] at a
      by_cases hk : k = i
      · subst hk
        exact ⟨fun h => absurd (.inl h) hc, fun h => absurd (.inr h) hc⟩
      · rw [if_neg hk] at a; exact a
    have c2m : ∀ j, j ≠ i → fx c2 j → fx m j := by
      intro j hji hj
      by_contra hjm
      -- flip both i and j: in m, not in c1 (i flipped), so in c2, contradiction at j
      have hs : Sat (flip (flip τ i) j) m := flip_m j hjm _ (flip_m i hi2 τ sτm)
      rcases (hm _).1 hs with h | h
      · have a := hτ i; have b := h i
        simp only [flip, if_neg (Ne.symm hji), if_true] at b
        rcases hi1 with g | g
        · have a1 := a.1 g; have b1 := b.1 g; rw [a1] at b1; cases b1
        · have a1 := a.2 g; have b1 := b.2 g; rw [a1] at b1; cases b1
      · have a := hsat2 j; have b := h j
        simp only [flip, if_neg hji, if_true] at a b
        rcases hj with g | g
        · have a1 := a.1 g; have b1 := b.1 g; rw [a1] at b1; cases b1
        · have a1 := a.2 g; have b1 := b.2 g; rw [a1] at b1; cases b1
    rw [Cond.ok_iff] at h1 h2
    have same : ∀ j, j ≠ i → (c1.pos.getLsbD j = c2.pos.getLsbD j ∧ c1.neg.getLsbD j = c2.neg.getLsbD j) := by
      intro j hj
      have e1p : c1.pos.getLsbD j = m.pos.getLsbD j := by
        rw [Bool.eq_iff_iff]
        refine ⟨fun h => ?_, (s1 j).1⟩
        by_contra hc
        rcases (Classical.em (fx m j)) with hf | hf
        · rcases hf with hf | hf
          · exact hc hf
          · exact h1 j ⟨h, (s1 j).2 hf⟩
        · exact hj (uniq j (.inl h) hf)
      have e1n : c1.neg.getLsbD j = m.neg.getLsbD j := by
        rw [Bool.eq_iff_iff]
        refine ⟨fun h => ?_, (s1 j).2⟩
        by_contra hc
        rcases (Classical.em (fx m j)) with hf | hf
        · rcases hf with hf | hf
          · exact h1 j ⟨(s1 j).1 hf, h⟩
          · exact hc hf
        · exact hj (uniq j (.inr h) hf)
      have e2p : c2.pos.getLsbD j = m.pos.getLsbD j := by
        rw [Bool.eq_iff_iff]
        refine ⟨fun h => ?_, (s2 j).1⟩
        rcases c2m j hj (.inl h) with hf | hf
        · exact hf
        · exact absurd ⟨h, (s2 j).2 hf⟩ (h2 j)
      have e2n : c2.neg.getLsbD j = m.neg.getLsbD j := by
        rw [Bool.eq_iff_iff]
        refine ⟨fun h => ?_, (s2 j).2⟩
        rcases c2m j hj (.inr h) with hf | hf
        · exact absurd ⟨(s2 j).1 hf, h⟩ (h2 j)
        · exact hf
      exact ⟨e1p.trans e2p.symm, e1n.trans e2n.symm⟩
    have a := hτ i; have b := hsat2 i
    simp only [flip, if_true] at b
    have k1 := h1 i; have k2 := h2 i
    rcases hi1 with g | g
    · left
      have a1 := a.1 g
      rw [a1] at b
      have np : c2.pos.getLsbD i = false := by
        by_contra hc; simp only [Bool.not_eq_false] at hc; exact absurd (b.1 hc) (by simp)
      have hn : c2.neg.getLsbD i = true := by
        rcases c2i with h | h
        · rw [np] at h; cases h
        · exact h
      refine ⟨i, g, np, ?_, hn, same⟩
      by_contra hc; simp only [Bool.not_eq_false] at hc; exact k1 ⟨g, hc⟩
    · right
      have a1 := a.2 g
      rw [a1] at b
      have nn : c2.neg.getLsbD i = false := by
        by_contra hc; simp only [Bool.not_eq_false] at hc; exact absurd (b.2 hc) (by simp)
      have hp : c2.pos.getLsbD i = true := by
        rcases c2i with h | h
        · exact h
        · rw [nn] at h; cases h
      have c1p : c1.pos.getLsbD i = false := by
        by_contra hc; simp only [Bool.not_eq_false] at hc; exact k1 ⟨hc, g⟩
      exact ⟨i, hp, c1p, nn, g, fun j hj => ⟨(same j hj).1.symm, (same j hj).2.symm⟩⟩

end Aps.Dnc
