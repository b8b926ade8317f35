import Verif.Proofs.Cond
/-! Dependency kinds as sets of bits; edge sets under an assignment. -/
namespace Aps.Dnc

/-- every bit of `a` is in `b` -/
def Le (a b : Dep) : Prop := ∀ i, a.getLsbD i = true → b.getLsbD i = true

theorem Le.refl (a : Dep) : Le a a := fun _ h => h
theorem Le.trans' {a b c : Dep} (h1 : Le a b) (h2 : Le b c) : Le a c := fun i h => h2 i (h1 i h)
theorem Le.antisymm {a b : Dep} (h1 : Le a b) (h2 : Le b a) : a = b :=
  BitVec.eq_of_getLsbD_eq fun i _ => Bool.eq_iff_iff.2 ⟨h1 i, h2 i⟩
theorem Le.zero (a : Dep) : Le 0 a := by intro i h; simp at h

theorem dep_ne_zero {a : Dep} : a ≠ 0 ↔ ∃ i, a.getLsbD i = true := by
  constructor
  · intro h
    by_contra hc
    push Not at hc
    apply h
    apply BitVec.eq_of_getLsbD_eq
    intro i _
    simp [hc i]
  · rintro ⟨i, hi⟩ rfl
    simp at hi

theorem atMost_iff {a b : Dep} : atMost a b = true ↔ Le a b := by
  unfold atMost Le
  rw [beq_iff_eq]
  constructor
  · intro h i hi
    have h1 : (a &&& ~~~b).getLsbD i = false := by rw [h]; simp
    rw [andnot_getLsbD, hi] at h1
    simpa using h1
  · intro h
    apply BitVec.eq_of_getLsbD_eq
    intro i _
    have := h i
    rw [andnot_getLsbD]
    revert this
    cases a.getLsbD i <;> cases b.getLsbD i <;> simp

theorem atMost_false {a b : Dep} : atMost a b = false ↔ ¬ Le a b := by
  rw [← atMost_iff, Bool.not_eq_true]

theorem join_bit {a b : Dep} {i : Nat} : (join a b).getLsbD i = true ↔ a.getLsbD i = true ∨ b.getLsbD i = true := by
  simp [join, BitVec.getLsbD_or]

theorem Le.join_left (a b : Dep) : Le a (join a b) := fun _ h => join_bit.2 (.inl h)
theorem Le.join_right (a b : Dep) : Le b (join a b) := fun _ h => join_bit.2 (.inr h)
theorem Le.join_le {a b c : Dep} (h1 : Le a c) (h2 : Le b c) : Le (join a b) c := fun i h => (join_bit.1 h).elim (h1 i) (h2 i)

theorem bit1 {i : Nat} : SOME.getLsbD i = true ↔ i = 0 := by
  unfold SOME
  show (BitVec.ofNat 32 1).getLsbD i = true ↔ _
  rw [BitVec.getLsbD_ofNat]
  rw [show (1 : Nat) = 2 ^ 0 from rfl, Nat.testBit_two_pow]
  simp; omega
theorem bit2 {i : Nat} : NOT_JUST_FIBER.getLsbD i = true ↔ i = 1 := by
  unfold NOT_JUST_FIBER
  show (BitVec.ofNat 32 2).getLsbD i = true ↔ _
  rw [BitVec.getLsbD_ofNat]
  rw [show (2 : Nat) = 2 ^ 1 from rfl, Nat.testBit_two_pow]
  simp; omega
theorem bit4 {i : Nat} : MAYBE_CARRYING.getLsbD i = true ↔ i = 2 := by
  unfold MAYBE_CARRYING
  show (BitVec.ofNat 32 4).getLsbD i = true ↔ _
  rw [BitVec.getLsbD_ofNat]
  rw [show (4 : Nat) = 2 ^ 2 from rfl, Nat.testBit_two_pow]
  simp; omega
theorem bit8 {i : Nat} : MAYBE_DIRECT.getLsbD i = true ↔ i = 3 := by
  unfold MAYBE_DIRECT
  show (BitVec.ofNat 32 8).getLsbD i = true ↔ _
  rw [BitVec.getLsbD_ofNat]
  rw [show (8 : Nat) = 2 ^ 3 from rfl, Nat.testBit_two_pow]
  simp; omega
theorem bit16 {i : Nat} : MAYBE_SIMPLE.getLsbD i = true ↔ i = 4 := by
  unfold MAYBE_SIMPLE
  show (BitVec.ofNat 32 16).getLsbD i = true ↔ _
  rw [BitVec.getLsbD_ofNat]
  rw [show (16 : Nat) = 2 ^ 4 from rfl, Nat.testBit_two_pow]
  simp; omega

/-- the bits of a transitive dependency -/
theorem trans_bit {a b : Dep} {i : Nat} : (trans a b).getLsbD i = true ↔ a ≠ 0 ∧ b ≠ 0 ∧
    (i = 0 ∨ (i = 1 ∧ (a.getLsbD 1 = true ∨ b.getLsbD 1 = true)) ∨ (i = 2 ∧ a.getLsbD 2 = true ∧ b.getLsbD 2 = true) ∨
      (i = 4 ∧ a.getLsbD 4 = true ∧ b.getLsbD 4 = true)) := by
  unfold trans
  split
  · rename_i h
    have : BitVec.getLsbD (0 : Dep) i = false := by simp
    rw [this]
    simp only [Bool.false_eq_true, false_iff]
    rintro ⟨h1, h2, _⟩
    exact h.elim h1 h2
  · rename_i h
    simp only [not_or] at h
    simp only [BitVec.getLsbD_or, BitVec.getLsbD_and, Bool.or_eq_true, Bool.and_eq_true, bit1, bit2, bit4, bit16]
    constructor
    · rintro ((((⟨h1, rfl⟩ | ⟨h1, rfl⟩) | ⟨⟨h1, rfl⟩, h2, _⟩) | ⟨⟨h1, rfl⟩, h2, _⟩) | h1)
      · exact ⟨h.1, h.2, .inr (.inl ⟨rfl, .inl h1⟩)⟩
      · exact ⟨h.1, h.2, .inr (.inl ⟨rfl, .inr h1⟩)⟩
      · exact ⟨h.1, h.2, .inr (.inr (.inl ⟨rfl, h1, h2⟩))⟩
      · exact ⟨h.1, h.2, .inr (.inr (.inr ⟨rfl, h1, h2⟩))⟩
      · exact ⟨h.1, h.2, .inl h1⟩
    · rintro ⟨_, _, h1 | ⟨rfl, h1 | h1⟩ | ⟨rfl, h1, h2⟩ | ⟨rfl, h1, h2⟩⟩
      · exact .inr h1
      · exact .inl (.inl (.inl (.inl ⟨h1, rfl⟩)))
      · exact .inl (.inl (.inl (.inr ⟨h1, rfl⟩)))
      · exact .inl (.inl (.inr ⟨⟨h1, rfl⟩, h2, rfl⟩))
      · exact .inl (.inr ⟨⟨h1, rfl⟩, h2, rfl⟩)

theorem trans_ne_zero {a b : Dep} (ha : a ≠ 0) (hb : b ≠ 0) : trans a b ≠ 0 :=
  dep_ne_zero.2 ⟨0, trans_bit.2 ⟨ha, hb, .inl rfl⟩⟩

theorem trans_zero_iff {a b : Dep} : trans a b = 0 ↔ a = 0 ∨ b = 0 := by
  constructor
  · intro h
    by_contra hc
    simp only [not_or] at hc
    exact trans_ne_zero hc.1 hc.2 h
  · rintro h; unfold trans; rw [if_pos h]

theorem Le.ne_zero {a b : Dep} (h : Le a b) (ha : a ≠ 0) : b ≠ 0 := by
  obtain ⟨i, hi⟩ := dep_ne_zero.1 ha
  exact dep_ne_zero.2 ⟨i, h i hi⟩

theorem trans_mono {a b a' b' : Dep} (h1 : Le a a') (h2 : Le b b') : Le (trans a b) (trans a' b') := by
  intro i h
  rw [trans_bit] at h ⊢
  refine ⟨h1.ne_zero h.1, h2.ne_zero h.2.1, ?_⟩
  rcases h.2.2 with h | ⟨r, h | h⟩ | ⟨r, ha, hb⟩ | ⟨r, ha, hb⟩
  · exact .inl h
  · exact .inr (.inl ⟨r, .inl (h1 _ h)⟩)
  · exact .inr (.inl ⟨r, .inr (h2 _ h)⟩)
  · exact .inr (.inr (.inl ⟨r, h1 _ ha, h2 _ hb⟩))
  · exact .inr (.inr (.inr ⟨r, h1 _ ha, h2 _ hb⟩))

theorem bit_ext {a b : Dep} (h : ∀ i, a.getLsbD i = true ↔ b.getLsbD i = true) : a = b :=
  BitVec.eq_of_getLsbD_eq fun i _ => Bool.eq_iff_iff.2 (h i)

theorem trans_comm (a b : Dep) : trans a b = trans b a := by
  apply bit_ext; intro i; rw [trans_bit, trans_bit]; tauto

theorem join_ne_zero {a b : Dep} : join a b ≠ 0 ↔ a ≠ 0 ∨ b ≠ 0 := by
  rw [dep_ne_zero, dep_ne_zero, dep_ne_zero]
  simp only [join_bit, exists_or]

theorem trans_join_left (a b c : Dep) : trans (join a b) c = join (trans a c) (trans b c) := by
  by_cases hc : c = 0
  · subst hc; simp [trans, join]
  by_cases ha : a = 0
  · subst ha
    have : join 0 b = b := by simp [join]
    rw [this]; simp [trans, join]
  by_cases hb : b = 0
  · subst hb
    have : join a 0 = a := by simp [join]
    rw [this]; simp [trans, join]
  apply bit_ext
  intro i
  have hj : join a b ≠ 0 := join_ne_zero.2 (.inl ha)
  simp only [trans_bit, join_bit, ne_eq, hj, hc, ha, hb, not_false_iff, true_and]
  generalize a.getLsbD 1 = a1
  generalize a.getLsbD 2 = a2
  generalize a.getLsbD 4 = a4
  generalize b.getLsbD 1 = b1
  generalize b.getLsbD 2 = b2
  generalize b.getLsbD 4 = b4
  generalize c.getLsbD 1 = c1
  generalize c.getLsbD 2 = c2
  generalize c.getLsbD 4 = c4
  by_cases h0 : i = 0
  · simp [h0]
  by_cases h1 : i = 1
  · simp only [h1]; cases a1 <;> cases b1 <;> cases c1 <;> simp
  by_cases h2 : i = 2
  · simp only [h2]; cases a2 <;> cases b2 <;> cases c2 <;> simp
  by_cases h4 : i = 4
  · simp only [h4]; cases a4 <;> cases b4 <;> cases c4 <;> simp
  simp [h0, h1, h2, h4]

theorem trans_join_right (a b c : Dep) : trans a (join b c) = join (trans a b) (trans a c) := by
  rw [trans_comm, trans_join_left, trans_comm b, trans_comm c]

theorem trans_assoc (a b c : Dep) : trans (trans a b) c = trans a (trans b c) := by
  by_cases ha : a = 0
  · subst ha; simp [trans]
  by_cases hb : b = 0
  · subst hb; simp [trans]
  by_cases hc : c = 0
  · subst hc; simp [trans]
  have h1 := trans_ne_zero ha hb
  have h2 := trans_ne_zero hb hc
  apply bit_ext
  intro i
  rw [trans_bit, trans_bit]
  simp only [trans_bit, ne_eq, h1, h2, ha, hb, hc, not_false_iff, true_and]
  simp only [show (1:Nat) ≠ 0 by decide, show (1:Nat) ≠ 2 by decide, show (1:Nat) ≠ 4 by decide,
    show (2:Nat) ≠ 0 by decide, show (2:Nat) ≠ 1 by decide, show (2:Nat) ≠ 4 by decide,
    show (4:Nat) ≠ 0 by decide, show (4:Nat) ≠ 1 by decide, show (4:Nat) ≠ 2 by decide, false_and, false_or, or_false, true_and]
  tauto

theorem indirect_bit {a : Dep} {i : Nat} : (indirect a).getLsbD i = true ↔ a.getLsbD i = true ∧ i ≠ 3 := by
  unfold indirect
  rw [andnot_getLsbD, Bool.and_eq_true, Bool.not_eq_true', ← Bool.not_eq_true, bit8]

theorem indirect_le (a : Dep) : Le (indirect a) a := fun _ h => (indirect_bit.1 h).1

theorem indirect_trans (a b : Dep) : indirect (trans a b) = trans a b := by
  apply bit_ext
  intro i
  rw [indirect_bit, trans_bit]
  constructor
  · exact fun h => h.1
  · intro h; refine ⟨h, ?_⟩; rintro rfl
    rcases h.2.2 with h | h | h | h <;> simp at h

/-! ### The kind of an edge set under an assignment -/

open Classical in
/-- The dependency an edge set expresses under one branch assignment: the join of the kinds of the edges
whose condition is satisfied. -/
noncomputable def kindAt (σ : Nat → Bool) : List Edge → Dep
  | [] => 0
  | e :: es => join (if Sat σ e.cond then e.kind else 0) (kindAt σ es)

theorem kindAt_bit {σ : Nat → Bool} {es : List Edge} {b : Nat} :
    (kindAt σ es).getLsbD b = true ↔ ∃ e ∈ es, Sat σ e.cond ∧ e.kind.getLsbD b = true := by
  induction es with
  | nil => simp [kindAt]
  | cons e es ih =>
    rw [kindAt, join_bit, ih]
    by_cases h : Sat σ e.cond
    · simp [h]
    · simp [h]

theorem foldl_join_bit (f : α → Dep) (l : List α) (k : Dep) (b : Nat) :
    (l.foldl (fun m e => join m (f e)) k).getLsbD b = true ↔ k.getLsbD b = true ∨ ∃ e ∈ l, (f e).getLsbD b = true := by
  induction l generalizing k with
  | nil => simp
  | cons e es ih => rw [List.foldl_cons, ih, join_bit]; simp [or_assoc]

theorem edgesetKind_bit {es : List Edge} {b : Nat} :
    (edgesetKind es).getLsbD b = true ↔ ∃ e ∈ es, e.kind.getLsbD b = true := by
  unfold edgesetKind
  rw [foldl_join_bit]; simp

theorem lowerbound_bit {es : List Edge} {b : Nat} :
    (edgesetLowerbound es).getLsbD b = true ↔ ∃ e ∈ es, e.cond = ⟨0, 0⟩ ∧ e.kind.getLsbD b = true := by
  have : ∀ (es : List Edge) (k : Dep), (es.foldl (fun m e => if (e.cond.pos ||| e.cond.neg) ≠ 0 then m else join m e.kind) k).getLsbD b = true ↔
      k.getLsbD b = true ∨ ∃ e ∈ es, e.cond = ⟨0, 0⟩ ∧ e.kind.getLsbD b = true := by
    intro es
    induction es with
    | nil => simp
    | cons e es ih =>
      intro k
      rw [List.foldl_cons, ih]
      have hc : (e.cond.pos ||| e.cond.neg) = 0 ↔ e.cond = ⟨0, 0⟩ := by
        rcases e.cond with ⟨p, q⟩
        simp only [Cond.mk.injEq]
        constructor
        · intro h
          have hb : ∀ i, (p.getLsbD i || q.getLsbD i) = false := by
            intro i; rw [← BitVec.getLsbD_or, h]; simp
          constructor <;> (apply BitVec.eq_of_getLsbD_eq; intro i _; have := hb i; simp at this ⊢; simp_all)
        · rintro ⟨rfl, rfl⟩; simp
      by_cases h : e.cond = ⟨0, 0⟩
      · rw [if_neg (by rw [ne_eq, not_not]; exact hc.2 h), join_bit]; simp [h, or_assoc]
      · rw [if_pos (by rw [ne_eq, hc]; exact h)]
        have h' : ¬ e.cond = ⟨0#32, 0#32⟩ := h
        simp [h']
  unfold edgesetLowerbound
  rw [this]; simp

end Aps.Dnc
