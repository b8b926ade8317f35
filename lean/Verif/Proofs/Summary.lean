import Verif.Proofs.Close
/-! The closure of summary matrices. -/
namespace Aps.Dnc

theorem trans_le_max (a b : Dep) : Le (trans a b) maxDependency := by
  intro i h
  rw [trans_bit] at h
  unfold maxDependency
  simp only [BitVec.getLsbD_or, Bool.or_eq_true, bit1, bit2, bit4, bit8, bit16]
  omega

/-- one matrix is below another -/
structure MLe (n : Nat) (m m' : List Dep) : Prop where
  len : m'.length = m.length
  le : ∀ i j, i < n → j < n → Le (mget n m i j) (mget n m' i j)

theorem MLe.refl (n : Nat) (m : List Dep) : MLe n m m := ⟨rfl, fun _ _ _ _ => Le.refl _⟩
theorem MLe.trans' {n : Nat} {a b c : List Dep} (h1 : MLe n a b) (h2 : MLe n b c) : MLe n a c :=
  ⟨h2.len.trans h1.len, fun i j hi hj => (h1.le i j hi hj).trans' (h2.le i j hi hj)⟩

theorem mget_set {n : Nat} {m : List Dep} (hl : m.length = n * n) {i j a b : Nat} {v : Dep} (hi : i < n) (hj : j < n)
    (hb : b < n) : mget n (m.set (i * n + j) v) a b = if a = i ∧ b = j then v else mget n m a b := by
  unfold mget
  by_cases h : a = i ∧ b = j
  · obtain ⟨rfl, rfl⟩ := h
    have := Scc.cell_lt hi hj
    rw [List.getElem?_set_self (by omega)]; simp
  · rw [if_neg h, List.getElem?_set_ne]
    intro he
    exact h ⟨(Scc.cell_inj hj hb he).1.symm, (Scc.cell_inj hj hb he).2.symm⟩

/-- bits a matrix of size `n` lacks -/
def MBits (n : Nat) (m : List Dep) : Set (Nat × Nat × Nat) :=
  {x | x.1 < n ∧ x.2.1 < n ∧ x.2.2 < 32 ∧ (mget n m x.1 x.2.1).getLsbD x.2.2 = false}

theorem mbits_finite (n : Nat) (m : List Dep) : (MBits n m).Finite := by
  have : MBits n m ⊆ (Set.Iio n) ×ˢ ((Set.Iio n) ×ˢ (Set.Iio 32)) := fun _ h => ⟨h.1, h.2.1, h.2.2.1⟩
  exact ((Set.finite_Iio n).prod ((Set.finite_Iio n).prod (Set.finite_Iio 32))).subset this

noncomputable def mmiss (n : Nat) (m : List Dep) : Nat := (MBits n m).ncard

theorem MLe.miss_le {n : Nat} {m m' : List Dep} (h : MLe n m m') : mmiss n m' ≤ mmiss n m := by
  apply Set.ncard_le_ncard _ (mbits_finite n m)
  rintro ⟨i, j, b⟩ ⟨h1, h2, h3, h4⟩
  refine ⟨h1, h2, h3, ?_⟩
  by_contra hc
  rw [Bool.not_eq_false] at hc
  have := h.le i j h1 h2 b hc
  simp only at h4
  rw [h4] at this; cases this

theorem MLe.miss_lt {n : Nat} {m m' : List Dep} (h : MLe n m m') {i j : Nat} (hi : i < n) (hj : j < n)
    (hne : mget n m' i j ≠ mget n m i j) : mmiss n m' < mmiss n m := by
  apply Set.ncard_lt_ncard _ (mbits_finite n m)
  rw [ssubset_iff_subset_not_subset]
  constructor
  · rintro ⟨i, j, b⟩ ⟨h1, h2, h3, h4⟩
    refine ⟨h1, h2, h3, ?_⟩
    by_contra hc
    rw [Bool.not_eq_false] at hc
    have := h.le i j h1 h2 b hc
    simp only at h4
    rw [h4] at this; cases this
  · intro hs
    apply hne
    refine Le.antisymm ?_ (h.le i j hi hj)
    intro b hb
    by_contra hc
    rw [Bool.not_eq_true] at hc
    have hb32 : b < 32 := BitVec.lt_of_getLsbD hb
    have := hs (a := (i, j, b)) ⟨hi, hj, hb32, hc⟩
    have h4 := this.2.2.2
    simp only at h4
    rw [h4] at hb; cases hb

/-- `N` is transitively closed -/
def MClosed (n : Nat) (N : Nat → Nat → Dep) : Prop :=
  ∀ i k j, i < n → k < n → j < n → Le (trans (N i k) (N k j)) (N i j)

/-- a matrix is below `N` -/
def MBelow (n : Nat) (m : List Dep) (N : Nat → Nat → Dep) : Prop := ∀ i j, i < n → j < n → Le (mget n m i j) (N i j)

/-- what a run of updates that report with a flag does -/
structure MStep (n : Nat) (m : List Dep) (ch : Bool) (m' : List Dep) (ch' : Bool) : Prop where
  le : MLe n m m'
  flag : ch' = true → ch = true ∨ ∃ i j, i < n ∧ j < n ∧ mget n m' i j ≠ mget n m i j
  quiet : ch' = false → m' = m ∧ ch = false
  below : ∀ N, MClosed n N → MBelow n m N → MBelow n m' N

theorem MStep.refl (n : Nat) (m : List Dep) (ch : Bool) : MStep n m ch m ch :=
  ⟨MLe.refl n m, .inl, fun h => ⟨rfl, h⟩, fun _ _ h => h⟩

theorem MStep.trans' {n : Nat} {m m' m'' : List Dep} {c c' c'' : Bool} (h1 : MStep n m c m' c')
    (h2 : MStep n m' c' m'' c'') : MStep n m c m'' c'' := by
  refine ⟨h1.le.trans' h2.le, ?_, ?_, fun N hN hB => h2.below N hN (h1.below N hN hB)⟩
  · intro h
    rcases h2.flag h with h' | ⟨i, j, hi, hj, hne⟩
    · rcases h1.flag h' with h'' | ⟨i, j, hi, hj, hne⟩
      · exact .inl h''
      · refine .inr ⟨i, j, hi, hj, fun he => hne ?_⟩
        exact Le.antisymm (by have := h2.le.le i j hi hj; rw [he] at this; exact this) (h1.le.le i j hi hj)
    · refine .inr ⟨i, j, hi, hj, fun he => hne ?_⟩
      exact Le.antisymm (by have := h1.le.le i j hi hj; rw [← he] at this; exact this) (h2.le.le i j hi hj)
  · intro h
    obtain ⟨rfl, h'⟩ := h2.quiet h
    exact h1.quiet h'

theorem sumInner_spec {n i j : Nat} (hi : i < n) (hj : j < n) (ks : List Nat) (hks : ∀ k ∈ ks, k < n) {m : List Dep}
    (hl : m.length = n * n) (ch : Bool) :
    MStep n m ch (sumInner n i j ks (m, mget n m i j, ch)).1 (sumInner n i j ks (m, mget n m i j, ch)).2.2 ∧
    ((sumInner n i j ks (m, mget n m i j, ch)).2.2 = false →
      ∀ k ∈ ks, Le (trans (mget n m i k) (mget n m k j)) (mget n m i j)) := by
  induction ks generalizing m ch with
  | nil => exact ⟨MStep.refl n m ch, by simp⟩
  | cons k ks ih =>
    have hk := hks k (by simp)
    rw [sumInner]
    simp only
    set t := trans (mget n m i k) (mget n m k j) with ht
    by_cases h : atMost t (mget n m i j) = false
    · rw [if_pos h]
      rw [atMost_false] at h
      set m' := m.set (i * n + j) (join t (mget n m i j)) with hm'
      have hl' : m'.length = n * n := by rw [hm', List.length_set, hl]
      have hg : ∀ a b, b < n → mget n m' a b = if a = i ∧ b = j then join t (mget n m i j) else mget n m a b :=
        fun a b hb => mget_set hl hi hj hb
      have hij : mget n m' i j = join t (mget n m i j) := by rw [hg i j hj]; simp
      have s1 : MStep n m ch m' true := by
        refine ⟨⟨by rw [hl', hl], ?_⟩, ?_, by simp, ?_⟩
        · intro a b ha hb
          rw [hg a b hb]
          split
          · rename_i h'; rw [h'.1, h'.2]; exact Le.join_right _ _
          · exact Le.refl _
        · intro _
          refine .inr ⟨i, j, hi, hj, fun he => h ?_⟩
          rw [hij] at he
          rw [← he]; exact Le.join_left _ _
        · intro N hN hB a b ha hb
          rw [hg a b hb]
          split
          · rename_i h'; rw [h'.1, h'.2]
            exact Le.join_le ((trans_mono (hB i k hi hk) (hB k j hk hj)).trans' (hN i k j hi hk hj)) (hB i j hi hj)
          · exact hB a b ha hb
      by_cases hmax : join t (mget n m i j) = maxDependency
      · rw [if_pos hmax]
        exact ⟨s1, by simp⟩
      · rw [if_neg hmax]
        have := ih (fun k hk => hks k (by simp [hk])) hl' true
        rw [hij] at this
        refine ⟨s1.trans' this.1, fun hf => ?_⟩
        have := (this.1.quiet hf).2
        cases this
    · rw [if_neg h]
      rw [Bool.not_eq_false, atMost_iff] at h
      have := ih (fun k hk => hks k (by simp [hk])) hl ch
      refine ⟨this.1, fun hf x hx => ?_⟩
      rcases List.mem_cons.1 hx with rfl | hx
      · exact h
      · exact this.2 hf x hx

theorem sumCell_spec {n i j : Nat} (hi : i < n) (hj : j < n) {s : List Dep × Bool} (hl : s.1.length = n * n) :
    MStep n s.1 s.2 (sumCell n i s j).1 (sumCell n i s j).2 ∧
    ((sumCell n i s j).2 = false → ∀ k, k < n → Le (trans (mget n s.1 i k) (mget n s.1 k j)) (mget n s.1 i j)) := by
  unfold sumCell
  simp only
  split
  · have := sumInner_spec hi hj (List.range n) (by simp) hl s.2
    refine ⟨this.1, fun hf k hk => this.2 hf k (by simpa using hk)⟩
  · rename_i h
    rw [not_not] at h
    refine ⟨MStep.refl n s.1 s.2, fun _ k hk => ?_⟩
    rw [h]; exact trans_le_max _ _

theorem mfold_spec {α : Type} {n : Nat} (f : List Dep × Bool → α → List Dep × Bool) (P : List Dep → α → Prop) (l : List α)
    (hf : ∀ s, ∀ x ∈ l, s.1.length = n * n → MStep n s.1 s.2 (f s x).1 (f s x).2 ∧ ((f s x).2 = false → P s.1 x))
    (s : List Dep × Bool) (hl : s.1.length = n * n) :
    MStep n s.1 s.2 (l.foldl f s).1 (l.foldl f s).2 ∧ ((l.foldl f s).2 = false → ∀ x ∈ l, P s.1 x) := by
  induction l generalizing s with
  | nil => exact ⟨MStep.refl _ _ _, by simp⟩
  | cons a l ih =>
    rw [List.foldl_cons]
    have h1 := hf s a (by simp) hl
    have h2 := ih (fun s x hx => hf s x (by simp [hx])) (f s a) (by rw [h1.1.le.len, hl])
    refine ⟨h1.1.trans' h2.1, fun h x hx => ?_⟩
    have q := h2.1.quiet h
    rcases List.mem_cons.1 hx with rfl | hx
    · exact h1.2 q.2
    · have := h2.2 h x hx
      rw [(h1.1.quiet q.2).1] at this
      exact this

theorem sumRound_spec {n : Nat} {m : List Dep} (hl : m.length = n * n) :
    MStep n m false (sumRound n m).1 (sumRound n m).2 ∧
    ((sumRound n m).2 = false → MClosed n (mget n m)) := by
  unfold sumRound
  have := mfold_spec (n := n) (fun s i => (List.range n).foldl (fun s j => sumCell n i s j) s)
    (fun m i => ∀ j ∈ List.range n, ∀ k, k < n → Le (trans (mget n m i k) (mget n m k j)) (mget n m i j)) (List.range n)
    (fun s i hi hl => mfold_spec (n := n) (fun s j => sumCell n i s j)
      (fun m j => ∀ k, k < n → Le (trans (mget n m i k) (mget n m k j)) (mget n m i j)) (List.range n)
      (fun s j hj hl => sumCell_spec (by simpa using hi) (by simpa using hj) hl) s hl) (m, false) hl
  refine ⟨this.1, fun h i k j hi hk hj => this.2 h i (by simpa using hi) j (by simpa using hj) k hk⟩

theorem closeSummary_mono {n : Nat} {f : Nat} {s r : List Dep × Bool} (h : closeSummary n f s = .ok r) :
    ∀ f', f ≤ f' → closeSummary n f' s = .ok r := by
  induction f generalizing s with
  | zero => simp [closeSummary] at h
  | succ f ih =>
    intro f' hf'
    obtain ⟨f'', rfl⟩ := Nat.exists_eq_add_of_le' (show 1 ≤ f' by omega)
    obtain ⟨m, any⟩ := s
    rw [closeSummary] at h ⊢
    rcases hr : sumRound n m with ⟨m', _ | _⟩
    · rw [hr] at h; exact h
    · rw [hr] at h
      simp only at h ⊢
      exact ih h f'' (by omega)

/-- The summary closure ends; the result is the least closed matrix above the input; the flag says
whether anything changed. -/
theorem closeSummary_total {n : Nat} (m : List Dep) (any : Bool) (hl : m.length = n * n) :
    ∃ f m' any', closeSummary n f (m, any) = .ok (m', any') ∧ MStep n m any m' any' ∧ MClosed n (mget n m') := by
  generalize hk : mmiss n m = k
  induction k using Nat.strong_induction_on generalizing m any with
  | _ k ih =>
  obtain ⟨s, c⟩ := sumRound_spec hl
  rcases hr : sumRound n m with ⟨m', _ | _⟩
  · rw [hr] at s c
    have := (s.quiet rfl).1
    subst this
    exact ⟨1, m', any, by rw [closeSummary, hr], MStep.refl _ _ _, c rfl⟩
  · rw [hr] at s
    simp only at s
    have hl' : m'.length = n * n := by rw [s.le.len, hl]
    obtain ⟨i, j, hi, hj, hne⟩ := (s.flag rfl).resolve_left (by simp)
    obtain ⟨f, m'', any'', e, s2, c2⟩ := ih _ (hk ▸ s.le.miss_lt hi hj hne) m' true hl' rfl
    refine ⟨f + 1, m'', any'', ?_, ?_, c2⟩
    · rw [closeSummary, hr]; exact e
    · have s' : MStep n m any m' true := ⟨s.le, fun h => .inr ⟨i, j, hi, hj, hne⟩, by simp, s.below⟩
      exact s'.trans' s2

end Aps.Dnc
