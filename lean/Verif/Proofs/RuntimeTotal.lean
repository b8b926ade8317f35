import Verif.Proofs.RuntimeEval
set_option linter.unusedSectionVars false
set_option linter.unusedVariables false
/-! Termination of demand evaluation and preservation over histories. -/
namespace Aps.Runtime
variable {A P V : Type} [DecidableEq A] [DecidableEq P]

def Exists' (s : St A P V) (n : Node P) : Prop := n.index < (s.phyla n.phylum).count

/-- number of cells of `U` not in state CYCLE -/
def meas (U : Finset (A × Nat)) (s : St A P V) : Nat :=
  (U.filter fun c => stOf s c.1 c.2 ≠ .cycle).card

theorem meas_congr {U : Finset (A × Nat)} {s s' : St A P V} (h : Kof s' = Kof s) :
    meas U s' = meas U s := by
  unfold meas
  congr 1
  apply Finset.filter_congr
  intro c _
  have : c ∈ Kof s' ↔ c ∈ Kof s := by rw [h]
  simp only [Kof, Set.mem_ofPred_eq] at this
  rw [ne_eq, ne_eq, this]

def Total (L : Lang A P V) (U : Finset (A × Nat)) (f : Nat)
    (rec : A → Node P → St A P V → Out A P V V) : Prop :=
  ∀ (T : Set (A × Nat)) (a : A) (n : Node P) (s : St A P V), Inv L T s →
    (∀ t ∈ T, Relation.TransGen (Demands L (asgOf L s)) (nodeOf L t) (a, n)) →
    (∀ b i, i < (s.phyla (L.phylum b)).count → (b, i) ∈ U) →
    (∀ x y : A × Node P, Exists' s x.2 → Demands L (asgOf L s) x y → Exists' s y.2) →
    Exists' s n → meas U s < f → rec a n s ≠ .ub ∧ rec a n s ≠ .nofuel

theorem runComp_total {L : Lang A P V} {U : Finset (A × Nat)} {f : Nat}
    {rec : A → Node P → St A P V → Out A P V V}
    (hrec : EvalSpec L rec) (ht : Total L U f rec) (T : Set (A × Nat)) (z : A × Node P)
    (c : Comp A P V) (s : St A P V) (hi : Inv L T s) (hz : asgOf L s z.1 z.2.index = none)
    (hr : Reaches L (asgOf L s) (L.compute z.1 z.2) c)
    (hT : ∀ t ∈ T, Relation.ReflTransGen (Demands L (asgOf L s)) (nodeOf L t) z)
    (hU : ∀ b i, i < (s.phyla (L.phylum b)).count → (b, i) ∈ U)
    (hD : ∀ x y : A × Node P, Exists' s x.2 → Demands L (asgOf L s) x y → Exists' s y.2)
    (hzE : Exists' s z.2) (hm : meas U s < f) :
    runComp rec c s ≠ .ub ∧ runComp rec c s ≠ .nofuel := by
  induction c generalizing s with
  | ret v => simp [runComp]
  | undef => simp [runComp]
  | read b m k ih =>
    have hd : Demands L (asgOf L s) z (b, m) := ⟨hz, k, hr⟩
    have hT' : ∀ t ∈ T, Relation.TransGen (Demands L (asgOf L s)) (nodeOf L t) (b, m) :=
      fun t ht => Relation.TransGen.tail' (hT t ht) hd
    have h1 := hrec T b m s hi hT'
    have h0 := ht T b m s hi hT' hU hD (hD _ _ hzE hd) hm
    simp only [runComp]
    cases hb : rec b m s with
    | ub => exact absurd hb h0.1
    | nofuel => exact absurd hb h0.2
    | exc e s1 => simp [Out.bind]
    | ok w s1 =>
      rw [hb] at h1
      obtain ⟨h1, h2, h3, h4, _⟩ := h1
      have hr' : Reaches L (asgOf L s) (L.compute z.1 z.2) (k w) :=
        hr.trans (.step h4.den (.here _))
      have hph := h2.frame.phyla
      simp only [Out.bind]
      exact ih w s1 h1 (by rw [h2.asg]; exact hz) (by rw [h2.asg]; exact hr')
        (by rw [h2.asg]; exact hT) (by rw [hph]; exact hU)
        (by unfold Exists'; rw [hph, h2.asg]; exact hD) (by unfold Exists'; rw [hph]; exact hzE)
        (by rw [meas_congr h3]; exact hm)

theorem evaluate_total {L : Lang A P V} (hL : ∀ a, L.circular a = false) (U : Finset (A × Nat))
    (f : Nat) : Total L U f (evaluate L f) := by
  induction f with
  | zero => intro T a n s _ _ _ _ _ h; omega
  | succ f ih =>
    intro T a n s hi hT hU hD hn hm
    simp only [evaluate, hL a]
    simp only [Bool.false_eq_true, if_false]
    rcases evalBase_cases L (evaluate L f) hi.wf a n (hL a) with ⟨h, e⟩ | ⟨h1, h2, e⟩ |
      ⟨h1, h2, s1, w1, f1, b1, c1, ⟨g, a1, l1, e⟩ | ⟨g, a1, l1, e⟩ | ⟨g, a1, l1, hrest⟩⟩
    · exact absurd hn (by unfold Exists'; omega)
    · rw [e]; simp
    · rw [e]; simp
    · rw [e]; simp
    · have hs1 : ∀ b, started s b = true → started s1 b = true := fun b hb => (c1 b).2 (Or.inl hb)
      have hna : stOf s a n.index ≠ .assigned := by rcases g with g | g <;> rw [g] <;> decide
      have hnc : stOf s a n.index ≠ .cycle := by rcases g with g | g <;> rw [g] <;> decide
      have hne : stOf s a n.index ≠ .evaluated := by rcases g with g | g <;> rw [g] <;> decide
      have ha : asgOf L s1 = asgOf L s := by
        funext b i
        unfold asgOf
        rw [a1, b1]
        by_cases hbi : b = a ∧ i = n.index
        · obtain ⟨rfl, rfl⟩ := hbi; simp [hna]
        · rw [upd_ne _ hbi]
      have hn' : asgOf L s a n.index = none := by simp [asgOf, hna]
      have hk1 : Kof s1 = insert (a, n.index) (Kof s) := by
        ext ⟨b, i⟩
        simp only [Kof, a1, Set.mem_ofPred_eq, Set.mem_insert_iff, Prod.mk.injEq]
        by_cases hbi : b = a ∧ i = n.index
        · obtain ⟨rfl, rfl⟩ := hbi; simp
        · rw [upd_ne _ hbi]; simp [hbi]
      have hsa1 : started s1 a = true := (c1 a).2 (Or.inr rfl)
      have hi1 : Inv L (insert (a, n.index) T) s1 := by
        refine ⟨w1, ?_, ?_, ?_, ?_, ?_⟩
        · intro b i h
          have hbi : ¬ (b = a ∧ i = n.index) := by
            rintro ⟨rfl, rfl⟩; rw [a1, upd_same] at h; cases h
          rw [a1, upd_ne _ hbi] at h
          obtain ⟨g1, g2⟩ := hi.evald b i h
          rw [ha, b1]
          exact ⟨hs1 b g1, g2.mono hs1 (fun _ _ _ => rfl)⟩
        · intro b i h
          by_cases hbi : b = a ∧ i = n.index
          · rw [hbi.1]; exact hsa1
          · rw [a1, upd_ne _ hbi] at h; exact hs1 b (hi.cyc b i h)
        · intro b i h hT
          have hbi : ¬ (b = a ∧ i = n.index) := by
            rintro ⟨rfl, rfl⟩; exact hT (Set.mem_insert _ _)
          rw [a1, upd_ne _ hbi] at h
          rw [ha, hk1]
          exact (hi.stuck b i h (fun hc => hT (Set.mem_insert_of_mem _ hc))).mono hs1
            (fun _ _ _ => rfl) (Set.subset_insert _ _) (fun c hc => hi.cyc _ _ hc)
        · rw [l1]
          refine List.nodup_append.2 ⟨hi.nodup, by simp, ?_⟩
          intro x hx y hy
          simp only [List.mem_singleton] at hy
          subst hy
          rintro rfl
          have := (hi.log _ _).1 hx
          rcases this with h | h
          · exact hnc h
          · exact hne h
        · intro b i
          rw [l1, List.mem_append, hi.log, a1]
          by_cases hbi : b = a ∧ i = n.index
          · obtain ⟨rfl, rfl⟩ := hbi; simp
          · rw [upd_ne _ hbi]
            have : ¬ ((b, i) ∈ [(a, n.index)]) := by simpa using hbi
            simp [this]
      have hT1 : ∀ t ∈ insert (a, n.index) T,
          Relation.ReflTransGen (Demands L (asgOf L s)) (nodeOf L t) (a, n) := by
        intro t ht
        rcases ht with rfl | ht
        · simp only [nodeOf]; rw [← h2]
        · exact (hT t ht).to_reflTransGen
      have hm1 : meas U s1 < f := by
        have : meas U s1 < meas U s := by
          unfold meas
          apply Finset.card_lt_card
          rw [Finset.ssubset_iff_of_subset]
          · refine ⟨(a, n.index), ?_, ?_⟩
            · rw [Finset.mem_filter]; exact ⟨hU a n.index (by rw [← h2]; exact h1), hnc⟩
            · rw [Finset.mem_filter]; rintro ⟨_, h⟩; apply h; simp [a1]
          · intro c hc
            rw [Finset.mem_filter] at hc ⊢
            refine ⟨hc.1, fun h => hc.2 ?_⟩
            have : c ∈ Kof s1 := by rw [hk1]; exact Set.mem_insert_of_mem _ h
            exact this
        omega
      have hrun := runComp_spec (evaluate_spec hL f) (insert (a, n.index) T) (a, n) (L.compute a n)
        s1 hi1 (by rw [ha]; exact hn') (.here _) (by rw [ha]; exact hT1)
      have htot := runComp_total (evaluate_spec hL f) ih (insert (a, n.index) T) (a, n)
        (L.compute a n) s1 hi1 (by rw [ha]; exact hn') (.here _) (by rw [ha]; exact hT1)
        (by rw [f1.phyla]; exact hU) (by unfold Exists'; rw [f1.phyla, ha]; exact hD)
        (by unfold Exists'; rw [f1.phyla]; exact hn) hm1
      rcases hrest with ⟨e, s2, r, q⟩ | ⟨r, q⟩ | ⟨r, q⟩ | ⟨v, s2, r, q⟩
      · rw [q]; simp
      · exact absurd r htot.1
      · exact absurd r htot.2
      · rw [r] at hrun
        obtain ⟨g1, g2, g3, g4⟩ := hrun
        have hc2 : stOf s2 a n.index = .cycle := g2.cyc a n.index (by rw [a1, upd_same])
        obtain ⟨s3, q, _⟩ := q g1.wf hc2 (f1.trans g2.frame)
        rw [q]; simp

/-! ### Histories -/

/-- What no call ever undoes. -/
structure Kept (L : Lang A P V) (s s' : St A P V) : Prop where
  start : ∀ a, started s a = true → started s' a = true
  value : ∀ a i, started s a = true → stOf s a i = .evaluated ∨ stOf s a i = .assigned →
    stOf s' a i = stOf s a i ∧ vOf L s' a i = vOf L s a i
  count : ∀ p, (s.phyla p).count ≤ (s'.phyla p).count

theorem Kept.refl (L : Lang A P V) (s : St A P V) : Kept L s s :=
  ⟨fun _ h => h, fun _ _ _ _ => ⟨rfl, rfl⟩, fun _ => le_refl _⟩

theorem Kept.trans {L : Lang A P V} {s s' s'' : St A P V} (h : Kept L s s') (h' : Kept L s' s'') :
    Kept L s s'' := by
  refine ⟨fun a x => h'.start a (h.start a x), ?_, fun p => le_trans (h.count p) (h'.count p)⟩
  intro a i x y
  obtain ⟨h1, h2⟩ := h.value a i x y
  obtain ⟨h3, h4⟩ := h'.value a i (h.start a x) (by rw [h1]; exact y)
  exact ⟨h3.trans h1, h4.trans h2⟩

theorem Ext.kept {L : Lang A P V} {s s' : St A P V} (h : Ext L s s') : Kept L s s' := by
  refine ⟨h.started, ?_, fun p => by rw [h.frame.phyla]⟩
  rintro a i _ (hx | hx)
  · obtain ⟨h1, h2⟩ := h.evald a i hx
    exact ⟨h1.trans hx.symm, h2⟩
  · have := congrFun (congrFun h.asg a) i
    simp only [asgOf, hx, if_true] at this
    split at this
    · rename_i h'; exact ⟨h'.trans hx.symm, by simpa using this⟩
    · cases this

/-- Cells of an attribute not yet started may change, if not into CYCLE/EVALUATED. -/
theorem Inv.unstarted {L : Lang A P V} {s s' : St A P V} (hi : Inv L ∅ s) (hw : WF L s') {a : A}
    (ha : started s a = false) (h1 : ∀ b, b ≠ a → stOf s' b = stOf s b)
    (h2 : ∀ b, b ≠ a → vOf L s' b = vOf L s b) (h3 : started s' = started s)
    (h4 : s'.log = s.log) (h5 : ∀ i, stOf s' a i ≠ .cycle ∧ stOf s' a i ≠ .evaluated) :
    Inv L ∅ s' := by
  have hbne : ∀ b, started s b = true → b ≠ a := by rintro b hb rfl; rw [ha] at hb; cases hb
  have hS : Sof s' = Sof s := by unfold Sof; rw [h3]
  have hasg : ∀ b i, Sof s b → asgOf L s' b i = asgOf L s b i := by
    intro b i hb
    unfold asgOf; rw [h1 b (hbne b hb), h2 b (hbne b hb)]
  have hna : ∀ i, stOf s a i ≠ .cycle ∧ stOf s a i ≠ .evaluated := by
    intro i
    constructor
    · intro h; have := hi.cyc a i h; rw [ha] at this; cases this
    · intro h; have := (hi.evald a i h).1; rw [ha] at this; cases this
  have hK : Kof s ⊆ Kof s' := by
    rintro ⟨b, i⟩ hb
    show stOf s' b i = .cycle
    rw [h1 b (hbne b (hi.cyc b i hb))]; exact hb
  refine ⟨hw, ?_, ?_, ?_, by rw [h4]; exact hi.nodup, ?_⟩
  · intro b i h
    have hb : b ≠ a := by rintro rfl; exact (h5 i).2 h
    rw [h1 b hb] at h
    rw [h2 b hb, h3, hS]
    obtain ⟨g1, g2⟩ := hi.evald b i h
    exact ⟨g1, g2.mono (fun _ h => h) hasg⟩
  · intro b i h
    have hb : b ≠ a := by rintro rfl; exact (h5 i).1 h
    rw [h1 b hb] at h; rw [h3]; exact hi.cyc b i h
  · intro b i h _
    have hb : b ≠ a := by rintro rfl; exact (h5 i).1 h
    rw [h1 b hb] at h
    rw [hS]
    exact (hi.stuck b i h (Set.notMem_empty _)).mono (fun _ h => h) hasg hK
      (fun c hc => hi.cyc _ _ hc)
  · intro b i
    rw [h4, hi.log]
    by_cases hb : b = a
    · subst hb; simp [hna i, h5 i]
    · rw [h1 b hb]

/-- A client's `get`. -/
theorem get_inv {L : Lang A P V} {s : St A P V} (hi : Inv L ∅ s) (a : A) (n : Node P) :
    match get L a n s with
    | .ok v s' => Inv L ∅ s' ∧ Kept L s s' ∧ started s' = started s ∧ n.phylum = L.phylum a ∧
        n.index < (s.phyla n.phylum).count ∧
        ∀ i, stOf s' a i = stOf s a i ∨ (stOf s a i = .uninit ∧ stOf s' a i = .uneval)
    | .exc e s' => Inv L ∅ s' ∧ Kept L s s'
    | .ub => True
    | .nofuel => True := by
  rcases get_cases L hi.wf a n with ⟨_, e⟩ | ⟨_, _, e⟩ |
    ⟨h1, h2, ⟨g, s1, e, w1, f1, a1, b1, c1, l1⟩ | ⟨g, g', s1, e, w1, f1, a1, b1, c1, l1⟩ | ⟨v, g, g', s1, e, w1, f1, a1, b1, c1, l1⟩⟩
  · rw [e]; exact trivial
  · rw [e]; exact ⟨hi, Kept.refl L s⟩
  · rw [e]
    refine ⟨hi.congr w1 a1 b1 (fun b h => by rw [c1]; exact h) l1,
      ⟨fun b h => by rw [c1]; exact h, fun b i _ _ => by rw [a1, b1]; exact ⟨rfl, rfl⟩,
        fun p => by rw [f1.phyla]⟩, c1, h2, h1, fun i => by rw [a1]; exact Or.inl rfl⟩
  · rw [e]
    exact ⟨hi.congr w1 a1 b1 (fun b h => by rw [c1]; exact h) l1,
      ⟨fun b h => by rw [c1]; exact h, fun b i _ _ => by rw [a1, b1]; exact ⟨rfl, rfl⟩,
        fun p => by rw [f1.phyla]⟩⟩
  · rw [e]
    have hasg : asgOf L s1 = asgOf L s := by
      funext b i
      unfold asgOf
      rw [a1, b1]
      by_cases hbi : b = a ∧ i = n.index
      · obtain ⟨rfl, rfl⟩ := hbi; simp [g]
      · rw [upd_ne _ hbi, upd_ne _ hbi]
    have hK : Kof s1 = Kof s := by
      ext ⟨b, i⟩
      show stOf s1 b i = .cycle ↔ stOf s b i = .cycle
      rw [a1]
      by_cases hbi : b = a ∧ i = n.index
      · obtain ⟨rfl, rfl⟩ := hbi; simp [g]
      · rw [upd_ne _ hbi]
    have hS : Sof s1 = Sof s := by unfold Sof; rw [c1]
    refine ⟨⟨w1, ?_, ?_, ?_, by rw [l1]; exact hi.nodup, ?_⟩,
      ⟨fun b h => by rw [c1]; exact h, ?_, fun p => by rw [f1.phyla]⟩, c1, h2, h1, ?_⟩
    · intro b i h
      have hbi : ¬ (b = a ∧ i = n.index) := by
        rintro ⟨rfl, rfl⟩; rw [a1, upd_same] at h; cases h
      rw [a1, upd_ne _ hbi] at h
      rw [hasg, hS, c1, b1, upd_ne _ hbi]
      exact hi.evald b i h
    · intro b i h
      have : (b, i) ∈ Kof s := by rw [← hK]; exact h
      rw [c1]; exact hi.cyc b i this
    · intro b i h hT
      have : (b, i) ∈ Kof s := by rw [← hK]; exact h
      rw [hasg, hS, hK]; exact hi.stuck b i this hT
    · intro b i
      rw [l1, hi.log, a1]
      by_cases hbi : b = a ∧ i = n.index
      · obtain ⟨rfl, rfl⟩ := hbi; simp [g]
      · rw [upd_ne _ hbi]
    · intro b i _ h
      have hbi : ¬ (b = a ∧ i = n.index) := by
        rintro ⟨rfl, rfl⟩; rw [g] at h; rcases h with h | h <;> cases h
      rw [a1, b1, upd_ne _ hbi, upd_ne _ hbi]; exact ⟨rfl, rfl⟩
    · intro i
      rw [a1]
      by_cases hbi : i = n.index
      · subst hbi; right; exact ⟨g, by simp⟩
      · left; rw [upd_ne _ (by simp [hbi])]

theorem baseSet_inv {L : Lang A P V} {s : St A P V} (hi : Inv L ∅ s) (a : A) (n : Node P) (v : V)
    (ha : started s a = false) :
    match baseSet L a n v s with
    | .ok _ s' => Inv L ∅ s' ∧ Kept L s s' ∧ started s' = started s
    | .exc e s' => Inv L ∅ s' ∧ Kept L s s' ∧ started s' = started s
    | .ub => True
    | .nofuel => True := by
  rcases baseSet_cases L hi.wf a n v with ⟨_, e⟩ | ⟨_, _, e⟩ | ⟨h1, h2, s1, e, w1, f1, a1, b1, c1, l1⟩
  · rw [e]; exact trivial
  · rw [e]; exact ⟨hi, Kept.refl L s, rfl⟩
  · rw [e]
    have hbne : ∀ b, started s b = true → b ≠ a := by rintro b hb rfl; rw [ha] at hb; cases hb
    refine ⟨hi.unstarted w1 ha ?_ ?_ c1 l1 ?_, ⟨fun b h => by rw [c1]; exact h, ?_,
      fun p => by rw [f1.phyla]⟩, c1⟩
    · intro b hb; funext i; rw [a1, upd_ne _ (by simp [hb])]
    · intro b hb; funext i; rw [b1, upd_ne _ (by simp [hb])]
    · intro i
      rw [a1]
      by_cases hbi : i = n.index
      · subst hbi; simp
      · rw [upd_ne _ (by simp [hbi])]
        constructor
        · intro h; have := hi.cyc a i h; rw [ha] at this; cases this
        · intro h; have := (hi.evald a i h).1; rw [ha] at this; cases this
    · intro b i hb _
      have := hbne b hb
      rw [a1, b1, upd_ne _ (by simp [this]), upd_ne _ (by simp [this])]
      exact ⟨rfl, rfl⟩

theorem assign_inv {L : Lang A P V} {s : St A P V} (hi : Inv L ∅ s) (a : A) (n : Node P) (v : V) :
    match assign L a n v s with
    | .ok _ s' => Inv L ∅ s' ∧ Kept L s s' ∧ started s a = false
    | .exc e s' => Inv L ∅ s' ∧ Kept L s s'
    | .ub => True
    | .nofuel => True := by
  unfold assign
  cases ha : (s.attr a).started with
  | true => simp only [if_true]; exact ⟨hi, Kept.refl L s⟩
  | false =>
    have ha' : started s a = false := ha
    simp only [Bool.false_eq_true, if_false]
    unfold set
    cases hin : L.initial a with
    | none =>
      simp only []
      have := baseSet_inv hi a n v ha'
      cases hb : baseSet L a n v s with
      | ok u s1 => rw [hb] at this; exact ⟨this.1, this.2.1, ha'⟩
      | exc e s1 => rw [hb] at this; exact ⟨this.1, this.2.1⟩
      | ub => exact trivial
      | nofuel => exact trivial
    | some iv =>
      simp only []
      have hg := get_inv hi a n
      cases hgv : get L a n s with
      | ub => exact trivial
      | nofuel => exact trivial
      | exc e s1 => rw [hgv] at hg; exact hg
      | ok old s1 =>
        rw [hgv] at hg
        obtain ⟨g1, g2, g3, _⟩ := hg
        simp only [Out.bind]
        have := baseSet_inv g1 a n (L.combine a old v) (by rw [g3]; exact ha')
        cases hb : baseSet L a n (L.combine a old v) s1 with
        | ok u s2 => rw [hb] at this; exact ⟨this.1, g2.trans this.2.1, ha'⟩
        | exc e s2 => rw [hb] at this; exact ⟨this.1, g2.trans this.2.1⟩
        | ub => exact trivial
        | nofuel => exact trivial

theorem evaluate_inv {L : Lang A P V} (hL : ∀ a, L.circular a = false) {s : St A P V}
    (hi : Inv L ∅ s) (f : Nat) (a : A) (n : Node P) :
    match evaluate L f a n s with
    | .ok v s' => Inv L ∅ s' ∧ Kept L s s'
    | .exc e s' => Inv L ∅ s' ∧ Kept L s s'
    | .ub => True
    | .nofuel => True := by
  have h := evaluate_spec hL f ∅ a n s hi (by simp)
  cases he : evaluate L f a n s with
  | ok v s' => rw [he] at h; exact ⟨h.1, h.2.1.kept⟩
  | exc e s' => rw [he] at h; exact ⟨h.1, h.2.1.kept⟩
  | ub => exact trivial
  | nofuel => exact trivial

theorem finishLoop_inv {L : Lang A P V} (hL : ∀ a, L.circular a = false) (f : Nat) (a : A)
    (k : Nat) : ∀ (i : Nat) {s : St A P V}, Inv L ∅ s →
    match finishLoop L f a k i s with
    | .ok _ s' => Inv L ∅ s' ∧ Kept L s s' 
    | .exc e s' => Inv L ∅ s' ∧ Kept L s s'
    | .ub => True
    | .nofuel => True := by
  induction k with
  | zero => intro i s hi; exact ⟨hi, Kept.refl L s⟩
  | succ k ih =>
    intro i s hi
    simp only [finishLoop]
    have h := evaluate_inv hL hi f a ⟨L.phylum a, i⟩
    cases he : evaluate L f a ⟨L.phylum a, i⟩ s with
    | ub => exact trivial
    | nofuel => exact trivial
    | exc e s1 => rw [he] at h; exact h
    | ok v s1 =>
      rw [he] at h
      simp only [Out.bind]
      have h2 := ih (i + 1) h.1
      cases hf : finishLoop L f a k (i + 1) s1 with
      | ok u s2 => rw [hf] at h2; exact ⟨h2.1, h.2.trans h2.2⟩
      | exc e s2 => rw [hf] at h2; exact ⟨h2.1, h.2.trans h2.2⟩
      | ub => exact trivial
      | nofuel => exact trivial

theorem Inv.same_attr {L : Lang A P V} {T : Set (A × Nat)} {s s' : St A P V} (hi : Inv L T s)
    (h : s'.attr = s.attr) (hl : s'.log = s.log)
    (hc : ∀ p, (s.phyla p).count ≤ (s'.phyla p).count) : Inv L T s' ∧ Kept L s s' := by
  have h1 : stOf s' = stOf s := by funext a i; simp only [stOf, h]
  have h2 : vOf L s' = vOf L s := by funext a i; simp only [vOf, h]
  have h3 : started s' = started s := by funext a; simp only [started, h]
  refine ⟨hi.congr ⟨fun a => by rw [h]; exact hi.wf.len a,
    fun a => by rw [h]; exact le_trans (hi.wf.bound a) (hc _)⟩ h1 h2
    (fun b hb => by rw [h3]; exact hb) hl, ?_⟩
  exact ⟨fun b hb => by rw [h3]; exact hb, fun a i _ _ => by rw [h1, h2]; exact ⟨rfl, rfl⟩, hc⟩

theorem finish_inv {L : Lang A P V} (hL : ∀ a, L.circular a = false) (f : Nat) (a : A)
    {s : St A P V} (hi : Inv L ∅ s) :
    match finish L f a s with
    | .ok _ s' => Inv L ∅ s' ∧ Kept L s s' 
    | .exc e s' => Inv L ∅ s' ∧ Kept L s s'
    | .ub => True
    | .nofuel => True := by
  unfold finish
  cases hcmp : (s.attr a).complete with
  | true => simp only [if_true]; exact ⟨hi, Kept.refl L s⟩
  | false =>
    simp only [Bool.false_eq_true, if_false]
    obtain ⟨i1, k1⟩ := hi.same_attr (s' := { s with phyla := fun q =>
      (if q = L.phylum a then (⟨(s.phyla (L.phylum a)).count, true⟩ : Phylum) else s.phyla q) }) rfl rfl
      (by intro p; simp only; split
          · rename_i h; rw [h]
          · exact le_refl _)
    revert i1 k1
    generalize hs1 : ({ s with phyla := fun q =>
      (if q = L.phylum a then (⟨(s.phyla (L.phylum a)).count, true⟩ : Phylum) else s.phyla q) } : St A P V) = s1
    intro i1 k1
    have hcount : (s.phyla (L.phylum a)).count = (s1.phyla (L.phylum a)).count := by
      rw [← hs1]; simp
    have hat : s.attr a = s1.attr a := by rw [← hs1]
    rw [hcount, hat]
    obtain ⟨w2, f2, a2, b2, c2, d2, _⟩ := resize_attr_spec L i1.wf a
      (s1.phyla (L.phylum a)).count (i1.wf.bound a) (le_refl _)
    revert w2 f2 a2 b2 c2 d2
    generalize (s1.setAttr a { s1.attr a with
      vals := resize (s1.phyla (L.phylum a)).count L.dflt (s1.attr a).vals,
      stat := resize (s1.phyla (L.phylum a)).count .uninit (s1.attr a).stat }) = s2
    intro w2 f2 a2 b2 c2 d2
    have i2 : Inv L ∅ s2 := i1.congr w2 a2 b2 (fun b h => by rw [c2]; exact h) d2
    have k2 : Kept L s1 s2 := ⟨fun b h => by rw [c2]; exact h,
      fun b i _ _ => by rw [a2, b2]; exact ⟨rfl, rfl⟩, fun p => by rw [f2.phyla]⟩
    have h3 := finishLoop_inv hL f a (s1.phyla (L.phylum a)).count 0 i2
    cases hf : finishLoop L f a (s1.phyla (L.phylum a)).count 0 s2 with
    | ub => exact trivial
    | nofuel => exact trivial
    | exc e s3 => rw [hf] at h3; exact ⟨h3.1, (k1.trans k2).trans h3.2⟩
    | ok u s3 =>
      rw [hf] at h3
      obtain ⟨i3, k3⟩ := h3
      simp only [Out.bind]
      have h1 : stOf (s3.setAttr a { s3.attr a with complete := true }) = stOf s3 := by
        funext b i; unfold stOf; rw [setAttr_attr]; split
        · rename_i h; subst h; rfl
        · rfl
      have h2 : vOf L (s3.setAttr a { s3.attr a with complete := true }) = vOf L s3 := by
        funext b i; unfold vOf; rw [setAttr_attr]; split
        · rename_i h; subst h; rfl
        · rfl
      have h4 : started (s3.setAttr a { s3.attr a with complete := true }) = started s3 := by
        funext b; unfold started; rw [setAttr_attr]; split
        · rename_i h; subst h; rfl
        · rfl
      refine ⟨i3.congr ⟨?_, ?_⟩ h1 h2 (fun b h => by rw [h4]; exact h) rfl,
        ((k1.trans k2).trans k3).trans ⟨fun b h => by rw [h4]; exact h,
          fun b i _ _ => by rw [h1, h2]; exact ⟨rfl, rfl⟩, fun p => le_refl _⟩⟩
      · intro b; rw [setAttr_attr]; split
        · rename_i h; subst h; exact i3.wf.len b
        · exact i3.wf.len b
      · intro b; rw [setAttr_attr]; split
        · rename_i h; subst h; exact i3.wf.bound b
        · exact i3.wf.bound b

theorem newNode_inv {L : Lang A P V} (p : P) {s : St A P V} (hi : Inv L ∅ s) :
    match newNode p s with
    | .ok _ s' => Inv L ∅ s' ∧ Kept L s s' 
    | .exc e s' => Inv L ∅ s' ∧ Kept L s s'
    | .ub => True
    | .nofuel => True := by
  unfold newNode
  cases hc : (s.phyla p).complete with
  | true => simp only [if_true]; exact ⟨hi, Kept.refl L s⟩
  | false =>
    simp only [Bool.false_eq_true, if_false]
    refine hi.same_attr rfl rfl ?_
    intro q
    simp only
    split
    · rename_i h; rw [h]; simp
    · exact le_refl _

theorem call_inv {L : Lang A P V} (hL : ∀ a, L.circular a = false) (f : Nat) (op : Op A P V)
    {s : St A P V} (hi : Inv L ∅ s) :
    match call L f op s with
    | .ok _ s' => Inv L ∅ s' ∧ Kept L s s' 
    | .exc e s' => Inv L ∅ s' ∧ Kept L s s'
    | .ub => True
    | .nofuel => True := by
  cases op with
  | newNode p =>
    have h := newNode_inv (L := L) p hi
    simp only [call]
    cases he : newNode p s <;> rw [he] at h <;> first | exact trivial | exact h
  | assign a n v =>
    have h := assign_inv hi a n v
    simp only [call]
    cases he : assign L a n v s <;> rw [he] at h <;>
      first | exact trivial | exact ⟨h.1, h.2.1⟩ | exact h
  | get a n =>
    have h := get_inv hi a n
    simp only [call]
    cases he : get L a n s <;> rw [he] at h <;>
      first | exact trivial | exact ⟨h.1, h.2.1⟩ | exact h
  | evaluate a n =>
    have h := evaluate_inv hL hi f a n
    simp only [call]
    cases he : evaluate L f a n s <;> rw [he] at h <;> first | exact trivial | exact h
  | finish a =>
    have h := finish_inv hL f a hi
    simp only [call]
    cases he : finish L f a s <;> rw [he] at h <;> first | exact trivial | exact h

theorem History.inv {L : Lang A P V} (hL : ∀ a, L.circular a = false) {s s' : St A P V}
    {ops : List (Op A P V)} (h : History L s ops s') (hi : Inv L ∅ s) :
    Inv L ∅ s' ∧ Kept L s s' := by
  induction h with
  | nil s => exact ⟨hi, Kept.refl L s⟩
  | @ok _ _ _ op _ _ f he _ ih =>
    have := call_inv hL f op hi
    rw [he] at this
    obtain ⟨h1, h2⟩ := ih this.1
    exact ⟨h1, this.2.trans h2⟩
  | @exc _ _ _ op _ _ f he _ ih =>
    have := call_inv hL f op hi
    rw [he] at this
    obtain ⟨h1, h2⟩ := ih this.1
    exact ⟨h1, this.2.trans h2⟩

theorem init_inv (L : Lang A P V) : Inv L ∅ (init : St A P V) := by
  refine ⟨⟨fun _ => rfl, fun _ => Nat.zero_le _⟩, ?_, ?_, ?_, List.nodup_nil, ?_⟩
  · intro a i h; simp [stOf, init] at h
  · intro a i h; simp [stOf, init] at h
  · intro a i h; simp [stOf, init] at h
  · intro a i; simp [stOf, init]

/-! ### Calls that do not throw leave no cell in CYCLE -/

theorem get_ok_K {L : Lang A P V} {s s' : St A P V} (hi : Inv L ∅ s) {a : A} {n : Node P} {v : V}
    (h : get L a n s = .ok v s') : Kof s' = Kof s := by
  rcases get_cases L hi.wf a n with ⟨_, e⟩ | ⟨_, _, e⟩ |
    ⟨h1, h2, ⟨g, s1, e, w1, f1, a1, b1, c1, l1⟩ | ⟨g, g', s1, e, w1, f1, a1, b1, c1, l1⟩ | ⟨v, g, g', s1, e, w1, f1, a1, b1, c1, l1⟩⟩
  · rw [e] at h; cases h
  · rw [e] at h; cases h
  · rw [e] at h; cases h; unfold Kof; rw [a1]
  · rw [e] at h; cases h
  · rw [e] at h; cases h
    ext ⟨b, i⟩
    show stOf s' b i = .cycle ↔ stOf s b i = .cycle
    rw [a1]
    by_cases hbi : b = a ∧ i = n.index
    · obtain ⟨rfl, rfl⟩ := hbi; simp [g]
    · rw [upd_ne _ hbi]

theorem baseSet_ok_K {L : Lang A P V} {s s' : St A P V} (hi : Inv L ∅ s) {a : A} {n : Node P}
    {v : V} {u : Unit} (ha : started s a = false) (h : baseSet L a n v s = .ok u s') :
    Kof s' = Kof s := by
  rcases baseSet_cases L hi.wf a n v with ⟨_, e⟩ | ⟨_, _, e⟩ | ⟨h1, h2, s1, e, w1, f1, a1, b1, c1, l1⟩
  · rw [e] at h; cases h
  · rw [e] at h; cases h
  · rw [e] at h; cases h
    ext ⟨b, i⟩
    show stOf s' b i = .cycle ↔ stOf s b i = .cycle
    rw [a1]
    by_cases hbi : b = a ∧ i = n.index
    · obtain ⟨rfl, rfl⟩ := hbi
      simp only [upd_same]
      constructor
      · intro h; cases h
      · intro h; have := hi.cyc _ _ h; rw [ha] at this; cases this
    · rw [upd_ne _ hbi]

theorem evaluate_ok_K {L : Lang A P V} (hL : ∀ a, L.circular a = false) {s s' : St A P V}
    (hi : Inv L ∅ s) {f : Nat} {a : A} {n : Node P} {v : V} (h : evaluate L f a n s = .ok v s') :
    Kof s' = Kof s := by
  have h' := evaluate_spec hL f ∅ a n s hi (by simp)
  rw [h] at h'
  exact h'.2.2.1

theorem finishLoop_ok_K {L : Lang A P V} (hL : ∀ a, L.circular a = false) {f : Nat} {a : A}
    (k : Nat) : ∀ (i : Nat) {s s' : St A P V} {u : Unit}, Inv L ∅ s →
      finishLoop L f a k i s = .ok u s' → Kof s' = Kof s := by
  induction k with
  | zero => intro i s s' u _ h; simp only [finishLoop] at h; cases h; rfl
  | succ k ih =>
    intro i s s' u hi h
    simp only [finishLoop] at h
    have h1 := evaluate_inv hL hi f a ⟨L.phylum a, i⟩
    cases he : evaluate L f a ⟨L.phylum a, i⟩ s with
    | ub => rw [he] at h; cases h
    | nofuel => rw [he] at h; cases h
    | exc e s1 => rw [he] at h; cases h
    | ok v s1 =>
      rw [he] at h h1
      exact (ih (i + 1) h1.1 h).trans (evaluate_ok_K hL hi he)

theorem call_ok_K {L : Lang A P V} (hL : ∀ a, L.circular a = false) {f : Nat} {op : Op A P V}
    {s s' : St A P V} {r : Ret V} (hi : Inv L ∅ s) (h : call L f op s = .ok r s') :
    Kof s' = Kof s := by
  cases op with
  | newNode p =>
    simp only [call, newNode] at h
    split at h
    · cases h
    · simp only [Out.map, Out.ok.injEq] at h
      rw [← h.2]; rfl
  | assign a n v =>
    simp only [call] at h
    cases he : assign L a n v s with
    | ub => rw [he] at h; cases h
    | nofuel => rw [he] at h; cases h
    | exc e s1 => rw [he] at h; cases h
    | ok u s1 =>
      rw [he] at h
      simp only [Out.map, Out.ok.injEq] at h
      rw [← h.2]
      unfold assign at he
      cases ha : (s.attr a).started with
      | true => rw [ha] at he; simp at he
      | false =>
        rw [ha] at he
        simp only [Bool.false_eq_true, if_false] at he
        unfold set at he
        cases hin : L.initial a with
        | none => rw [hin] at he; exact baseSet_ok_K hi ha he
        | some iv =>
          rw [hin] at he
          simp only at he
          have hg := get_inv hi a n
          cases hgv : get L a n s with
          | ub => rw [hgv] at he; cases he
          | nofuel => rw [hgv] at he; cases he
          | exc e s1 => rw [hgv] at he; cases he
          | ok old s2 =>
            rw [hgv] at he hg
            simp only [Out.bind] at he
            have ha' : started s2 a = false := by rw [hg.2.2.1]; exact ha
            exact (baseSet_ok_K hg.1 ha' he).trans (get_ok_K hi hgv)
  | get a n =>
    simp only [call] at h
    cases he : get L a n s with
    | ub => rw [he] at h; cases h
    | nofuel => rw [he] at h; cases h
    | exc e s1 => rw [he] at h; cases h
    | ok u s1 =>
      rw [he] at h
      simp only [Out.map, Out.ok.injEq] at h
      rw [← h.2]
      exact get_ok_K hi he
  | evaluate a n =>
    simp only [call] at h
    cases he : evaluate L f a n s with
    | ub => rw [he] at h; cases h
    | nofuel => rw [he] at h; cases h
    | exc e s1 => rw [he] at h; cases h
    | ok u s1 =>
      rw [he] at h
      simp only [Out.map, Out.ok.injEq] at h
      rw [← h.2]
      exact evaluate_ok_K hL hi he
  | finish a =>
    simp only [call] at h
    cases he : finish L f a s with
    | ub => rw [he] at h; cases h
    | nofuel => rw [he] at h; cases h
    | exc e s1 => rw [he] at h; cases h
    | ok u s1 =>
      rw [he] at h
      simp only [Out.map, Out.ok.injEq] at h
      rw [← h.2]
      unfold finish at he
      cases hcmp : (s.attr a).complete with
      | true => rw [hcmp] at he; simp only [if_true, Out.ok.injEq] at he; rw [he.2]
      | false =>
        rw [hcmp] at he
        simp only [Bool.false_eq_true, if_false] at he
        obtain ⟨i1, k1⟩ := hi.same_attr (s' := { s with phyla := fun q =>
          (if q = L.phylum a then (⟨(s.phyla (L.phylum a)).count, true⟩ : Phylum) else s.phyla q) })
          rfl rfl
          (by intro p; simp only; split
              · rename_i h; rw [h]
              · exact le_refl _)
        have hkk : Kof ({ s with phyla := fun q =>
          (if q = L.phylum a then (⟨(s.phyla (L.phylum a)).count, true⟩ : Phylum)
            else s.phyla q) } : St A P V) = Kof s := rfl
        revert i1 k1 he hkk
        generalize hs2 : ({ s with phyla := fun q =>
          (if q = L.phylum a then (⟨(s.phyla (L.phylum a)).count, true⟩ : Phylum)
            else s.phyla q) } : St A P V) = s2
        intro he i1 k1 hkk
        have hcount : (s.phyla (L.phylum a)).count = (s2.phyla (L.phylum a)).count := by
          rw [← hs2]; simp
        have hat : s.attr a = s2.attr a := by rw [← hs2]
        rw [hcount, hat] at he
        obtain ⟨w2, f2, a2, b2, c2, d2, _⟩ := resize_attr_spec L i1.wf a
          (s2.phyla (L.phylum a)).count (i1.wf.bound a) (le_refl _)
        revert w2 f2 a2 b2 c2 d2 he
        generalize (s2.setAttr a { s2.attr a with
          vals := resize (s2.phyla (L.phylum a)).count L.dflt (s2.attr a).vals,
          stat := resize (s2.phyla (L.phylum a)).count .uninit (s2.attr a).stat }) = s3
        intro he w2 f2 a2 b2 c2 d2
        have i2 : Inv L ∅ s3 := i1.congr w2 a2 b2 (fun b h => by rw [c2]; exact h) d2
        cases hf : finishLoop L f a (s2.phyla (L.phylum a)).count 0 s3 with
        | ub => rw [hf] at he; cases he
        | nofuel => rw [hf] at he; cases he
        | exc e s4 => rw [hf] at he; cases he
        | ok u' s4 =>
          rw [hf] at he
          simp only [Out.bind, Out.ok.injEq] at he
          rw [← he.2]
          have h1 := finishLoop_ok_K hL _ _ i2 hf
          have h2 : Kof s3 = Kof s2 := by unfold Kof; rw [a2]
          rw [← hkk, ← h2, ← h1]
          ext ⟨b, i⟩
          show stOf _ b i = .cycle ↔ stOf s4 b i = .cycle
          unfold stOf; rw [setAttr_attr]; split
          · rename_i h; subst h; exact Iff.rfl
          · exact Iff.rfl

/-- On a demand cycle nothing is defined. -/
theorem Runs.acc {L : Lang A P V} {asg : A → Nat → Option V} {S : A → Prop} {c : Comp A P V} {v : V}
    (h : Runs L asg S c v) : ∀ (y : A × Node P) k', Reaches L asg c (.read y.1 y.2 k') →
      Acc (fun p q => Demands L asg q p) y := by
  induction h with
  | ret v => intro y k' hr; cases hr
  | @given b m k w v h1 h2 h3 h4 ih =>
    intro y k' hr
    cases hr with
    | here =>
      constructor
      rintro z ⟨hz, _⟩
      rw [h3] at hz; cases hz
    | step g1 g2 =>
      have : w = _ := (Runs.given h1 h2 h3 (.ret _)).det g1
      subst this; exact ih y k' g2
  | @eqn b m k w v h1 h2 h3 h4 h5 ih1 ih2 =>
    intro y k' hr
    cases hr with
    | here =>
      constructor
      rintro z ⟨hz, k2, hr2⟩
      exact ih1 z k2 hr2
    | step g1 g2 =>
      have : w = _ := (Runs.eqn h1 h2 h3 h4 (.ret _)).det g1
      subst this; exact ih2 y k' g2

theorem Den.acc {L : Lang A P V} {asg : A → Nat → Option V} {a : A} {n : Node P} {v : V}
    (h : Den L asg a n v) : Acc (fun p q => Demands L asg q p) (a, n) :=
  Runs.acc h (a, n) _ (.here _)

theorem Den.no_cycle {L : Lang A P V} {asg : A → Nat → Option V} {a : A} {n : Node P} {v : V}
    (h : Den L asg a n v) (y : A × Node P) (hy : Relation.ReflTransGen (Demands L asg) (a, n) y) :
    ¬ Relation.TransGen (Demands L asg) y y := by
  have hacc : Acc (fun p q => Demands L asg q p) y := by
    induction hy with
    | refl => exact h.acc
    | tail _ hd ih => exact ih.inv hd
  intro hc
  have : Acc (Relation.TransGen (fun p q => Demands L asg q p)) y := hacc.transGen
  have hc' : Relation.TransGen (fun p q => Demands L asg q p) y y := by
    have := Relation.transGen_swap (r := Demands L asg) (a := y) (b := y)
    exact this.2 hc
  have key : ∀ x, Acc (Relation.TransGen (fun p q => Demands L asg q p)) x →
      Relation.TransGen (fun p q => Demands L asg q p) x x → False := by
    intro x hx
    induction hx with
    | intro x _ ih => intro h; exact ih x h h
  exact key y this hc'

end Aps.Runtime
