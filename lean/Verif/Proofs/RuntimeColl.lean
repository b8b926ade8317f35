import Verif.Proofs.RuntimeTotal
set_option linter.unusedSectionVars false
set_option linter.unusedVariables false
/-! Collections: one cell over a history. -/
namespace Aps.Runtime
variable {A P V : Type} [DecidableEq A] [DecidableEq P]

structure Quiet (L : Lang A P V) (a : A) (i : Nat) (iv : V) (s s' : St A P V) : Prop where
  asg : stOf s' a i = .assigned ↔ stOf s a i = .assigned
  val : stOf s a i = .assigned → vOf L s' a i = vOf L s a i
  idle : stOf s' a i = .uneval → (stOf s a i = .uneval ∧ vOf L s' a i = vOf L s a i) ∨
    vOf L s' a i = iv

theorem Quiet.refl (L : Lang A P V) (a : A) (i : Nat) (iv : V) (s : St A P V) :
    Quiet L a i iv s s := ⟨Iff.rfl, fun _ => rfl, fun h => Or.inl ⟨h, rfl⟩⟩

theorem Quiet.trans {L : Lang A P V} {a : A} {i : Nat} {iv : V} {s s' s'' : St A P V}
    (h : Quiet L a i iv s s') (h' : Quiet L a i iv s' s'') : Quiet L a i iv s s'' := by
  refine ⟨h'.asg.trans h.asg, fun x => (h'.val (h.asg.2 x)).trans (h.val x), ?_⟩
  intro x
  rcases h'.idle x with ⟨y, e⟩ | e
  · rcases h.idle y with ⟨z, e'⟩ | e'
    · exact Or.inl ⟨z, e.trans e'⟩
    · exact Or.inr (e.trans e')
  · exact Or.inr e

theorem Quiet.of_eq {L : Lang A P V} {a : A} {i : Nat} {iv : V} {s s' : St A P V}
    (h1 : stOf s' a i = stOf s a i) (h2 : vOf L s' a i = vOf L s a i) : Quiet L a i iv s s' :=
  ⟨by rw [h1], fun _ => h2, fun h => Or.inl ⟨by rw [← h1]; exact h, h2⟩⟩

theorem Ext.quiet {L : Lang A P V} {s s' : St A P V} (h : Ext L s s') (a : A) (i : Nat) (iv : V) :
    Quiet L a i iv s s' := by
  have hasg := congrFun (congrFun h.asg a) i
  simp only [asgOf] at hasg
  refine ⟨?_, ?_, fun hx => Or.inl (h.idle a i hx)⟩
  · by_cases h1 : stOf s' a i = .assigned <;> by_cases h2 : stOf s a i = .assigned <;>
      simp [h1, h2] at hasg ⊢
  · intro h2
    by_cases h1 : stOf s' a i = .assigned
    · simpa [h1, h2] using hasg
    · simp [h1, h2] at hasg

theorem get_quiet {L : Lang A P V} {s : St A P V} (hw : WF L s) (b : A) (m : Node P) (a : A)
    (i : Nat) (iv : V) (hiv : L.initial a = some iv) :
    match get L b m s with
    | .ok v s' => Quiet L a i iv s s' ∧ (b = a → m.index = i →
        (stOf s a i ≠ .uninit ∧ v = vOf L s a i) ∨ (stOf s a i = .uninit ∧ v = iv))
    | .exc e s' => Quiet L a i iv s s'
    | .ub => True
    | .nofuel => True := by
  rcases get_cases L hw b m with ⟨_, e⟩ | ⟨_, _, e⟩ |
    ⟨h1, h2, ⟨g, s1, e, w1, f1, a1, b1, c1, l1⟩ | ⟨g, g', s1, e, w1, f1, a1, b1, c1, l1⟩ | ⟨v, g, g', s1, e, w1, f1, a1, b1, c1, l1⟩⟩
  · rw [e]; exact trivial
  · rw [e]; exact Quiet.refl L a i iv s
  · rw [e]
    refine ⟨Quiet.of_eq (by rw [a1]) (by rw [b1]), ?_⟩
    rintro rfl rfl
    exact Or.inl ⟨g, rfl⟩
  · rw [e]; exact Quiet.of_eq (by rw [a1]) (by rw [b1])
  · rw [e]
    by_cases hbi : a = b ∧ i = m.index
    · obtain ⟨rfl, rfl⟩ := hbi
      rw [hiv] at g'; cases g'
      refine ⟨⟨?_, ?_, ?_⟩, ?_⟩
      · rw [a1, upd_same, g]; simp
      · intro h; rw [g] at h; cases h
      · intro _; right; rw [b1, upd_same]
      · intro _ _; right; exact ⟨g, rfl⟩
    · refine ⟨Quiet.of_eq (by rw [a1, upd_ne _ hbi]) (by rw [b1, upd_ne _ hbi]), ?_⟩
      rintro rfl rfl
      exact absurd ⟨rfl, rfl⟩ hbi

/-- The state of one cell of a collection after the contributions `us`. -/
def CellInv (L : Lang A P V) (a : A) (i : Nat) (iv : V) (us : List V) (s : St A P V) : Prop :=
  (us ≠ [] → stOf s a i = .assigned ∧ vOf L s a i = us.foldl (L.combine a) iv) ∧
  (us = [] → stOf s a i ≠ .assigned ∧ (stOf s a i = .uneval → vOf L s a i = iv))

theorem CellInv.quiet {L : Lang A P V} {a : A} {i : Nat} {iv : V} {us : List V} {s s' : St A P V}
    (h : CellInv L a i iv us s) (q : Quiet L a i iv s s') : CellInv L a i iv us s' := by
  constructor
  · intro hu
    obtain ⟨h1, h2⟩ := h.1 hu
    exact ⟨q.asg.2 h1, (q.val h1).trans h2⟩
  · intro hu
    obtain ⟨h1, h2⟩ := h.2 hu
    refine ⟨fun h => h1 (q.asg.1 h), fun hx => ?_⟩
    rcases q.idle hx with ⟨y, e⟩ | e
    · exact e.trans (h2 y)
    · exact e

theorem baseSet_other {L : Lang A P V} {s : St A P V} (hw : WF L s) (b : A) (m : Node P) (v : V)
    (a : A) (i : Nat) (iv : V) (hne : ¬ (b = a ∧ m.index = i)) :
    match baseSet L b m v s with
    | .ok _ s' => Quiet L a i iv s s'
    | .exc e s' => Quiet L a i iv s s'
    | .ub => True
    | .nofuel => True := by
  have hne' : ¬ (a = b ∧ i = m.index) := fun h => hne ⟨h.1.symm, h.2.symm⟩
  rcases baseSet_cases L hw b m v with ⟨_, e⟩ | ⟨_, _, e⟩ | ⟨h1, h2, s1, e, w1, f1, a1, b1, c1, l1⟩
  · rw [e]; exact trivial
  · rw [e]; exact Quiet.refl L a i iv s
  · rw [e]; exact Quiet.of_eq (by rw [a1, upd_ne _ hne']) (by rw [b1, upd_ne _ hne'])

theorem assign_other {L : Lang A P V} {s : St A P V} (hi : Inv L ∅ s) (b : A) (m : Node P) (v : V)
    (a : A) (i : Nat) (iv : V) (hiv : L.initial a = some iv) (hne : ¬ (b = a ∧ m.index = i)) :
    match assign L b m v s with
    | .ok _ s' => Quiet L a i iv s s'
    | .exc e s' => Quiet L a i iv s s'
    | .ub => True
    | .nofuel => True := by
  unfold assign
  cases ha : (s.attr b).started with
  | true => simp only [if_true]; exact Quiet.refl L a i iv s
  | false =>
    simp only [Bool.false_eq_true, if_false]
    unfold set
    cases hin : L.initial b with
    | none => exact baseSet_other hi.wf b m v a i iv hne
    | some jv =>
      simp only []
      have hg := get_quiet hi.wf b m a i iv hiv
      have hg' := get_inv hi b m
      cases hgv : get L b m s with
      | ub => exact trivial
      | nofuel => exact trivial
      | exc e s1 => rw [hgv] at hg; exact hg
      | ok old s1 =>
        rw [hgv] at hg hg'
        simp only [Out.bind]
        have h := baseSet_other hg'.1.wf b m (L.combine b old v) a i iv hne
        cases hb : baseSet L b m (L.combine b old v) s1 with
        | ub => exact trivial
        | nofuel => exact trivial
        | ok u s2 => rw [hb] at h; exact hg.1.trans h
        | exc e s2 => rw [hb] at h; exact hg.1.trans h

/-- A refused assignment to the cell itself. -/
theorem assign_exc_quiet {L : Lang A P V} {s s' : St A P V} (hi : Inv L ∅ s) {a : A} {n : Node P}
    {v iv : V} {e : Exc} (i : Nat) (hiv : L.initial a = some iv)
    (h : assign L a n v s = .exc e s') : Quiet L a i iv s s' := by
  unfold assign at h
  cases ha : (s.attr a).started with
  | true => rw [ha] at h; simp only [if_true, Out.exc.injEq] at h; rw [← h.2]; exact Quiet.refl ..
  | false =>
    rw [ha] at h
    simp only [Bool.false_eq_true, if_false, set, hiv] at h
    have hg := get_quiet hi.wf a n a i iv hiv
    have hg' := get_inv hi a n
    cases hgv : get L a n s with
    | ub => rw [hgv] at h; cases h
    | nofuel => rw [hgv] at h; cases h
    | exc e1 s1 =>
      rw [hgv] at h hg; simp only [Out.bind, Out.exc.injEq] at h; rw [← h.2]; exact hg
    | ok old s1 =>
      rw [hgv] at h hg hg'
      simp only [Out.bind] at h
      rcases baseSet_cases L hg'.1.wf a n (L.combine a old v) with ⟨_, e1⟩ | ⟨_, _, e1⟩ | ⟨h1, h2, s2, e1, _⟩
      · rw [e1] at h; cases h
      · rw [e1] at h; simp only [Out.exc.injEq] at h; rw [← h.2]; exact hg.1
      · rw [e1] at h; cases h

/-- An accepted contribution. -/
theorem assign_ok_cell {L : Lang A P V} {s s' : St A P V} (hi : Inv L ∅ s) {a : A} {n : Node P}
    {v iv : V} {u : Unit} {us : List V} (hiv : L.initial a = some iv)
    (hc : CellInv L a n.index iv us s) (h : assign L a n v s = .ok u s') :
    CellInv L a n.index iv (us ++ [v]) s' := by
  unfold assign at h
  cases ha : (s.attr a).started with
  | true => rw [ha] at h; cases h
  | false =>
    rw [ha] at h
    simp only [Bool.false_eq_true, if_false, set, hiv] at h
    have hg := get_quiet hi.wf a n a n.index iv hiv
    have hg' := get_inv hi a n
    cases hgv : get L a n s with
    | ub => rw [hgv] at h; cases h
    | nofuel => rw [hgv] at h; cases h
    | exc e1 s1 => rw [hgv] at h; cases h
    | ok old s1 =>
      rw [hgv] at h hg hg'
      simp only [Out.bind] at h
      have hold : old = us.foldl (L.combine a) iv := by
        have h1 := hg.2 rfl rfl
        by_cases hu : us = []
        · obtain ⟨g1, g2⟩ := hc.2 hu
          subst hu
          rcases h1 with ⟨x, y⟩ | ⟨x, y⟩
          · rw [y]
            have hs : started s a = false := ha
            cases hst : stOf s a n.index with
            | uninit => exact absurd hst x
            | uneval => exact g2 hst
            | assigned => exact absurd hst g1
            | cycle => have := hi.cyc _ _ hst; rw [hs] at this; cases this
            | evaluated => have := (hi.evald _ _ hst).1; rw [hs] at this; cases this
          · exact y
        · obtain ⟨g1, g2⟩ := hc.1 hu
          rcases h1 with ⟨x, y⟩ | ⟨x, y⟩
          · rw [y, g2]
          · rw [g1] at x; cases x
      rcases baseSet_cases L hg'.1.wf a n (L.combine a old v) with ⟨_, e1⟩ | ⟨_, _, e1⟩ | ⟨h1, h2, s2, e1, w1, f1, a1, b1, c1, l1⟩
      · rw [e1] at h; cases h
      · rw [e1] at h; cases h
      · rw [e1] at h; cases h
        refine ⟨fun _ => ⟨by rw [a1, upd_same], ?_⟩, fun hx => by simp at hx⟩
        rw [b1, upd_same, List.foldl_append, hold]; rfl

theorem finishLoop_quiet {L : Lang A P V} (hL : ∀ a, L.circular a = false) (f : Nat) (b : A)
    (a : A) (i : Nat) (iv : V) (k : Nat) : ∀ (j : Nat) {s : St A P V}, Inv L ∅ s →
    match finishLoop L f b k j s with
    | .ok _ s' => Quiet L a i iv s s'
    | .exc e s' => Quiet L a i iv s s'
    | .ub => True
    | .nofuel => True := by
  induction k with
  | zero => intro j s hi; exact Quiet.refl L a i iv s
  | succ k ih =>
    intro j s hi
    simp only [finishLoop]
    have h := evaluate_spec hL f ∅ b ⟨L.phylum b, j⟩ s hi (by simp)
    cases he : evaluate L f b ⟨L.phylum b, j⟩ s with
    | ub => exact trivial
    | nofuel => exact trivial
    | exc e s1 => rw [he] at h; exact h.2.1.quiet a i iv
    | ok v s1 =>
      rw [he] at h
      simp only [Out.bind]
      have h2 := ih (j + 1) h.1
      cases hf : finishLoop L f b k (j + 1) s1 with
      | ub => exact trivial
      | nofuel => exact trivial
      | ok u s2 => rw [hf] at h2; exact (h.2.1.quiet a i iv).trans h2
      | exc e s2 => rw [hf] at h2; exact (h.2.1.quiet a i iv).trans h2

theorem finish_quiet {L : Lang A P V} (hL : ∀ a, L.circular a = false) (f : Nat) (b : A)
    (a : A) (i : Nat) (iv : V) {s : St A P V} (hi : Inv L ∅ s) :
    match finish L f b s with
    | .ok _ s' => Quiet L a i iv s s'
    | .exc e s' => Quiet L a i iv s s'
    | .ub => True
    | .nofuel => True := by
  unfold finish
  cases hcmp : (s.attr b).complete with
  | true => simp only [if_true]; exact Quiet.refl L a i iv s
  | false =>
    simp only [Bool.false_eq_true, if_false]
    obtain ⟨i1, k1⟩ := hi.same_attr (s' := { s with phyla := fun q =>
      (if q = L.phylum b then (⟨(s.phyla (L.phylum b)).count, true⟩ : Phylum) else s.phyla q) }) rfl rfl
      (by intro p; simp only; split
          · rename_i h; rw [h]
          · exact le_refl _)
    have q1 : Quiet L a i iv s ({ s with phyla := fun q =>
      (if q = L.phylum b then (⟨(s.phyla (L.phylum b)).count, true⟩ : Phylum)
        else s.phyla q) } : St A P V) := Quiet.of_eq rfl rfl
    revert i1 k1 q1
    generalize hs1 : ({ s with phyla := fun q =>
      (if q = L.phylum b then (⟨(s.phyla (L.phylum b)).count, true⟩ : Phylum) else s.phyla q) } : St A P V) = s1
    intro i1 k1 q1
    have hcount : (s.phyla (L.phylum b)).count = (s1.phyla (L.phylum b)).count := by
      rw [← hs1]; simp
    have hat : s.attr b = s1.attr b := by rw [← hs1]
    rw [hcount, hat]
    obtain ⟨w2, f2, a2, b2, c2, d2, _⟩ := resize_attr_spec L i1.wf b
      (s1.phyla (L.phylum b)).count (i1.wf.bound b) (le_refl _)
    revert w2 f2 a2 b2 c2 d2
    generalize (s1.setAttr b { s1.attr b with
      vals := resize (s1.phyla (L.phylum b)).count L.dflt (s1.attr b).vals,
      stat := resize (s1.phyla (L.phylum b)).count .uninit (s1.attr b).stat }) = s2
    intro w2 f2 a2 b2 c2 d2
    have i2 : Inv L ∅ s2 := i1.congr w2 a2 b2 (fun b h => by rw [c2]; exact h) d2
    have q2 : Quiet L a i iv s1 s2 := Quiet.of_eq (by rw [a2]) (by rw [b2])
    have h3 := finishLoop_quiet hL f b a i iv (s1.phyla (L.phylum b)).count 0 i2
    cases hf : finishLoop L f b (s1.phyla (L.phylum b)).count 0 s2 with
    | ub => exact trivial
    | nofuel => exact trivial
    | exc e s3 => rw [hf] at h3; exact (q1.trans q2).trans h3
    | ok u s3 =>
      rw [hf] at h3
      simp only [Out.bind]
      refine ((q1.trans q2).trans h3).trans (Quiet.of_eq ?_ ?_)
      · unfold stOf; rw [setAttr_attr]; split
        · rename_i h; subst h; rfl
        · rfl
      · unfold vOf; rw [setAttr_attr]; split
        · rename_i h; subst h; rfl
        · rfl

/-- Calls made, and the contributions accepted for attribute `a` at node `n`. -/
inductive Contributed (L : Lang A P V) (a : A) (n : Node P) : St A P V → List V → St A P V → Prop
  | nil (s) : Contributed L a n s [] s
  | accepted {s s1 s2 v vs u} : assign L a n v s = .ok u s1 → Contributed L a n s1 vs s2 →
      Contributed L a n s (v :: vs) s2
  | refused {s s1 s2 v vs e} : assign L a n v s = .exc e s1 → Contributed L a n s1 vs s2 →
      Contributed L a n s vs s2
  | other {s s1 s2 op vs r} (fuel : Nat) : (∀ v, op ≠ .assign a n v) →
      call L fuel op s = .ok r s1 → Contributed L a n s1 vs s2 → Contributed L a n s vs s2
  | failed {s s1 s2 op vs e} (fuel : Nat) : (∀ v, op ≠ .assign a n v) →
      call L fuel op s = .exc e s1 → Contributed L a n s1 vs s2 → Contributed L a n s vs s2

theorem call_quiet {L : Lang A P V} (hL : ∀ a, L.circular a = false) (f : Nat) (op : Op A P V)
    {s : St A P V} (hi : Inv L ∅ s) (a : A) (n : Node P) (hn : n.phylum = L.phylum a) (iv : V)
    (hiv : L.initial a = some iv) (hop : ∀ v, op ≠ .assign a n v) :
    match call L f op s with
    | .ok _ s' => Quiet L a n.index iv s s'
    | .exc e s' => Quiet L a n.index iv s s'
    | .ub => True
    | .nofuel => True := by
  cases op with
  | newNode p =>
    simp only [call, newNode]
    cases hc : (s.phyla p).complete with
    | true => exact Quiet.refl ..
    | false => exact Quiet.of_eq rfl rfl
  | assign b m v =>
    simp only [call]
    by_cases hbm : b = a ∧ m.index = n.index
    · obtain ⟨rfl, hm⟩ := hbm
      have hph : m.phylum ≠ L.phylum b := by
        intro h
        apply hop v
        have : m = n := by
          cases m; cases n; simp only at hm hn h; subst hm; rw [h, hn]
        rw [this]
      cases he : assign L b m v s with
      | ub => exact trivial
      | nofuel => exact trivial
      | exc e s1 => exact assign_exc_quiet hi n.index hiv he
      | ok u s1 =>
        exfalso
        unfold assign at he
        split at he
        · cases he
        · simp only [set, hiv] at he
          rcases get_cases L hi.wf b m with ⟨_, e⟩ | ⟨_, _, e⟩ | ⟨_, h2, _⟩
          · rw [e] at he; cases he
          · rw [e] at he; cases he
          · exact hph h2
    · have h := assign_other hi b m v a n.index iv hiv hbm
      cases he : assign L b m v s <;> rw [he] at h <;> first | exact trivial | exact h
  | get b m =>
    simp only [call]
    have h := get_quiet hi.wf b m a n.index iv hiv
    cases he : get L b m s <;> rw [he] at h <;> first | exact trivial | exact h.1 | exact h
  | evaluate b m =>
    simp only [call]
    have h := evaluate_spec hL f ∅ b m s hi (by simp)
    cases he : evaluate L f b m s with
    | ub => exact trivial
    | nofuel => exact trivial
    | ok v s1 => rw [he] at h; exact h.2.1.quiet ..
    | exc e s1 => rw [he] at h; exact h.2.1.quiet ..
  | finish b =>
    simp only [call]
    have h := finish_quiet hL f b a n.index iv hi
    cases he : finish L f b s <;> rw [he] at h <;> first | exact trivial | exact h

theorem Contributed.cell {L : Lang A P V} (hL : ∀ a, L.circular a = false) {a : A} {n : Node P}
    (hn : n.phylum = L.phylum a) {iv : V} (hiv : L.initial a = some iv) {s s' : St A P V}
    {vs : List V} (h : Contributed L a n s vs s') :
    ∀ us, Inv L ∅ s → CellInv L a n.index iv us s →
      Inv L ∅ s' ∧ CellInv L a n.index iv (us ++ vs) s' := by
  induction h with
  | nil s => intro us hi hc; rw [List.append_nil]; exact ⟨hi, hc⟩
  | @accepted s s1 s2 v vs u he _ ih =>
    intro us hi hc
    have h1 := assign_inv hi a n v
    rw [he] at h1
    have := ih (us ++ [v]) h1.1 (assign_ok_cell hi hiv hc he)
    rwa [List.append_assoc] at this
  | @refused s s1 s2 v vs e he _ ih =>
    intro us hi hc
    have h1 := assign_inv hi a n v
    rw [he] at h1
    exact ih us h1.1 (hc.quiet (assign_exc_quiet hi n.index hiv he))
  | @other s s1 s2 op vs r f hop he _ ih =>
    intro us hi hc
    have h1 := call_inv hL f op hi
    have h2 := call_quiet hL f op hi a n hn iv hiv hop
    rw [he] at h1 h2
    exact ih us h1.1 (hc.quiet h2)
  | @failed s s1 s2 op vs e f hop he _ ih =>
    intro us hi hc
    have h1 := call_inv hL f op hi
    have h2 := call_quiet hL f op hi a n hn iv hiv hop
    rw [he] at h1 h2
    exact ih us h1.1 (hc.quiet h2)

end Aps.Runtime
