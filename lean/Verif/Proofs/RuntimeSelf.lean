import Verif.Proofs.RuntimeCirc
set_option linter.unusedSectionVars false
set_option linter.unusedVariables false
/-! A circular attribute that depends on itself only. -/
namespace Aps.Runtime
variable {A P V : Type} [DecidableEq A] [DecidableEq P]

/-- The equation reads only attribute `a` of node `n`, and returns. -/
inductive SelfOnly (a : A) (n : Node P) : Comp A P V → Prop
  | ret (v) : SelfOnly a n (.ret v)
  | read {k} : (∀ w, SelfOnly a n (k w)) → SelfOnly a n (.read a n k)

/-- Its result when all reads give `x`. -/
def selfVal (d : V) (x : V) : Comp A P V → V
  | .ret v => v
  | .undef => d
  | .read _ _ k => selfVal d x (k x)

structure SameCells (L : Lang A P V) (s s' : St A P V) : Prop where
  wf : WF L s'
  frame : Frame s s'
  st : stOf s' = stOf s
  val : vOf L s' = vOf L s

theorem SameCells.trans {L : Lang A P V} {s s' s'' : St A P V} (h : SameCells L s s')
    (h' : SameCells L s' s'') : SameCells L s s'' :=
  ⟨h'.wf, h.frame.trans h'.frame, h'.st.trans h.st, h'.val.trans h.val⟩

theorem evalBase_done {L : Lang A P V} (rec : A → Node P → St A P V → Out A P V V) (a : A)
    (n : Node P) (s : St A P V) (hw : WF L s) (hph : n.phylum = L.phylum a)
    (hn : n.index < (s.phyla n.phylum).count) (hd : Done s a n.index) :
    ∃ s', evalBase L rec a n s = .ok (vOf L s a n.index) s' ∧ SameCells L s s' := by
  unfold evalBase
  rcases checkPhylum_cases L hw a n with
    ⟨h, e⟩ | ⟨h1, h2, e⟩ | ⟨h1, h2, s1, e, w1, f1, a1, b1, c1, d1, l1⟩
  · omega
  · exact absurd hph h2
  · rw [e]
    simp only [Out.bind]
    obtain ⟨w2, f2, a2, b2, c2, d2, l2⟩ := start_spec L w1 a
    revert w2 f2 a2 b2 c2 d2 l2
    generalize (s1.setAttr a { s1.attr a with started := true }) = s2
    intro w2 f2 a2 b2 c2 d2 l2
    have l2' : n.index < (s2.attr a).stat.length := by rw [l2]; exact l1
    have hst : stOf s2 = stOf s := a2.trans a1
    have hv : vOf L s2 = vOf L s := b2.trans b1
    rw [stat_get l2']
    have hget : ∃ s3, get L a n s2 = .ok (vOf L s a n.index) s3 ∧ WF L s3 ∧ Frame s2 s3 ∧
        stOf s3 = stOf s ∧ vOf L s3 = vOf L s := by
      rcases get_cases L w2 a n with ⟨g1, _⟩ | ⟨_, g2, _⟩ | ⟨_, _, ⟨_, s7, e7, w7, f7, a7, b7, c7, d7⟩ | ⟨g3, _⟩ | ⟨_, g3, _⟩⟩
      · rw [f2.phyla, f1.phyla] at g1; omega
      · exact absurd hph g2
      · exact ⟨s7, by rw [e7, hv], w7, f7, a7.trans hst, b7.trans hv⟩
      · rw [hst] at g3; rcases hd with h | h <;> rw [h] at g3 <;> cases g3
      · rw [hst] at g3; rcases hd with h | h <;> rw [h] at g3 <;> cases g3
    obtain ⟨s3, e3, w3, f3, a3, b3⟩ := hget
    refine ⟨s3, ?_, w3, (f1.trans f2).trans f3, a3, b3⟩
    rw [hst]
    rcases hd with h | h <;> rw [h] <;> exact e3

theorem evalBase_cycle {L : Lang A P V} (rec : A → Node P → St A P V → Out A P V V) (a : A)
    (n : Node P) (s : St A P V) (hw : WF L s) (hc : L.circular a = true)
    (hph : n.phylum = L.phylum a)
    (hn : n.index < (s.phyla n.phylum).count) (hst : stOf s a n.index = .cycle) :
    ∃ s', evalBase L rec a n s = .ok (L.bottom a) s' ∧ WF L s' ∧ s'.phyla = s.phyla ∧
      s'.checks = s.checks ∧ s'.pending = s.pending ++ [(a, n)] ∧
      stOf s' = upd (stOf s) a n.index .assigned ∧
      vOf L s' = upd (vOf L s) a n.index (L.bottom a) := by
  unfold evalBase
  rcases checkPhylum_cases L hw a n with
    ⟨h, e⟩ | ⟨h1, h2, e⟩ | ⟨h1, h2, s1, e, w1, f1, a1, b1, c1, d1, l1⟩
  · omega
  · exact absurd hph h2
  · rw [e]
    simp only [Out.bind]
    obtain ⟨w2, f2, a2, b2, c2, d2, l2⟩ := start_spec L w1 a
    revert w2 f2 a2 b2 c2 d2 l2
    generalize (s1.setAttr a { s1.attr a with started := true }) = s2
    intro w2 f2 a2 b2 c2 d2 l2
    have l2' : n.index < (s2.attr a).stat.length := by rw [l2]; exact l1
    have hst2 : stOf s2 a n.index = .cycle := by rw [a2, a1]; exact hst
    rw [stat_get l2', hst2]
    simp only [cycleEvaluate, hc, if_true]
    rcases baseSet_cases L (s := { s2 with pending := s2.pending ++ [(a, n)] })
      ⟨w2.1, w2.2⟩ a n (L.bottom a) with ⟨q, e⟩ | ⟨_, q, e⟩ | ⟨q1, q2, s3, e, w3, f3, a3, b3, c3, l3⟩
    · simp only [f2.phyla, f1.phyla] at q; omega
    · exact absurd hph q
    · rw [e]
      simp only [Out.bind]
      refine ⟨s3, rfl, w3, ?_, ?_, ?_, ?_, ?_⟩
      · rw [f3.phyla]; show s2.phyla = _; rw [f2.phyla, f1.phyla]
      · rw [f3.checks]; show s2.checks = _; rw [f2.checks, f1.checks]
      · rw [f3.pending]; show s2.pending ++ _ = _; rw [f2.pending, f1.pending]
      · rw [a3]; show upd (stOf s2) _ _ _ = _; rw [a2, a1]
      · rw [b3]; show upd (vOf L s2) _ _ _ = _; rw [b2, b1]

theorem evalBase_fresh {L : Lang A P V} (rec : A → Node P → St A P V → Out A P V V) (a : A)
    (n : Node P) (s : St A P V) (hw : WF L s) (hph : n.phylum = L.phylum a)
    (hn : n.index < (s.phyla n.phylum).count)
    (hst : stOf s a n.index = .uninit ∨ stOf s a n.index = .uneval) :
    ∃ s3, WF L s3 ∧ Frame s s3 ∧ stOf s3 = upd (stOf s) a n.index .cycle ∧ vOf L s3 = vOf L s ∧
      ∀ v s4, runComp rec (L.compute a n) s3 = .ok v s4 → WF L s4 → s4.phyla = s.phyla →
        stOf s4 a n.index ≠ .uninit →
        ∃ s7, evalBase L rec a n s = .ok v s7 ∧ WF L s7 ∧ Frame s4 s7 ∧
          stOf s7 = upd (stOf s4) a n.index .evaluated ∧ vOf L s7 = upd (vOf L s4) a n.index v := by
  unfold evalBase
  rcases checkPhylum_cases L hw a n with
    ⟨h, e⟩ | ⟨h1, h2, e⟩ | ⟨h1, h2, s1, e, w1, f1, a1, b1, c1, d1, l1⟩
  · omega
  · exact absurd hph h2
  · rw [e]
    simp only [Out.bind]
    obtain ⟨w2, f2, a2, b2, c2, d2, l2⟩ := start_spec L w1 a
    revert w2 f2 a2 b2 c2 d2 l2
    generalize (s1.setAttr a { s1.attr a with started := true }) = s2
    intro w2 f2 a2 b2 c2 d2 l2
    have l2' : n.index < (s2.attr a).stat.length := by rw [l2]; exact l1
    have hst2 : stOf s2 a n.index = .uninit ∨ stOf s2 a n.index = .uneval := by
      rw [a2, a1]; exact hst
    rw [stat_get l2']
    obtain ⟨s3, e3, w3, f3, a3, b3, c3, d3, l3⟩ := writeStat_spec L w2 a n.index .cycle l2'
    refine ⟨{ s3 with log := s3.log ++ [(a, n.index)] }, ⟨w3.1, w3.2⟩,
      ⟨?_, ?_, ?_⟩, ?_, ?_, ?_⟩
    · show s3.phyla = _; rw [f3.phyla, f2.phyla, f1.phyla]
    · show s3.pending = _; rw [f3.pending, f2.pending, f1.pending]
    · show s3.checks = _; rw [f3.checks, f2.checks, f1.checks]
    · show stOf s3 = _; rw [a3, a2, a1]
    · show vOf L s3 = _; rw [b3, b2, b1]
    intro v s4 e4 w4 p4 st4
    have hl4 := stOf_lt st4
    obtain ⟨s5, e5, w5, f5, a5, b5, c5, d5, l5⟩ := writeVal_spec L w4 a n.index v hl4
    obtain ⟨s6, e6, w6, f6, a6, b6, c6, d6, l6⟩ :=
      writeStat_spec L w5 a n.index .evaluated (by omega)
    have hph6 : s6.phyla = s.phyla := by rw [f6.phyla, f5.phyla, p4]
    rcases get_cases L w6 a n with ⟨g1, _⟩ | ⟨_, g2, _⟩ | ⟨_, _, ⟨_, s7, e7, w7, f7, a7, b7, c7, d7⟩ | ⟨g3, _⟩ | ⟨_, g3, _⟩⟩
    · rw [hph6] at g1; omega
    · exact absurd hph g2
    · refine ⟨s7, ?_, w7, (f5.trans f6).trans f7, ?_, ?_⟩
      · rcases hst2 with h | h <;> rw [h] <;> simp only [e3, e4, e5, e6, e7, b6, b5, upd_same]
      · rw [a7, a6, a5]
      · rw [b7, b6, b5]
    · rw [a6, upd_same] at g3; cases g3
    · rw [a6, upd_same] at g3; cases g3

/-- Reading a cell that has a value, while an evaluation is going on. -/
theorem evaluate_done {L : Lang A P V} (f : Nat) (a : A) (n : Node P) (s : St A P V) (hw : WF L s)
    (hc : L.circular a = true) (hph : n.phylum = L.phylum a)
    (hn : n.index < (s.phyla n.phylum).count) (hd : Done s a n.index) (hk : 1 ≤ s.checks) :
    ∃ s', evaluate L (f + 1) a n s = .ok (vOf L s a n.index) s' ∧ SameCells L s s' := by
  simp only [evaluate, hc, if_true]
  obtain ⟨s3, e3, g3⟩ := evalBase_done (evaluate L f) a n { s with checks := s.checks + 1 }
    ⟨hw.1, hw.2⟩ hph hn hd
  have hck : s3.checks = s.checks + 1 := g3.frame.checks
  refine ⟨{ s3 with checks := s3.checks - 1 }, ?_, ⟨g3.wf.1, g3.wf.2⟩,
    ⟨g3.frame.phyla, g3.frame.pending, ?_⟩, g3.st, g3.val⟩
  · rw [e3]
    simp only [Out.bind]
    rw [if_neg (by omega)]
    rfl
  · show s3.checks - 1 = _; omega

theorem runComp_done {L : Lang A P V} (f : Nat) (a : A) (n : Node P) (hc : L.circular a = true)
    (hph : n.phylum = L.phylum a) (c : Comp A P V) (h : SelfOnly a n c) : ∀ (s : St A P V),
    WF L s → n.index < (s.phyla n.phylum).count → Done s a n.index → 1 ≤ s.checks →
    ∃ s', runComp (evaluate L (f + 1)) c s = .ok (selfVal L.dflt (vOf L s a n.index) c) s' ∧
      SameCells L s s' := by
  induction h with
  | ret v => intro s hw _ _ _; exact ⟨s, rfl, hw, Frame.refl s, rfl, rfl⟩
  | read _ ih =>
    intro s hw hn hd hk
    obtain ⟨s1, e1, g1⟩ := evaluate_done f a n s hw hc hph hn hd hk
    obtain ⟨s2, e2, g2⟩ := ih (vOf L s a n.index) s1 g1.wf (by rw [g1.frame.phyla]; exact hn)
      (by unfold Done; rw [g1.st]; exact hd) (by rw [g1.frame.checks]; exact hk)
    refine ⟨s2, ?_, g1.trans g2⟩
    simp only [runComp, e1, Out.bind, e2, selfVal, g1.val]

/-- The first run of the equation, the cell being marked CYCLE. -/
theorem runComp_first {L : Lang A P V} (f : Nat) (a : A) (n : Node P) (hc : L.circular a = true)
    (hph : n.phylum = L.phylum a) (c : Comp A P V) (h : SelfOnly a n c) (s : St A P V)
    (hw : WF L s) (hn : n.index < (s.phyla n.phylum).count) (hst : stOf s a n.index = .cycle)
    (hk : s.checks = 1) (hp : s.pending = []) :
    ∃ s', runComp (evaluate L (f + 1)) c s = .ok (selfVal L.dflt (L.bottom a) c) s' ∧ WF L s' ∧
      s'.phyla = s.phyla ∧ s'.checks = 1 ∧ stOf s' a n.index ≠ .uninit ∧
      ((s'.pending = [] ∧ ∀ x y, selfVal L.dflt x c = selfVal L.dflt y c) ∨
        s'.pending = [(a, n)]) := by
  cases h with
  | ret v => exact ⟨s, rfl, hw, rfl, hk, by rw [hst]; decide, Or.inl ⟨hp, fun _ _ => rfl⟩⟩
  | @read k hkk =>
    have h1 : ∃ s1, evaluate L (f + 1) a n s = .ok (L.bottom a) s1 ∧ WF L s1 ∧
        s1.phyla = s.phyla ∧ s1.checks = 1 ∧ stOf s1 a n.index = .assigned ∧
        vOf L s1 a n.index = L.bottom a ∧ s1.pending = [(a, n)] := by
      simp only [evaluate, hc, if_true]
      obtain ⟨s3, e3, w3, p3, k3, pe3, st3, v3⟩ := evalBase_cycle (evaluate L f) a n
        { s with checks := s.checks + 1 } ⟨hw.1, hw.2⟩ hc hph hn hst
      simp only at k3 pe3
      refine ⟨{ s3 with checks := s3.checks - 1 }, ?_, ⟨w3.1, w3.2⟩, p3, ?_, ?_, ?_, ?_⟩
      · rw [e3]; simp only [Out.bind]; rw [if_neg (by omega)]; rfl
      · show s3.checks - 1 = 1; omega
      · show stOf s3 a n.index = _; rw [st3, upd_same]
      · show vOf L s3 a n.index = _; rw [v3, upd_same]
      · show s3.pending = _; rw [pe3, hp]; rfl
    obtain ⟨s1, e1, w1, p1, k1, st1, v1, pe1⟩ := h1
    obtain ⟨s2, e2, g2⟩ := runComp_done f a n hc hph (k (L.bottom a)) (hkk _) s1 w1
      (by rw [p1]; exact hn) (Or.inr st1) (by omega)
    refine ⟨s2, ?_, g2.wf, g2.frame.phyla.trans p1, g2.frame.checks.trans k1, ?_, Or.inr ?_⟩
    · simp only [runComp, e1, Out.bind, e2, selfVal, v1]
    · rw [g2.st, st1]; decide
    · rw [g2.frame.pending, pe1]

/-- The iteration of `clear_pending` when one self-dependent cell is pending. -/
theorem clearPending_self {L : Lang A P V} (f : Nat) (a : A) (n : Node P)
    (hc : L.circular a = true) (hin : L.initial a = none)
    (hph : n.phylum = L.phylum a) (hs : SelfOnly a n (L.compute a n))
    (le : V → V → Prop) (F : V → V) (hF : ∀ x, selfVal L.dflt x (L.compute a n) = F x)
    (heq : ∀ x y, L.equal a x y = true ↔ x = y)
    (hj1 : ∀ x y, le x (L.join a x y)) (hj2 : ∀ x y, le y (L.join a x y))
    (hj3 : ∀ x y z, le x z → le y z → le (L.join a x y) z)
    (hmono : ∀ x y, le x y → le (F x) (F y)) (htr : ∀ x y z, le x y → le y z → le x z)
    (ht : V → Nat) (H : Nat) (hH : ∀ x, ht x ≤ H) (hlt : ∀ x y, le x y → x ≠ y → ht x < ht y) :
    ∀ (g : Nat) (s : St A P V), WF L s → n.index < (s.phyla n.phylum).count →
      Done s a n.index → s.checks = 1 → s.pending = [(a, n)] → H - ht (vOf L s a n.index) < g →
      ∃ s', clearPending L (evaluate L (f + 1)) g s = .ok () s' ∧ WF L s' ∧ s'.phyla = s.phyla ∧
        Done s' a n.index ∧ s'.checks = 1 ∧
        le (F (vOf L s' a n.index)) (vOf L s' a n.index) ∧
        (∀ z, le (F z) z → le (vOf L s a n.index) z → le (vOf L s' a n.index) z) := by
  intro g
  induction g with
  | zero => intro s _ _ _ _ _ h; omega
  | succ g ih =>
    intro s hw hn hd hk hp hg
    have hget : ∃ s1, get L a n s = .ok (vOf L s a n.index) s1 ∧ SameCells L s s1 := by
      rcases get_cases L hw a n with ⟨g1, _⟩ | ⟨_, g2, _⟩ | ⟨_, _, ⟨_, s7, e7, w7, f7, a7, b7, c7, d7⟩ | ⟨g3, _⟩ | ⟨_, g3, _⟩⟩
      · omega
      · exact absurd hph g2
      · exact ⟨s7, e7, w7, f7, a7, b7⟩
      · rcases hd with h | h <;> rw [h] at g3 <;> cases g3
      · rcases hd with h | h <;> rw [h] at g3 <;> cases g3
    obtain ⟨s1, e1, g1⟩ := hget
    obtain ⟨s2, e2, g2⟩ := runComp_done f a n hc hph _ hs
      { s1 with log := s1.log ++ [(a, n.index)] } ⟨g1.wf.1, g1.wf.2⟩
      (by show _ < (s1.phyla _).count; rw [g1.frame.phyla]; exact hn)
      (by show Done s1 _ _; unfold Done; rw [g1.st]; exact hd)
      (by show 1 ≤ s1.checks; rw [g1.frame.checks]; omega)
    have hv1 : vOf L ({ s1 with log := s1.log ++ [(a, n.index)] } : St A P V) a n.index =
      vOf L s a n.index := by show vOf L s1 _ _ = _; rw [g1.val]
    rw [hv1, hF] at e2
    have g12 : SameCells L s s2 :=
      ⟨g2.wf, ⟨g2.frame.phyla.trans g1.frame.phyla, g2.frame.pending.trans g1.frame.pending,
        g2.frame.checks.trans g1.frame.checks⟩, g2.st.trans g1.st, g2.val.trans g1.val⟩
    simp only [clearPending, hp, sweep, evalChanged, e1, Out.bind, e2]
    by_cases hx : vOf L s a n.index = L.join a (vOf L s a n.index) (F (vOf L s a n.index))
    · have : L.equal a (vOf L s a n.index) (L.join a (vOf L s a n.index) (F (vOf L s a n.index)))
        = true := (heq _ _).2 hx
      rw [if_pos this]
      simp only [Out.bind, sweep]
      rw [if_neg (by rw [g12.frame.pending, hp]; simp)]
      simp only [Bool.false_eq_true, if_false]
      rw [if_neg (by rw [g12.frame.pending, hp]; simp)]
      refine ⟨{ s2 with pending := [] }, rfl, ⟨g12.wf.1, g12.wf.2⟩, g12.frame.phyla, ?_, ?_, ?_, ?_⟩
      · show Done s2 _ _; unfold Done; rw [g12.st]; exact hd
      · exact g12.frame.checks.trans hk
      · show le (F (vOf L s2 a n.index)) (vOf L s2 a n.index)
        rw [g12.val]
        have := hj2 (vOf L s a n.index) (F (vOf L s a n.index))
        rwa [← hx] at this
      · intro z _ hz
        show le (vOf L s2 a n.index) z
        rw [g12.val]; exact hz
    · have : ¬ L.equal a (vOf L s a n.index) (L.join a (vOf L s a n.index) (F (vOf L s a n.index)))
        = true := fun h => hx ((heq _ _).1 h)
      rw [if_neg this]
      simp only [set, hin]
      rcases baseSet_cases L g12.wf a n (L.join a (vOf L s a n.index) (F (vOf L s a n.index)))
        with ⟨q, e⟩ | ⟨_, q, e⟩ | ⟨q1, q2, s3, e3, w3, f3, a3, b3, c3, l3⟩
      · rw [g12.frame.phyla] at q; omega
      · exact absurd hph q
      · rw [e3]
        simp only [Out.bind]
        have hp3 : s3.pending = [(a, n)] := by rw [f3.pending, g12.frame.pending, hp]
        rw [if_neg (by rw [hp3]; simp)]
        simp only [if_true]
        rw [if_pos (by rw [hp3]; simp)]
        have hv3 : vOf L s3 a n.index = L.join a (vOf L s a n.index) (F (vOf L s a n.index)) := by
          rw [b3, upd_same]
        have hh := hlt _ _ (hj1 (vOf L s a n.index) (F (vOf L s a n.index))) hx
        have hb := hH (L.join a (vOf L s a n.index) (F (vOf L s a n.index)))
        obtain ⟨s4, e4, w4, p4, d4, k4, le4, min4⟩ := ih s3 w3
          (by rw [f3.phyla, g12.frame.phyla]; exact hn)
          (Or.inr (by rw [a3, upd_same])) (by rw [f3.checks, g12.frame.checks]; exact hk) hp3
          (by rw [hv3]; omega)
        refine ⟨s4, e4, w4, p4.trans (f3.phyla.trans g12.frame.phyla), d4, k4, le4, ?_⟩
        intro z hz hvz
        refine min4 z hz ?_
        rw [hv3]
        exact hj3 _ _ _ hvz (htr _ _ _ (hmono _ _ hvz) hz)

theorem evaluate_self {L : Lang A P V} (a : A) (n : Node P)
    (hc : L.circular a = true) (hin : L.initial a = none)
    (hph : n.phylum = L.phylum a) (hs : SelfOnly a n (L.compute a n))
    (le : V → V → Prop) (F : V → V) (hF : ∀ x, selfVal L.dflt x (L.compute a n) = F x)
    (heq : ∀ x y, L.equal a x y = true ↔ x = y)
    (hj1 : ∀ x y, le x (L.join a x y)) (hj2 : ∀ x y, le y (L.join a x y))
    (hj3 : ∀ x y z, le x z → le y z → le (L.join a x y) z)
    (hrefl : ∀ x, le x x) (hbot : ∀ x, le (L.bottom a) x)
    (hmono : ∀ x y, le x y → le (F x) (F y)) (htr : ∀ x y z, le x y → le y z → le x z)
    (ht : V → Nat) (H : Nat) (hH : ∀ x, ht x ≤ H) (hlt : ∀ x y, le x y → x ≠ y → ht x < ht y)
    (s : St A P V) (hw : WF L s) (hn : n.index < (s.phyla n.phylum).count)
    (hst : stOf s a n.index = .uninit ∨ stOf s a n.index = .uneval)
    (hk : s.checks = 0) (hp : s.pending = []) (f : Nat) (hf : H < f) :
    ∃ v s', evaluate L (f + 2) a n s = .ok v s' ∧ le (F v) v ∧ (∀ z, le (F z) z → le v z) := by
  rw [evaluate]
  simp only [hc, if_true]
  obtain ⟨s3, w3, f3, a3, b3, hrest⟩ := evalBase_fresh (evaluate L (f + 1)) a n
    { s with checks := s.checks + 1 } ⟨hw.1, hw.2⟩ hph hn hst
  have hck3 : s3.checks = 1 := by rw [f3.checks]; show s.checks + 1 = 1; omega
  have hpe3 : s3.pending = [] := by rw [f3.pending]; exact hp
  have hph3 : s3.phyla = s.phyla := f3.phyla
  obtain ⟨s4, e4, w4, p4, k4, st4, pe4⟩ := runComp_first f a n hc hph _ hs s3 w3
    (by rw [hph3]; exact hn) (by rw [a3, upd_same]) hck3 hpe3
  rw [hF] at e4
  obtain ⟨s7, e7, w7, f7, a7, b7⟩ := hrest _ s4 e4 w4 (p4.trans hph3) st4
  · have hd7 : Done s7 a n.index := Or.inl (by rw [a7, upd_same])
    have hv7 : vOf L s7 a n.index = F (L.bottom a) := by rw [b7, upd_same]
    have hck7 : s7.checks = 1 := by rw [f7.checks, k4]
    have hph7 : s7.phyla = s.phyla := f7.phyla.trans (p4.trans hph3)
    have hpe7 : s7.pending = s4.pending := f7.pending
    rw [e7]
    simp only [Out.bind]
    rw [if_pos hck7]
    have hfin : ∃ s8, clearPending L (evaluate L (f + 1)) (f + 1) s7 = .ok () s8 ∧ WF L s8 ∧
        s8.phyla = s.phyla ∧ Done s8 a n.index ∧ le (F (vOf L s8 a n.index)) (vOf L s8 a n.index) ∧
        ∀ z, le (F z) z → le (vOf L s8 a n.index) z := by
      rcases pe4 with ⟨pe4, hconst⟩ | pe4
      · rw [pe4] at hpe7
        refine ⟨{ s7 with pending := [] }, ?_, ⟨w7.1, w7.2⟩, hph7, hd7, ?_, ?_⟩
        · simp [clearPending, hpe7, sweep, Out.bind]
        · show le (F (vOf L s7 a n.index)) (vOf L s7 a n.index)
          rw [hv7, ← hF, ← hF, hconst _ (L.bottom a)]; exact hrefl _
        · intro z hz
          show le (vOf L s7 a n.index) z
          rw [hv7]
          exact htr _ _ _ (hmono _ _ (hbot z)) hz
      · rw [pe4] at hpe7
        obtain ⟨s8, e8, w8, p8, d8, _, l8, m8⟩ := clearPending_self f a n hc hin hph hs le F hF heq
          hj1 hj2 hj3 hmono htr ht H hH hlt (f + 1) s7 w7 (by rw [hph7]; exact hn) hd7 hck7 hpe7
          (by omega)
        refine ⟨s8, e8, w8, p8.trans hph7, d8, l8, ?_⟩
        intro z hz
        refine m8 z hz ?_
        rw [hv7]
        exact htr _ _ _ (hmono _ _ (hbot z)) hz
    obtain ⟨s8, e8, w8, p8, d8, l8, m8⟩ := hfin
    have hget8 : ∃ s9, get L a n s8 = .ok (vOf L s8 a n.index) s9 := by
      rcases get_cases L w8 a n with ⟨g1, _⟩ | ⟨_, g2, _⟩ | ⟨_, _, ⟨_, s7, e7, w7, f7, a7, b7, c7, d7⟩ | ⟨g3, _⟩ | ⟨_, g3, _⟩⟩
      · rw [p8] at g1; omega
      · exact absurd hph g2
      · exact ⟨s7, e7⟩
      · rcases d8 with h | h <;> rw [h] at g3 <;> cases g3
      · rcases d8 with h | h <;> rw [h] at g3 <;> cases g3
    obtain ⟨s9, e9⟩ := hget8
    refine ⟨vOf L s8 a n.index, { s9 with checks := s9.checks - 1 }, ?_, l8, m8⟩
    rw [e8]; simp only [e9]; rfl

end Aps.Runtime
