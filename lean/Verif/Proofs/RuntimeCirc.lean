import Verif.Proofs.RuntimeColl
set_option linter.unusedSectionVars false
set_option linter.unusedVariables false
/-! Circular attributes. -/
namespace Aps.Runtime
variable {A P V : Type} [DecidableEq A] [DecidableEq P]

/-! ### Values never exceed a solution -/

/-- The attribute has a final or provisional value. -/
def Done (s : St A P V) (a : A) (i : Nat) : Prop :=
  stOf s a i = .evaluated ∨ stOf s a i = .assigned

/-- `c` gives results below those of `c'` whenever what it reads is below what `c'` reads. -/
inductive CompLe (le : A → V → V → Prop) (a : A) : Comp A P V → Comp A P V → Prop
  | ret {v w} : le a v w → CompLe le a (.ret v) (.ret w)
  | undef : CompLe le a .undef .undef
  | read {b m k k'} : (∀ v w, le b v w → CompLe le a (k v) (k' w)) →
      CompLe le a (.read b m k) (.read b m k')

/-- The result of `c` when attribute values are given by `μ`. -/
def runUnder (μ : A → Nat → V) : Comp A P V → Option V
  | .ret v => some v
  | .undef => none
  | .read b m k => runUnder μ (k (μ b m.index))

structure Good (L : Lang A P V) (le : A → V → V → Prop) (μ : A → Nat → V) (s : St A P V) : Prop where
  wf : WF L s
  below : ∀ a i, Done s a i → le a (vOf L s a i) (μ a i)
  pend : ∀ c ∈ s.pending, Done s c.1 c.2.index

def Safe (L : Lang A P V) (le : A → V → V → Prop) (μ : A → Nat → V) (s : St A P V) {α : Type}
    (out : Out A P V α) (Q : St A P V → α → Prop) : Prop :=
  match out with
  | .ok x s' => Good L le μ s' ∧ (∀ a i, Done s a i → Done s' a i) ∧ Q s' x
  | .exc _ s' => Good L le μ s' ∧ (∀ a i, Done s a i → Done s' a i)
  | .ub => True
  | .nofuel => True

variable {L : Lang A P V} {le : A → V → V → Prop} {μ : A → Nat → V}

theorem Safe.bind {s : St A P V} {α β : Type} {out : Out A P V α} {Q : St A P V → α → Prop}
    {f : α → St A P V → Out A P V β} {R : St A P V → β → Prop}
    (h : Safe L le μ s out Q)
    (hf : ∀ x s', Good L le μ s' → Q s' x → (∀ a i, Done s a i → Done s' a i) →
      Safe L le μ s' (f x s') R) :
    Safe L le μ s (out.bind f) R := by
  cases out with
  | ub => exact trivial
  | nofuel => exact trivial
  | exc e s1 => exact h
  | ok x s1 =>
    obtain ⟨h1, h2, h3⟩ := h
    have := hf x s1 h1 h3 h2
    simp only [Out.bind]
    cases hfx : f x s1 with
    | ub => exact trivial
    | nofuel => exact trivial
    | exc e s2 => rw [hfx] at this; exact ⟨this.1, fun a i hd => this.2 a i (h2 a i hd)⟩
    | ok y s2 => rw [hfx] at this; exact ⟨this.1, fun a i hd => this.2.1 a i (h2 a i hd), this.2.2⟩

theorem Good.congr {s s' : St A P V} (h : Good L le μ s) (hw : WF L s') (h1 : stOf s' = stOf s)
    (h2 : vOf L s' = vOf L s) (h3 : s'.pending = s.pending) : Good L le μ s' :=
  ⟨hw, fun a i hd => by rw [h2]; exact h.below a i (by unfold Done at hd ⊢; rw [← h1]; exact hd),
    fun c hc => by unfold Done; rw [h1]; exact h.pend c (by rw [← h3]; exact hc)⟩

theorem Done.congr {s s' : St A P V} (h1 : stOf s' = stOf s) (a : A) (i : Nat) :
    Done s a i → Done s' a i := by unfold Done; rw [h1]; exact id

theorem get_safe {s : St A P V} (hg : Good L le μ s) (hin : ∀ a, L.initial a = none) (a : A)
    (n : Node P) (hd : Done s a n.index) :
    Safe L le μ s (get L a n s) fun s' v => le a v (μ a n.index) ∧ n.phylum = L.phylum a := by
  rcases get_cases L hg.wf a n with ⟨_, e⟩ | ⟨_, _, e⟩ |
    ⟨h1, h2, ⟨g, s1, e, w1, f1, a1, b1, c1, l1⟩ | ⟨g, g', s1, e, w1, f1, a1, b1, c1, l1⟩ | ⟨v, g, g', s1, e, w1, f1, a1, b1, c1, l1⟩⟩
  · rw [e]; exact trivial
  · rw [e]; exact ⟨hg, fun _ _ h => h⟩
  · rw [e]; exact ⟨hg.congr w1 a1 b1 f1.pending, Done.congr a1, hg.below a n.index hd, h2⟩
  · rw [e]; exact ⟨hg.congr w1 a1 b1 f1.pending, Done.congr a1⟩
  · rw [hin a] at g'; cases g'

/-- Writing a value below `μ` and marking the cell. -/
theorem Good.upd {s s' : St A P V} (hg : Good L le μ s) (hw : WF L s') {a : A} {i : Nat}
    {t : Status} {v : V} (ht : t = .evaluated ∨ t = .assigned) (h1 : stOf s' = upd (stOf s) a i t)
    (h2 : vOf L s' = upd (vOf L s) a i v) (hv : le a v (μ a i))
    (h3 : ∀ c ∈ s'.pending, c ∈ s.pending ∨ (c.1 = a ∧ c.2.index = i)) :
    Good L le μ s' ∧ (∀ b j, Done s b j → Done s' b j) ∧ Done s' a i := by
  have hd : Done s' a i := by unfold Done; rw [h1, upd_same]; exact ht
  have hm : ∀ b j, Done s b j → Done s' b j := by
    intro b j hb
    by_cases hbi : b = a ∧ j = i
    · rw [hbi.1, hbi.2]; exact hd
    · unfold Done; rw [h1, upd_ne _ hbi]; exact hb
  refine ⟨⟨hw, ?_, ?_⟩, hm, hd⟩
  · intro b j hb
    rw [h2]
    by_cases hbi : b = a ∧ j = i
    · rw [hbi.1, hbi.2, upd_same]; exact hv
    · rw [upd_ne _ hbi]
      refine hg.below b j ?_
      unfold Done at hb ⊢; rwa [h1, upd_ne _ hbi] at hb
  · intro c hc
    rcases h3 c hc with h | ⟨h, h'⟩
    · exact hm _ _ (hg.pend c h)
    · rw [h, h']; exact hd

theorem baseSet_safe {s : St A P V} (hg : Good L le μ s) (a : A) (n : Node P) (v : V)
    (hv : le a v (μ a n.index)) :
    Safe L le μ s (baseSet L a n v s) fun s' _ => Done s' a n.index := by
  rcases baseSet_cases L hg.wf a n v with ⟨_, e⟩ | ⟨_, _, e⟩ | ⟨h1, h2, s1, e, w1, f1, a1, b1, c1, l1⟩
  · rw [e]; exact trivial
  · rw [e]; exact ⟨hg, fun _ _ h => h⟩
  · rw [e]
    exact hg.upd w1 (Or.inr rfl) a1 b1 hv (fun c hc => Or.inl (by rw [← f1.pending]; exact hc))

def EvalSafe (L : Lang A P V) (le : A → V → V → Prop) (μ : A → Nat → V)
    (rec : A → Node P → St A P V → Out A P V V) : Prop :=
  ∀ a n s, Good L le μ s → Safe L le μ s (rec a n s) fun s' v =>
    le a v (μ a n.index) ∧ n.phylum = L.phylum a ∧ Done s' a n.index

theorem runComp_safe {rec : A → Node P → St A P V → Out A P V V} (hrec : EvalSafe L le μ rec)
    (a : A) (c d : Comp A P V) (h : CompLe le a c d) : ∀ s, Good L le μ s →
    Safe L le μ s (runComp rec c s) fun s' v => ∃ w, runUnder μ d = some w ∧ le a v w := by
  induction h with
  | ret hvw => intro s hg; exact ⟨hg, fun _ _ h => h, _, rfl, hvw⟩
  | undef => intro s hg; exact ⟨hg, fun _ _ h => h⟩
  | @read b m k k' _ ih =>
    intro s hg
    simp only [runComp]
    refine Safe.bind (hrec b m s hg) ?_
    rintro x s' hg' ⟨hx, _, _⟩ _
    simp only [runUnder]
    exact ih x (μ b m.index) hx s' hg'

/-- The hypotheses of the never-above theorem: `μ` satisfies every equation up to `≤`, equations
are monotone, `join` is an upper bound's bound, `bottom` is least. -/
structure Solution (L : Lang A P V) (le : A → V → V → Prop) (μ : A → Nat → V) : Prop where
  refl : ∀ a v, le a v v
  trans : ∀ a u v w, le a u v → le a v w → le a u w
  bot : ∀ a v, le a (L.bottom a) v
  join : ∀ a u v w, le a u w → le a v w → le a (L.join a u v) w
  mono : ∀ a n, n.phylum = L.phylum a → CompLe le a (L.compute a n) (L.compute a n)
  sol : ∀ a n w, n.phylum = L.phylum a → runUnder μ (L.compute a n) = some w →
    le a w (μ a n.index)

theorem evalBase_safe (hs : Solution L le μ) (hin : ∀ a, L.initial a = none)
    {rec : A → Node P → St A P V → Out A P V V} (hrec : EvalSafe L le μ rec) :
    EvalSafe L le μ (evalBase L rec) := by
  intro a n s hg
  unfold evalBase
  rcases checkPhylum_cases L hg.wf a n with ⟨h, e⟩ | ⟨h1, h2, e⟩ | ⟨h1, h2, s1, e, w1, f1, a1, b1, c1, d1, l1⟩
  · rw [e]; exact trivial
  · rw [e]; exact ⟨hg, fun _ _ h => h⟩
  · rw [e]
    simp only [Out.bind]
    obtain ⟨w2, f2, a2, b2, c2, d2, l2⟩ := start_spec L w1 a
    revert w2 f2 a2 b2 c2 d2 l2
    generalize (s1.setAttr a { s1.attr a with started := true }) = s2
    intro w2 f2 a2 b2 c2 d2 l2
    have l2' : n.index < (s2.attr a).stat.length := by rw [l2]; exact l1
    have g2 : Good L le μ s2 := hg.congr w2 (a2.trans a1) (b2.trans b1)
      (f2.pending.trans f1.pending)
    have hdd : ∀ b j, Done s b j → Done s2 b j := Done.congr (a2.trans a1)
    suffices hsuf : Safe L le μ s2 _ fun s' v =>
        le a v (μ a n.index) ∧ n.phylum = L.phylum a ∧ Done s' a n.index by
      revert hsuf
      intro hsuf
      exact (Safe.bind (out := .ok () s2) (f := fun _ _ => _) (s := s) (Q := fun s' _ => s' = s2)
        ⟨g2, hdd, rfl⟩ (by rintro _ s' _ rfl _; exact hsuf))
    rw [stat_get l2']
    have hfin : ∀ (v : V) (s4 : St A P V), Good L le μ s4 → le a v (μ a n.index) →
        Safe L le μ s4 ((writeVal a n.index v s4).bind fun _ s =>
          (writeStat a n.index .evaluated s).bind fun _ s => get L a n s) fun s' v =>
          le a v (μ a n.index) ∧ n.phylum = L.phylum a ∧ Done s' a n.index := by
      intro v s4 g4 hv
      by_cases hl4 : n.index < (s4.attr a).stat.length
      · obtain ⟨s5, e5, w5, f5, a5, b5, c5, d5, l5⟩ := writeVal_spec L g4.wf a n.index v hl4
        obtain ⟨s6, e6, w6, f6, a6, b6, c6, d6, l6⟩ :=
          writeStat_spec L w5 a n.index .evaluated (by omega)
        simp only [e5, Out.bind, e6]
        obtain ⟨g6, m6, dn6⟩ := g4.upd (s' := s6) w6 (Or.inl rfl) (a6.trans (by rw [a5]))
          (b6.trans b5) hv (fun c hc => Or.inl (by rw [← f5.pending, ← f6.pending]; exact hc))
        have := get_safe g6 hin a n dn6
        cases hgt : get L a n s6 with
        | ub => exact trivial
        | nofuel => exact trivial
        | exc e s7 => rw [hgt] at this; exact ⟨this.1, fun b j h => this.2 b j (m6 b j h)⟩
        | ok x s7 =>
          rw [hgt] at this
          exact ⟨this.1, fun b j h => this.2.1 b j (m6 b j h), this.2.2.1, h2,
            this.2.1 _ _ dn6⟩
      · have := g4.wf.len a
        simp only [writeVal]
        rw [if_neg (by omega)]
        exact trivial
    have hrun : stOf s2 a n.index = .uninit ∨ stOf s2 a n.index = .uneval →
        Safe L le μ s2 ((writeStat a n.index .cycle s2).bind fun _ s =>
          (runComp rec (L.compute a n) { s with log := s.log ++ [(a, n.index)] }).bind fun v s =>
          (writeVal a n.index v s).bind fun _ s =>
          (writeStat a n.index .evaluated s).bind fun _ s => get L a n s) fun s' v =>
          le a v (μ a n.index) ∧ n.phylum = L.phylum a ∧ Done s' a n.index := by
      intro hst
      have hnd : ¬ Done s2 a n.index := by
        unfold Done; rcases hst with h | h <;> rw [h] <;> simp
      obtain ⟨s3, e3, w3, f3, a3, b3, c3, d3, l3⟩ := writeStat_spec L w2 a n.index .cycle l2'
      have hd3 : ∀ b j, Done s2 b j ↔ Done s3 b j := by
        intro b j
        unfold Done
        rw [a3]
        by_cases hbi : b = a ∧ j = n.index
        · obtain ⟨rfl, rfl⟩ := hbi
          rw [upd_same]
          constructor
          · intro h; exact absurd h hnd
          · rintro (h | h) <;> cases h
        · rw [upd_ne _ hbi]
      have g3 : Good L le μ { s3 with log := s3.log ++ [(a, n.index)] } :=
        ⟨⟨w3.1, w3.2⟩, fun b j h => by
          show le b (vOf L s3 b j) _
          rw [b3]; exact g2.below b j ((hd3 b j).2 h),
         fun c hc => (hd3 _ _).1 (g2.pend c (by rw [← f3.pending]; exact hc))⟩
      rw [e3]
      refine Safe.bind (out := .ok () s3) (Q := fun s' _ => s' = s3)
        ⟨g3.congr ⟨w3.1, w3.2⟩ rfl rfl rfl, fun b j h => (hd3 b j).1 h, rfl⟩ ?_
      rintro _ s' _ rfl _
      have hR := runComp_safe hrec a _ _ (hs.mono a n h2) _ g3
      have hR' : Safe L le μ s' (runComp rec (L.compute a n)
          { s' with log := s'.log ++ [(a, n.index)] }) _ := hR
      refine Safe.bind hR' ?_
      rintro v s4 g4 ⟨w, hw, hvw⟩ _
      exact hfin v s4 g4 (hs.trans a v w _ hvw (hs.sol a n w h2 hw))
    cases hst : stOf s2 a n.index with
    | cycle =>
      simp only [cycleEvaluate]
      split
      · have gp : ∀ s3 : St A P V, True := fun _ => trivial
        -- the pending object is added before bottom is stored
        rcases baseSet_cases L (s := { s2 with pending := s2.pending ++ [(a, n)] })
          ⟨w2.1, w2.2⟩ a n (L.bottom a) with ⟨_, e⟩ | ⟨_, q, e⟩ | ⟨q1, q2, s3, e, w3, f3, a3, b3, c3, l3⟩
        · rw [e]; exact trivial
        · exact absurd h2 q
        · rw [e]
          simp only [Out.bind]
          obtain ⟨g6, m6, dn6⟩ := g2.upd (s' := s3) w3 (Or.inr rfl) a3 b3 (hs.bot a _)
            (fun c hc => by
              rw [f3.pending] at hc
              simp only [List.mem_append, List.mem_singleton] at hc
              rcases hc with hc | hc
              · exact Or.inl hc
              · subst hc; exact Or.inr ⟨rfl, rfl⟩)
          exact ⟨g6, m6, hs.bot a _, h2, dn6⟩
      · exact ⟨g2, fun _ _ h => h⟩
    | evaluated =>
      have hd : Done s2 a n.index := Or.inl hst
      have := get_safe g2 hin a n hd
      simp only
      cases hgt : get L a n s2 with
      | ub => exact trivial
      | nofuel => exact trivial
      | exc e s7 => rw [hgt] at this; exact this
      | ok x s7 => rw [hgt] at this; exact ⟨this.1, this.2.1, this.2.2.1, h2, this.2.1 _ _ hd⟩
    | assigned =>
      have hd : Done s2 a n.index := Or.inr hst
      have := get_safe g2 hin a n hd
      simp only
      cases hgt : get L a n s2 with
      | ub => exact trivial
      | nofuel => exact trivial
      | exc e s7 => rw [hgt] at this; exact this
      | ok x s7 => rw [hgt] at this; exact ⟨this.1, this.2.1, this.2.2.1, h2, this.2.1 _ _ hd⟩
    | uninit => exact hrun (Or.inl hst)
    | uneval => exact hrun (Or.inr hst)

theorem evalChanged_safe (hs : Solution L le μ) (hin : ∀ a, L.initial a = none)
    {rec : A → Node P → St A P V → Out A P V V} (hrec : EvalSafe L le μ rec)
    (a : A) (n : Node P) (s : St A P V) (hg : Good L le μ s) (hd : Done s a n.index) :
    Safe L le μ s (evalChanged L rec a n s) fun _ _ => True := by
  unfold evalChanged
  refine Safe.bind (get_safe hg hin a n hd) ?_
  rintro old s1 g1 ⟨hold, h2⟩ _
  have g1' : Good L le μ { s1 with log := s1.log ++ [(a, n.index)] } :=
    g1.congr ⟨g1.wf.1, g1.wf.2⟩ rfl rfl rfl
  have hR : Safe L le μ s1 (runComp rec (L.compute a n)
      { s1 with log := s1.log ++ [(a, n.index)] }) _ :=
    runComp_safe hrec a _ _ (hs.mono a n h2) _ g1'
  refine Safe.bind hR ?_
  rintro w s2 g2 ⟨x, hx, hwx⟩ _
  split
  · exact ⟨g2, fun _ _ h => h, trivial⟩
  · simp only [set, hin a]
    refine Safe.bind (baseSet_safe g2 a n _ (hs.join a _ _ _ hold
      (hs.trans a _ _ _ hwx (hs.sol a n x h2 hx)))) ?_
    intro _ s3 g3 _ _
    exact ⟨g3, fun _ _ h => h, trivial⟩

theorem sweep_safe (hs : Solution L le μ) (hin : ∀ a, L.initial a = none)
    {rec : A → Node P → St A P V → Out A P V V} (hrec : EvalSafe L le μ rec)
    (cs : List (A × Node P)) : ∀ (k : Nat) (s : St A P V), Good L le μ s →
      (∀ c ∈ cs, Done s c.1 c.2.index) →
      Safe L le μ s (sweep L rec cs k s) fun _ _ => True := by
  induction cs with
  | nil => intro k s hg _; exact ⟨hg, fun _ _ h => h, trivial⟩
  | cons c cs ih =>
    intro k s hg hc
    obtain ⟨a, n⟩ := c
    simp only [sweep]
    refine Safe.bind (evalChanged_safe hs hin hrec a n s hg (hc _ List.mem_cons_self)) ?_
    intro ch s1 g1 _ hm
    split
    · exact trivial
    · exact ih _ s1 g1 (fun c h => hm _ _ (hc c (List.mem_cons_of_mem _ h)))

theorem clearPending_safe (hs : Solution L le μ) (hin : ∀ a, L.initial a = none)
    {rec : A → Node P → St A P V → Out A P V V} (hrec : EvalSafe L le μ rec)
    (f : Nat) : ∀ (s : St A P V), Good L le μ s →
      Safe L le μ s (clearPending L rec f s) fun _ _ => True := by
  induction f with
  | zero => intro s _; exact trivial
  | succ f ih =>
    intro s hg
    simp only [clearPending]
    refine Safe.bind (sweep_safe hs hin hrec s.pending 0 s hg hg.pend) ?_
    intro k s1 g1 _ _
    split
    · exact ih s1 g1
    · exact ⟨⟨⟨g1.wf.1, g1.wf.2⟩, g1.below, by simp⟩, fun _ _ h => h, trivial⟩

theorem leave_safe {s : St A P V} {α : Type} {out : Out A P V α} {Q : St A P V → α → Prop}
    (hQ : ∀ s x k, Q s x → Q { s with checks := k } x)
    (h : Safe L le μ s out Q) : Safe L le μ s out.leave Q := by
  cases out with
  | ub => exact trivial
  | nofuel => exact trivial
  | exc e s1 => exact ⟨h.1.congr ⟨h.1.wf.1, h.1.wf.2⟩ rfl rfl rfl, h.2⟩
  | ok x s1 => exact ⟨h.1.congr ⟨h.1.wf.1, h.1.wf.2⟩ rfl rfl rfl, h.2.1, hQ _ _ _ h.2.2⟩

theorem evaluate_safe (hs : Solution L le μ) (hin : ∀ a, L.initial a = none) (f : Nat) :
    EvalSafe L le μ (evaluate L f) := by
  induction f with
  | zero => intro a n s _; exact trivial
  | succ f ih =>
    intro a n s hg
    simp only [evaluate]
    split
    · refine leave_safe (fun s x k h => h) ?_
      have g1 : Good L le μ { s with checks := s.checks + 1 } :=
        hg.congr ⟨hg.wf.1, hg.wf.2⟩ rfl rfl rfl
      have h1 : Safe L le μ s (evalBase L (evaluate L f) a n { s with checks := s.checks + 1 }) _ :=
        evalBase_safe hs hin ih a n _ g1
      refine Safe.bind h1 ?_
      rintro v s1 g1 ⟨hv, h2, hd⟩ _
      split
      · refine Safe.bind (Q := fun s' _ => Done s' a n.index) ?_ ?_
        · have := clearPending_safe hs hin ih f s1 g1
          cases hc : clearPending L (evaluate L f) f s1 with
          | ub => exact trivial
          | nofuel => exact trivial
          | exc e s2 => rw [hc] at this; exact this
          | ok u s2 => rw [hc] at this; exact ⟨this.1, this.2.1, this.2.1 _ _ hd⟩
        · intro _ s2 g2 hd2 _
          have := get_safe g2 hin a n hd2
          cases hgt : get L a n s2 with
          | ub => exact trivial
          | nofuel => exact trivial
          | exc e s7 => rw [hgt] at this; exact this
          | ok x s7 =>
            rw [hgt] at this
            exact ⟨this.1, this.2.1, this.2.2.1, h2, this.2.1 _ _ hd2⟩
      · exact ⟨g1, fun _ _ h => h, hv, h2, hd⟩
    · exact evalBase_safe hs hin ih a n s hg

theorem init_good : Good L le μ (init : St A P V) :=
  ⟨⟨fun _ => rfl, fun _ => Nat.zero_le _⟩, fun a i h => by simp [Done, stOf, init] at h,
    fun c h => by simp [init] at h⟩

end Aps.Runtime
