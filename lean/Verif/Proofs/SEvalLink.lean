import Verif.Proofs.SEvalForest
set_option linter.unusedVariables false
/-! The Scala runtime without assumptions about the guard: the links are always well formed, cycles are
only joined, and (while nothing is started and nothing joined) values only go up. -/
namespace Aps.ScalaEval
variable {V : Type}

/-- The links are a union-find forest, and each representative has the list of its members. -/
structure Link (S : Sys V) (D : Nat → Prop) (s : St V) : Prop where
  noUneval : ∀ j, s.status j ≠ .uneval
  nextNone : ∀ j, s.parent j = none → s.next j = none
  chain : ∀ j, s.parent j ≠ none → ∃ r, Root s.parent j r
  circ : ∀ j, s.parent j ≠ none → S.circular j = true ∧ D j
  pend : ∀ j ∈ s.pending, D j
  list : ∀ r, s.parent r = some r →
    ∃ l ls, (s.helper r).bind (·.cycleLast) = some l ∧ Path s.next r ls ∧ ls.getLast? = some l ∧
      ∀ j, j ∈ ls ↔ Root s.parent j r

/-- Values can be changed only finitely often: `equal` values have the same rank, and a value that is
`less` and not equal has a smaller one. -/
structure Ranked (S : Sys V) (rank : Nat → V → Nat) : Prop where
  equal : ∀ i a b, S.equal i a b = true → rank i a = rank i b
  less : ∀ i a b, ¬ S.equal i a b = true → S.less i a b = true → rank i a < rank i b

/-- What may happen between two states. -/
structure Prog (S : Sys V) (D : Nat → Prop) (rank : Nat → V → Nat) (s s' : St V) : Prop where
  uninit : ∀ j, s'.status j = .uninit → s.status j = .uninit
  root : ∀ r, s.parent r ≠ none → s'.parent r = some r → s.parent r = some r
  none : ∀ j, s'.parent j = none → s.parent j = none
  path : ∀ r, s.parent r = some r → s'.parent r = some r →
    ∀ ls, Path s.next r ls → ∃ ls', Path s'.next r (ls ++ ls')
  quiet : Ranked S rank → Quiet D s s' → (∀ j, rank j (s.value j) ≤ rank j (s'.value j)) ∧
    ∀ r, D r → s.parent r = some r → Modified s' r →
      Modified s r ∨ ∃ j, D j ∧ rank j (s.value j) < rank j (s'.value j)

/-- The exceptions of the code. -/
def Known (S : Sys V) (x : Exc) : Prop :=
  x = .undefined ∨ x = .cyclic ∨ x = .nonMonotonic ∨ (x = .skipped ∧ S.guard = true)

variable {S : Sys V} {D : Nat → Prop} {rank : Nat → V → Nat} {s : St V}

theorem Prog.refl (s : St V) : Prog S D rank s s where
  uninit := fun _ h => h
  root := fun _ _ h => h
  none := fun _ h => h
  path := fun _ _ _ ls h => ⟨[], by simpa using h⟩
  quiet := fun _ _ => ⟨fun _ => Nat.le_refl _, fun _ _ _ h => .inl h⟩

theorem Prog.split {s s' s'' : St V} (h : Prog S D rank s s') (h' : Prog S D rank s' s'') (q : Quiet D s s'') :
    Quiet D s s' ∧ Quiet D s' s'' := by
  have q1 : Quiet D s s' := by
    refine ⟨fun j d e => h'.uninit j (q.uninit j d e), fun j d e => h'.none j (q.none j d e), fun r d e => ?_⟩
    exact h'.root r (fun hc => absurd (h.none r hc) (by rw [e]; simp)) (q.root r d e)
  refine ⟨q1, fun j d e => q.uninit j d (h.uninit j e), fun j d e => q.none j d (h.none j e), fun r d e => q.root r d ?_⟩
  refine h.root r (fun hc => ?_) e
  rw [q1.none r d hc] at e; cases e

theorem Prog.trans {s s' s'' : St V} (h : Prog S D rank s s') (h' : Prog S D rank s' s'') :
    Prog S D rank s s'' where
  uninit := fun j e => h.uninit j (h'.uninit j e)
  root := fun r hr e => h.root r hr (h'.root r (fun hc => hr (h.none r hc)) e)
  none := fun j e => h.none j (h'.none j e)
  path := fun r h1 h2 ls hp => by
    have hm : s'.parent r = some r :=
      h'.root r (fun hc => by have := h.none r hc; rw [h1] at this; cases this) h2
    obtain ⟨l1, p1⟩ := h.path r h1 hm ls hp
    obtain ⟨l2, p2⟩ := h'.path r hm h2 _ p1
    exact ⟨l1 ++ l2, by simpa using p2⟩
  quiet := fun R q => by
    obtain ⟨q1, q2⟩ := h.split h' q
    obtain ⟨a1, a2⟩ := h.quiet R q1
    obtain ⟨b1, b2⟩ := h'.quiet R q2
    refine ⟨fun j => Nat.le_trans (a1 j) (b1 j), fun r d hr hm => ?_⟩
    rcases b2 r d (q1.root r d hr) hm with hm | ⟨j, dj, hj⟩
    · rcases a2 r d hr hm with hm | ⟨j, dj, hj⟩
      · exact .inl hm
      · exact .inr ⟨j, dj, Nat.lt_of_lt_of_le hj (b1 j)⟩
    · exact .inr ⟨j, dj, Nat.lt_of_le_of_lt (a1 j) hj⟩

/-- Only values, flags and the stack differ. -/
theorem Link.congr {s' : St V} (h : Link S D s) (e1 : s'.status = s.status) (e2 : Compress s.parent s'.parent)
    (e3 : s'.next = s.next)
    (e4 : ∀ r, (s'.helper r).bind (·.cycleLast) = (s.helper r).bind (·.cycleLast))
    (e5 : ∀ j ∈ s'.pending, D j) : Link S D s' where
  noUneval := by rw [e1]; exact h.noUneval
  nextNone := fun j e => by rw [e3]; exact h.nextNone j (e2.none.1 e)
  chain := fun j e => by
    obtain ⟨r, hr⟩ := h.chain j (fun c => e (e2.none.2 c))
    exact ⟨r, e2.root.2 hr⟩
  circ := fun j e => h.circ j (fun c => e (e2.none.2 c))
  pend := e5
  list := fun r e => by
    obtain ⟨l, ls, g1, g2, g3, g4⟩ := h.list r (e2.self.1 e)
    exact ⟨l, ls, by rw [e4]; exact g1, by rw [e3]; exact g2, g3, fun j => by rw [g4, e2.root]⟩

theorem Link.next_some (h : Link S D s) {j p} (e : s.parent j = some p) : s.parent p ≠ none := by
  obtain ⟨r, hr⟩ := h.chain j (by rw [e]; simp)
  cases hr with
  | self e' => rw [e] at e'; cases e'; rw [e]; simp
  | step e' n hr => rw [e] at e'; cases e'; exact hr.ne_none

theorem Prog.compress (s : St V) {par' : Nat → Option Nat} (h : Compress s.parent par') (p : List Nat) :
    Prog S D rank s { s with parent := par', pending := p } where
  uninit := fun _ h => h
  root := fun _ _ e => h.self.1 e
  none := fun _ e => h.none.1 e
  path := fun _ _ _ ls h => ⟨[], by simpa using h⟩
  quiet := fun _ _ => ⟨fun _ => Nat.le_refl _, fun _ _ _ h => .inl h⟩

theorem inCycle_link : ∀ f i (s : St V), Link S D s →
    Sat (inCycle S f i s) (fun q s' => (∃ par', s' = { s with parent := par' } ∧
      Compress s.parent par') ∧ (q = none ↔ s.parent i = none) ∧
      ∀ r, q = some r ↔ Root s.parent i r) (fun _ => False) := by
  intro f
  induction f with
  | zero => intros; trivial
  | succ f ih =>
    intro i s h
    simp only [inCycle]
    split
    · split
      · next e =>
        refine ⟨⟨s.parent, rfl, .refl _⟩, by simp [e], fun r => ?_⟩
        exact ⟨fun h => (by cases h), fun h => absurd e h.ne_none⟩
      · next p hp =>
        refine Sat.bind (Q := fun q s' => (∃ par', s' = { s with parent := par' } ∧
          Compress s.parent par') ∧ (q = none ↔ s.parent i = none) ∧
          ∀ r, q = some r ↔ Root s.parent i r) ?_ ?_
        · split
          · next hn =>
            refine (ih p s h).mono ?_ (fun _ h => h)
            rintro q s' ⟨h1, h2, h3⟩
            refine ⟨h1, ?_, fun r => ?_⟩
            · rw [h2, hp]; simp [h.next_some hp]
            · rw [h3]
              constructor
              · exact fun h => .step hp hn h
              · intro h
                cases h with
                | self e => rw [hp] at e; cases e; exact absurd rfl hn
                | step e n h => rw [hp] at e; cases e; exact h
          · next hn =>
            have hn : p = i := by simpa using hn
            subst hn
            refine ⟨⟨s.parent, rfl, .refl _⟩, by simp [hp], fun r => ?_⟩
            constructor
            · intro e; cases e; exact .self hp
            · intro e; rw [e.unique (.self hp)]
        · rintro q s1 ⟨⟨par', rfl, h1⟩, h2, h3⟩
          split
          · refine ⟨⟨_, rfl, fun j => ?_⟩, h2, h3⟩
            by_cases hj : j = i
            · subst hj
              cases q with
              | none => exact absurd (h2.1 rfl) (by rw [hp]; simp)
              | some r => exact .inr ⟨r, (h3 r).1 rfl, by simp⟩
            · rw [upd_ne _ _ hj]; exact h1 j
          · exact ⟨⟨par', rfl, h1⟩, h2, h3⟩
    · next hc =>
      have e : s.parent i = none := by
        by_contra e
        exact hc (h.circ i e).1
      refine ⟨⟨s.parent, rfl, .refl _⟩, by simp [e], fun r => ?_⟩
      exact ⟨fun h => (by cases h), fun h => absurd e h.ne_none⟩

/-- The state after `x` was put under `ce`: `lsx` are the members that come along. -/
theorem join_link {x ce l lx : Nat} {lsx : List Nat} {hp : Nat → Option Helper} (h : Link S D s)
    (hx : s.parent x = none ∧ lsx = [x] ∧ lx = x ∨ s.parent x = some x ∧ Path s.next x lsx ∧
      lsx.getLast? = some lx ∧ ∀ j, j ∈ lsx ↔ Root s.parent j x)
    (hcx : S.circular x = true) (hDx : D x)
    (hce : s.parent ce = some ce) (hne : x ≠ ce)
    (hl : (s.helper ce).bind (·.cycleLast) = some l)
    (hp1 : (hp ce).bind (·.cycleLast) = some lx)
    (hp2 : ∀ r, r ≠ ce → r ≠ x → hp r = s.helper r) :
    Link S D { s with parent := upd s.parent x (some ce), next := upd s.next l (some x), helper := hp } ∧
    Prog S D rank s { s with parent := upd s.parent x (some ce), next := upd s.next l (some x), helper := hp } := by
  have hx0 : s.parent x = none ∨ s.parent x = some x := by
    rcases hx with h | h
    · exact .inl h.1
    · exact .inr h.1
  have hnone : s.parent x = none → ∀ j, s.parent j ≠ some x := by
    intro e j e'
    exact (h.next_some e') e
  have jr := @join_root s.parent x ce hx0 hnone hce hne
  obtain ⟨l', ls, h1, h2, h3, h4⟩ := h.list ce hce
  rw [hl] at h1; cases h1
  have hlce : Root s.parent l ce := (h4 l).1 (List.mem_of_getLast? h3)
  have hlsx : ∀ j, j ∈ lsx ↔ (j = x ∨ Root s.parent j x) := by
    rcases hx with ⟨e, rfl, rfl⟩ | ⟨e, _, _, hm⟩
    · intro j
      simp only [List.mem_singleton]
      refine ⟨.inl, ?_⟩
      rintro (h | h)
      · exact h
      · exact absurd e h.idem.ne_none
    · intro j
      rw [hm j]
      refine ⟨.inr, ?_⟩
      rintro (rfl | h)
      · exact .self e
      · exact h
  have hlx : l ∉ lsx := by
    intro hc
    rcases (hlsx l).1 hc with e | hr
    · subst e
      rcases hx0 with e | e
      · exact hlce.ne_none e
      · exact hne (((Root.self e).unique hlce))
    · exact hne (hr.unique hlce)
  have hpx : Path (upd s.next l (some x)) x lsx := by
    rcases hx with ⟨e, rfl, rfl⟩ | ⟨e, hp, _, hm⟩
    · refine .last ?_
      rw [upd_ne _ _ (fun e => hlx (by simp [e]))]
      exact h.nextNone _ e
    · exact hp.congr fun j hj => upd_ne _ _ (fun e => hlx (e ▸ hj))
  have hlast : lsx.getLast? = some lx := by
    rcases hx with ⟨e, rfl, rfl⟩ | ⟨e, hp, hl, hm⟩
    · rfl
    · exact hl
  have hpath := h2.extend h3 hpx
  have other : ∀ r, r ≠ ce → s.parent r = some r → ∀ ls, Path s.next r ls →
      Path (upd s.next l (some x)) r ls := by
    intro r hr e ls hp
    obtain ⟨_, ls', _, p, _, m⟩ := h.list r e
    cases hp.unique p
    refine hp.congr fun j hj => upd_ne _ _ ?_
    rintro rfl
    exact hr (((m j).1 hj).unique hlce)
  constructor
  · refine ⟨h.noUneval, fun j hj => ?_, fun j hj => ?_, fun j hj => ?_, h.pend, fun r hr => ?_⟩
    · replace hj : upd s.parent x (some ce) j = none := hj
      have hjx : j ≠ x := by rintro rfl; simp at hj
      rw [upd_ne _ _ hjx] at hj
      show upd s.next l (some x) j = none
      rw [upd_ne _ _ (fun e => ?_)]
      · exact h.nextNone j hj
      · subst e; exact hlce.ne_none hj
    · replace hj : upd s.parent x (some ce) j ≠ none := hj
      show ∃ r, Root (upd s.parent x (some ce)) j r
      by_cases hm : j = x ∨ Root s.parent j x
      · exact ⟨ce, jr.2 (.inl ⟨hm, rfl⟩)⟩
      · rw [upd_ne _ _ (fun e => hm (.inl e))] at hj
        obtain ⟨r, hr⟩ := h.chain j hj
        exact ⟨r, jr.2 (.inr ⟨hm, hr⟩)⟩
    · replace hj : upd s.parent x (some ce) j ≠ none := hj
      by_cases e : j = x
      · subst e; exact ⟨hcx, hDx⟩
      · rw [upd_ne _ _ e] at hj; exact h.circ j hj
    · have hr : upd s.parent x (some ce) r = some r := hr
      have hrx : r ≠ x := by rintro rfl; rw [upd_self] at hr; cases hr; exact hne rfl
      rw [upd_ne _ _ hrx] at hr
      by_cases hrc : r = ce
      · subst hrc
        refine ⟨lx, ls ++ lsx, hp1, hpath, ?_, fun j => ?_⟩
        · rw [getLast?_append_ne _ _ hpx.ne_nil]; exact hlast
        · show _ ↔ Root (upd s.parent x (some r)) j r
          rw [jr, List.mem_append, h4 j, hlsx j]
          by_cases hm : j = x ∨ Root s.parent j x
          · simp [hm]
          · simp [hm]
      · obtain ⟨l2, ls2, g1, g2, g3, g4⟩ := h.list r hr
        refine ⟨l2, ls2, by show (hp r).bind _ = _; rw [hp2 r hrc hrx]; exact g1,
          other r hrc hr ls2 g2, g3, fun j => ?_⟩
        show _ ↔ Root (upd s.parent x (some ce)) j r
        rw [jr, g4 j]
        constructor
        · intro hj
          refine .inr ⟨?_, hj⟩
          rintro (rfl | hjx)
          · rcases hx0 with e | e
            · exact hj.ne_none e
            · exact hrx (hj.unique (.self e))
          · exact hrx (hj.unique hjx)
        · rintro (⟨_, e⟩ | ⟨_, hj⟩)
          · exact absurd e hrc
          · exact hj
  · refine ⟨fun _ h => h, fun r hr e => ?_, fun j e => ?_, fun r e1 e2 l1 p1 => ?_, fun R q => ?_⟩
    · have e : upd s.parent x (some ce) r = some r := e
      have hrx : r ≠ x := by rintro rfl; rw [upd_self] at e; cases e; exact hne rfl
      rw [upd_ne _ _ hrx] at e; exact e
    · have e : upd s.parent x (some ce) j = none := e
      have hjx : j ≠ x := by rintro rfl; simp at e
      rw [upd_ne _ _ hjx] at e; exact e
    · by_cases hrc : r = ce
      · subst hrc; cases p1.unique h2; exact ⟨lsx, hpath⟩
      · exact ⟨[], by simpa using other r hrc e1 l1 p1⟩
    · exfalso
      rcases hx0 with e | e
      · have : upd s.parent x (some ce) x = none := q.none x hDx e
        simp at this
      · have : upd s.parent x (some ce) x = some x := q.root x hDx e
        simp at this; exact hne this.symm

theorem setInCycle_link (f e ce : Nat) (h : Link S D s) (hDe : D e)
    (hce : s.parent ce = some ce) (hne : ¬ Root s.parent e ce) :
    Sat (setInCycle S f e ce s) (fun _ s' => Link S D s' ∧ Prog S D rank s s' ∧ s'.pending = s.pending ∧
      s'.parent ce = some ce) (Known S) := by
  simp only [setInCycle]
  split
  · next hcirc =>
    split
    · next hpe =>
      have hec : e ≠ ce := by rintro rfl; rw [hce] at hpe; cases hpe
      obtain ⟨l, ls, h1, h2, h3, h4⟩ := h.list ce hce
      simp only [helperAdd]
      cases hh : s.helper ce with
      | none => rw [hh] at h1; cases h1
      | some x =>
        rw [hh] at h1
        have h1 : x.cycleLast = some l := h1
        simp only [h1, h.nextNone e hpe, if_true]
        have hj := join_link (rank := rank) (x := e) (ce := ce) (l := l) (lx := e) (lsx := [e])
          (hp := upd s.helper ce (some { x with cycleLast := some e })) h (.inl ⟨hpe, rfl, rfl⟩) hcirc
          hDe hce hec (by rw [hh]; exact h1) (by simp) (fun r hr _ => upd_ne _ _ hr)
        exact ⟨hj.1, hj.2, rfl, by show upd s.parent e (some ce) ce = _; rw [upd_ne _ _ (Ne.symm hec)]; exact hce⟩
    · next p0 hpe =>
      refine (inCycle_link f e s h).mono (E' := Known S) (fun _ _ h => h) (fun _ h => h.elim) |>.bind ?_
      rintro q s1 ⟨⟨par', rfl, hc⟩, hq1, hq2⟩
      split
      · exact absurd (hq1.1 rfl) (by rw [hpe]; simp)
      · next p =>
        have hp : Root s.parent e p := (hq2 p).1 rfl
        have k : Link S D { s with parent := par' } := h.congr rfl hc rfl (fun _ => rfl) h.pend
        have hpc : p ≠ ce := by rintro rfl; exact hne hp
        have e1 : par' p = some p := hc.self.2 hp.root
        have e2 : par' ce = some ce := hc.self.2 hce
        obtain ⟨l, ls, h1, h2, h3, h4⟩ := k.list ce e2
        obtain ⟨lp, lsp, g1, g2, g3, g4⟩ := k.list p e1
        have h1 : (s.helper ce).bind (·.cycleLast) = some l := h1
        have g1 : (s.helper p).bind (·.cycleLast) = some lp := g1
        simp only [helperAddAll]
        cases hh : s.helper ce with
        | none => rw [hh] at h1; cases h1
        | some x =>
        cases hg : s.helper p with
        | none => rw [hg] at g1; cases g1
        | some y =>
        rw [hh] at h1; rw [hg] at g1
        have h1 : x.cycleLast = some l := h1
        have g1 : y.cycleLast = some lp := g1
        have hn : s.next l = none := h2.last_none h3
        simp only [h1, g1, hn, if_neg hpc, if_true]
        have hcp := h.circ p hp.idem.ne_none
        have hj := join_link (rank := rank) (x := p) (ce := ce) (l := l) (lx := lp) (lsx := lsp)
          (hp := upd (upd s.helper ce (some ⟨some lp, x.modified || y.modified⟩)) p
                              (some ⟨none, y.modified⟩)) k (.inr ⟨e1, g2, g3, g4⟩) hcp.1 hcp.2
          e2 hpc (by show (s.helper ce).bind _ = _; rw [hh]; exact h1)
          (by rw [upd_ne _ _ (Ne.symm hpc)]; simp)
          (fun r hr hr' => by rw [upd_ne _ _ hr', upd_ne _ _ hr])
        exact ⟨hj.1, (Prog.compress s hc s.pending).trans hj.2, rfl,
          by show upd par' p (some ce) ce = _; rw [upd_ne _ _ (Ne.symm hpc)]; exact e2⟩
  · exact .inr (.inl rfl)

theorem markLoop_link (f ce : Nat) : ∀ es s, Link S D s → (∀ j ∈ es, D j) → s.parent ce = some ce →
    Sat (markLoop S f ce es s) (fun _ s' => Link S D s' ∧ Prog S D rank s s' ∧ s'.pending = s.pending)
      (Known S) := by
  intro es
  induction es with
  | nil => intro s h _ _; exact ⟨h, .refl s, rfl⟩
  | cons e es ih =>
    intro s h hD hce
    simp only [markLoop]
    refine (inCycle_link f e s h).mono (E' := Known S) (fun _ _ h => h) (fun _ h => h.elim) |>.bind ?_
    rintro q s1 ⟨⟨par', rfl, hc⟩, hq1, hq2⟩
    have k : Link S D { s with parent := par' } := h.congr rfl hc rfl (fun _ => rfl) h.pend
    split
    · exact ⟨k, .compress s hc s.pending, rfl⟩
    · next hn =>
      refine (setInCycle_link (rank := rank) f e ce k (hD e (by simp)) (hc.self.2 hce) (fun hr => hn ((hq2 ce).2 (hc.root.1 hr)))).bind ?_
      rintro _ s2 ⟨a1, a2, a3, a4⟩
      refine (ih s2 a1 (fun j hj => hD j (by simp [hj])) a4).mono ?_ (fun _ h => h)
      rintro _ s3 ⟨b1, b2, b3⟩
      exact ⟨b1, ((Prog.compress s hc s.pending).trans a2).trans b2, b3.trans a3⟩

theorem guardMark_link (f ce : Nat) (hg : S.guard = true) : ∀ es out (s : St V), Link S D s →
    Sat (guardMark S f ce out es s) (fun _ s' => s' = s) (Known S) := by
  intro es
  induction es with
  | nil => intros; rfl
  | cons e es ih =>
    intro out s h
    simp only [guardMark]
    have hi := inCycle_link f e s h
    cases hc : inCycle S f e s with
    | nofuel => trivial
    | exc x t => rw [hc] at hi; exact hi.elim
    | ok q t =>
      simp only
      split
      · split
        · exact .inr (.inr (.inr ⟨rfl, hg⟩))
        · exact ih _ _ h
      · exact ih _ _ h

theorem markPending_link (f i : Nat) (h : Link S D s) (hi : s.parent i ≠ none) :
    Sat (markPending S f i s) (fun _ s' => Link S D s' ∧ Prog S D rank s s' ∧ s'.pending = s.pending)
      (Known S) := by
  simp only [markPending]
  refine (inCycle_link f i s h).mono (E' := Known S) (fun _ _ h => h) (fun _ h => h.elim) |>.bind ?_
  rintro q s1 ⟨⟨par', rfl, hc⟩, hq1, hq2⟩
  have k : Link S D { s with parent := par' } := h.congr rfl hc rfl (fun _ => rfl) h.pend
  cases q with
  | none => exact absurd (hq1.1 rfl) hi
  | some c =>
    simp only
    refine (markLoop_link (rank := rank) f c _ _ k h.pend (hc.self.2 ((hq2 c).1 rfl).root)).bind ?_
    rintro _ s2 ⟨a1, a2, a3⟩
    have p := (Prog.compress s hc s.pending).trans a2
    split
    · next hg =>
      refine (guardMark_link f c hg _ _ s2 a1).mono ?_ (fun _ h => h)
      rintro _ s3 rfl
      exact ⟨a1, p, a3⟩
    · exact ⟨a1, p, a3⟩

/-- `i` becomes the representative of a new cycle. -/
theorem newRoot_link {i : Nat} {va : Nat → V} (h : Link S D s) (hDi : D i) (hc : S.circular i = true)
    (hp : s.parent i = none) :
    Link S D { s with value := va, helper := upd s.helper i (some ⟨some i, false⟩), parent := upd s.parent i (some i) } ∧
    Prog S D rank s { s with value := va, helper := upd s.helper i (some ⟨some i, false⟩), parent := upd s.parent i (some i) } := by
  have nopar : ∀ j, s.parent j ≠ some i := fun j e => h.next_some e hp
  have rt : ∀ j r, Root (upd s.parent i (some i)) j r ↔ (j = i ∧ r = i) ∨ (j ≠ i ∧ Root s.parent j r) := by
    intro j r
    constructor
    · intro hr
      induction hr with
      | @self r e =>
        by_cases hr : r = i
        · exact .inl ⟨hr, hr⟩
        · rw [upd_ne _ _ hr] at e; exact .inr ⟨hr, .self e⟩
      | @step j p r e n _ ih =>
        by_cases hj : j = i
        · subst hj; rw [upd_self] at e; cases e; exact absurd rfl n
        · rw [upd_ne _ _ hj] at e
          rcases ih with ⟨rfl, _⟩ | ⟨_, h⟩
          · exact absurd e (nopar j)
          · exact .inr ⟨hj, .step e n h⟩
    · rintro (⟨rfl, rfl⟩ | ⟨hj, hr⟩)
      · exact .self (upd_self _ _ _)
      · induction hr with
        | @self r e => exact .self (by rw [upd_ne _ _ hj]; exact e)
        | @step j p r e n _ ih =>
          refine .step (by rw [upd_ne _ _ hj]; exact e) n (ih ?_)
          rintro rfl; exact nopar j e
  have ni : ∀ {j r}, Root s.parent j r → j ≠ i := by
    rintro j r hr rfl; exact hr.ne_none hp
  have nr : ∀ {j r}, Root s.parent j r → r ≠ i := by
    rintro j r hr rfl; exact hr.idem.ne_none hp
  constructor
  · refine ⟨h.noUneval, fun j hj => ?_, fun j hj => ?_, fun j hj => ?_, h.pend, fun r e => ?_⟩
    · replace hj : upd s.parent i (some i) j = none := hj
      have : j ≠ i := by rintro rfl; simp at hj
      rw [upd_ne _ _ this] at hj
      exact h.nextNone j hj
    · replace hj : upd s.parent i (some i) j ≠ none := hj
      show ∃ r, Root (upd s.parent i (some i)) j r
      by_cases e : j = i
      · exact ⟨i, (rt _ _).2 (.inl ⟨e, rfl⟩)⟩
      · rw [upd_ne _ _ e] at hj
        obtain ⟨r, hr⟩ := h.chain j hj
        exact ⟨r, (rt _ _).2 (.inr ⟨e, hr⟩)⟩
    · replace hj : upd s.parent i (some i) j ≠ none := hj
      by_cases e : j = i
      · subst e; exact ⟨hc, hDi⟩
      · rw [upd_ne _ _ e] at hj; exact h.circ j hj
    · replace e : upd s.parent i (some i) r = some r := e
      by_cases hr : r = i
      · subst hr
        refine ⟨r, [r], by simp, .last (h.nextNone r hp), rfl, fun j => ?_⟩
        show _ ↔ Root (upd s.parent r (some r)) j r
        rw [rt]
        simp only [List.mem_singleton]
        constructor
        · intro e; exact .inl ⟨e, trivial⟩
        · rintro (⟨e, _⟩ | ⟨_, h'⟩)
          · exact e
          · exact absurd rfl (nr h')
      · rw [upd_ne _ _ hr] at e
        obtain ⟨l, ls, g1, g2, g3, g4⟩ := h.list r e
        refine ⟨l, ls, ?_, g2, g3, fun j => ?_⟩
        · show (upd s.helper i _ r).bind _ = _
          rw [upd_ne _ _ hr]; exact g1
        · show _ ↔ Root (upd s.parent i (some i)) j r
          rw [rt, g4]
          constructor
          · intro h'; exact .inr ⟨ni h', h'⟩
          · rintro (⟨_, e⟩ | ⟨_, h'⟩)
            · exact absurd e hr
            · exact h'
  · refine ⟨fun _ h => h, fun r hr e => ?_, fun j e => ?_, fun r _ _ ls p => ⟨[], by simpa using p⟩, fun R q => ?_⟩
    · replace e : upd s.parent i (some i) r = some r := e
      rw [upd_ne _ _ (fun e : r = i => hr (by rw [e]; exact hp))] at e
      exact e
    · replace e : upd s.parent i (some i) j = none := e
      have : j ≠ i := by rintro rfl; simp at e
      rw [upd_ne _ _ this] at e; exact e
    · exfalso
      have : upd s.parent i (some i) i = none := q.none i hDi hp
      simp at this

theorem detectedCycle_link (f i : Nat) (h : Link S D s) (hDi : D i) :
    Sat (detectedCycle S f i s) (fun _ s' => Link S D s' ∧ Prog S D rank s s' ∧ s'.pending = s.pending)
      (Known S) := by
  simp only [detectedCycle]
  split
  · next hc =>
    cases hp : s.parent i with
    | some p =>
      simp only
      refine (markPending_link (rank := rank) f i h (by rw [hp]; simp)).bind ?_
      rintro _ s2 ⟨a1, a2, a3⟩
      exact ⟨a1, a2, a3⟩
    | none =>
      simp only
      obtain ⟨k1, k2⟩ := newRoot_link (rank := rank) (va := upd s.value i (S.bottom i)) h hDi hc hp
      refine (markPending_link (rank := rank) f i k1 (by simp)).bind ?_
      rintro _ s2 ⟨a1, a2, a3⟩
      exact ⟨a1, k2.trans a2, a3⟩
  · exact .inr (.inl rfl)

/-- What a demand does to the links. -/
abbrev LRec (S : Sys V) (D : Nat → Prop) (rank : Nat → V → Nat) (rec : Nat → St V → Out V V) : Prop :=
  ∀ i s, D i → Link S D s →
    Sat (rec i s) (fun _ s' => Link S D s' ∧ Prog S D rank s s' ∧ s'.pending = s.pending) (Known S)

theorem runComp_link {rec : Nat → St V → Out V V} (hr : LRec S D rank rec) : ∀ c s, ReadsIn D c → Link S D s →
    Sat (runComp rec c s) (fun _ s' => Link S D s' ∧ Prog S D rank s s' ∧ s'.pending = s.pending) (Known S) := by
  intro c
  induction c with
  | ret v => intro s _ h; exact ⟨h, .refl s, rfl⟩
  | undef => intro s _ h; exact .inl rfl
  | read i k ih =>
    intro s hD h
    cases hD with
    | read hDi hDk =>
    simp only [runComp]
    refine (hr i s hDi h).bind ?_
    rintro v s1 ⟨a1, a2, a3⟩
    refine (ih v s1 (hDk v) a1).mono ?_ (fun _ h => h)
    rintro w s2 ⟨b1, b2, b3⟩
    exact ⟨b1, a2.trans b2, b3.trans a3⟩

theorem Prog.pend {s s' : St V} (h : Prog S D rank s s') (p p' : List Nat) :
    Prog S D rank { s with pending := p } { s' with pending := p' } where
  uninit := h.uninit
  root := h.root
  none := h.none
  path := h.path
  quiet := fun R q => h.quiet R ⟨q.uninit, q.none, q.root⟩

theorem recompute_link (hD : Closed S D) {rec : Nat → St V → Out V V}
    (hr : LRec S D rank rec) (f c : Nat) (h : Link S D s) (hc : s.parent c ≠ none) :
    Sat (recompute S rec f c s) (fun _ s' => Link S D s' ∧ Prog S D rank s s' ∧ s'.pending = s.pending)
      (Known S) := by
  simp only [recompute]
  have hDc := (h.circ c hc).2
  refine (runComp_link hr _ s (hD c hDc) h).bind ?_
  rintro v s1 ⟨a1, a2, a3⟩
  have hc1 : s1.parent c ≠ none := fun e => hc (a2.none c e)
  simp only [check]
  split
  · next heq =>
    simp only [Out.bind]
    refine ⟨a1.congr rfl (.refl _) rfl (fun _ => rfl) a1.pend, a2.trans ⟨fun _ h => h, fun _ _ h => h,
      fun _ h => h, fun _ _ _ ls h => ⟨[], by simpa using h⟩, fun R q => ⟨fun j => ?_, fun _ _ _ h => .inl h⟩⟩, a3⟩
    show _ ≤ rank j (upd s1.value c v j)
    by_cases e : j = c
    · subst e; rw [upd_self, R.equal _ _ _ heq]; exact Nat.le_refl _
    · rw [upd_ne _ _ e]; exact Nat.le_refl _
  · next hne =>
    have hin := inCycle_link f c s1 a1
    cases hci : inCycle S f c s1 with
    | nofuel => simp only [Out.bind]; trivial
    | exc x t => rw [hci] at hin; exact hin.elim
    | ok q t =>
      rw [hci] at hin
      obtain ⟨⟨par', rfl, hcp⟩, q1, q2⟩ := hin
      cases q with
      | none => exact absurd (q1.1 rfl) hc1
      | some r1 =>
      have hr1 := (q2 r1).1 rfl
      simp only [Out.bind]
      obtain ⟨la, ls, g1, _⟩ := a1.list r1 hr1.root
      cases hh : s1.helper r1 with
      | none => rw [hh] at g1; cases g1
      | some x =>
        simp only [hh]
        by_cases hl : S.less c (s1.value c) v = true
        · simp only [if_pos hl]
          refine ⟨a1.congr rfl hcp rfl (fun r => ?_) a1.pend, a2.trans ⟨fun _ h => h,
            fun _ _ e => hcp.self.1 e, fun _ h => hcp.none.1 h,
            fun _ _ _ ls h => ⟨[], by simpa using h⟩, fun R q => ⟨fun j => ?_, fun _ _ _ _ => .inr ⟨c, hDc, ?_⟩⟩⟩, a3⟩
          · show (upd s1.helper r1 _ r).bind _ = (s1.helper r).bind _
            by_cases e : r = r1
            · subst e; rw [upd_self, hh]; rfl
            · rw [upd_ne _ _ e]
          · show _ ≤ rank j (upd s1.value c v j)
            by_cases e : j = c
            · subst e; rw [upd_self]; exact Nat.le_of_lt (R.less _ _ _ hne hl)
            · rw [upd_ne _ _ e]; exact Nat.le_refl _
          · show _ < rank c (upd s1.value c v c)
            rw [upd_self]; exact R.less _ _ _ hne hl
        · simp only [if_neg hl]
          exact .inr (.inr (.inl rfl))

theorem Path.mem_next {next : Nat → Option Nat} {c c'} : ∀ {ls a}, Path next a ls → c ∈ ls → next c = some c' → c' ∈ ls := by
  intro ls
  induction ls with
  | nil => intro a h; cases h
  | cons x ls ih =>
    intro a h hc hn
    cases h with
    | last e => simp at hc; subst hc; rw [e] at hn; cases hn
    | cons e h =>
      rcases List.mem_cons.1 hc with rfl | hc
      · rw [e] at hn; cases hn; simp [h.head_mem]
      · simp [ih h hc hn]

theorem pass_link (hD : Closed S D) {rec : Nat → St V → Out V V}
    (hr : LRec S D rank rec) (f L : Nat) : ∀ n c s, Link S D s → s.parent L = some L → Root s.parent c L →
    Sat (pass S rec f L n c s) (fun res s' => Link S D s' ∧ Prog S D rank s s' ∧ s'.pending = s.pending ∧
      (res = true → s'.parent L = some L)) (Known S) := by
  intro n
  induction n with
  | zero => intros; trivial
  | succ n ih =>
    intro c s h hL hc
    have hDc := (h.circ c hc.ne_none).2
    have k : Link S D { s with pending := c :: s.pending } := by
      refine h.congr rfl (.refl _) rfl (fun _ => rfl) ?_
      intro j hj
      rcases List.mem_cons.1 hj with rfl | hj
      · exact hDc
      · exact h.pend j hj
    simp only [pass]
    refine (recompute_link hD hr f c k hc.ne_none).bind ?_
    rintro _ s1 ⟨a1, a2, a3⟩
    replace a3 : s1.pending = c :: s.pending := a3
    simp only [pop, a3, Out.bind]
    have k1 : Link S D { s1 with pending := s.pending } := a1.congr rfl (.refl _) rfl (fun _ => rfl) h.pend
    have p1 : Prog S D rank s { s1 with pending := s.pending } := a2.pend s.pending s.pending
    by_cases hL1 : s1.parent L = some L
    · rw [if_neg (by simp [hL1])]
      cases hn : s1.next c with
      | none => exact ⟨k1, p1, rfl, fun _ => hL1⟩
      | some c' =>
        simp only
        have hc' : Root s1.parent c' L := by
          obtain ⟨l, ls, g1, g2, g3, g4⟩ := a1.list L hL1
          refine (g4 c').1 (g2.mem_next ?_ hn)
          obtain ⟨l0, ls0, _, g2', _, g4'⟩ := h.list L hL
          obtain ⟨ext, hp⟩ := a2.path L hL hL1 ls0 g2'
          rw [← hp.unique g2]
          simp [(g4' c).2 hc]
        refine (ih c' _ k1 hL1 hc').mono ?_ (fun _ h => h)
        rintro res s2 ⟨b1, b2, b3, b4⟩
        exact ⟨b1, p1.trans b2, b3, b4⟩
    · rw [if_pos hL1]
      exact ⟨k1, p1, rfl, fun e => absurd e (by simp)⟩

theorem freeze_link : ∀ n c (s : St V), Link S D s →
    Sat (freeze n c s) (fun _ s' => Link S D s' ∧ Prog S D rank s s' ∧ s'.pending = s.pending)
      (Known S) := by
  intro n
  induction n with
  | zero => intros; trivial
  | succ n ih =>
    intro c s h
    simp only [freeze]
    have k : Link S D { s with status := upd s.status c .evaluated } := by
      refine ⟨fun j => ?_, h.nextNone, h.chain, h.circ, h.pend, h.list⟩
      show upd s.status c .evaluated j ≠ _
      by_cases e : j = c
      · subst e; simp
      · rw [upd_ne _ _ e]; exact h.noUneval j
    have p : Prog S D rank s { s with status := upd s.status c .evaluated } := by
      refine ⟨fun j e => ?_, fun _ _ h => h, fun _ h => h, fun _ _ _ ls h => ⟨[], by simpa using h⟩,
        fun R q => ⟨fun _ => Nat.le_refl _, fun _ _ _ h => .inl h⟩⟩
      replace e : upd s.status c .evaluated j = .uninit := e
      rw [upd_ne _ _ (fun e' => by subst e'; simp at e)] at e
      exact e
    cases s.next c with
    | none => exact ⟨k, p, rfl⟩
    | some c' =>
      simp only
      refine (ih c' _ k).mono ?_ (fun _ h => h)
      rintro _ s2 ⟨b1, b2, b3⟩
      exact ⟨b1, p.trans b2, b3⟩

/-- The flag of `L` is cleared. -/
theorem clear_link {L : Nat} {x : Helper} (h : Link S D s) (hx : s.helper L = some x) :
    Link S D { s with helper := upd s.helper L (some { x with modified := false }) } ∧
    Prog S D rank s { s with helper := upd s.helper L (some { x with modified := false }) } := by
  refine ⟨h.congr rfl (.refl _) rfl (fun r => ?_) h.pend, fun _ h => h, fun _ _ h => h, fun _ h => h,
    fun _ _ _ ls h => ⟨[], by simpa using h⟩, fun R q => ⟨fun _ => Nat.le_refl _, fun r _ _ hm => .inl ?_⟩⟩
  · show (upd s.helper L _ r).bind _ = (s.helper r).bind _
    by_cases e : r = L
    · subst e; rw [upd_self, hx]; rfl
    · rw [upd_ne _ _ e]
  · obtain ⟨y, ey, my⟩ := hm
    replace ey : upd s.helper L _ r = some y := ey
    by_cases e : r = L
    · subst e; rw [upd_self] at ey; cases ey; cases my
    · rw [upd_ne _ _ e] at ey; exact ⟨y, ey, my⟩

theorem cycleLoop_link (hD : Closed S D) {rec : Nat → St V → Out V V}
    (hr : LRec S D rank rec) (f L : Nat) : ∀ n s, Link S D s → s.parent L = some L →
    Sat (cycleLoop S rec f L n s) (fun _ s' => Link S D s' ∧ Prog S D rank s s' ∧ s'.pending = s.pending)
      (Known S) := by
  intro n
  induction n with
  | zero => intros; trivial
  | succ n ih =>
    intro s h hL
    obtain ⟨l, ls, g1, _⟩ := h.list L hL
    simp only [cycleLoop]
    cases hh : s.helper L with
    | none => rw [hh] at g1; cases g1
    | some x =>
      simp only
      obtain ⟨k1, k2⟩ := clear_link (rank := rank) h hh
      refine (pass_link hD hr f L f L _ k1 hL (.self hL)).bind ?_
      rintro res s1 ⟨a1, a2, a3, a4⟩
      cases res with
      | false => exact ⟨a1, k2.trans a2, a3⟩
      | true =>
        simp only [if_true]
        obtain ⟨l, ls, g1, _⟩ := a1.list L (a4 rfl)
        cases hh1 : s1.helper L with
        | none => rw [hh1] at g1; cases g1
        | some y =>
          simp only
          split
          · refine (ih s1 a1 (a4 rfl)).mono ?_ (fun _ h => h)
            rintro _ s2 ⟨b1, b2, b3⟩
            exact ⟨b1, (k2.trans a2).trans b2, b3.trans a3⟩
          · refine (freeze_link (rank := rank) f L s1 a1).mono ?_ (fun _ h => h)
            rintro _ s2 ⟨b1, b2, b3⟩
            exact ⟨b1, (k2.trans a2).trans b2, b3.trans a3⟩

/-- The evaluation of `i` starts. -/
theorem start_link {i : Nat} (h : Link S D s) (hDi : D i) (hi : s.status i = .uninit)
    {st : Nat → Status} {va : Nat → V} (h2 : ∀ j, j ≠ i → st j = s.status j) :
    Link S D { s with status := upd st i .cycle, value := va, pending := i :: s.pending } ∧
    Prog S D rank s { s with status := upd st i .cycle, value := va, pending := i :: s.pending } := by
  constructor
  · refine ⟨fun j => ?_, h.nextNone, h.chain, h.circ, fun j hj => ?_, h.list⟩
    · show upd st i .cycle j ≠ _
      by_cases e : j = i
      · subst e; simp
      · rw [upd_ne _ _ e, h2 j e]; exact h.noUneval j
    · rcases List.mem_cons.1 hj with rfl | hj
      · exact hDi
      · exact h.pend j hj
  · refine ⟨fun j e => ?_, fun _ _ h => h, fun _ h => h, fun _ _ _ ls h => ⟨[], by simpa using h⟩, fun R q => ?_⟩
    · replace e : upd st i .cycle j = .uninit := e
      have hj : j ≠ i := fun e' => by subst e'; simp at e
      rw [upd_ne _ _ hj, h2 j hj] at e; exact e
    · exfalso
      have : upd st i .cycle i = .uninit := q.uninit i hDi hi
      simp at this

/-- A step that may do anything to values, after the evaluation of `i` has started. -/
theorem Prog.after {i : Nat} {s' : St V} (h : Prog S D rank s s') (hDi : D i) (hi : s.status i = .uninit)
    (hs : s'.status i ≠ .uninit) {t : St V} (e1 : ∀ j, t.status j = .uninit → s'.status j = .uninit)
    (e2 : t.parent = s'.parent) (e3 : t.next = s'.next) : Prog S D rank s t := by
  refine ⟨fun j e => h.uninit j (e1 j e), by rw [e2]; exact h.root, by rw [e2]; exact h.none,
    by rw [e2, e3]; exact h.path, fun R q => ?_⟩
  exact absurd (e1 i (q.uninit i hDi hi)) hs

theorem initValue_uninit (i : Nat) (hi : s.status i = .uninit) :
    ∃ st va, initValue S i s = { s with status := st, value := va } ∧
      (st i = .uninit ∨ st i = .uneval) ∧ (∀ j, j ≠ i → st j = s.status j) := by
  simp only [initValue]
  cases hc : S.collection i with
  | none => exact ⟨s.status, s.value, rfl, .inl hi, fun _ _ => rfl⟩
  | some v =>
    simp only [hi, if_true]
    exact ⟨_, _, rfl, .inr (by simp), fun j hj => upd_ne _ _ hj⟩

theorem initValue_other (i : Nat) (hi : s.status i ≠ .uninit) : initValue S i s = s := by
  simp only [initValue]
  cases S.collection i with
  | none => rfl
  | some v => simp only [if_neg hi]

theorem get_link (hD : Closed S D) : ∀ f, LRec S D rank (get S f) := by
  intro f
  induction f with
  | zero => intros i s _ h; trivial
  | succ f ih =>
    intro i s hDi h
    simp only [get]
    by_cases hi : s.status i = .uninit
    · obtain ⟨st, va, e, h1, h2⟩ := initValue_uninit (S := S) i hi
      rw [e]
      have key : Sat ((runComp (get S f) (S.compute i)
            { s with status := upd st i .cycle, value := va, pending := i :: s.pending }).bind fun v s =>
          (pop { s with value := upd s.value i v }).bind fun _ s =>
          (inCycle S f i s).bind fun q s =>
          if q ≠ none then
            (evaluateCycle S (get S f) f i s).bind fun _ s => .ok (s.value i) s
          else
            let s := { s with status := upd s.status i .evaluated }
            .ok (s.value i) s)
          (fun _ s' => Link S D s' ∧ Prog S D rank s s' ∧ s'.pending = s.pending) (Known S) := by
        obtain ⟨k1, k2⟩ := start_link (rank := rank) (va := va) h hDi hi h2
        refine (runComp_link ih _ _ (hD i hDi) k1).bind ?_
        rintro v s1 ⟨a1, a2, a3⟩
        have hsi : s1.status i ≠ .uninit := fun e => by
          have := a2.uninit i e
          replace this : upd st i .cycle i = .uninit := this
          simp at this
        replace a3 : s1.pending = i :: s.pending := a3
        simp only [pop, a3, Out.bind]
        have k3 : Link S D { s1 with value := upd s1.value i v, pending := s.pending } :=
          a1.congr rfl (.refl _) rfl (fun _ => rfl) h.pend
        have p3 := (k2.trans a2).after (t := { s1 with value := upd s1.value i v, pending := s.pending })
          hDi hi hsi (fun _ h => h) rfl rfl
        have hin := inCycle_link f i _ k3
        cases hci : inCycle S f i { s1 with value := upd s1.value i v, pending := s.pending } with
        | nofuel => trivial
        | exc x t => rw [hci] at hin; exact hin.elim
        | ok q t =>
          rw [hci] at hin
          obtain ⟨⟨par', rfl, hc⟩, q1, q2⟩ := hin
          have k4 : Link S D { s1 with value := upd s1.value i v, pending := s.pending, parent := par' } :=
            k3.congr rfl hc rfl (fun _ => rfl) h.pend
          have p4 := p3.trans (Prog.compress (rank := rank) (D := D) _ hc s.pending)
          cases q with
          | none =>
            simp only [ne_eq, not_true, if_false]
            refine ⟨⟨fun j => ?_, k4.nextNone, k4.chain, k4.circ, k4.pend, k4.list⟩, p4.after hDi hi hsi (fun j e => ?_) rfl rfl, rfl⟩
            · show upd s1.status i .evaluated j ≠ _
              by_cases e : j = i
              · subst e; simp
              · rw [upd_ne _ _ e]; exact a1.noUneval j
            · replace e : upd s1.status i .evaluated j = .uninit := e
              rw [upd_ne _ _ (fun e' => by subst e'; simp at e)] at e
              exact e
          | some r =>
            simp only [ne_eq, reduceCtorEq, not_false_eq_true, if_true, evaluateCycle]
            by_cases hlead : par' i = some i
            · rw [if_pos hlead]
              refine (cycleLoop_link hD ih f i f _ k4 hlead).bind ?_
              rintro _ s2 ⟨b1, b2, b3⟩
              exact ⟨b1, p4.trans b2, b3⟩
            · rw [if_neg hlead]
              exact ⟨k4, p4, rfl⟩
      rcases h1 with h1 | h1 <;> (simp only [h1]; exact key)
    · rw [initValue_other i hi]
      cases hst : s.status i with
      | uninit => exact absurd hst hi
      | uneval => exact absurd hst (h.noUneval i)
      | evaluated => exact ⟨h, .refl s, rfl⟩
      | assigned => exact ⟨h, .refl s, rfl⟩
      | cycle => exact detectedCycle_link f i h hDi

end Aps.ScalaEval
