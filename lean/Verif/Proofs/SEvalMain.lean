import Verif.Proofs.SEvalMark
set_option linter.unusedVariables false
/-! The Scala runtime: what a demand does. -/
namespace Aps.ScalaEval
variable {V : Type}

/-- Orders and comparisons under which evaluation can only go up. -/
structure Ordered (S : Sys V) (le : Nat → V → V → Prop) : Prop where
  refl : ∀ i a, le i a a
  trans : ∀ i a b c, le i a b → le i b c → le i a c
  bot : ∀ i v, S.circular i = true → le i (S.bottom i) v
  less : ∀ i a b, S.circular i = true → le i a b → a ≠ b → S.less i a b = true
  mono : Monotone S le

/-- The value of `j` was computed from values that are at most the present ones. -/
def Grown (S : Sys V) (le : Nat → V → V → Prop) (s : St V) (j : Nat) : Prop :=
  ∃ l, Run (S.compute j) l (s.value j) ∧ ∀ p ∈ l, s.status p.1 ≠ .uninit ∧
    (s.status p.1 = .cycle → S.circular p.1 = true) ∧ le p.1 p.2 (s.value p.1)

/-- The value is final. -/
def Fin (s : St V) (j : Nat) : Prop := s.status j = .evaluated ∨ s.status j = .assigned

structure VInv (S : Sys V) (le : Nat → V → V → Prop) (s : St V) (fr : List Frame) : Prop where
  bot : ∀ F ∈ fr, F.re = false → S.circular F.elem = true → s.value F.elem = S.bottom F.elem
  fresh : ∀ j, s.status j = .uninit → S.circular j = true ∧ S.collection j = none → s.value j = S.bottom j
  eqn : ∀ j, s.status j = .evaluated → ∃ l, Run (S.compute j) l (s.value j) ∧
    ∀ p ∈ l, p.2 = s.value p.1 ∧ Fin s p.1
  grow : Ordered S le → ∀ j, s.status j = .cycle → (∀ F ∈ fr, F.re = false → F.elem ≠ j) →
    Grown S le s j

/-- Exceptions that may happen. -/
def Allowed (S : Sys V) (le : Nat → V → V → Prop) (x : Exc) : Prop :=
  x = .undefined ∨ x = .cyclic ∨ x = .skipped ∨ (x = .nonMonotonic ∧ ¬ Ordered S le)

variable {S : Sys V} {D : Nat → Prop} {le : Nat → V → V → Prop} {s : St V} {b : Nat → Nat} {clk : Nat} {fr : List Frame}

theorem Inv.congr {s' : St V} (h : Inv S D s fr b clk) (e1 : s'.status = s.status)
    (e2 : s'.parent = s.parent) (e3 : s'.next = s.next)
    (e4 : ∀ r, (s'.helper r).bind (·.cycleLast) = (s.helper r).bind (·.cycleLast))
    (e5 : s'.pending = s.pending) : Inv S D s' fr b clk where
  core := h.core.same ⟨e1, by rw [e2]; exact .refl _, e3, e4⟩
  pend := e5.trans h.pend
  frames := by
    have := h.frames
    generalize fr = l at this
    induction l with
    | nil => trivial
    | cons F l ih =>
      refine ⟨⟨by rw [e1]; exact this.1.elem, by rw [e1]; exact this.1.owner, this.1.first,
        by rw [e2]; exact this.1.again, this.1.le, by rw [e2]; exact this.1.same, this.1.above,
        by rw [e2]; exact this.1.contig⟩, ih this.2⟩
  cyc := by rw [e1, e2]; exact h.cyc

theorem VInv.congr {s' : St V} (h : VInv S le s fr) (e1 : s'.status = s.status)
    (e2 : s'.value = s.value) : VInv S le s' fr where
  bot := by rw [e2]; exact h.bot
  fresh := by rw [e1, e2]; exact h.fresh
  eqn := by unfold Fin; rw [e1, e2]; exact h.eqn
  grow := by unfold Grown; rw [e1, e2]; exact h.grow

theorem detectedCycle_spec (hg : S.guard = true) (f i : Nat) (h : Inv S D s fr b clk)
    (hv : VInv S le s fr) (hsi : s.status i = .cycle) :
    Sat (detectedCycle S f i s) (fun v s' => Inv S D s' fr b clk ∧ VInv S le s' fr ∧ Evo D s s' ∧
      v = s'.value i ∧ s'.status i = .cycle ∧
      ∃ F fr', fr = F :: fr' ∧ ∃ r, Root s'.parent F.elem r ∧ Root s'.parent i r)
      (Allowed S le) := by
  simp only [detectedCycle]
  split
  · next hc =>
    have key : ∀ s1 : St V, Inv S D s1 fr b clk → VInv S le s1 fr → Evo D s s1 → s1.parent i ≠ none →
        s1.status = s.status →
        Sat ((markPending S f i s1).bind fun _ s => .ok (s.value i) s)
        (fun v s' => Inv S D s' fr b clk ∧ VInv S le s' fr ∧ Evo D s s' ∧
          v = s'.value i ∧ s'.status i = .cycle ∧
          ∃ F fr', fr = F :: fr' ∧ ∃ r, Root s'.parent F.elem r ∧ Root s'.parent i r)
        (Allowed S le) := by
      intro s1 h1 v1 e1 hp hst
      refine ((markPending_spec hg f i h1 hp (by rw [hst]; exact hsi)).mono (E' := Allowed S le)
        (fun _ _ h => h) (fun x h => ?_)).bind ?_
      · rcases h with h | h
        · exact .inr (.inl h)
        · exact .inr (.inr (.inl h))
      · rintro _ s2 ⟨a1, a2, a3, a4⟩
        exact ⟨a1, v1.congr a2.status a2.value, e1.trans a3, rfl, by rw [a2.status, hst]; exact hsi, a4⟩
    cases hp : s.parent i with
    | some p => exact key s h hv (.refl s) (by rw [hp]; simp) rfl
    | none =>
      obtain ⟨F, hF, hFi⟩ : ∃ F ∈ fr, F.elem = i := by
        rcases h.cyc i hsi with ⟨_, h'⟩ | ⟨F, hF, r, h1, _⟩
        · exact h'
        · exact absurd hp h1.ne_none
      have hre : F.re = false := by
        obtain ⟨_, hok⟩ := h.frames.mem hF
        cases e : F.re with
        | false => rfl
        | true => exact absurd (by rw [hFi]; exact hp) (hok.again e)
      have hbot : s.value i = S.bottom i := by
        have := hv.bot F hF hre (by rw [hFi]; exact hc)
        rwa [hFi] at this
      have hval : upd s.value i (S.bottom i) = s.value := by
        funext j
        by_cases e : j = i
        · subst e; rw [upd_self, hbot]
        · rw [upd_ne _ _ e]
      have nopar : ∀ j, s.parent j ≠ some i := fun j e => (h.core.link j i e).2.1 hp
      have rt : ∀ j r, Root (upd s.parent i (some i)) j r ↔ (j = i ∧ r = i) ∨ (j ≠ i ∧ Root s.parent j r) := by
        intro j r
        constructor
        · intro hr
          induction hr with
          | @self r e =>
            by_cases hr : r = i
            · exact .inl ⟨hr, hr⟩
            · rw [upd_ne _ _ hr] at e; exact .inr ⟨hr, .self e⟩
          | @step j p r e n _ ih =>
            by_cases hj : j = i
            · subst hj; rw [upd_self] at e; cases e; exact absurd rfl n
            · rw [upd_ne _ _ hj] at e
              rcases ih with ⟨rfl, _⟩ | ⟨_, h⟩
              · exact absurd e (nopar j)
              · exact .inr ⟨hj, .step e n h⟩
        · rintro (⟨rfl, rfl⟩ | ⟨hj, hr⟩)
          · exact .self (upd_self _ _ _)
          · induction hr with
            | @self r e => exact .self (by rw [upd_ne _ _ hj]; exact e)
            | @step j p r e n _ ih =>
              refine .step (by rw [upd_ne _ _ hj]; exact e) n (ih ?_)
              rintro rfl; exact nopar j e
      have ni : ∀ {j r}, Root s.parent j r → j ≠ i := by
        rintro j r hr rfl; exact hr.ne_none hp
      have nr : ∀ {j r}, Root s.parent j r → r ≠ i := by
        rintro j r hr rfl; exact hr.idem.ne_none hp
      refine key _ ?_ (hv.congr rfl hval) ?_ (by simp) rfl
      · refine ⟨⟨h.core.noUneval, h.core.dom, fun j hj => ?_, fun j hj => ?_, h.core.born, fun j p e n => ?_, fun j p e => ?_, fun r e hs => ?_⟩,
          h.pend, ?_, fun j hj => ?_⟩
        · show upd s.parent i (some i) j = none
          rw [upd_ne _ _ (fun e => ?_)]
          · exact h.core.fresh j hj
          · subst e; rw [show s.status j = .uninit from hj] at hsi; cases hsi
        · replace hj : upd s.parent i (some i) j = none := hj
          have : j ≠ i := by rintro rfl; simp at hj
          rw [upd_ne _ _ this] at hj
          exact h.core.nextNone j hj
        · replace e : upd s.parent i (some i) j = some p := e
          by_cases hj : j = i
          · subst hj; rw [upd_self] at e; cases e; exact absurd rfl n
          · rw [upd_ne _ _ hj] at e; exact h.core.older j p e n
        · replace e : upd s.parent i (some i) j = some p := e
          show _ ∧ upd s.parent i (some i) p ≠ none ∧ _
          by_cases hj : j = i
          · subst hj; rw [upd_self] at e; cases e; exact ⟨hc, by simp, rfl⟩
          · rw [upd_ne _ _ hj] at e
            have := h.core.link j p e
            refine ⟨this.1, ?_, this.2.2⟩
            by_cases hpi : p = i
            · subst hpi; simp
            · rw [upd_ne _ _ hpi]; exact this.2.1
        · replace e : upd s.parent i (some i) r = some r := e
          by_cases hr : r = i
          · subst hr
            refine ⟨r, [r], by simp, .last (h.core.nextNone r hp), rfl, fun j => ?_⟩
            show _ ↔ Root (upd s.parent r (some r)) j r
            rw [rt]
            simp only [List.mem_singleton]
            constructor
            · intro e; exact .inl ⟨e, trivial⟩
            · rintro (⟨e, _⟩ | ⟨_, h'⟩)
              · exact e
              · exact absurd rfl (nr h')
          · rw [upd_ne _ _ hr] at e
            obtain ⟨l, ls, g1, g2, g3, g4⟩ := h.core.list r e hs
            refine ⟨l, ls, ?_, g2, g3, fun j => ?_⟩
            · show (upd s.helper i _ r).bind _ = _
              rw [upd_ne _ _ hr]; exact g1
            · show _ ↔ Root (upd s.parent i (some i)) j r
              rw [rt, g4]
              constructor
              · intro h'; exact .inr ⟨ni h', h'⟩
              · rintro (⟨_, e⟩ | ⟨_, h'⟩)
                · exact absurd e hr
                · exact h'
        · have := h.frames
          generalize fr = l at this
          induction l with
          | nil => trivial
          | cons F l ih =>
            refine ⟨⟨this.1.elem, this.1.owner, this.1.first, fun hr hn => ?_, this.1.le, fun r hr => ?_, this.1.above, fun r hr hn => ?_⟩, ih this.2⟩
            · replace hn : upd s.parent i (some i) F.elem = none := hn
              have : F.elem ≠ i := by intro e; rw [e] at hn; simp at hn
              rw [upd_ne _ _ this] at hn
              exact ‹FrOk s b (F :: l)›.1.again hr hn
            · replace hr := (rt _ _).1 hr
              show Root (upd s.parent i (some i)) _ _
              rw [rt]
              rcases hr with ⟨e1, e2⟩ | ⟨_, h'⟩
              · left
                refine ⟨?_, e2⟩
                cases hre : F.re with
                | false => rw [this.1.first hre]; exact e1
                | true => exact absurd (by rw [e1]; exact hp) (this.1.again hre)
              · exact .inr ⟨ni (this.1.same r h'), this.1.same r h'⟩
            · replace hr := (rt _ _).1 hr
              rcases hr with ⟨e1, e2⟩ | ⟨_, h'⟩
              · exfalso
                cases hre : F.re with
                | false => exact hn (by rw [this.1.first hre, e1, e2])
                | true => exact absurd (by rw [e1]; exact hp) (this.1.again hre)
              · obtain ⟨G, l', e, hG⟩ := this.1.contig r h' hn
                exact ⟨G, l', e, (rt _ _).2 (.inr ⟨ni hG, hG⟩)⟩
        · by_cases hji : j = i
          · subst hji
            exact .inr ⟨F, hF, j, (rt _ _).2 (.inl ⟨rfl, rfl⟩), (rt _ _).2 (.inl ⟨hFi, rfl⟩)⟩
          · rcases h.cyc j hj with ⟨e, h'⟩ | ⟨F, hF, r, h1, h2⟩
            · exact .inl ⟨by show upd s.parent i (some i) j = none; rw [upd_ne _ _ hji]; exact e, h'⟩
            · exact .inr ⟨F, hF, r, (rt _ _).2 (.inr ⟨ni h1, h1⟩), (rt _ _).2 (.inr ⟨ni h2, h2⟩)⟩
      · refine ⟨fun _ _ => rfl, fun j _ => congrFun hval j, fun j k r h1 h2 => ⟨r, (rt _ _).2 (.inr ⟨ni h1, h1⟩), (rt _ _).2 (.inr ⟨ni h2, h2⟩)⟩,
          fun r hr e => ?_, fun j e => ?_, fun r _ _ _ ls p => ⟨[], by simpa using p⟩, fun r _ e _ x ex m => ⟨x, ?_, m⟩, fun _ h => h, fun q => ?_⟩
        · replace e : upd s.parent i (some i) r = some r := e
          rw [upd_ne _ _ (fun e : r = i => hr (by rw [e]; exact hp))] at e
          exact e
        · replace e : upd s.parent i (some i) j = none := e
          have : j ≠ i := by rintro rfl; simp at e
          rw [upd_ne _ _ this] at e; exact e
        · show upd s.helper i _ r = _
          rw [upd_ne _ _ (fun e' => by subst e'; rw [hp] at e; cases e)]; exact ex
        · exfalso
          have : upd s.parent i (some i) i = none := q.none i (h.core.dom i hsi) hp
          simp at this
  · exact .inr (.inl rfl)

/-! ### Demands -/

/-- `i` is in the cycle of the instance that is being computed. -/
def Top (s : St V) (fr : List Frame) (i : Nat) : Prop :=
  ∃ F fr', fr = F :: fr' ∧ ∃ r, Root s.parent F.elem r ∧ Root s.parent i r

structure Step (S : Sys V) (D : Nat → Prop) (le : Nat → V → V → Prop) (s : St V) (fr : List Frame) (b : Nat → Nat)
    (clk : Nat) (s' : St V) (b' : Nat → Nat) (clk' : Nat) : Prop where
  inv : Inv S D s' fr b' clk'
  vinv : VInv S le s' fr
  evo : Evo D s s'
  births : ∀ j, s.status j ≠ .uninit → b' j = b j
  clock : clk ≤ clk'

theorem Step.trans {s s' s'' : St V} {b b' b'' : Nat → Nat} {clk clk' clk'' : Nat}
    (h : Step S D le s fr b clk s' b' clk') (h' : Step S D le s' fr b' clk' s'' b'' clk'') :
    Step S D le s fr b clk s'' b'' clk'' :=
  ⟨h'.inv, h'.vinv, h.evo.trans h'.evo, fun j hj => by
    rw [h'.births j (by rw [h.evo.status j hj]; exact hj), h.births j hj], Nat.le_trans h.clock h'.clock⟩

def RecSpec (S : Sys V) (D : Nat → Prop) (le : Nat → V → V → Prop) (rec : Nat → St V → Out V V) : Prop :=
  ∀ i s fr b clk, D i → Inv S D s fr b clk → VInv S le s fr →
    Sat (rec i s) (fun v s' => ∃ b' clk', Step S D le s fr b clk s' b' clk' ∧ v = s'.value i ∧
      s'.status i ≠ .uninit ∧ (s'.status i = .cycle → Top s' fr i)) (Allowed S le)

theorem Top.evo {s' : St V} {i : Nat} (h : Top s fr i) (e : Evo D s s') : Top s' fr i := by
  obtain ⟨F, fr', e1, r, h1, h2⟩ := h
  obtain ⟨r', a, c⟩ := e.coarse _ _ r h1 h2
  exact ⟨F, fr', e1, r', a, c⟩

/-- What an equation has read: present values, all of them available. -/
def Trace (S : Sys V) (s : St V) (fr : List Frame) (c : Comp V) (v : V) : Prop :=
  ∃ l, Run c l v ∧ ∀ p ∈ l, p.2 = s.value p.1 ∧ s.status p.1 ≠ .uninit ∧
    (s.status p.1 = .cycle → Top s fr p.1)

theorem runComp_spec {rec : Nat → St V → Out V V} (hr : RecSpec S D le rec) :
    ∀ (c : Comp V) s fr b clk, ReadsIn D c → Inv S D s fr b clk → VInv S le s fr →
      Sat (runComp rec c s) (fun v s' => ∃ b' clk', Step S D le s fr b clk s' b' clk' ∧
        Trace S s' fr c v) (Allowed S le) := by
  intro c
  induction c with
  | ret v =>
    intro s fr b clk _ h hv
    exact ⟨b, clk, ⟨h, hv, .refl s, fun _ _ => rfl, Nat.le_refl _⟩, [], .ret v, by simp⟩
  | undef => intro s fr b clk _ h hv; exact .inl rfl
  | read i k ih =>
    intro s fr b clk hD h hv
    cases hD with
    | read hDi hDk =>
    simp only [runComp]
    refine (hr i s fr b clk hDi h hv).bind ?_
    rintro x s1 ⟨b1, clk1, h1, h2, h3, h4⟩
    refine (ih x s1 fr b1 clk1 (hDk x) h1.inv h1.vinv).mono ?_ (fun _ h => h)
    rintro v s2 ⟨b2, clk2, g1, l, g2, g3⟩
    refine ⟨b2, clk2, h1.trans g1, (i, x) :: l, .read g2, ?_⟩
    intro p hp
    rcases List.mem_cons.1 hp with rfl | hp
    · refine ⟨by rw [g1.evo.value i h3]; exact h2, by rw [g1.evo.status i h3]; exact h3, fun hc => ?_⟩
      exact (h4 (by rw [← g1.evo.status i h3]; exact hc)).evo g1.evo
    · exact g3 p hp

/-- The value of `c` is changed, upwards if there is an order. -/
theorem VInv.setVal {fr1 fr2 : List Frame} {c : Nat} {v : V} (h : VInv S le s fr1)
    (hst : s.status c = .cycle) (ho : Ordered S le → S.circular c = true → le c (s.value c) v)
    (ht : ∃ l, Run (S.compute c) l v ∧ ∀ p ∈ l, p.2 = s.value p.1 ∧ s.status p.1 ≠ .uninit ∧
      (s.status p.1 = .cycle → S.circular p.1 = true))
    (h1 : ∀ F ∈ fr2, F.re = false → F ∈ fr1 ∧ F.elem ≠ c)
    (h2 : ∀ F ∈ fr1, F.re = false → F ∈ fr2 ∨ F.elem = c) :
    VInv S le { s with value := upd s.value c v } fr2 where
  bot := fun F hF hr hc => by
    obtain ⟨a, n⟩ := h1 F hF hr
    show upd s.value c v F.elem = _
    rw [upd_ne _ _ n]; exact h.bot F a hr hc
  fresh := fun j hj hc => by
    show upd s.value c v j = _
    rw [upd_ne _ _ (fun e => ?_)]
    · exact h.fresh j hj hc
    · subst e; rw [show s.status j = .uninit from hj] at hst; cases hst
  eqn := fun j hj => by
    obtain ⟨l, a, d⟩ := h.eqn j hj
    have nc : ∀ k, Fin s k → k ≠ c := by
      rintro k (hk | hk) rfl <;> rw [hk] at hst <;> cases hst
    refine ⟨l, ?_, fun p hp => ⟨?_, (d p hp).2⟩⟩
    · show Run _ _ (upd s.value c v j)
      rw [upd_ne _ _ (nc j (.inl hj))]; exact a
    · show p.2 = upd s.value c v p.1
      rw [upd_ne _ _ (nc _ (d p hp).2)]; exact (d p hp).1
  grow := fun O j hj hn => by
    have mono : ∀ k x, (s.status k = .cycle → S.circular k = true) → le k x (s.value k) →
        le k x (upd s.value c v k) := by
      intro k x hc hx
      by_cases e : k = c
      · subst e; rw [upd_self]; exact O.trans _ _ _ _ hx (ho O (hc hst))
      · rw [upd_ne _ _ e]; exact hx
    by_cases e : j = c
    · subst e
      obtain ⟨l, a, d⟩ := ht
      refine ⟨l, ?_, fun p hp => ⟨(d p hp).2.1, (d p hp).2.2, ?_⟩⟩
      · show Run _ _ (upd s.value j v j)
        rw [upd_self]; exact a
      · exact mono _ _ (d p hp).2.2 (by rw [(d p hp).1]; exact O.refl _ _)
    · obtain ⟨l, a, d⟩ := h.grow O j hj (fun F hF hr hc => by
        rcases h2 F hF hr with h' | h'
        · exact hn F h' hr hc
        · exact e (hc.symm.trans h'))
      refine ⟨l, ?_, fun p hp => ⟨(d p hp).1, (d p hp).2.1, mono _ _ (d p hp).2.1 (d p hp).2.2⟩⟩
      show Run _ _ (upd s.value c v j)
      rw [upd_ne _ _ e]; exact a

theorem VInv.top {F : Frame} (hF : F.re = true) : VInv S le s (F :: fr) ↔ VInv S le s fr := by
  constructor
  · intro h
    refine ⟨fun G hG => h.bot G (by simp [hG]), h.fresh, h.eqn, fun O j hj hn => h.grow O j hj ?_⟩
    intro G hG hr
    rcases List.mem_cons.1 hG with rfl | hG
    · rw [hF] at hr; cases hr
    · exact hn G hG hr
  · intro h
    refine ⟨fun G hG hr => ?_, h.fresh, h.eqn, fun O j hj hn => h.grow O j hj ?_⟩
    · rcases List.mem_cons.1 hG with rfl | hG
      · rw [hF] at hr; cases hr
      · exact h.bot G hG hr
    · intro G hG; exact hn G (by simp [hG])

/-- The states `s0` (before a demand) and `s` (during the iteration of `L` in this demand). -/
structure Ctx (D : Nat → Prop) (s0 : St V) (b0 : Nat → Nat) (s : St V) (b : Nat → Nat) (L : Nat) : Prop where
  evo : Evo D s0 s
  births : ∀ j, s0.status j ≠ .uninit → b j = b0 j
  old : ∀ j, s0.status j ≠ .uninit → b j < b L

/-- The value of `k` is what its equation gives for the present values. -/
def Cur (S : Sys V) (s : St V) (L k : Nat) : Prop :=
  ∃ l, Run (S.compute k) l (s.value k) ∧ ∀ p ∈ l, p.2 = s.value p.1 ∧
    (Fin s p.1 ∨ Root s.parent p.1 L)

def EqOk (S : Sys V) : Prop := ∀ i a b, S.equal i a b = true ↔ a = b

theorem Evo.setHelper {s0 : St V} (h : Evo D s0 s) {r : Nat} {x y : Helper}
    (hx : s.helper r = some x) (hm : x.modified = true → y.modified = true)
    {c : Nat} (hc : D c) (hc0 : s0.status c = .uninit) (hc1 : s.status c ≠ .uninit) :
    Evo D s0 { s with helper := upd s.helper r (some y) } :=
  ⟨h.status, h.value, h.coarse, h.root, h.none, h.path, fun r' a1 a2 a3 z ez mz => by
    obtain ⟨z', e', m'⟩ := h.flag r' a1 a2 a3 z ez mz
    show ∃ h', upd s.helper r (some y) r' = some h' ∧ _
    by_cases e : r' = r
    · subst e; rw [hx] at e'; cases e'; exact ⟨y, by simp, hm m'⟩
    · rw [upd_ne _ _ e]; exact ⟨z', e', m'⟩, h.asgd, fun q => absurd (q.uninit c hc hc0) hc1⟩

theorem Evo.setVal {s0 : St V} (h : Evo D s0 s) {c : Nat} {v : V} (hc : s0.status c = .uninit) :
    Evo D s0 { s with value := upd s.value c v } :=
  ⟨h.status, fun j hj => by
    show upd s.value c v j = _
    rw [upd_ne _ _ (fun e => hj (by rw [e]; exact hc))]; exact h.value j hj,
    h.coarse, h.root, h.none, h.path, h.flag, h.asgd,
    fun q => h.back ⟨q.uninit, q.none, q.root⟩⟩

theorem recompute_spec (hD : Closed S D) (hq : EqOk S) {rec : Nat → St V → Out V V} (hr : RecSpec S D le rec)
    (f c L : Nat) {s0 : St V} {b0 : Nat → Nat}
    (h : Inv S D s (⟨c, L, true⟩ :: fr) b clk) (hv : VInv S le s fr) (hcL : Root s.parent c L)
    (hx : Ctx D s0 b0 s b L) :
    Sat (recompute S rec f c s) (fun _ s' => ∃ b' clk', Inv S D s' (⟨c, L, true⟩ :: fr) b' clk' ∧
      VInv S le s' fr ∧ Ctx D s0 b0 s' b' L ∧ clk ≤ clk' ∧
      (s'.parent L = some L → Root s'.parent c L ∧
        (∀ ls, Path s.next L ls → ∃ ls', Path s'.next L (ls ++ ls')) ∧
        (Modified s L → Modified s' L) ∧
        (Modified s' L ∨ (Cur S s' L c ∧ ∀ k, s.status k = .cycle → Cur S s L k → Cur S s' L k))))
      (Allowed S le) := by
  have hfo := h.frames.1
  have hsc : s.status c = .cycle := hfo.elem
  have hsL : s.status L = .cycle := hfo.owner
  simp only [recompute]
  refine (runComp_spec hr (S.compute c) s _ b clk (hD c (h.core.dom c hsc)) h ((VInv.top rfl).2 hv)).bind ?_
  rintro v s1 ⟨b1, clk1, h1, ht⟩
  have hsc1 : s1.status c = .cycle := by rw [h1.evo.status c (by rw [hsc]; simp)]; exact hsc
  have hsL1 : s1.status L = .cycle := by rw [h1.evo.status L (by rw [hsL]; simp)]; exact hsL
  obtain ⟨r1, hr1, hr1'⟩ := h1.evo.coarse c L L hcL hcL.idem
  have hcirc : S.circular c = true := h1.inv.core.root_circ hr1
  have hbL : b1 L = b L := h1.births L (by rw [hsL]; simp)
  have hbc : b1 c = b c := h1.births c (by rw [hsc]; simp)
  -- what was read
  have ht' : ∃ l, Run (S.compute c) l v ∧ ∀ p ∈ l, p.2 = s1.value p.1 ∧ s1.status p.1 ≠ .uninit ∧
      (s1.status p.1 = .cycle → S.circular p.1 = true) := by
    obtain ⟨l, a, d⟩ := ht
    refine ⟨l, a, fun p hp => ⟨(d p hp).1, (d p hp).2.1, fun hc => ?_⟩⟩
    obtain ⟨F, fr', _, r, _, h'⟩ := (d p hp).2.2 hc
    exact h1.inv.core.root_circ h'
  have hle : Ordered S le → le c (s1.value c) v := by
    intro O
    have hfr : ∀ G ∈ fr, G.re = false → G.elem ≠ c := by
      intro G hG _ e
      have := hfo.above G hG
      have h2 := hfo.le
      simp only [e] at this h2
      omega
    obtain ⟨l, a, d⟩ := hv.grow O c hsc hfr
    obtain ⟨v', e', l'⟩ := O.mono c l (s.value c) s1.value a (fun p hp => by
      rw [h1.evo.value _ (d p hp).1]; exact (d p hp).2.2)
    obtain ⟨l2, a2, d2⟩ := ht'
    have := a2.evalC s1.value (fun p hp => ((d2 p hp).1).symm)
    rw [this] at e'; cases e'
    rw [h1.evo.value c (by rw [hsc]; simp)]; exact l'
  have hc0 : s0.status c = .uninit := by
    by_contra hne
    have := hx.old c hne
    have h2 := hfo.le
    simp only at h2
    omega
  have hL1 : Ctx D s0 b0 s1 b1 L := by
    refine ⟨hx.evo.trans h1.evo, fun j hj => ?_, fun j hj => ?_⟩
    · rw [h1.births j (by rw [hx.evo.status j hj]; exact hj)]; exact hx.births j hj
    · rw [h1.births j (by rw [hx.evo.status j hj]; exact hj), hbL]; exact hx.old j hj
  -- facts about the cycle of `L` in `s1`
  have hL2 : s1.parent L = some L → r1 = L := fun e => (hr1'.unique (.self e))
  have hflag : s1.parent L = some L → Modified s L → Modified s1 L := by
    rintro e ⟨x, ex, mx⟩
    exact h1.evo.flag L hsL hcL.root e x ex mx
  have hpath : s1.parent L = some L → ∀ ls, Path s.next L ls → ∃ ls', Path s1.next L (ls ++ ls') :=
    fun e ls p => h1.evo.path L hsL hcL.root e ls p
  have hcurc : s1.parent L = some L → v = s1.value c → Cur S s1 L c := by
    intro e ev
    obtain ⟨l, a, d⟩ := ht
    refine ⟨l, ev ▸ a, fun p hp => ⟨(d p hp).1, ?_⟩⟩
    obtain ⟨d1, d2, d3⟩ := d p hp
    cases hs : s1.status p.1 with
    | uninit => exact absurd hs d2
    | uneval => exact absurd hs (h1.inv.core.noUneval _)
    | evaluated => exact .inl (.inl hs)
    | assigned => exact .inl (.inr hs)
    | cycle =>
      obtain ⟨F, fr', e1, r, g1, g2⟩ := d3 hs
      cases e1
      have := g1.unique hr1
      rw [this, hL2 e] at g2
      exact .inr g2
  have hcurk : s1.parent L = some L → ∀ k, s.status k = .cycle → Cur S s L k → Cur S s1 L k := by
    rintro e k hk ⟨l, a, d⟩
    refine ⟨l, by rw [h1.evo.value k (by rw [hk]; simp)]; exact a, fun p hp => ?_⟩
    obtain ⟨d1, d2⟩ := d p hp
    rcases d2 with (d2 | d2) | d2
    · exact ⟨by rw [h1.evo.value _ (by rw [d2]; simp)]; exact d1, .inl (.inl (by rw [h1.evo.status _ (by rw [d2]; simp)]; exact d2))⟩
    · exact ⟨by rw [h1.evo.value _ (by rw [d2]; simp)]; exact d1, .inl (.inr (by rw [h1.evo.status _ (by rw [d2]; simp)]; exact d2))⟩
    · have hst : s.status p.1 ≠ .uninit := by
        rw [← h.core.root_status d2, hsL]; simp
      refine ⟨by rw [h1.evo.value _ hst]; exact d1, .inr ?_⟩
      obtain ⟨r', g1, g2⟩ := h1.evo.coarse _ _ L d2 hcL.idem
      rw [g2.unique (.self e)] at g1; exact g1
  simp only [check]
  split
  · next heq =>
    have heq : s1.value c = v := (hq _ _ _).1 heq
    have hval : upd s1.value c v = s1.value := by
      funext j
      by_cases e : j = c
      · subst e; rw [upd_self, heq]
      · rw [upd_ne _ _ e]
    simp only [Out.bind, hval]
    refine ⟨b1, clk1, h1.inv, (VInv.top rfl).1 h1.vinv, hL1, h1.clock, fun e => ?_⟩
    exact ⟨hL2 e ▸ hr1, hpath e, hflag e, .inr ⟨hcurc e heq.symm, hcurk e⟩⟩
  · next hne =>
    have hne : s1.value c ≠ v := fun e => hne ((hq _ _ _).2 e)
    have hin := inCycle_spec f c s1 h1.inv.core
    cases hci : inCycle S f c s1 with
    | nofuel => simp only [Out.bind]; trivial
    | exc x t => rw [hci] at hin; exact hin.elim
    | ok q t =>
      rw [hci] at hin
      obtain ⟨⟨par', rfl, hc⟩, q1, q2⟩ := hin
      have := (q2 r1).2 hr1
      subst this
      simp only [Out.bind]
      obtain ⟨la, ls, g1, _⟩ := h1.inv.core.list r1 hr1.root (by rw [h1.inv.core.root_status hr1]; exact hsc1)
      cases hh : s1.helper r1 with
      | none => rw [hh] at g1; cases g1
      | some x =>
        simp only [hh]
        by_cases hl : S.less c (s1.value c) v = true
        · simp only [if_pos hl]
          refine ⟨b1, clk1, ?_, ?_, ⟨?_, hL1.births, hL1.old⟩, h1.clock, fun e => ?_⟩
          · refine (h1.inv.compress hc).congr rfl rfl rfl (fun r => ?_) rfl
            show (upd s1.helper r1 _ r).bind _ = (s1.helper r).bind _
            by_cases e : r = r1
            · subst e; rw [upd_self, hh]; rfl
            · rw [upd_ne _ _ e]
          · have k : VInv S le { s1 with value := upd s1.value c v } fr := by
              refine h1.vinv.setVal hsc1 (fun O _ => hle O) ht' (fun F hF hr => ⟨by simp [hF], ?_⟩) ?_
              · intro e
                have := hfo.above F hF
                have h2 := hfo.le
                simp only [e] at this h2
                omega
              · intro F hF hr
                rcases List.mem_cons.1 hF with rfl | hF
                · cases hr
                · exact .inl hF
            exact k.congr rfl rfl
          · exact ((hL1.evo.trans (Evo.compress s1 hc s1.pending)).setHelper (r := r1) (x := x)
              (y := { x with modified := true }) hh (fun _ => rfl) (h.core.dom c hsc) hc0
              (by show s1.status c ≠ _; rw [hsc1]; simp)).setVal hc0
          · replace e : par' L = some L := e
            have e' : s1.parent L = some L := hc.self.1 e
            have hr1L := hL2 e'
            refine ⟨hc.root.2 (hr1L ▸ hr1), hpath e', fun _ => ?_, .inl ?_⟩
            · exact ⟨{ x with modified := true }, by show upd s1.helper r1 _ L = _; rw [hr1L]; simp, rfl⟩
            · exact ⟨{ x with modified := true }, by show upd s1.helper r1 _ L = _; rw [hr1L]; simp, rfl⟩
        · simp only [if_neg hl]
          refine .inr (.inr (.inr ⟨rfl, fun O => hl ?_⟩))
          exact O.less c _ _ hcirc (hle O) hne

end Aps.ScalaEval
