import Verif.Model.ScalaEval
import Mathlib.Tactic.Common
set_option linter.unusedVariables false
/-! The Scala runtime: outcomes, runs of equations, and the upper bound on values. -/
namespace Aps.ScalaEval
variable {V : Type}

/-- `o` returns normally only with `Q`, and throws only with `E`. -/
def Sat {α : Type} (o : Out V α) (Q : α → St V → Prop) (E : Exc → Prop) : Prop :=
  match o with
  | .ok a s => Q a s
  | .exc e _ => E e
  | .nofuel => True

theorem Sat.bind {α β : Type} {o : Out V α} {Q : α → St V → Prop} {E : Exc → Prop}
    {f : α → St V → Out V β} {R : β → St V → Prop} (h : Sat o Q E)
    (hf : ∀ a s, Q a s → Sat (f a s) R E) : Sat (o.bind f) R E := by
  cases o with
  | ok a s => exact hf a s h
  | exc e s => exact h
  | nofuel => trivial

theorem Sat.mono {α : Type} {o : Out V α} {Q Q' : α → St V → Prop} {E E' : Exc → Prop}
    (h : Sat o Q E) (hq : ∀ a s, Q a s → Q' a s) (he : ∀ e, E e → E' e) : Sat o Q' E' := by
  cases o with
  | ok a s => exact hq a s h
  | exc e s => exact he e h
  | nofuel => trivial

theorem Sat.of_ok {α : Type} {o : Out V α} {Q : α → St V → Prop} {E : Exc → Prop} (h : Sat o Q E)
    {a s} (e : o = .ok a s) : Q a s := by subst e; exact h

/-- One run of an equation: what it reads, in order, and its result. -/
inductive Run : Comp V → List (Nat × V) → V → Prop
  | ret (v) : Run (.ret v) [] v
  | read {i k x l v} : Run (k x) l v → Run (.read i k) ((i, x) :: l) v

/-- The value of an equation under a valuation of all instances. -/
def evalC (w : Nat → V) : Comp V → Option V
  | .ret v => some v
  | .undef => none
  | .read i k => evalC w (k (w i))

theorem Run.evalC {c : Comp V} {l v} (h : Run c l v) (w : Nat → V) (hw : ∀ p ∈ l, w p.1 = p.2) :
    evalC w c = some v := by
  induction h with
  | ret => rfl
  | @read i k x l v h ih =>
    have : w i = x := hw (i, x) (by simp)
    simp only [ScalaEval.evalC, this]
    exact ih fun p hp => hw p (by simp [hp])

@[simp] theorem upd_self {α : Type} (f : Nat → α) (i : Nat) (a : α) : upd f i a i = a := by simp [upd]
theorem upd_ne {α : Type} (f : Nat → α) {i j : Nat} (a : α) (h : j ≠ i) : upd f i a j = f j := by
  simp [upd, h]

/-! ### The bookkeeping of cycles changes neither values nor statuses -/

/-- The two states differ at most in the links between members of cycles. -/
structure Links (s s' : St V) : Prop where
  status : s'.status = s.status
  value : s'.value = s.value
  pending : s'.pending = s.pending

theorem Links.refl (s : St V) : Links s s := ⟨rfl, rfl, rfl⟩
theorem Links.trans {s s' s'' : St V} (h : Links s s') (h' : Links s' s'') : Links s s'' :=
  ⟨h'.status.trans h.status, h'.value.trans h.value, h'.pending.trans h.pending⟩

/-- Where the links lead: only to instances satisfying `P`. -/
structure Into (P : Nat → Prop) (s : St V) : Prop where
  parent : ∀ j p, s.parent j = some p → P p ∧ P j
  next : ∀ j k, s.next j = some k → P k

def ExcTrue : Exc → Prop := fun _ => True

theorem inCycle_links (S : Sys V) (P : Nat → Prop) : ∀ f i s, Into P s →
    Sat (inCycle S f i s) (fun q s' => Links s s' ∧ Into P s' ∧ ∀ p, q = some p → P p) ExcTrue := by
  intro f
  induction f with
  | zero => intros; trivial
  | succ f ih =>
    intro i s h
    simp only [inCycle]
    split
    · split
      · exact ⟨.refl s, h, by simp⟩
      · next p hp =>
        refine Sat.bind (Q := fun q s' => Links s s' ∧ Into P s' ∧ ∀ p, q = some p → P p) ?_ ?_
        · split
          · exact ih p s h
          · exact ⟨.refl s, h, fun q e => by cases e; exact (h.parent i p hp).1⟩
        · rintro q s1 ⟨h1, h2, h3⟩
          split
          · refine ⟨⟨h1.status, h1.value, h1.pending⟩, ⟨fun j p' e => ?_, h2.next⟩, h3⟩
            have e : upd s1.parent i q j = some p' := e
            by_cases hj : j = i
            · subst hj; rw [upd_self] at e; exact ⟨h3 p' e, (h.parent j p hp).2⟩
            · rw [upd_ne _ _ hj] at e; exact h2.parent j p' e
          · exact ⟨h1, h2, h3⟩
    · exact ⟨.refl s, h, by simp⟩

theorem helperAdd_links (P : Nat → Prop) (ce c : Nat) (s : St V) (h : Into P s) (hc : P c) :
    Sat (helperAdd ce c s) (fun _ s' => Links s s' ∧ Into P s' ∧ s'.parent = s.parent) ExcTrue := by
  simp only [helperAdd]
  split
  · trivial
  · split
    · trivial
    · split
      · next l _ _ =>
        refine ⟨⟨rfl, rfl, rfl⟩, ⟨h.parent, fun j k e => ?_⟩, rfl⟩
        have e : upd s.next l (some c) j = some k := e
        by_cases hj : j = l
        · subst hj; rw [upd_self] at e; cases e; exact hc
        · rw [upd_ne _ _ hj] at e; exact h.next j k e
      · trivial

theorem helperAddAll_links (P : Nat → Prop) (ce c : Nat) (s : St V) (h : Into P s) (hc : P c) :
    Sat (helperAddAll ce c s) (fun _ s' => Links s s' ∧ Into P s' ∧ s'.parent = s.parent) ExcTrue := by
  simp only [helperAddAll]
  split
  · trivial
  · split
    · trivial
    · split
      · exact ⟨.refl s, h, rfl⟩
      · split
        · next l l' _ _ =>
          split
          · refine ⟨⟨rfl, rfl, rfl⟩, ⟨h.parent, fun j k e => ?_⟩, rfl⟩
            have e : upd s.next l (some c) j = some k := e
            by_cases hj : j = l
            · subst hj; rw [upd_self] at e; cases e; exact hc
            · rw [upd_ne _ _ hj] at e; exact h.next j k e
          · trivial
        · trivial

theorem into_parent {P : Nat → Prop} {s : St V} (h : Into P s) {i p : Nat} (hi : P i) (hp : P p) :
    Into P { s with parent := upd s.parent i (some p) } := by
  refine ⟨fun j q e => ?_, h.next⟩
  have e : upd s.parent i (some p) j = some q := e
  by_cases hj : j = i
  · subst hj; rw [upd_self] at e; cases e; exact ⟨hp, hi⟩
  · rw [upd_ne _ _ hj] at e; exact h.parent j q e

theorem setInCycle_links (S : Sys V) (P : Nat → Prop) (f e ce : Nat) (s : St V) (h : Into P s)
    (he : S.circular e = true → P e) (hce : P ce) :
    Sat (setInCycle S f e ce s) (fun _ s' => Links s s' ∧ Into P s') ExcTrue := by
  simp only [setInCycle]
  split
  · next hcirc =>
    replace he := he hcirc
    split
    · exact (helperAdd_links P ce e _ (into_parent h he hce) he).mono
        (fun _ s' ⟨a, b, _⟩ => ⟨⟨a.status, a.value, a.pending⟩, b⟩) (fun _ h => h)
    · refine (inCycle_links S P f e s h).bind ?_
      rintro q s1 ⟨h1, h2, h3⟩
      split
      · trivial
      · next p =>
        have hp := h3 p rfl
        refine (helperAddAll_links P ce p s1 h2 hp).bind ?_
        rintro _ s2 ⟨a, b, _⟩
        exact ⟨⟨a.status.trans h1.status, a.value.trans h1.value, a.pending.trans h1.pending⟩,
          into_parent b hp hce⟩
  · trivial

theorem markLoop_links (S : Sys V) (P : Nat → Prop) (f ce : Nat) (hce : P ce) : ∀ (es : List Nat)
    (s : St V), Into P s → (∀ e ∈ es, S.circular e = true → P e) →
    Sat (markLoop S f ce es s) (fun _ s' => Links s s' ∧ Into P s') ExcTrue := by
  intro es
  induction es with
  | nil => intro s h _; exact ⟨.refl s, h⟩
  | cons e es ih =>
    intro s h hes
    simp only [markLoop]
    refine (inCycle_links S P f e s h).bind ?_
    rintro q s1 ⟨h1, h2, h3⟩
    split
    · exact ⟨h1, h2⟩
    · refine (setInCycle_links S P f e ce s1 h2 (hes e (by simp)) hce).bind ?_
      rintro _ s2 ⟨h4, h5⟩
      exact (ih s2 h5 fun e' he' => hes e' (by simp [he'])).mono
        (fun _ s' ⟨a, b⟩ => ⟨(h1.trans h4).trans a, b⟩) (fun _ h => h)

theorem guardMark_links (S : Sys V) (f ce : Nat) : ∀ (es : List Nat) (out : Bool) (s : St V),
    Sat (guardMark S f ce out es s) (fun _ s' => s' = s) ExcTrue := by
  intro es
  induction es with
  | nil => intro out s; rfl
  | cons e es ih =>
    intro out s
    simp only [guardMark]
    split
    · split
      · split
        · trivial
        · exact ih _ s
      · exact ih _ s
    · trivial
    · trivial

theorem markPending_links (S : Sys V) (P : Nat → Prop) (f i : Nat) (s : St V) (h : Into P s)
    (hes : ∀ e ∈ s.pending, S.circular e = true → P e) :
    Sat (markPending S f i s) (fun _ s' => Links s s' ∧ Into P s') ExcTrue := by
  simp only [markPending]
  refine (inCycle_links S P f i s h).bind ?_
  rintro q s1 ⟨h1, h2, h3⟩
  split
  · trivial
  · next ce =>
    refine (markLoop_links S P f ce (h3 ce rfl) s1.pending s1 h2 (by rw [h1.pending]; exact hes)).bind ?_
    rintro _ s2 ⟨h4, h5⟩
    split
    · exact (guardMark_links S f ce s2.pending false s2).mono
        (fun _ s' e => by subst e; exact ⟨h1.trans h4, h5⟩) (fun _ h => h)
    · exact ⟨h1.trans h4, h5⟩

/-! ### Values stay below every solution -/

/-- Equations are monotone: if everything read in a run is at most what the valuation `w` gives,
the result is at most the value under `w`. -/
def Monotone (S : Sys V) (le : Nat → V → V → Prop) : Prop :=
  ∀ i l v w, Run (S.compute i) l v → (∀ p ∈ l, le p.1 p.2 (w p.1)) →
    ∃ v', evalC w (S.compute i) = some v' ∧ le i v v'

/-- Circular and not assigned. -/
def Free (S : Sys V) (asg : Nat → Option V) (j : Nat) : Prop := asg j = none ∧ S.circular j = true

/-- The value of `j` may be looked at. -/
def Live (S : Sys V) (s : St V) (j : Nat) : Prop :=
  (S.circular j = true ∧ (S.collection j = none ∨ s.status j ≠ .uninit)) ∨ s.status j = .evaluated ∨
    s.status j = .assigned

/-- Circular, not assigned and started. -/
def Going (S : Sys V) (asg : Nat → Option V) (s : St V) (j : Nat) : Prop :=
  Free S asg j ∧ s.status j ≠ .uninit

structure Below (S : Sys V) (asg : Nat → Option V) (le : Nat → V → V → Prop) (w : Nat → V)
    (s : St V) : Prop where
  val : ∀ j, Live S s j → le j (s.value j) (w j)
  asgd : ∀ j, asg j ≠ none → s.status j = .evaluated ∨ s.status j = .assigned
  into : Into (Going S asg s) s
  pend : ∀ e ∈ s.pending, asg e = none ∧ s.status e ≠ .uninit

/-- The stack is as before, and what was started still is. -/
structure Keeps (s s' : St V) : Prop where
  pending : s'.pending = s.pending
  started : ∀ j, s.status j ≠ .uninit → s'.status j ≠ .uninit

theorem Keeps.refl (s : St V) : Keeps s s := ⟨rfl, fun _ h => h⟩
theorem Keeps.trans {s s' s'' : St V} (h : Keeps s s') (h' : Keeps s' s'') : Keeps s s'' :=
  ⟨h'.pending.trans h.pending, fun j hj => h'.started j (h.started j hj)⟩
theorem Links.keeps {s s' : St V} (h : Links s s') : Keeps s s' := ⟨h.pending, fun j => by rw [h.status]; exact id⟩

variable {S : Sys V} {asg : Nat → Option V} {le : Nat → V → V → Prop} {w : Nat → V}

theorem Going.keeps {s s' : St V} {j : Nat} (h : Going S asg s j) (k : Keeps s s') : Going S asg s' j :=
  ⟨h.1, k.started j h.2⟩

theorem Into.mono {P Q : Nat → Prop} {s s' : St V} (h : Into P s) (hp : s'.parent = s.parent) (hn : s'.next = s.next)
    (hpq : ∀ j, P j → Q j) : Into Q s' :=
  ⟨fun j p e => by rw [hp] at e; exact ⟨hpq _ (h.parent j p e).1, hpq _ (h.parent j p e).2⟩,
    fun j k e => by rw [hn] at e; exact hpq _ (h.next j k e)⟩

theorem Below.links {s s' : St V} (h : Below S asg le w s) (hl : Links s s')
    (hi : Into (Going S asg s) s') : Below S asg le w s' :=
  ⟨fun j => by unfold Live; rw [hl.status, hl.value]; exact h.val j, fun j => by rw [hl.status]; exact h.asgd j,
    hi.mono rfl rfl (fun j hj => hj.keeps hl.keeps), by rw [hl.pending, hl.status]; exact h.pend⟩

/-- Hypotheses of the upper bound. -/
structure UHyp (S : Sys V) (asg : Nat → Option V) (le : Nat → V → V → Prop) (w : Nat → V) : Prop where
  trans : ∀ i a b c, le i a b → le i b c → le i a c
  bot : ∀ i v, S.circular i = true → le i (S.bottom i) v
  init : ∀ i v, S.circular i = true → S.collection i = some v → v = S.bottom i
  mono : Monotone S le
  sol : ∀ i, asg i = none → ∀ v, evalC w (S.compute i) = some v → le i v (w i)

abbrev URec (S : Sys V) (asg : Nat → Option V) (le : Nat → V → V → Prop) (w : Nat → V)
    (rec : Nat → St V → Out V V) : Prop :=
  ∀ i s, Below S asg le w s →
    Sat (rec i s) (fun v s' => Below S asg le w s' ∧ le i v (w i) ∧ Keeps s s') ExcTrue

theorem runComp_below {rec : Nat → St V → Out V V} (hr : URec S asg le w rec) :
    ∀ (c : Comp V) (s : St V), Below S asg le w s →
      Sat (runComp rec c s) (fun v s' => Below S asg le w s' ∧ Keeps s s' ∧
        ∃ l, Run c l v ∧ ∀ p ∈ l, le p.1 p.2 (w p.1)) ExcTrue := by
  intro c
  induction c with
  | ret v => intro s h; exact ⟨h, .refl s, [], .ret v, by simp⟩
  | undef => intros; trivial
  | read i k ih =>
    intro s h
    simp only [runComp]
    refine (hr i s h).bind ?_
    rintro x s1 ⟨h1, h2, h3⟩
    refine (ih x s1 h1).mono ?_ (fun _ h => h)
    rintro v s2 ⟨h4, h5, l, h6, h7⟩
    refine ⟨h4, h3.trans h5, (i, x) :: l, .read h6, ?_⟩
    intro p hp
    rcases List.mem_cons.1 hp with rfl | hp
    · exact h2
    · exact h7 p hp

theorem compute_below (H : UHyp S asg le w) {rec : Nat → St V → Out V V} (hr : URec S asg le w rec)
    (i : Nat) (hi : asg i = none) (s : St V) (h : Below S asg le w s) :
    Sat (runComp rec (S.compute i) s)
      (fun v s' => Below S asg le w s' ∧ Keeps s s' ∧ le i v (w i)) ExcTrue := by
  refine (runComp_below hr (S.compute i) s h).mono ?_ (fun _ h => h)
  rintro v s1 ⟨h1, h2, l, h3, h4⟩
  obtain ⟨v', e, h5⟩ := H.mono i l v w h3 h4
  exact ⟨h1, h2, H.trans _ _ _ _ h5 (H.sol i hi v' e)⟩

theorem Below.setValue {s : St V} (h : Below S asg le w s) {i : Nat} {v : V} (hv : le i v (w i)) :
    Below S asg le w { s with value := upd s.value i v } := by
  refine ⟨fun j hj => ?_, h.asgd, ⟨h.into.parent, h.into.next⟩, h.pend⟩
  show le j (upd s.value i v j) (w j)
  by_cases e : j = i
  · subst e; rw [upd_self]; exact hv
  · rw [upd_ne _ _ e]; exact h.val j hj

theorem Below.setHelper {s : St V} (h : Below S asg le w s) (hs) :
    Below S asg le w { s with helper := hs } := ⟨h.val, h.asgd, ⟨h.into.parent, h.into.next⟩, h.pend⟩

theorem check_below (i : Nat) (v : V) (f : Nat) (s : St V) (h : Below S asg le w s) :
    Sat (check S f i v s) (fun _ s' => Below S asg le w s' ∧ Keeps s s') ExcTrue := by
  simp only [check]
  split
  · exact ⟨h, .refl s⟩
  · refine (inCycle_links S _ f i s h.into).bind ?_
    rintro q s1 ⟨h1, h2, _⟩
    split
    · trivial
    · split
      · trivial
      · split
        · exact ⟨(h.links h1 h2).setHelper _, h1.keeps.pending, h1.keeps.started⟩
        · trivial

theorem recompute_below (H : UHyp S asg le w) {rec : Nat → St V → Out V V}
    (hr : URec S asg le w rec) (f i : Nat) (hi : asg i = none) (s : St V) (h : Below S asg le w s) :
    Sat (recompute S rec f i s) (fun _ s' => Below S asg le w s' ∧ Keeps s s') ExcTrue := by
  simp only [recompute]
  refine (compute_below H hr i hi s h).bind ?_
  rintro v s1 ⟨h1, h2, h3⟩
  refine (check_below i v f s1 h1).bind ?_
  rintro _ s2 ⟨h4, h5⟩
  exact ⟨h4.setValue h3, (h2.trans h5).pending, (h2.trans h5).started⟩

theorem Below.push {s : St V} (h : Below S asg le w s) {i : Nat} (hi : Going S asg s i) :
    Below S asg le w { s with pending := i :: s.pending } :=
  ⟨h.val, h.asgd, ⟨h.into.parent, h.into.next⟩, fun e he => by
    rcases List.mem_cons.1 he with rfl | he
    · exact ⟨hi.1.1, hi.2⟩
    · exact h.pend e he⟩

theorem pop_below {i : Nat} {p : List Nat} (s : St V) (h : Below S asg le w s)
    (hp : s.pending = i :: p) :
    Sat (pop s) (fun _ s' => Below S asg le w s' ∧ s' = { s with pending := p }) ExcTrue := by
  simp only [pop]
  split
  · trivial
  · next e1 es heq =>
    rw [hp] at heq
    cases heq
    exact ⟨⟨h.val, h.asgd, ⟨h.into.parent, h.into.next⟩, fun e he => h.pend e (by rw [hp]; simp [he])⟩, rfl⟩

theorem pass_below (H : UHyp S asg le w) {rec : Nat → St V → Out V V}
    (hr : URec S asg le w rec) (f l : Nat) : ∀ n c s, Going S asg s c → Below S asg le w s →
    Sat (pass S rec f l n c s) (fun _ s' => Below S asg le w s' ∧ Keeps s s') ExcTrue := by
  intro n
  induction n with
  | zero => intros; trivial
  | succ n ih =>
    intro c s hc h
    simp only [pass]
    refine (recompute_below H hr f c hc.1.1 _ (h.push hc)).bind ?_
    rintro _ s1 ⟨h1, h2⟩
    refine (pop_below s1 h1 h2.pending).bind ?_
    rintro _ s2 ⟨h3, rfl⟩
    have k : Keeps s { s1 with pending := s.pending } := ⟨rfl, h2.started⟩
    split
    · exact ⟨h3, k⟩
    · split
      · exact ⟨h3, k⟩
      · next c' hc' =>
        exact (ih c' _ (h3.into.next c c' hc') h3).mono
          (fun _ s' ⟨a, b⟩ => ⟨a, k.trans b⟩) (fun _ h => h)

theorem Below.setStatus {s : St V} (h : Below S asg le w s) {i : Nat} (hi : le i (s.value i) (w i)) :
    Below S asg le w { s with status := upd s.status i .evaluated } ∧
    Keeps s { s with status := upd s.status i .evaluated } := by
  have k : Keeps s { s with status := upd s.status i .evaluated } := by
    refine ⟨rfl, fun j hj => ?_⟩
    show upd s.status i .evaluated j ≠ _
    by_cases e : j = i
    · subst e; simp
    · rw [upd_ne _ _ e]; exact hj
  refine ⟨⟨fun j hj => ?_, fun j hj => ?_, h.into.mono rfl rfl (fun j hj => hj.keeps k), fun e he => ⟨(h.pend e he).1, k.started e (h.pend e he).2⟩⟩, k⟩
  · by_cases e : j = i
    · subst e; exact hi
    · refine h.val j ?_
      unfold Live at hj ⊢
      replace hj : (S.circular j = true ∧ (S.collection j = none ∨ upd s.status i .evaluated j ≠ .uninit)) ∨
        upd s.status i .evaluated j = .evaluated ∨ upd s.status i .evaluated j = .assigned := hj
      rwa [upd_ne _ _ e] at hj
  · show upd s.status i .evaluated j = .evaluated ∨ upd s.status i .evaluated j = .assigned
    by_cases e : j = i
    · subst e; simp
    · rw [upd_ne _ _ e]; exact h.asgd j hj

theorem Below.going {s : St V} (h : Below S asg le w s) {i : Nat} (hi : Going S asg s i) :
    le i (s.value i) (w i) := h.val i (.inl ⟨hi.1.2, .inr hi.2⟩)

theorem freeze_below : ∀ n c s, Going S asg s c → Below S asg le w s →
    Sat (freeze n c s) (fun _ s' => Below S asg le w s' ∧ Keeps s s') ExcTrue := by
  intro n
  induction n with
  | zero => intros; trivial
  | succ n ih =>
    intro c s hc h
    simp only [freeze]
    obtain ⟨a, k⟩ := h.setStatus (h.going hc)
    split
    · exact ⟨a, k⟩
    · next c' hc' =>
      exact (ih c' _ (a.into.next c c' hc') a).mono (fun _ s' ⟨b, k'⟩ => ⟨b, k.trans k'⟩) (fun _ h => h)

theorem cycleLoop_below (H : UHyp S asg le w) {rec : Nat → St V → Out V V}
    (hr : URec S asg le w rec) (f l : Nat) : ∀ n s, Going S asg s l → Below S asg le w s →
    Sat (cycleLoop S rec f l n s) (fun _ s' => Below S asg le w s' ∧ Keeps s s') ExcTrue := by
  intro n
  induction n with
  | zero => intros; trivial
  | succ n ih =>
    intro s hl h
    simp only [cycleLoop]
    split
    · trivial
    · next x _ =>
      refine (pass_below H hr f l f l { s with helper := upd s.helper l (some { x with modified := false }) } hl (h.setHelper _)).bind ?_
      rintro b s1 ⟨h1, h2⟩
      have h2 : Keeps s s1 := ⟨h2.pending, h2.started⟩
      split
      · split
        · trivial
        · split
          · exact (ih s1 (hl.keeps h2) h1).mono (fun _ s' ⟨a, b⟩ => ⟨a, h2.trans b⟩) (fun _ h => h)
          · exact (freeze_below f l s1 (hl.keeps h2) h1).mono (fun _ s' ⟨a, b⟩ => ⟨a, h2.trans b⟩) (fun _ h => h)
      · exact ⟨h1, h2⟩

theorem get_below (H : UHyp S asg le w) : ∀ f, URec S asg le w (get S f) := by
  intro f
  induction f with
  | zero => intro i s h; trivial
  | succ f ih =>
    intro i s0 h0
    -- the first value of a circular instance
    have hs : Below S asg le w (initValue S i s0) ∧ Keeps s0 (initValue S i s0) ∧
        (S.circular i = true → le i ((initValue S i s0).value i) (w i)) := by
      simp only [initValue]
      split
      · next v hv =>
        split
        · next hu =>
          have k : Keeps s0 { s0 with status := upd s0.status i .uneval, value := upd s0.value i v } := by
            refine ⟨rfl, fun j hj => ?_⟩
            show upd s0.status i .uneval j ≠ _
            by_cases e : j = i
            · subst e; simp
            · rw [upd_ne _ _ e]; exact hj
          refine ⟨⟨fun j hj => ?_, fun j hj => ?_, h0.into.mono rfl rfl (fun j hj => hj.keeps k), fun e he => ⟨(h0.pend e he).1, k.started e (h0.pend e he).2⟩⟩, k, fun hc => ?_⟩
          · show le j (upd s0.value i v j) (w j)
            replace hj : (S.circular j = true ∧ (S.collection j = none ∨ upd s0.status i .uneval j ≠ .uninit)) ∨
              upd s0.status i .uneval j = .evaluated ∨ upd s0.status i .uneval j = .assigned := hj
            by_cases e : j = i
            · subst e
              rw [upd_self] at *
              rcases hj with hj | hj | hj
              · rw [H.init j v hj.1 hv]; exact H.bot j _ hj.1
              · cases hj
              · cases hj
            · rw [upd_ne _ _ e] at *; exact h0.val j hj
          · show upd s0.status i .uneval j = .evaluated ∨ upd s0.status i .uneval j = .assigned
            by_cases e : j = i
            · subst e
              rcases h0.asgd j hj with e | e <;> rw [hu] at e <;> cases e
            · rw [upd_ne _ _ e]; exact h0.asgd j hj
          · show le i (upd s0.value i v i) _
            rw [upd_self, H.init i v hc hv]; exact H.bot i _ hc
        · next hu => exact ⟨h0, .refl _, fun hc => h0.val i (.inl ⟨hc, .inr hu⟩)⟩
      · next hv => exact ⟨h0, .refl _, fun hc => h0.val i (.inl ⟨hc, .inl hv⟩)⟩
    simp only [get]
    obtain ⟨h, k0, hv0⟩ := hs
    generalize initValue S i s0 = s at *
    have main : s.status i = .uninit ∨ s.status i = .uneval →
        Sat ((runComp (get S f) (S.compute i)
        { s with status := upd s.status i .cycle, pending := i :: s.pending }).bind fun v s =>
      (pop { s with value := upd s.value i v }).bind fun _ s =>
      (inCycle S f i s).bind fun q s =>
      if q ≠ none then
        (evaluateCycle S (get S f) f i s).bind fun _ s => .ok (s.value i) s
      else
        let s := { s with status := upd s.status i .evaluated }
        .ok (s.value i) s)
        (fun v s' => Below S asg le w s' ∧ le i v (w i) ∧ Keeps s0 s') ExcTrue := by
      intro hu
      have hi : asg i = none := by
        by_contra hc
        rcases h.asgd i hc with e | e <;> rcases hu with hu | hu <;> rw [hu] at e <;> cases e
      have kst : ∀ j, s.status j ≠ .uninit → upd s.status i .cycle j ≠ .uninit := by
        intro j hj
        by_cases e : j = i
        · subst e; simp
        · rw [upd_ne _ _ e]; exact hj
      have h1 : Below S asg le w { s with status := upd s.status i .cycle, pending := i :: s.pending } := by
        refine ⟨fun j hj => ?_, fun j hj => ?_, h.into.mono rfl rfl (fun j hj => ⟨hj.1, kst j hj.2⟩), ?_⟩
        · replace hj : (S.circular j = true ∧ (S.collection j = none ∨ upd s.status i .cycle j ≠ .uninit)) ∨
            upd s.status i .cycle j = .evaluated ∨ upd s.status i .cycle j = .assigned := hj
          by_cases e : j = i
          · subst e
            rw [upd_self] at hj
            rcases hj with hj | hj | hj
            · exact hv0 hj.1
            · cases hj
            · cases hj
          · rw [upd_ne _ _ e] at hj; exact h.val j hj
        · show upd s.status i .cycle j = .evaluated ∨ upd s.status i .cycle j = .assigned
          by_cases e : j = i
          · subst e; exact absurd hi hj
          · rw [upd_ne _ _ e]; exact h.asgd j hj
        · intro e he
          rcases List.mem_cons.1 he with rfl | he
          · exact ⟨hi, by show upd s.status e .cycle e ≠ _; simp⟩
          · exact ⟨(h.pend e he).1, kst e (h.pend e he).2⟩
      refine (compute_below H ih i hi _ h1).bind ?_
      rintro v s1 ⟨h2, h3, h4⟩
      refine (pop_below (i := i) (p := s.pending) _ (h2.setValue h4) h3.pending).bind ?_
      rintro _ s2 ⟨h5, h6'⟩
      have hv2 : s2.value i = v := by rw [h6']; simp
      have k2 : Keeps s0 s2 := by
        refine k0.trans ⟨by rw [h6'], fun j hj => ?_⟩
        rw [h6']; exact h3.started j (kst j hj)
      refine (inCycle_links S _ f i s2 h5.into).bind ?_
      rintro q s3 ⟨h7, h8, h9⟩
      have h10 := h5.links h7 h8
      have k3 := k2.trans h7.keeps
      split
      · have : Sat (evaluateCycle S (get S f) f i s3)
            (fun _ s' => Below S asg le w s' ∧ Keeps s3 s' ∧ le i (s'.value i) (w i)) ExcTrue := by
          simp only [evaluateCycle]
          split
          · next hpar =>
            have hf := (h10.into.parent i i hpar).1
            exact (cycleLoop_below H ih f i f s3 hf h10).mono
              (fun _ s' ⟨a, b⟩ => ⟨a, b, a.going (hf.keeps b)⟩) (fun _ h => h)
          · exact ⟨h10, .refl _, by rw [h7.value, hv2]; exact h4⟩
        refine this.bind ?_
        rintro _ s4 ⟨a, b, c⟩
        exact ⟨a, c, k3.trans b⟩
      · obtain ⟨a, b⟩ := h10.setStatus (i := i) (by rw [h7.value, hv2]; exact h4)
        refine ⟨a, ?_, k3.trans b⟩
        show le i (s3.value i) (w i)
        rw [h7.value, hv2]; exact h4
    split
    · next hst =>
      simp only [detectedCycle]
      split
      · next hc =>
        have hi : asg i = none := by
          by_contra hcc
          rcases h.asgd i hcc with e | e <;> rw [hst] at e <;> cases e
        have hg : Going S asg s i := ⟨⟨hi, hc⟩, by rw [hst]; simp⟩
        have h1 : Below S asg le w (match s.parent i with
          | none => { s with value := upd s.value i (S.bottom i), helper := upd s.helper i (some ⟨some i, false⟩), parent := upd s.parent i (some i) }
          | some _ => s) ∧ Keeps s (match s.parent i with
          | none => { s with value := upd s.value i (S.bottom i), helper := upd s.helper i (some ⟨some i, false⟩), parent := upd s.parent i (some i) }
          | some _ => s) := by
          split
          · exact ⟨⟨(h.setValue (H.bot i (w i) hc)).val, h.asgd, ⟨(into_parent h.into hg hg).parent, h.into.next⟩, h.pend⟩, rfl, fun _ h => h⟩
          · exact ⟨h, .refl _⟩
        obtain ⟨h1, hp⟩ := h1
        refine (markPending_links S _ f i _ h1.into fun e he hce => ⟨⟨(h1.pend e he).1, hce⟩, (h1.pend e he).2⟩).bind ?_
        rintro _ s2 ⟨h2, h3⟩
        have h4 := h1.links h2 h3
        have k := hp.trans h2.keeps
        exact ⟨h4, h4.going (hg.keeps k), k0.trans k⟩
      · trivial
    · next hu => exact main (.inl hu)
    · next hu => exact main (.inr hu)
    · next hst => exact ⟨h, h.val i (.inr (.inl hst)), k0⟩
    · next hst => exact ⟨h, h.val i (.inr (.inr hst)), k0⟩

end Aps.ScalaEval
