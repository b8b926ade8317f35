import Verif.Proofs.SEvalBase
set_option linter.unusedVariables false
/-! The Scala runtime: the forest of cycles and the lists of their members. -/
namespace Aps.ScalaEval
variable {V : Type}

/-- `r` is the representative of the cycle of `j`. -/
inductive Root (par : Nat → Option Nat) : Nat → Nat → Prop
  | self {r} : par r = some r → Root par r r
  | step {j p r} : par j = some p → p ≠ j → Root par p r → Root par j r

theorem Root.root {par : Nat → Option Nat} {j r} (h : Root par j r) : par r = some r := by
  induction h with
  | self h => exact h
  | step _ _ _ ih => exact ih

theorem Root.ne_none {par : Nat → Option Nat} {j r} (h : Root par j r) : par j ≠ none := by
  cases h with
  | self h => rw [h]; simp
  | step h => rw [h]; simp

theorem Root.unique {par : Nat → Option Nat} {j r r'} (h : Root par j r) (h' : Root par j r') :
    r = r' := by
  induction h with
  | self h =>
    cases h' with
    | self => rfl
    | step e n => rw [h] at e; cases e; exact absurd rfl n
  | step e n h ih =>
    cases h' with
    | self h => rw [h] at e; cases e; exact absurd rfl n
    | step e' n' h' => rw [e] at e'; cases e'; exact ih h'

theorem Root.idem {par : Nat → Option Nat} {j r} (h : Root par j r) : Root par r r := .self h.root

/-- Every link of `par'` is one of `par` or goes to the representative. -/
def Compress (par par' : Nat → Option Nat) : Prop :=
  ∀ j, par' j = par j ∨ ∃ r, Root par j r ∧ par' j = some r

theorem Compress.refl (par : Nat → Option Nat) : Compress par par := fun _ => .inl rfl

theorem Compress.root {par par' : Nat → Option Nat} (h : Compress par par') {j r} :
    Root par' j r ↔ Root par j r := by
  have self : ∀ r, par r = some r → par' r = some r := by
    intro r e
    rcases h r with e' | ⟨r', h1, e'⟩
    · rw [e']; exact e
    · rw [e', h1.unique (.self e)]
  constructor
  · intro hr
    induction hr with
    | @self r e =>
      rcases h r with e' | ⟨r', h1, e'⟩
      · exact .self (e' ▸ e)
      · rw [e] at e'; cases e'; exact h1
    | @step j p r e n _ ih =>
      rcases h j with e' | ⟨r', h1, e'⟩
      · exact .step (e' ▸ e) n ih
      · rw [e] at e'; cases e'
        have := ih.unique (.self h1.root)
        subst this; exact h1
  · intro hr
    induction hr with
    | self e => exact .self (self _ e)
    | @step j p r e n hp ih =>
      rcases h j with e' | ⟨r', h1, e'⟩
      · exact .step (e'.trans e) n ih
      · have e2 := h1.unique (.step e n hp)
        subst e2
        by_cases hj : r' = j
        · subst hj; exact .self e'
        · exact .step e' hj (.self (self _ hp.root))

theorem Compress.none {par par' : Nat → Option Nat} (h : Compress par par') {j} :
    par' j = none ↔ par j = none := by
  rcases h j with e | ⟨r, h1, e⟩
  · rw [e]
  · rw [e]; simp [h1.ne_none]

theorem Compress.self {par par' : Nat → Option Nat} (h : Compress par par') {r} :
    par' r = some r ↔ par r = some r :=
  ⟨fun e => (h.root.1 (.self e)).root, fun e => (h.root.2 (.self e)).root⟩

/-- The list of members that starts at an instance. -/
inductive Path (next : Nat → Option Nat) : Nat → List Nat → Prop
  | last {a} : next a = none → Path next a [a]
  | cons {a a' ls} : next a = some a' → Path next a' ls → Path next a (a :: ls)

theorem Path.unique {next : Nat → Option Nat} {a l l'} (h : Path next a l) (h' : Path next a l') :
    l = l' := by
  induction h generalizing l' with
  | last e =>
    cases h' with
    | last => rfl
    | cons e' => rw [e] at e'; cases e'
  | cons e h ih =>
    cases h' with
    | last e' => rw [e] at e'; cases e'
    | cons e' h' => rw [e] at e'; cases e'; rw [ih h']

theorem Path.ne_nil {next : Nat → Option Nat} {a ls} (h : Path next a ls) : ls ≠ [] := by
  cases h <;> simp

theorem Path.last_none {next : Nat → Option Nat} {a ls l} (h : Path next a ls)
    (hl : ls.getLast? = some l) : next l = none := by
  induction h with
  | last e => simp at hl; subst hl; exact e
  | cons e h ih =>
    rw [List.getLast?_cons_of_ne_nil h.ne_nil] at hl
    exact ih hl

theorem Path.congr {next next' : Nat → Option Nat} {a ls} (h : Path next a ls)
    (hc : ∀ j ∈ ls, next' j = next j) : Path next' a ls := by
  induction h with
  | last e => exact .last (by rw [hc _ (by simp)]; exact e)
  | cons e h ih => exact .cons (by rw [hc _ (by simp)]; exact e) (ih fun j hj => hc j (by simp [hj]))

theorem Path.extend {next : Nat → Option Nat} {a ls l c ls2} (h : Path next a ls)
    (hl : ls.getLast? = some l) (h2 : Path (upd next l (some c)) c ls2) :
    Path (upd next l (some c)) a (ls ++ ls2) := by
  have h0 := h.last_none hl
  induction h with
  | last e => simp at hl; subst hl; exact .cons (upd_self _ _ _) h2
  | @cons a a' ls e h ih =>
    rw [List.getLast?_cons_of_ne_nil h.ne_nil] at hl
    have : a ≠ l := by rintro rfl; rw [h0] at e; cases e
    exact .cons (by rw [upd_ne _ _ this]; exact e) (ih hl)

theorem Path.split {next : Nat → Option Nat} {c post} : ∀ {pre a}, Path next a (pre ++ c :: post) →
    (next c = none → post = []) ∧ ∀ c', next c = some c' → ∃ post', post = c' :: post' := by
  intro pre
  induction pre with
  | nil =>
    intro a h
    cases h with
    | last e => exact ⟨fun _ => rfl, fun c' e' => absurd e' (by rw [e]; simp)⟩
    | cons e h =>
      refine ⟨fun e' => absurd e' (by rw [e]; simp), fun c' e' => ?_⟩
      rw [e] at e'; cases e'
      cases h with
      | last => exact ⟨_, rfl⟩
      | cons => exact ⟨_, rfl⟩
  | cons x pre ih =>
    intro a h
    generalize hq : x :: pre ++ c :: post = q at h
    cases h with
    | last e => simp at hq
    | cons e h =>
      simp at hq
      obtain ⟨rfl, rfl⟩ := hq
      exact ih h

theorem Path.head_mem {next : Nat → Option Nat} {a ls} (h : Path next a ls) : a ∈ ls := by
  cases h <;> simp

/-! ### The invariant of the links -/

/-- What the links always satisfy.  `b` numbers instances in the order in which their evaluation
started; `clk` is the next number. -/
structure Core (S : Sys V) (D : Nat → Prop) (s : St V) (b : Nat → Nat) (clk : Nat) : Prop where
  noUneval : ∀ j, s.status j ≠ .uneval
  dom : ∀ j, s.status j = .cycle → D j
  fresh : ∀ j, s.status j = .uninit → s.parent j = none
  nextNone : ∀ j, s.parent j = none → s.next j = none
  born : ∀ j, s.status j ≠ .uninit → b j < clk
  older : ∀ j p, s.parent j = some p → p ≠ j → b p < b j
  link : ∀ j p, s.parent j = some p →
    S.circular j = true ∧ s.parent p ≠ none ∧ s.status p = s.status j
  list : ∀ r, s.parent r = some r → s.status r = .cycle →
    ∃ l ls, (s.helper r).bind (·.cycleLast) = some l ∧ Path s.next r ls ∧ ls.getLast? = some l ∧
      ∀ j, j ∈ ls ↔ Root s.parent j r

variable {S : Sys V} {D : Nat → Prop} {s : St V} {b : Nat → Nat} {clk : Nat}

theorem Core.exists_root (h : Core S D s b clk) : ∀ j, s.parent j ≠ none → ∃ r, Root s.parent j r := by
  intro j
  induction hn : b j using Nat.strongRecOn generalizing j with
  | _ n ih =>
    intro hj
    cases e : s.parent j with
    | none => exact absurd e hj
    | some p =>
      by_cases hp : p = j
      · subst hp; exact ⟨p, .self e⟩
      · obtain ⟨r, hr⟩ := ih (b p) (hn ▸ h.older j p e hp) p rfl (h.link j p e).2.1
        exact ⟨r, .step e hp hr⟩

theorem Core.root_old (h : Core S D s b clk) {j r} (hr : Root s.parent j r) : b r ≤ b j := by
  induction hr with
  | self => exact Nat.le_refl _
  | step e n _ ih => exact Nat.le_trans ih (Nat.le_of_lt (h.older _ _ e n))

theorem Core.root_lt (h : Core S D s b clk) {j r} (hr : Root s.parent j r) (hn : r ≠ j) : b r < b j := by
  cases hr with
  | self => exact absurd rfl hn
  | step e n hr => exact Nat.lt_of_le_of_lt (h.root_old hr) (h.older _ _ e n)

theorem Core.root_status (h : Core S D s b clk) {j r} (hr : Root s.parent j r) :
    s.status r = s.status j := by
  induction hr with
  | self => rfl
  | step e n _ ih => exact ih.trans (h.link _ _ e).2.2

theorem Core.root_circ (h : Core S D s b clk) {j r} (hr : Root s.parent j r) : S.circular j = true := by
  cases hr with
  | self e => exact (h.link _ _ e).1
  | step e => exact (h.link _ _ e).1

/-- The links are the same up to compression. -/
structure SameLinks (s s' : St V) : Prop where
  status : s'.status = s.status
  parent : Compress s.parent s'.parent
  next : s'.next = s.next
  helper : ∀ r, (s'.helper r).bind (·.cycleLast) = (s.helper r).bind (·.cycleLast)

theorem Core.same {s' : St V} (h : Core S D s b clk) (e : SameLinks s s') : Core S D s' b clk where
  noUneval := by rw [e.status]; exact h.noUneval
  dom := by rw [e.status]; exact h.dom
  fresh := fun j hj => e.parent.none.2 (h.fresh j (by rw [← e.status]; exact hj))
  nextNone := fun j hj => by rw [e.next]; exact h.nextNone j (e.parent.none.1 hj)
  born := by rw [e.status]; exact h.born
  older := fun j p hp hn => by
    rcases e.parent j with e' | ⟨r, h1, e'⟩
    · exact h.older j p (e' ▸ hp) hn
    · rw [hp] at e'; cases e'; exact h.root_lt h1 hn
  link := fun j p hp => by
    rw [e.status]
    rcases e.parent j with e' | ⟨r, h1, e'⟩
    · have := h.link j p (e' ▸ hp)
      exact ⟨this.1, fun hc => this.2.1 (e.parent.none.1 hc), this.2.2⟩
    · rw [hp] at e'; cases e'
      exact ⟨h.root_circ h1, fun hc => h1.idem.ne_none (e.parent.none.1 hc), h.root_status h1⟩
  list := fun r hr hs => by
    obtain ⟨l, ls, h1, h2, h3, h4⟩ := h.list r (e.parent.self.1 hr) (by rw [← e.status]; exact hs)
    refine ⟨l, ls, by rw [e.helper]; exact h1, by rw [e.next]; exact h2, h3, fun j => ?_⟩
    rw [h4 j, e.parent.root]

theorem inCycle_spec : ∀ f i (s : St V), Core S D s b clk →
    Sat (inCycle S f i s) (fun q s' => (∃ par', s' = { s with parent := par' } ∧
      Compress s.parent par') ∧ (q = none ↔ s.parent i = none) ∧
      ∀ r, q = some r ↔ Root s.parent i r) (fun _ => False) := by
  intro f
  induction f with
  | zero => intros; trivial
  | succ f ih =>
    intro i s h
    simp only [inCycle]
    split
    · split
      · next e =>
        refine ⟨⟨s.parent, rfl, .refl _⟩, by simp [e], fun r => ?_⟩
        exact ⟨fun h => (by cases h), fun h => absurd e h.ne_none⟩
      · next p hp =>
        refine Sat.bind (Q := fun q s' => (∃ par', s' = { s with parent := par' } ∧
          Compress s.parent par') ∧ (q = none ↔ s.parent i = none) ∧
          ∀ r, q = some r ↔ Root s.parent i r) ?_ ?_
        · split
          · next hn =>
            refine (ih p s h).mono ?_ (fun _ h => h)
            rintro q s' ⟨h1, h2, h3⟩
            refine ⟨h1, ?_, fun r => ?_⟩
            · rw [h2, hp]; simp [(h.link i p hp).2.1]
            · rw [h3]
              constructor
              · exact fun h => .step hp hn h
              · intro h
                cases h with
                | self e => rw [hp] at e; cases e; exact absurd rfl hn
                | step e n h => rw [hp] at e; cases e; exact h
          · next hn =>
            have hn : p = i := by simpa using hn
            subst hn
            refine ⟨⟨s.parent, rfl, .refl _⟩, by simp [hp], fun r => ?_⟩
            constructor
            · intro e; cases e; exact .self hp
            · intro e; rw [e.unique (.self hp)]
        · rintro q s1 ⟨⟨par', rfl, h1⟩, h2, h3⟩
          split
          · refine ⟨⟨_, rfl, fun j => ?_⟩, h2, h3⟩
            by_cases hj : j = i
            · subst hj
              cases q with
              | none => exact absurd (h2.1 rfl) (by rw [hp]; simp)
              | some r => exact .inr ⟨r, (h3 r).1 rfl, by simp⟩
            · rw [upd_ne _ _ hj]; exact h1 j
          · exact ⟨⟨par', rfl, h1⟩, h2, h3⟩
    · next hc =>
      have e : s.parent i = none := by
        cases e : s.parent i with
        | none => rfl
        | some p => exact absurd (h.link i p e).1 hc
      refine ⟨⟨s.parent, rfl, .refl _⟩, by simp [e], fun r => ?_⟩
      exact ⟨fun h => (by cases h), fun h => absurd e h.ne_none⟩

/-- The cycle of `L` has changed since its present pass began. -/
def Modified (s : St V) (L : Nat) : Prop := ∃ h, s.helper L = some h ∧ h.modified = true

/-- Between `s` and `s'` no evaluation started, and no cycle was found or joined to another. -/
structure Quiet (D : Nat → Prop) (s s' : St V) : Prop where
  uninit : ∀ j, D j → s.status j = .uninit → s'.status j = .uninit
  none : ∀ j, D j → s.parent j = none → s'.parent j = none
  root : ∀ r, D r → s.parent r = some r → s'.parent r = some r

/-- How cycles evolve. -/
structure Evo (D : Nat → Prop) (s s' : St V) : Prop where
  status : ∀ j, s.status j ≠ .uninit → s'.status j = s.status j
  value : ∀ j, s.status j ≠ .uninit → s'.value j = s.value j
  coarse : ∀ j k r, Root s.parent j r → Root s.parent k r →
    ∃ r', Root s'.parent j r' ∧ Root s'.parent k r'
  root : ∀ r, s.parent r ≠ none → s'.parent r = some r → s.parent r = some r
  none : ∀ j, s'.parent j = none → s.parent j = none
  path : ∀ r, s.status r = .cycle → s.parent r = some r → s'.parent r = some r →
    ∀ ls, Path s.next r ls → ∃ ls', Path s'.next r (ls ++ ls')
  flag : ∀ r, s.status r = .cycle → s.parent r = some r → s'.parent r = some r →
    ∀ h, s.helper r = some h → h.modified = true → ∃ h', s'.helper r = some h' ∧ h'.modified = true
  asgd : ∀ j, s'.status j = .assigned → s.status j = .assigned
  back : Quiet D s s' → ∀ r, D r → s.status r = .cycle → s.parent r = some r → Modified s' r → Modified s r

theorem Evo.refl (s : St V) : Evo D s s where
  status := fun _ _ => rfl
  value := fun _ _ => rfl
  coarse := fun _ _ r h h' => ⟨r, h, h'⟩
  root := fun _ _ h => h
  none := fun _ h => h
  path := fun _ _ _ _ ls h => ⟨[], by simpa using h⟩
  flag := fun _ _ _ _ h e m => ⟨h, e, m⟩
  asgd := fun _ h => h
  back := fun _ _ _ _ _ h => h

theorem Evo.quiet {s s' s'' : St V} (h : Evo D s s') (h' : Evo D s' s'') (q : Quiet D s s'') :
    Quiet D s s' ∧ Quiet D s' s'' := by
  have q1 : Quiet D s s' := by
    refine ⟨fun j d e => ?_, fun j d e => h'.none j (q.none j d e), fun r d e => ?_⟩
    · by_contra hn
      have := h'.status j hn
      rw [q.uninit j d e] at this
      exact hn this.symm
    · exact h'.root r (fun hc => absurd (h.none r hc) (by rw [e]; simp)) (q.root r d e)
  refine ⟨q1, fun j d e => ?_, fun j d e => q.none j d (h.none j e), fun r d e => q.root r d ?_⟩
  · refine q.uninit j d ?_
    by_contra hn
    exact hn ((h.status j hn).symm.trans e)
  · refine h.root r (fun hc => ?_) e
    rw [q1.none r d hc] at e; cases e

theorem Evo.trans {s s' s'' : St V} (h : Evo D s s') (h' : Evo D s' s'') : Evo D s s'' where
  status := fun j hj => by
    have := h.status j hj
    rw [h'.status j (by rw [this]; exact hj), this]
  value := fun j hj => by
    rw [h'.value j (by rw [h.status j hj]; exact hj), h.value j hj]
  coarse := fun j k r h1 h2 => by
    obtain ⟨r', a, b⟩ := h.coarse j k r h1 h2
    exact h'.coarse j k r' a b
  root := fun r hr e => h.root r hr (h'.root r (fun hc => hr (h.none r hc)) e)
  none := fun j e => h.none j (h'.none j e)
  path := fun r hs h1 h2 ls hp => by
    have hm : s'.parent r = some r :=
      h'.root r (fun hc => by have := h.none r hc; rw [h1] at this; cases this) h2
    obtain ⟨l1, p1⟩ := h.path r hs h1 hm ls hp
    obtain ⟨l2, p2⟩ := h'.path r (by rw [h.status r (by rw [hs]; simp)]; exact hs) hm h2 _ p1
    exact ⟨l1 ++ l2, by simpa using p2⟩
  flag := fun r hs h1 h2 x e m => by
    have hm : s'.parent r = some r :=
      h'.root r (fun hc => by have := h.none r hc; rw [h1] at this; cases this) h2
    obtain ⟨x1, e1, m1⟩ := h.flag r hs h1 hm x e m
    exact h'.flag r (by rw [h.status r (by rw [hs]; simp)]; exact hs) hm h2 x1 e1 m1
  asgd := fun j e => h.asgd j (h'.asgd j e)
  back := fun q r d hs hr hm => by
    obtain ⟨q1, q2⟩ := h.quiet h' q
    have hs' : s'.status r = .cycle := by rw [h.status r (by rw [hs]; simp)]; exact hs
    exact h.back q1 r d hs hr (h'.back q2 r d hs' (q1.root r d hr) hm)

theorem Evo.compress (s : St V) {par' : Nat → Option Nat} (h : Compress s.parent par') (p : List Nat) :
    Evo D s { s with parent := par', pending := p } where
  status := fun _ _ => rfl
  value := fun _ _ => rfl
  coarse := fun _ _ r h1 h2 => ⟨r, h.root.2 h1, h.root.2 h2⟩
  root := fun _ _ e => h.self.1 e
  none := fun _ e => h.none.1 e
  path := fun _ _ _ _ ls h => ⟨[], by simpa using h⟩
  flag := fun _ _ _ _ h e m => ⟨h, e, m⟩
  asgd := fun _ h => h
  back := fun _ _ _ _ _ h => h

/-! ### Joining two cycles -/

/-- The instances that come to `ce` together with `e`. -/
def With (s : St V) (e j : Nat) : Prop := j = e ∨ ∃ p, Root s.parent e p ∧ Root s.parent j p

/-- The links after `x` (with what follows it) was put under `ce`, where `x` is `e` or its
representative. -/
theorem join_root {par : Nat → Option Nat} {x ce : Nat} (hx : par x = none ∨ par x = some x)
    (hnone : par x = none → ∀ j, par j ≠ some x)
    (hce : par ce = some ce) (hne : x ≠ ce) {j r} :
    Root (upd par x (some ce)) j r ↔
      ((j = x ∨ Root par j x) ∧ r = ce) ∨ (¬ (j = x ∨ Root par j x) ∧ Root par j r) := by
  have hce' : upd par x (some ce) ce = some ce := by rw [upd_ne _ _ (Ne.symm hne)]; exact hce
  have hx' : Root (upd par x (some ce)) x ce := .step (upd_self _ _ _) (Ne.symm hne) (.self hce')
  have fwd : ∀ j r, Root par j r → Root (upd par x (some ce)) j (if r = x then ce else r) := by
    intro j r h
    induction h with
    | @self r e =>
      by_cases h : r = x
      · subst h; rw [if_pos rfl]; exact hx'
      · rw [if_neg h]; exact .self (by rw [upd_ne _ _ h]; exact e)
    | @step j p r e n _ ih =>
      by_cases h : j = x
      · subst h
        rcases hx with h | h <;> rw [h] at e
        · cases e
        · cases e; exact absurd rfl n
      · exact .step (by rw [upd_ne _ _ h]; exact e) n ih
  have key : (j = x ∨ Root par j x) → Root (upd par x (some ce)) j ce := by
    rintro (rfl | h)
    · exact hx'
    · simpa using fwd j x h
  constructor
  · intro h
    by_cases hm : j = x ∨ Root par j x
    · exact .inl ⟨hm, h.unique (key hm)⟩
    · refine .inr ⟨hm, ?_⟩
      have aux : ∀ j r, Root (upd par x (some ce)) j r → ¬ (j = x ∨ Root par j x) → Root par j r := by
        intro j r h
        induction h with
        | @self r e =>
          intro hm
          rw [upd_ne _ _ (fun e => hm (.inl e))] at e
          exact .self e
        | @step j p r e n _ ih =>
          intro hm
          rw [upd_ne _ _ (fun e => hm (.inl e))] at e
          refine .step e n (ih ?_)
          rintro (rfl | hp)
          · rcases hx with hx | hx
            · exact hnone hx j e
            · exact hm (.inr (.step e n (.self hx)))
          · exact hm (.inr (.step e n hp))
      exact aux j r h hm
  · rintro (⟨hm, rfl⟩ | ⟨hm, h⟩)
    · exact key hm
    · have := fwd j r h
      rwa [if_neg (fun e : r = x => hm (.inr (e ▸ h)))] at this

theorem getLast?_append_ne {α : Type} (l l' : List α) (h : l' ≠ []) :
    (l ++ l').getLast? = l'.getLast? := by
  rw [List.getLast?_append]
  cases e : l'.getLast? with
  | none => exact absurd (List.getLast?_eq_none_iff.1 e) h
  | some => rfl

/-- The state after `x` was put under `ce`: `lsx` are the members that come along. -/
theorem join_core {x ce l lx : Nat} {lsx : List Nat} {hp : Nat → Option Helper} (h : Core S D s b clk)
    (hx : s.parent x = none ∧ lsx = [x] ∧ lx = x ∨ s.parent x = some x ∧ Path s.next x lsx ∧
      lsx.getLast? = some lx ∧ ∀ j, j ∈ lsx ↔ Root s.parent j x)
    (hcx : S.circular x = true) (hsx : s.status x = .cycle)
    (hce : s.parent ce = some ce) (hsce : s.status ce = .cycle) (hne : x ≠ ce) (hb : b ce < b x)
    (hl : (s.helper ce).bind (·.cycleLast) = some l)
    (hp1 : (hp ce).bind (·.cycleLast) = some lx)
    (hp2 : ∀ r, r ≠ ce → r ≠ x → hp r = s.helper r)
    (hp3 : ∀ x h, s.helper ce = some x → hp ce = some h → x.modified = true → h.modified = true) :
    Core S D { s with parent := upd s.parent x (some ce), next := upd s.next l (some x), helper := hp } b clk ∧
    Evo D s { s with parent := upd s.parent x (some ce), next := upd s.next l (some x), helper := hp } := by
  have hx0 : s.parent x = none ∨ s.parent x = some x := by
    rcases hx with h | h
    · exact .inl h.1
    · exact .inr h.1
  have hnone : s.parent x = none → ∀ j, s.parent j ≠ some x := by
    intro e j e'
    exact (h.link j x e').2.1 e
  have jr := @join_root s.parent x ce hx0 hnone hce hne
  obtain ⟨l', ls, h1, h2, h3, h4⟩ := h.list ce hce hsce
  rw [hl] at h1; cases h1
  have hlce : Root s.parent l ce := (h4 l).1 (List.mem_of_getLast? h3)
  -- members of what comes along
  have hlsx : ∀ j, j ∈ lsx ↔ (j = x ∨ Root s.parent j x) := by
    rcases hx with ⟨e, rfl, rfl⟩ | ⟨e, _, _, hm⟩
    · intro j
      simp only [List.mem_singleton]
      refine ⟨.inl, ?_⟩
      rintro (h | h)
      · exact h
      · exact absurd e h.idem.ne_none
    · intro j
      rw [hm j]
      refine ⟨.inr, ?_⟩
      rintro (rfl | h)
      · exact .self e
      · exact h
  have hlx : l ∉ lsx := by
    intro hc
    rcases (hlsx l).1 hc with e | hr
    · subst e
      rcases hx0 with e | e
      · exact hlce.ne_none e
      · exact hne (((Root.self e).unique hlce))
    · exact hne (hr.unique hlce)
  have hpx : Path (upd s.next l (some x)) x lsx := by
    rcases hx with ⟨e, rfl, rfl⟩ | ⟨e, hp, _, hm⟩
    · refine .last ?_
      rw [upd_ne _ _ (fun e => hlx (by simp [e]))]
      exact h.nextNone _ e
    · exact hp.congr fun j hj => upd_ne _ _ (fun e => hlx (e ▸ hj))
  have hlast : lsx.getLast? = some lx := by
    rcases hx with ⟨e, rfl, rfl⟩ | ⟨e, hp, hl, hm⟩
    · rfl
    · exact hl
  have hpath := h2.extend h3 hpx
  have other : ∀ r, r ≠ ce → s.parent r = some r → ∀ ls, Path s.next r ls →
      (s.status r = .cycle) → Path (upd s.next l (some x)) r ls := by
    intro r hr e ls hp hs
    obtain ⟨_, ls', _, p, _, m⟩ := h.list r e hs
    cases hp.unique p
    refine hp.congr fun j hj => upd_ne _ _ ?_
    rintro rfl
    exact hr (((m j).1 hj).unique hlce)
  constructor
  · refine ⟨h.noUneval, h.dom, fun j hj => ?_, fun j hj => ?_, h.born, fun j p hp' hn => ?_, fun j p hp' => ?_,
      fun r hr hs => ?_⟩
    · show upd s.parent x (some ce) j = none
      rw [upd_ne _ _ (fun e => ?_)]
      · exact h.fresh j hj
      · subst e; rw [show s.status j = .uninit from hj] at hsx; cases hsx
    · replace hj : upd s.parent x (some ce) j = none := hj
      have hjx : j ≠ x := by rintro rfl; simp at hj
      rw [upd_ne _ _ hjx] at hj
      show upd s.next l (some x) j = none
      rw [upd_ne _ _ (fun e => ?_)]
      · exact h.nextNone j hj
      · subst e; exact hlce.ne_none hj
    · have hp' : upd s.parent x (some ce) j = some p := hp'
      by_cases hjx : j = x
      · subst hjx; rw [upd_self] at hp'; cases hp'; exact hb
      · rw [upd_ne _ _ hjx] at hp'; exact h.older j p hp' hn
    · have hp' : upd s.parent x (some ce) j = some p := hp'
      show _ ∧ upd s.parent x (some ce) p ≠ none ∧ _
      have hpn : s.parent p ≠ none → upd s.parent x (some ce) p ≠ none := by
        intro hh
        by_cases e : p = x
        · subst e; simp
        · rw [upd_ne _ _ e]; exact hh
      by_cases hjx : j = x
      · subst hjx; rw [upd_self] at hp'; cases hp'
        exact ⟨hcx, hpn (by rw [hce]; simp), by show s.status ce = s.status j; rw [hsce, hsx]⟩
      · rw [upd_ne _ _ hjx] at hp'
        have := h.link j p hp'
        exact ⟨this.1, hpn this.2.1, this.2.2⟩
    · have hr : upd s.parent x (some ce) r = some r := hr
      have hrx : r ≠ x := by rintro rfl; rw [upd_self] at hr; cases hr; exact hne rfl
      rw [upd_ne _ _ hrx] at hr
      have hs : s.status r = .cycle := hs
      by_cases hrc : r = ce
      · subst hrc
        refine ⟨lx, ls ++ lsx, hp1, hpath, ?_, fun j => ?_⟩
        · rw [getLast?_append_ne _ _ hpx.ne_nil]; exact hlast
        · show _ ↔ Root (upd s.parent x (some r)) j r
          rw [jr, List.mem_append, h4 j, hlsx j]
          by_cases hm : j = x ∨ Root s.parent j x
          · simp [hm]
          · simp [hm]
      · obtain ⟨l2, ls2, g1, g2, g3, g4⟩ := h.list r hr hs
        refine ⟨l2, ls2, by show (hp r).bind _ = _; rw [hp2 r hrc hrx]; exact g1,
          other r hrc hr ls2 g2 hs, g3, fun j => ?_⟩
        show _ ↔ Root (upd s.parent x (some ce)) j r
        rw [jr, g4 j]
        constructor
        · intro hj
          refine .inr ⟨?_, hj⟩
          rintro (rfl | hjx)
          · rcases hx0 with e | e
            · exact hj.ne_none e
            · exact hrx (hj.unique (.self e))
          · exact hrx (hj.unique hjx)
        · rintro (⟨_, e⟩ | ⟨_, hj⟩)
          · exact absurd e hrc
          · exact hj
  · refine ⟨fun _ _ => rfl, fun _ _ => rfl, fun j k r hj hk => ?_, fun r hr e => ?_, fun j e => ?_,
      fun r hs e1 e2 l1 p1 => ?_, fun r hs e1 e2 x1 ex1 m1 => ?_, fun _ h => h, fun q => ?_⟩
    · by_cases hrx : r = x
      · subst hrx
        exact ⟨ce, jr.2 (.inl ⟨.inr hj, rfl⟩), jr.2 (.inl ⟨.inr hk, rfl⟩)⟩
      · have nm : ∀ j, Root s.parent j r → ¬ (j = x ∨ Root s.parent j x) := by
          rintro j hj (rfl | hjx)
          · rcases hx0 with e | e
            · exact hj.ne_none e
            · exact hrx (hj.unique (.self e))
          · exact hrx (hj.unique hjx)
        exact ⟨r, jr.2 (.inr ⟨nm j hj, hj⟩), jr.2 (.inr ⟨nm k hk, hk⟩)⟩
    · have e : upd s.parent x (some ce) r = some r := e
      have hrx : r ≠ x := by rintro rfl; rw [upd_self] at e; cases e; exact hne rfl
      rw [upd_ne _ _ hrx] at e; exact e
    · have e : upd s.parent x (some ce) j = none := e
      have hjx : j ≠ x := by rintro rfl; simp at e
      rw [upd_ne _ _ hjx] at e; exact e
    · by_cases hrc : r = ce
      · subst hrc; cases p1.unique h2; exact ⟨lsx, hpath⟩
      · exact ⟨[], by simpa using other r hrc e1 l1 p1 hs⟩
    · have hrx : r ≠ x := by
        rintro rfl
        have e2 : upd s.parent r (some ce) r = some r := e2
        rw [upd_self] at e2; cases e2; exact hne rfl
      by_cases hrc : r = ce
      · subst hrc
        cases e : hp r with
        | none => rw [e] at hp1; cases hp1
        | some y => exact ⟨y, e, hp3 x1 y ex1 e m1⟩
      · exact ⟨x1, by show hp r = _; rw [hp2 r hrc hrx]; exact ex1, m1⟩
    · exfalso
      have dx := h.dom x hsx
      rcases hx0 with e | e
      · have : upd s.parent x (some ce) x = none := q.none x dx e
        simp at this
      · have : upd s.parent x (some ce) x = some x := q.root x dx e
        simp at this; exact hne this.symm

/-- `setInCycle` when the representative of `e`, if any, is younger than `ce`. -/
theorem setInCycle_spec (f e ce : Nat) (h : Core S D s b clk) (hse : s.status e = .cycle)
    (hce : s.parent ce = some ce) (hsce : s.status ce = .cycle)
    (hne : ¬ Root s.parent e ce) (hb0 : s.parent e = none → b ce < b e)
    (hb1 : ∀ p, Root s.parent e p → b ce < b p) :
    Sat (setInCycle S f e ce s) (fun _ s' => Core S D s' b clk ∧ Links s s' ∧ Evo D s s' ∧
      ∀ j r, Root s'.parent j r ↔ (With s e j ∧ r = ce) ∨ (¬ With s e j ∧ Root s.parent j r))
      (fun x => x = .cyclic) := by
  simp only [setInCycle]
  split
  · next hcirc =>
    split
    · next hpe =>
      have hec : e ≠ ce := by rintro rfl; rw [hce] at hpe; cases hpe
      obtain ⟨l, ls, h1, h2, h3, h4⟩ := h.list ce hce hsce
      simp only [helperAdd]
      cases hh : s.helper ce with
      | none => rw [hh] at h1; cases h1
      | some x =>
        rw [hh] at h1
        have h1 : x.cycleLast = some l := h1
        simp only [h1, h.nextNone e hpe, if_true]
        have hj := join_core (x := e) (ce := ce) (l := l) (lx := e) (lsx := [e])
          (hp := upd s.helper ce (some { x with cycleLast := some e })) h (.inl ⟨hpe, rfl, rfl⟩) hcirc
          hse hce hsce hec (hb0 hpe) (by rw [hh]; exact h1) (by simp) (fun r hr _ => upd_ne _ _ hr)
          (fun y z ey ez m => by
            rw [hh] at ey; cases ey; rw [upd_self] at ez; cases ez; exact m)
        refine ⟨hj.1, ⟨rfl, rfl, rfl⟩, hj.2, fun j r => ?_⟩
        have hw : With s e j ↔ (j = e ∨ Root s.parent j e) := by
          constructor
          · rintro (h | ⟨p, h1, _⟩)
            · exact .inl h
            · exact absurd hpe h1.ne_none
          · rintro (h | h)
            · exact .inl h
            · exact absurd hpe h.idem.ne_none
        rw [hw]
        exact join_root (.inl hpe) (fun e0 j' e' => (h.link j' e e').2.1 e0) hce hec
    · next p0 hpe =>
      refine (inCycle_spec f e s h).mono (E' := fun x => x = .cyclic) (fun _ _ h => h) (fun _ h => h.elim) |>.bind ?_
      rintro q s1 ⟨⟨par', rfl, hc⟩, hq1, hq2⟩
      split
      · exact absurd (hq1.1 rfl) (by rw [hpe]; simp)
      · next p =>
        have hp : Root s.parent e p := (hq2 p).1 rfl
        have hs1 : SameLinks s { s with parent := par' } := ⟨rfl, hc, rfl, fun _ => rfl⟩
        have k := h.same hs1
        have hpc : p ≠ ce := by rintro rfl; exact hne hp
        have hsp : s.status p = .cycle := by rw [h.root_status hp]; exact hse
        have e1 : par' p = some p := hc.self.2 hp.root
        have e2 : par' ce = some ce := hc.self.2 hce
        obtain ⟨l, ls, h1, h2, h3, h4⟩ := k.list ce e2 hsce
        obtain ⟨lp, lsp, g1, g2, g3, g4⟩ := k.list p e1 hsp
        have h1 : (s.helper ce).bind (·.cycleLast) = some l := h1
        have g1 : (s.helper p).bind (·.cycleLast) = some lp := g1
        simp only [helperAddAll]
        cases hh : s.helper ce with
        | none => rw [hh] at h1; cases h1
        | some x =>
        cases hg : s.helper p with
        | none => rw [hg] at g1; cases g1
        | some y =>
        rw [hh] at h1; rw [hg] at g1
        have h1 : x.cycleLast = some l := h1
        have g1 : y.cycleLast = some lp := g1
        have hn : s.next l = none := h2.last_none h3
        simp only [h1, g1, hn, if_neg hpc, if_true]
        have hj := join_core (x := p) (ce := ce) (l := l) (lx := lp) (lsx := lsp)
          (hp := upd (upd s.helper ce (some ⟨some lp, x.modified || y.modified⟩)) p
                              (some ⟨none, y.modified⟩)) k (.inr ⟨e1, g2, g3, g4⟩) (h.root_circ hp.idem)
          hsp e2 hsce hpc (hb1 p hp) (by show (s.helper ce).bind _ = _; rw [hh]; exact h1)
          (by rw [upd_ne _ _ (Ne.symm hpc)]; simp)
          (fun r hr hr' => by rw [upd_ne _ _ hr', upd_ne _ _ hr])
          (fun y' z ey ez m => by
            have ey : s.helper ce = some y' := ey
            rw [hh] at ey; cases ey; rw [upd_ne _ _ (Ne.symm hpc), upd_self] at ez; cases ez; simp [m])
        refine ⟨hj.1, ⟨rfl, rfl, rfl⟩, (Evo.compress s hc s.pending).trans hj.2, fun j r => ?_⟩
        have hw : With s e j ↔ (j = p ∨ Root par' j p) := by
          rw [hc.root]
          constructor
          · rintro (rfl | ⟨p', h1, h2⟩)
            · exact .inr hp
            · rw [hp.unique h1]; exact .inr h2
          · rintro (rfl | h)
            · exact .inr ⟨j, hp, hp.idem⟩
            · exact .inr ⟨p, hp, h⟩
        rw [hw]
        have := @join_root par' p ce (.inr e1) (fun e0 => absurd e0 (by rw [e1]; simp)) e2 hpc j r
        rw [hc.root (j := j) (r := r)] at this
        exact this
  · rfl

/-- Whatever it reads, the equation reads only instances in `D`. -/
inductive ReadsIn (D : Nat → Prop) : Comp V → Prop
  | ret (v) : ReadsIn D (.ret v)
  | undef : ReadsIn D .undef
  | read {i k} : D i → (∀ x, ReadsIn D (k x)) → ReadsIn D (.read i k)

/-- The instances in `D` depend only on instances in `D`. -/
def Closed (S : Sys V) (D : Nat → Prop) : Prop := ∀ i, D i → ReadsIn D (S.compute i)

end Aps.ScalaEval
