import Verif.Proofs.OagPairs
set_option linter.unusedVariables false
/-! The total orders after the ordered attribute grammar loop. -/
namespace Aps.Oag
open Aps.Dnc Aps.Props

theorem path_tested {g : Aug} {insts : List OInst} (h : Tested g insts) {ps : List Phy} {τ : Nat → Bool} {k j i : Nat}
    (hp : PathDep g ps τ j i) : PathDep g ps (flip τ k) j i ∨
      ∃ r, r < g.n ∧ ruleOf insts r = some k ∧ Sat τ (condOf insts r) ∧ PathDep g ps (flip τ k) r i := by
  have hst : ∀ j i, StepDep g ps τ j i → StepDep g ps (flip τ k) j i ∨
      ∃ r, r < g.n ∧ ruleOf insts r = some k ∧ Sat τ (condOf insts r) ∧ StepDep g ps (flip τ k) r i := by
    rintro j i ⟨hj, hi, hd | hd⟩
    · by_cases hd' : DepUnder g (flip τ k) j i
      · exact .inl ⟨hj, hi, .inl hd'⟩
      · obtain ⟨r, hr, h1, h2, h3⟩ := h τ k i j hi hj hd hd'
        exact .inr ⟨r, hr, h1, h2, hr, hi, .inl h3⟩
    · exact .inl ⟨hj, hi, .inr hd⟩
  induction hp with
  | single hs =>
    rcases hst _ _ hs with h' | ⟨r, hr, h1, h2, h3⟩
    · exact .inl (.single h')
    · exact .inr ⟨r, hr, h1, h2, .single h3⟩
  | tail _ hs ih =>
    rcases hst _ _ hs with h' | ⟨r, hr, h1, h2, h3⟩
    · rcases ih with h'' | ⟨r, hr, h1, h2, h3⟩
      · exact .inl (.tail h'' h')
      · exact .inr ⟨r, hr, h1, h2, .tail h3 h'⟩
    · exact .inr ⟨r, hr, h1, h2, .single h3⟩

/-- conditional dependencies wait for the tests in the final graph if they did at first -/
theorem final_tested {s s' : State} (hx : SFix0 s') (hr : OR s s') (hap : ∀ g ∈ s.augs, LinksApart g s.phys) {x : Nat} {g g' : Aug}
    (hg : s.augs[x]? = some g) (hg' : s'.augs[x]? = some g') (m : Mono g g') {insts : List OInst} (h : Tested g insts) : Tested g' insts := by
  intro τ k i j hi hj hd hn
  rw [m.n] at hi hj
  rw [final_pairs hx hr hap hg hg' m hj hi] at hd hn
  obtain ⟨r, hr', h1, h2, h3⟩ := (path_tested h hd).resolve_left hn
  exact ⟨r, by rw [m.n]; exact hr', h1, h2, (final_pairs hx hr hap hg hg' m hr' hi).2 h3⟩

/-- the conditionals are not attributes of nodes -/
def RulesApart (g : Aug) (insts : List OInst) (ps : List Phy) : Prop :=
  ∀ r k, ruleOf insts r = some k → ∀ l ∈ g.links, ∀ p, ps[l.2]? = some p → r < l.1 ∨ l.1 + p.n ≤ r

theorem final_guarded {s s' : State} (hx : SFix0 s') (hr : OR s s') (hap : ∀ g ∈ s.augs, LinksApart g s.phys) {x : Nat} {g g' : Aug}
    (hg : s.augs[x]? = some g) (hg' : s'.augs[x]? = some g') (m : Mono g g') {insts : List OInst} (hra : RulesApart g insts s.phys)
    (h : InstsGuarded g insts) : InstsGuarded g' insts := by
  intro i hi k hb
  rw [m.n] at hi
  obtain ⟨r, hr', h1, h2, hd⟩ := h i hi k hb
  refine ⟨r, by rw [m.n]; exact hr', h1, h2, ?_⟩
  rcases hd with ⟨e, he, hc⟩ | ⟨hlt, hall⟩
  · obtain ⟨e', he', hc', _⟩ := m.mono r i hr' hi e.cond e.kind ⟨e, he, Cond.sub_refl _, Le.refl _⟩
    exact .inl ⟨e', he', Cond.sub_trans hc' hc⟩
  · refine .inr ⟨hlt, fun σ j hj hdj => ?_⟩
    rw [m.n] at hj
    rw [final_pairs hx hr hap hg hg' m hj hr'] at hdj
    rw [final_pairs hx hr hap hg hg' m hj hi]
    have hst : ∀ y, StepDep g s'.phys σ y r → StepDep g s'.phys σ y i := by
      rintro y ⟨hy, _, hd | ⟨l, hl, p, hp, a, b, ha, hb', rfl, he, _⟩⟩
      · exact ⟨hy, hi, .inl (hall σ y hy hd)⟩
      · obtain ⟨q, eq, hn, _⟩ := hr.phys.back hp
        have := hra r k h1 l hl q eq
        rw [hn] at hb'
        omega
    cases hdj with
    | single hs => exact .single (hst _ hs)
    | tail h0 hs => exact .tail h0 (hst _ hs)

theorem same_guarded {g g' : Aug} (m : Mono g g') (hs : ∀ σ i j, i < g.n → j < g.n → (DepUnder g' σ i j ↔ DepUnder g σ i j))
    {insts : List OInst} (h : InstsGuarded g insts) : InstsGuarded g' insts := by
  intro i hi k hb
  rw [m.n] at hi
  obtain ⟨r, hr, h1, h2, hd⟩ := h i hi k hb
  refine ⟨r, by rw [m.n]; exact hr, h1, h2, ?_⟩
  rcases hd with ⟨e, he, hc⟩ | ⟨hlt, hall⟩
  · obtain ⟨e', he', hc', _⟩ := m.mono r i hr hi e.cond e.kind ⟨e, he, Cond.sub_refl _, Le.refl _⟩
    exact .inl ⟨e', he', Cond.sub_trans hc' hc⟩
  · refine .inr ⟨hlt, fun σ j hj hdj => ?_⟩
    rw [m.n] at hj
    exact (hs σ j i hj hi).2 (hall σ j hj ((hs σ j r hj hr).1 hdj))

/-- closing a final graph once more does not change which instances depend on each other -/
theorem close_final {g : Aug} {ps : List Phy} (hF : Final g ps) (pw : PsWf ps) (hap : LinksApart g ps) :
    ∃ F ch g' ps', (∀ f, F ≤ f → closeAugmented f g ps = .ok (ch, g', ps')) ∧ PsZ ps ps' ∧ PsWf ps' ∧ Mono g g' ∧ GWf g' ∧
      ∀ σ i j, i < g.n → j < g.n → (DepUnder g' σ i j ↔ DepUnder g σ i j) := by
  obtain ⟨f, ch, g', ps', e, r, _, _⟩ := closeAugmented_total g ps ⟨hF.wf, hF.winv, hF.links, fun _ => hF.up⟩ pw
  have hA : ABound (boundM g ps) (boundN ps) g ps :=
    ⟨boundM_closed g ps, bound_links hF (Mono.refl g) (NzLe.refl ps) hap⟩
  obtain ⟨b1, b2⟩ := r.bound _ _ hA (boundM_below g ps) (by
    intro y p hp a b ha hb
    by_cases h0 : mget p.n p.m a b = 0
    · rw [h0]; exact Le.zero _
    · rw [boundN_ones hp h0]; exact le_allOnes _)
  refine ⟨f, ch, g', ps', closeAugmented_mono e, ⟨r.ple.len, fun y p hp => ?_⟩, r.pwf, r.mono, r.inv.wf, ?_⟩
  · obtain ⟨p', e', l⟩ := r.ple.le y p hp
    refine ⟨p', e', l, fun a b ha hb hne => ?_⟩
    have := b2 y p' e' a b (by rw [l.n]; exact ha) (by rw [l.n]; exact hb)
    rw [l.n] at this
    obtain ⟨q, eq, hq⟩ := boundN_ne (le_ne_zero this hne)
    rw [hp] at eq; cases eq
    exact hq
  · intro σ i j hi hj
    constructor
    · intro h
      exact hF.pathDep (Mono.refl g) (pairs_of_below b1 r.inv.wf r.mono.n hi hj h)
    · rintro ⟨e, he, hs⟩
      obtain ⟨e', he', hc, _⟩ := r.mono.mono i j hi hj e.cond e.kind ⟨e, he, Cond.sub_refl _, Le.refl _⟩
      exact ⟨e', he', sat_sub hc hs⟩

theorem TotalOrder.congr {n : Nat} {r r' : Nat → Nat → Prop} {o : List Nat} (h : TotalOrder n r o)
    (he : ∀ i j, i < n → j < n → (r' i j ↔ r i j)) : TotalOrder n r' o := by
  refine ⟨h.all, h.once, fun pre i post ho j hj hd => h.before pre i post ho j hj ((he j i hj ?_).1 hd)⟩
  exact (h.all i).1 (by rw [ho]; simp)

theorem Final.pz {g : Aug} {ps ps' : List Phy} (h : Final g ps) (z : PsZ ps ps') : Final g ps' :=
  ⟨h.wf, h.winv, h.done, h.links.mono (Mono.refl g) z.le, fun l hl => (h.up l hl).mono z.le, fun l hl => (h.down l hl).pz z⟩

/-- what is required of the instances of a graph -/
structure InstsOk (g : Aug) (insts : List OInst) : Prop where
  len : insts.length = g.n
  rule : ∀ i k, ruleOf insts i = some k → k < 32
  inj : ∀ a b k, ruleOf insts a = some k → ruleOf insts b = some k → a = b
  tested : Tested g insts

/-- what the pass over the augmented graphs gives for a graph -/
structure Ordered (g g' : Aug) (insts : List OInst) (t : Cto) : Prop where
  mono : Mono g g'
  same : ∀ σ i j, i < g.n → j < g.n → (DepUnder g' σ i j ↔ DepUnder g σ i j)
  order : scheduleAug g' insts = .ok t
  wf : GWf g'

theorem oagAugs_spec : ∀ (gs : List Aug) (iss : List (List OInst)) (ps : List Phy), PsWf ps →
    (∀ g ∈ gs, Final g ps ∧ LinksApart g ps ∧ ∀ σ, ∃ o, TotalOrder g.n (DepUnder g σ) o) →
    List.Forall₂ InstsOk gs iss →
    ∃ F gs' ts ps', (∀ f, F ≤ f → oagAugs f gs iss ps = .ok (gs', ts, ps')) ∧ PsZ ps ps' ∧
      gs'.length = gs.length ∧ ts.length = gs.length ∧
      ∀ (x : Nat) g is g' t, gs[x]? = some g → iss[x]? = some is → gs'[x]? = some g' → ts[x]? = some t → Ordered g g' is t
  | [], iss, ps, pw, hg, hi => ⟨0, [], [], ps, fun f _ => rfl, PsZ.refl ps, rfl, rfl, by simp⟩
  | g :: gs, is :: iss, ps, pw, hg, hi => by
    obtain ⟨hF, hap, ho⟩ := hg g (by simp)
    cases hi with
    | cons hi1 hi2 =>
    obtain ⟨F1, ch, g', ps1, e1, z1, pw1, m1, w1, same⟩ := close_final hF pw hap
    have ht : Tested g' is := by
      intro τ k i j hi' hj' hd hn
      rw [m1.n] at hi' hj'
      rw [same _ _ _ hj' hi'] at hd hn
      obtain ⟨r, hr, h1, h2, h3⟩ := hi1.tested τ k i j hi' hj' hd hn
      exact ⟨r, by rw [m1.n]; exact hr, h1, h2, (same _ _ _ hr hi').2 h3⟩
    obtain ⟨t, et⟩ := (C26_succeeds_iff (g := g') (insts := is) (by rw [m1.n]; exact hi1.len) hi1.rule hi1.inj ht).1.2 (fun σ => by
      obtain ⟨o, ho⟩ := ho σ
      exact ⟨o, by rw [m1.n]; exact ho.congr (fun i j hi hj => same σ i j hi hj)⟩)
    obtain ⟨F2, gs', ts, ps', e2, z2, l1, l2, hall⟩ := oagAugs_spec gs iss ps1 pw1 (fun q hq => by
      obtain ⟨x, y, z⟩ := hg q (by simp [hq])
      exact ⟨x.pz z1, y.mono (Mono.refl q) (NzLe.of_le z1.le), z⟩) hi2
    refine ⟨max F1 F2, g' :: gs', t :: ts, ps', ?_, z1.trans' z2, by simp [l1], by simp [l2], ?_⟩
    · intro f hf
      rw [oagAugs, e1 f (by omega), Res.ok_bind]
      simp only
      rw [et, Res.ok_bind, e2 f (by omega)]
      rfl
    · intro x q qi q' qt h1 h2 h3 h4
      cases x with
      | zero =>
        simp at h1 h2 h3 h4; subst h1 h2 h3 h4
        exact ⟨m1, same, et, w1⟩
      | succ x =>
        simp at h1 h2 h3 h4
        exact hall x q qi q' qt h1 h2 h3 h4

end Aps.Oag
