import Verif.Proofs.DncMain
set_option linter.unusedVariables false
/-! The DNC iteration from states where summaries have been changed by the scheduler: everything up to the kinds of
dependencies. -/
namespace Aps.Dnc

/-- as `AInv`, for graphs whose summaries have been changed -/
structure AInv0 (ps : List Phy) (g : Aug) : Prop where
  wf : GWf g
  winv : WInv g
  links : LinksOk g ps
  weak : g.wl.list = [] → ∀ l ∈ g.links, Weak g ps l

theorem AInv.weak {ps : List Phy} {g : Aug} (h : AInv ps g) : AInv0 ps g :=
  ⟨h.wf, h.winv, h.links, fun he l hl => (h.up he l hl).weak⟩

theorem AInv0.mono {ps ps' : List Phy} {g : Aug} (h : AInv0 ps g) (hp : PsLe ps ps') : AInv0 ps' g :=
  ⟨h.wf, h.winv, h.links.mono (Mono.refl g) hp, fun he l hl => (h.weak he l hl).mono hp⟩

/-- the effect of closing one augmented graph -/
structure CR0 (g : Aug) (ps : List Phy) (g' : Aug) (ps' : List Phy) : Prop where
  inv : AInv ps' g'
  done : g'.wl.list = []
  mono : Mono g g'
  pwf : PsWf ps'
  ple : PsLe ps ps'
  bound : ∀ M N, ABound M N g ps → Below M g → PsBelow ps N → Below M g' ∧ PsBelow ps' N

theorem closeAugmented_total0 (g : Aug) (ps : List Phy) (h : AInv0 ps g) (pw : PsWf ps) :
    ∃ f ch g' ps', closeAugmented f g ps = .ok (ch, g', ps') ∧ CR0 g ps g' ps' ∧
      (ch = false → g' = g ∧ PsZ ps ps' ∧ g.wl.list = [] ∧ ∀ l ∈ g.links, DownOk0 g ps' l) ∧
      (ch = true → g.wl.list ≠ [] ∨ missing g' < missing g) := by
  obtain ⟨g1, ps1, e1, r1⟩ := augmentLinks_spec g.links h.wf pw h.links
  have inv1 : AInv ps1 g1 := by
    refine ⟨r1.wf, h.winv.step h.wf r1.wf r1.step, h.links.mono r1.step.toMono r1.ple, fun he l hl => ?_⟩
    rw [r1.step.links] at hl
    exact r1.up he l hl
  rcases hw : g1.wl.list with _ | ⟨e, rest⟩
  · have hq := r1.quiet hw
    have hg : g.wl.list = [] := by rw [← hq]; exact hw
    obtain ⟨hz, hd⟩ := r1.weak hw (h.weak hg)
    refine ⟨0, false, g1, ps1, ?_, ⟨inv1, hw, r1.step.toMono, r1.pwf, r1.ple, fun M N hA hB hN => r1.bound M N hA.links hB hN⟩, fun _ => ⟨hq, hz, hg, hd⟩, by simp⟩
    unfold closeAugmented augment
    rw [e1, Res.ok_bind]
    simp only [hw]; rfl
  · obtain ⟨f, g2, ps2, e2, r2⟩ := closeAugLoop_total g1 ps1 inv1 r1.pwf
    refine ⟨f, true, g2, ps2, ?_, ⟨r2.inv, r2.done, r1.step.toMono.trans' r2.mono, r2.pwf, r1.ple.trans' r2.ple, ?_⟩, by simp, ?_⟩
    · unfold closeAugmented augment
      rw [e1, Res.ok_bind]
      simp only [hw]
      rw [e2]; rfl
    · intro M N hA hB hN
      obtain ⟨x, y⟩ := r1.bound M N hA.links hB hN
      exact r2.bound M N (hA.mono r1.step.toMono r1.ple) x y
    · intro _
      rcases r1.step.grow with ⟨_, _, hsub⟩ | hlt
      · left
        intro hnil
        have := hsub e (by rw [hw]; simp)
        rw [hnil] at this; cases this
      · right
        have := missing_lt r1.step.n hlt
        have := r2.mono.missing_le
        omega

/-- the effect of one pass over the augmented graphs -/
structure AllR0 (gs : List Aug) (ps : List Phy) (ch : Bool) (gs' : List Aug) (ps' : List Phy) (ch' : Bool) : Prop where
  mono : List.Forall₂ Mono gs gs'
  inv : ∀ g ∈ gs', AInv ps' g ∧ g.wl.list = []
  pwf : PsWf ps'
  ple : PsLe ps ps'
  quiet : ch' = false → ch = false ∧ gs' = gs ∧ PsZ ps ps' ∧ ∀ g ∈ gs, ∀ l ∈ g.links, DownOk0 g ps' l
  bound : ∀ (M : Nat → (Nat → Bool) → Nat → Nat → Dep) N, (∀ (i : Nat) g, gs[i]? = some g → ABound (M i) N g ps) →
    (∀ (i : Nat) g, gs[i]? = some g → Below (M i) g) → PsBelow ps N →
    (∀ (i : Nat) g, gs'[i]? = some g → Below (M i) g) ∧ PsBelow ps' N

theorem dncAugs_total0 (gs : List Aug) (ps : List Phy) (ch : Bool) (hi : ∀ g ∈ gs, AInv0 ps g) (pw : PsWf ps) :
    ∃ f gs' ps' ch', dncAugs f gs ps ch = .ok (gs', ps', ch') ∧ AllR0 gs ps ch gs' ps' ch' := by
  induction gs generalizing ps ch with
  | nil =>
    exact ⟨0, [], ps, ch, rfl, List.Forall₂.nil, by simp, pw, PsLe.refl ps, fun h => ⟨h, rfl, PsZ.refl ps, by simp⟩,
      fun _ _ _ _ h => ⟨by simp, h⟩⟩
  | cons g gs ih =>
    obtain ⟨f1, c1, g1, ps1, e1, r1, q1, t1⟩ := closeAugmented_total0 g ps (hi g (by simp)) pw
    obtain ⟨f2, gs2, ps2, c2, e2, r2⟩ := ih ps1 (ch || c1) (fun x hx => (hi x (by simp [hx])).mono r1.ple) r1.pwf
    refine ⟨max f1 f2, g1 :: gs2, ps2, c2, ?_, List.Forall₂.cons r1.mono r2.mono, ?_, r2.pwf, r1.ple.trans' r2.ple, ?_, ?_⟩
    · rw [dncAugs, closeAugmented_mono e1 _ (Nat.le_max_left _ _), Res.ok_bind]
      simp only
      rw [dncAugs_mono e2 _ (Nat.le_max_right _ _)]; rfl
    · intro x hx
      rcases List.mem_cons.1 hx with rfl | hx
      · exact ⟨r1.inv.mono r2.ple, r1.done⟩
      · exact r2.inv x hx
    · intro hf
      obtain ⟨a, b, c, d⟩ := r2.quiet hf
      simp only [Bool.or_eq_false_iff] at a
      obtain ⟨x1, x2, x3, x4⟩ := q1 a.2
      refine ⟨a.1, by rw [b, x1], x2.trans' c, fun y hy l hl => ?_⟩
      rcases List.mem_cons.1 hy with rfl | hy
      · exact (x4 l hl).pz c
      · exact d y hy l hl
    · intro M N hA hB hN
      obtain ⟨x, y⟩ := r1.bound (M 0) N (hA 0 g rfl) (hB 0 g rfl) hN
      obtain ⟨x', y'⟩ := r2.bound (fun i => M (i + 1)) N
        (fun i q hq => (hA (i + 1) q (by simpa using hq)).mono (Mono.refl q) r1.ple)
        (fun i q hq => hB (i + 1) q (by simpa using hq)) y
      refine ⟨fun i q hq => ?_, y'⟩
      cases i with
      | zero => simp at hq; subst hq; exact x
      | succ i => simp at hq; exact x' i q hq

/-- what the analysis may be started on -/
structure SInv0 (s : State) : Prop where
  augs : ∀ g ∈ s.augs, AInv0 s.phys g
  phys : PsWf s.phys

/-- a mutual fixpoint, up to kinds -/
structure SFix0 (s : State) : Prop where
  inv : SInv s
  done : ∀ g ∈ s.augs, g.wl.list = []
  down : ∀ g ∈ s.augs, ∀ l ∈ g.links, DownOk0 g s.phys l
  closed : ∀ p ∈ s.phys, MClosed p.n (mget p.n p.m)

theorem SFix0.up {s : State} (h : SFix0 s) : ∀ g ∈ s.augs, ∀ l ∈ g.links, UpOk g s.phys l :=
  fun g hg l hl => (h.inv.augs g hg).up (h.done g hg) l hl

theorem SFix.weak {s : State} (h : SFix s) : SFix0 s :=
  ⟨h.inv, h.done, fun g hg l hl p hp i j hi hj hne => le_ne_zero (h.down g hg l hl p hp i j hi hj) hne, h.closed⟩

theorem dncClose_total0 (s : State) (h : SInv0 s) :
    ∃ f s', dncClose f s = .ok s' ∧ SFix0 s' ∧ SR s s' := by
  obtain ⟨f1, gs, ps, c, e1, r1⟩ := dncAugs_total0 s.augs s.phys false h.augs h.phys
  obtain ⟨f2, ps', c', e2, r2⟩ := dncPhys_total ps c r1.pwf
  have inv' : SInv ⟨gs, ps'⟩ := ⟨fun g hg => (r1.inv g hg).1.mono r2.ple, r2.pwf⟩
  have dn : ∀ g ∈ gs, g.wl.list = [] := fun g hg => (r1.inv g hg).2
  have sr : SR s ⟨gs, ps'⟩ := by
    refine ⟨r1.mono, r1.ple.trans' r2.ple, ?_⟩
    intro M N hB hW
    obtain ⟨x, y⟩ := r1.bound M N hB.augs hW.augs hW.phys
    refine ⟨x, r2.bound N (fun i p hp => ?_) y⟩
    obtain ⟨p0, e0, l⟩ := r1.ple.back hp
    rw [l.n]; exact hB.phys i p0 e0
  cases c' with
  | false =>
    refine ⟨max f1 f2 + 1, ⟨gs, ps'⟩, ?_, ⟨inv', dn, ?_, r2.closed⟩, sr⟩
    · rw [dncClose, dncAugs_mono e1 _ (Nat.le_max_left _ _), Res.ok_bind]
      simp only
      rw [dncPhys_mono e2 _ (Nat.le_max_right _ _)]; rfl
    · obtain ⟨a, b⟩ := r2.quiet rfl
      obtain ⟨_, x2, x3, x4⟩ := r1.quiet a
      intro g hg l hl
      simp only at hg ⊢
      rw [b]
      rw [x2] at hg
      exact x4 g hg l hl
  | true =>
    obtain ⟨f', s', e3, fx', sr'⟩ := dncClose_quiet ⟨gs, ps'⟩ inv' dn
    refine ⟨max (max f1 f2) f' + 1, s', ?_, fx'.weak, sr.trans' sr'⟩
    rw [dncClose, dncAugs_mono e1 _ (by omega), Res.ok_bind]
    simp only
    rw [dncPhys_mono e2 _ (by omega), Res.ok_bind]
    simp only [if_true]
    exact dncClose_mono e3 _ (by omega)

end Aps.Dnc
