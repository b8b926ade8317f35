import Verif.Proofs.Sync
/-! The DNC iteration ends in a mutual fixpoint. -/
namespace Aps.Dnc

/-- the links of a graph fit -/
def LinksOk (g : Aug) (ps : List Phy) : Prop := ∀ l ∈ g.links, LinkOk g ps l

theorem LinksOk.mono {g g' : Aug} {ps ps' : List Phy} (h : LinksOk g ps) (m : Mono g g') (hp : PsLe ps ps') :
    LinksOk g' ps' := by
  intro l hl
  rw [m.links] at hl
  exact (h l hl).mono m.n m.attrs hp

/-- what holds of an augmented graph throughout -/
structure AInv (ps : List Phy) (g : Aug) : Prop where
  wf : GWf g
  winv : WInv g
  links : LinksOk g ps
  up : g.wl.list = [] → ∀ l ∈ g.links, UpOk g ps l

theorem AInv.mono {ps ps' : List Phy} {g : Aug} (h : AInv ps g) (hp : PsLe ps ps') : AInv ps' g :=
  ⟨h.wf, h.winv, h.links.mono (Mono.refl g) hp, fun he l hl => (h.up he l hl).mono hp⟩

/-- bounds for one graph -/
structure ABound (M : (Nat → Bool) → Nat → Nat → Dep) (N : Nat → Nat → Nat → Dep) (g : Aug) (ps : List Phy) : Prop where
  closed : Closed g.n M
  links : ∀ l ∈ g.links, LinkBound M N ps l

theorem ABound.mono {M N} {g g' : Aug} {ps ps' : List Phy} (h : ABound M N g ps) (m : Mono g g') (hp : PsLe ps ps') :
    ABound M N g' ps' := by
  refine ⟨by rw [m.n]; exact h.closed, fun l hl => ?_⟩
  rw [m.links] at hl
  exact (h.links l hl).mono hp

/-- the effect of closing one augmented graph -/
structure CR (g : Aug) (ps : List Phy) (g' : Aug) (ps' : List Phy) : Prop where
  inv : AInv ps' g'
  done : g'.wl.list = []
  mono : Mono g g'
  pwf : PsWf ps'
  ple : PsLe ps ps'
  bound : ∀ M N, ABound M N g ps → Below M g → PsBelow ps N → Below M g' ∧ PsBelow ps' N

theorem closeAugLoop_mono {f : Nat} {g : Aug} {ps : List Phy} {r : Aug × List Phy} (h : closeAugLoop f g ps = .ok r) :
    ∀ f', f ≤ f' → closeAugLoop f' g ps = .ok r := by
  induction f generalizing g ps with
  | zero => simp [closeAugLoop] at h
  | succ f ih =>
    intro f' hf'
    obtain ⟨f'', rfl⟩ := Nat.exists_eq_add_of_le' (show 1 ≤ f' by omega)
    rw [closeAugLoop] at h ⊢
    rcases hw : g.wl.list with _ | ⟨e, rest⟩
    · rw [hw] at h; exact h
    · rw [hw] at h
      simp only at h ⊢
      rw [Res.bind_eq_ok] at h
      obtain ⟨g1, h1, h⟩ := h
      rw [Res.bind_eq_ok] at h
      obtain ⟨g2, h2, h⟩ := h
      rw [closeWorklist_mono h1 f'' (by omega), Res.ok_bind, h2, Res.ok_bind]
      exact ih h f'' (by omega)

theorem closeAugLoop_total (g : Aug) (ps : List Phy) (h : AInv ps g) (pw : PsWf ps) :
    ∃ f g' ps', closeAugLoop f g ps = .ok (g', ps') ∧ CR g ps g' ps' := by
  generalize hm : missing g = m
  induction m using Nat.strong_induction_on generalizing g ps with
  | _ m ih =>
  rcases hw : g.wl.list with _ | ⟨e, rest⟩
  · exact ⟨1, g, ps, by rw [closeAugLoop, hw], h, hw, Mono.refl g, pw, PsLe.refl ps, fun _ _ _ h1 h2 => ⟨h1, h2⟩⟩
  obtain ⟨f1, g1, e1, w1, i1, d1, m1, b1⟩ := closeWorklist_total g h.wf h.winv
  obtain ⟨g2, ps2, e2, r2⟩ := augmentLinks_spec g1.links w1 pw (h.links.mono m1 (PsLe.refl ps))
  have m12 : Mono g g2 := m1.trans' r2.step.toMono
  have bnd : ∀ M N, ABound M N g ps → Below M g → PsBelow ps N → Below M g2 ∧ PsBelow ps2 N := by
    intro M N hA hB hN
    have := hA.mono m1 (PsLe.refl ps)
    exact r2.bound M N this.links (b1 M hA.closed hB) hN
  have inv2 : AInv ps2 g2 := by
    refine ⟨r2.wf, i1.step w1 r2.wf r2.step, h.links.mono m12 r2.ple, fun he l hl => ?_⟩
    rw [r2.step.links] at hl
    exact r2.up he l hl
  have fin : (∃ f g' ps', closeAugLoop f g2 ps2 = .ok (g', ps') ∧ CR g2 ps2 g' ps') →
      ∃ f g' ps', closeAugLoop f g ps = .ok (g', ps') ∧ CR g ps g' ps' := by
    rintro ⟨f, g3, ps3, e3, r3⟩
    refine ⟨max f f1 + 1, g3, ps3, ?_, r3.inv, r3.done, m12.trans' r3.mono, r3.pwf, r2.ple.trans' r3.ple, ?_⟩
    · rw [closeAugLoop, hw]
      simp only
      rw [closeWorklist_mono e1 _ (Nat.le_max_right _ _), Res.ok_bind, augment, e2, Res.ok_bind]
      exact closeAugLoop_mono e3 _ (Nat.le_max_left _ _)
    · intro M N hA hB hN
      obtain ⟨x, y⟩ := bnd M N hA hB hN
      exact r3.bound M N (hA.mono m12 r2.ple) x y
  apply fin
  rcases r2.step.grow with ⟨_, _, hsub⟩ | hlt
  · have hnil : g2.wl.list = [] := by
      rw [d1] at hsub
      rcases hh : g2.wl.list with _ | ⟨x, xs⟩
      · rfl
      · have := hsub x (by rw [hh]; simp)
        cases this
    exact ⟨1, g2, ps2, by rw [closeAugLoop, hnil], inv2, hnil, Mono.refl _, r2.pwf, PsLe.refl _, fun _ _ _ h1 h2 => ⟨h1, h2⟩⟩
  · have := missing_lt r2.step.n hlt
    have := m1.missing_le
    exact ih _ (by omega) g2 ps2 inv2 r2.pwf rfl

theorem closeAugmented_mono {f : Nat} {g : Aug} {ps : List Phy} {r} (h : closeAugmented f g ps = .ok r) :
    ∀ f', f ≤ f' → closeAugmented f' g ps = .ok r := by
  intro f' hf
  unfold closeAugmented at h ⊢
  rw [Res.bind_eq_ok] at h
  obtain ⟨a, h1, h⟩ := h
  rw [h1, Res.ok_bind]
  rcases hw : a.1.wl.list with _ | ⟨e, rest⟩
  · rw [hw] at h; exact h
  · rw [hw] at h
    simp only at h ⊢
    rw [Res.bind_eq_ok] at h
    obtain ⟨b, h2, h⟩ := h
    rw [closeAugLoop_mono h2 f' hf, Res.ok_bind]
    exact h

theorem closeAugmented_total (g : Aug) (ps : List Phy) (h : AInv ps g) (pw : PsWf ps) :
    ∃ f ch g' ps', closeAugmented f g ps = .ok (ch, g', ps') ∧ CR g ps g' ps' ∧
      (ch = false → g' = g ∧ ps' = ps ∧ g.wl.list = [] ∧ ∀ l ∈ g.links, DownOk g ps l) ∧
      (ch = true → g.wl.list ≠ [] ∨ missing g' < missing g) := by
  obtain ⟨g1, ps1, e1, r1⟩ := augmentLinks_spec g.links h.wf pw h.links
  have inv1 : AInv ps1 g1 := by
    refine ⟨r1.wf, h.winv.step h.wf r1.wf r1.step, h.links.mono r1.step.toMono r1.ple, fun he l hl => ?_⟩
    rw [r1.step.links] at hl
    exact r1.up he l hl
  rcases hw : g1.wl.list with _ | ⟨e, rest⟩
  · have hq := r1.quiet hw
    have hg : g.wl.list = [] := by rw [← hq]; exact hw
    have hst := r1.still hw (h.up hg)
    refine ⟨0, false, g1, ps1, ?_, ⟨inv1, hw, r1.step.toMono, r1.pwf, r1.ple, fun M N hA hB hN => r1.bound M N hA.links hB hN⟩, ?_, by simp⟩
    · unfold closeAugmented augment
      rw [e1, Res.ok_bind]
      simp only [hw]; rfl
    · intro _
      refine ⟨hq, hst, hg, fun l hl => ?_⟩
      have := r1.down hw hst l hl
      rw [hq, hst] at this
      exact this
  · obtain ⟨f, g2, ps2, e2, r2⟩ := closeAugLoop_total g1 ps1 inv1 r1.pwf
    refine ⟨f, true, g2, ps2, ?_, ⟨r2.inv, r2.done, r1.step.toMono.trans' r2.mono, r2.pwf, r1.ple.trans' r2.ple, ?_⟩, by simp, ?_⟩
    · unfold closeAugmented augment
      rw [e1, Res.ok_bind]
      simp only [hw]
      rw [e2]; rfl
    · intro M N hA hB hN
      obtain ⟨x, y⟩ := r1.bound M N hA.links hB hN
      exact r2.bound M N (hA.mono r1.step.toMono r1.ple) x y
    · intro _
      rcases r1.step.grow with ⟨_, _, hsub⟩ | hlt
      · left
        intro hnil
        have := hsub e (by rw [hw]; simp)
        rw [hnil] at this; cases this
      · right
        have := missing_lt r1.step.n hlt
        have := r2.mono.missing_le
        omega

/-! ### one pass over all graphs -/

noncomputable def augsMiss (gs : List Aug) : Nat := (gs.map missing).sum
noncomputable def psMiss (ps : List Phy) : Nat := (ps.map (fun p => mmiss p.n p.m)).sum

theorem psle_cons {p p' : Phy} {ps ps' : List Phy} : PsLe (p :: ps) (p' :: ps') ↔ PLe p p' ∧ PsLe ps ps' := by
  constructor
  · intro h
    obtain ⟨q, e, l⟩ := h.le 0 p rfl
    have : p' = q := by simpa using e
    subst this
    refine ⟨l, by have := h.len; simpa using this, fun i q hq => ?_⟩
    obtain ⟨q', e', l'⟩ := h.le (i + 1) q (by simpa using hq)
    exact ⟨q', by simpa using e', l'⟩
  · rintro ⟨h1, h2⟩
    refine ⟨by simp [h2.len], fun i q hq => ?_⟩
    cases i with
    | zero => simp at hq; subst hq; exact ⟨p', rfl, h1⟩
    | succ i => simp at hq; obtain ⟨q', e, l⟩ := h2.le i q hq; exact ⟨q', by simpa using e, l⟩

theorem PsLe.miss_le {ps ps' : List Phy} (h : PsLe ps ps') : psMiss ps' ≤ psMiss ps := by
  induction ps generalizing ps' with
  | nil =>
    have := h.len
    simp at this; subst this; exact le_refl _
  | cons p ps ih =>
    rcases ps' with _ | ⟨p', ps'⟩
    · have := h.len; simp at this
    · obtain ⟨h1, h2⟩ := psle_cons.1 h
      have a := ih h2
      have b := h1.m.miss_le
      unfold psMiss at a ⊢
      simp only [List.map_cons, List.sum_cons]
      rw [h1.n]
      omega

/-- the effect of one pass over the augmented graphs -/
structure AllR (gs : List Aug) (ps : List Phy) (ch : Bool) (gs' : List Aug) (ps' : List Phy) (ch' : Bool) : Prop where
  mono : List.Forall₂ Mono gs gs'
  inv : ∀ g ∈ gs', AInv ps' g ∧ g.wl.list = []
  pwf : PsWf ps'
  ple : PsLe ps ps'
  quiet : ch' = false → ch = false ∧ gs' = gs ∧ ps' = ps ∧ ∀ g ∈ gs, g.wl.list = [] ∧ ∀ l ∈ g.links, DownOk g ps l
  flag : ch' = true → ch = true ∨ (∃ g ∈ gs, g.wl.list ≠ []) ∨ augsMiss gs' < augsMiss gs
  bound : ∀ (M : Nat → (Nat → Bool) → Nat → Nat → Dep) N, (∀ (i : Nat) g, gs[i]? = some g → ABound (M i) N g ps) →
    (∀ (i : Nat) g, gs[i]? = some g → Below (M i) g) → PsBelow ps N →
    (∀ (i : Nat) g, gs'[i]? = some g → Below (M i) g) ∧ PsBelow ps' N

theorem forall2_miss {gs gs' : List Aug} (h : List.Forall₂ Mono gs gs') : augsMiss gs' ≤ augsMiss gs := by
  induction h with
  | nil => exact le_refl _
  | cons h1 _ ih =>
    have := h1.missing_le
    unfold augsMiss at ih ⊢
    simp only [List.map_cons, List.sum_cons]; omega

theorem dncAugs_mono {f : Nat} {gs : List Aug} {ps : List Phy} {ch : Bool} {r} (h : dncAugs f gs ps ch = .ok r) :
    ∀ f', f ≤ f' → dncAugs f' gs ps ch = .ok r := by
  intro f' hf
  induction gs generalizing ps ch r with
  | nil => exact h
  | cons g gs ih =>
    rw [dncAugs, Res.bind_eq_ok] at h
    obtain ⟨a, h1, h⟩ := h
    rw [Res.bind_eq_ok] at h
    obtain ⟨b, h2, h⟩ := h
    rw [dncAugs, closeAugmented_mono h1 f' hf, Res.ok_bind, ih h2, Res.ok_bind]
    exact h

theorem dncAugs_total (gs : List Aug) (ps : List Phy) (ch : Bool) (hi : ∀ g ∈ gs, AInv ps g) (pw : PsWf ps) :
    ∃ f gs' ps' ch', dncAugs f gs ps ch = .ok (gs', ps', ch') ∧ AllR gs ps ch gs' ps' ch' := by
  induction gs generalizing ps ch with
  | nil =>
    exact ⟨0, [], ps, ch, rfl, List.Forall₂.nil, by simp, pw, PsLe.refl ps, fun h => ⟨h, rfl, rfl, by simp⟩, .inl,
      fun _ _ _ _ h => ⟨by simp, h⟩⟩
  | cons g gs ih =>
    obtain ⟨f1, c1, g1, ps1, e1, r1, q1, t1⟩ := closeAugmented_total g ps (hi g (by simp)) pw
    obtain ⟨f2, gs2, ps2, c2, e2, r2⟩ := ih ps1 (ch || c1) (fun x hx => (hi x (by simp [hx])).mono r1.ple) r1.pwf
    refine ⟨max f1 f2, g1 :: gs2, ps2, c2, ?_, List.Forall₂.cons r1.mono r2.mono, ?_, r2.pwf, r1.ple.trans' r2.ple, ?_, ?_, ?_⟩
    · rw [dncAugs, closeAugmented_mono e1 _ (Nat.le_max_left _ _), Res.ok_bind]
      simp only
      rw [dncAugs_mono e2 _ (Nat.le_max_right _ _)]; rfl
    · intro x hx
      rcases List.mem_cons.1 hx with rfl | hx
      · exact ⟨r1.inv.mono r2.ple, r1.done⟩
      · exact r2.inv x hx
    · intro hf
      obtain ⟨a, b, c, d⟩ := r2.quiet hf
      simp only [Bool.or_eq_false_iff] at a
      obtain ⟨x1, x2, x3, x4⟩ := q1 a.2
      subst x2
      refine ⟨a.1, by rw [b, x1], c, fun y hy => ?_⟩
      rcases List.mem_cons.1 hy with rfl | hy
      · exact ⟨x3, x4⟩
      · exact d y hy
    · intro hf
      have l1 := r1.mono.missing_le
      have l2 := forall2_miss r2.mono
      unfold augsMiss at l2 ⊢
      simp only [List.map_cons, List.sum_cons]
      rcases r2.flag hf with h | ⟨y, hy, hne⟩ | h
      · simp only [Bool.or_eq_true] at h
        rcases h with h | h
        · exact .inl h
        · rcases t1 h with h' | h'
          · exact .inr (.inl ⟨g, by simp, h'⟩)
          · right; right; omega
      · exact .inr (.inl ⟨y, by simp [hy], hne⟩)
      · unfold augsMiss at h; right; right; omega
    · intro M N hA hB hN
      obtain ⟨x, y⟩ := r1.bound (M 0) N (hA 0 g rfl) (hB 0 g rfl) hN
      obtain ⟨x', y'⟩ := r2.bound (fun i => M (i + 1)) N
        (fun i q hq => (hA (i + 1) q (by simpa using hq)).mono (Mono.refl q) r1.ple)
        (fun i q hq => hB (i + 1) q (by simpa using hq)) y
      refine ⟨fun i q hq => ?_, y'⟩
      cases i with
      | zero => simp at hq; subst hq; exact x
      | succ i => simp at hq; exact x' i q hq

theorem dncPhys_mono {f : Nat} {ps : List Phy} {ch : Bool} {r} (h : dncPhys f ps ch = .ok r) :
    ∀ f', f ≤ f' → dncPhys f' ps ch = .ok r := by
  intro f' hf
  induction ps generalizing ch r with
  | nil => exact h
  | cons p ps ih =>
    rw [dncPhys, Res.bind_eq_ok] at h
    obtain ⟨a, h1, h⟩ := h
    rw [Res.bind_eq_ok] at h
    obtain ⟨b, h2, h⟩ := h
    rw [dncPhys, closeSummary_mono h1 f' hf, Res.ok_bind, ih h2, Res.ok_bind]
    exact h

/-- the effect of one pass over the summary graphs -/
structure PAllR (ps : List Phy) (ch : Bool) (ps' : List Phy) (ch' : Bool) : Prop where
  pwf : PsWf ps'
  ple : PsLe ps ps'
  closed : ∀ p ∈ ps', MClosed p.n (mget p.n p.m)
  quiet : ch' = false → ch = false ∧ ps' = ps
  flag : ch' = true → ch = true ∨ psMiss ps' < psMiss ps
  bound : ∀ N : Nat → Nat → Nat → Dep, (∀ (i : Nat) p, ps[i]? = some p → MClosed p.n (N i)) → PsBelow ps N → PsBelow ps' N

theorem dncPhys_total (ps : List Phy) (ch : Bool) (pw : PsWf ps) :
    ∃ f ps' ch', dncPhys f ps ch = .ok (ps', ch') ∧ PAllR ps ch ps' ch' := by
  induction ps generalizing ch with
  | nil => exact ⟨0, [], ch, rfl, by simp [PsWf], PsLe.refl _, by simp, fun h => ⟨h, rfl⟩, .inl, fun _ _ h => h⟩
  | cons p ps ih =>
    have hp : PWf p := pw p (by simp)
    obtain ⟨f1, m1, c1, e1, s1, cl⟩ := closeSummary_total p.m false hp
    obtain ⟨f2, ps2, c2, e2, r2⟩ := ih (ch || c1) (fun q hq => pw q (by simp [hq]))
    have hle : PLe p { p with m := m1 } := ⟨rfl, rfl, rfl, s1.le⟩
    refine ⟨max f1 f2, { p with m := m1 } :: ps2, c2, ?_, ?_, psle_cons.2 ⟨hle, r2.ple⟩, ?_, ?_, ?_, ?_⟩
    · rw [dncPhys, closeSummary_mono e1 _ (Nat.le_max_left _ _), Res.ok_bind]
      simp only
      rw [dncPhys_mono e2 _ (Nat.le_max_right _ _)]; rfl
    · intro q hq
      rcases List.mem_cons.1 hq with rfl | hq
      · unfold PWf; simp only; rw [s1.le.len]; exact hp
      · exact r2.pwf q hq
    · intro q hq
      rcases List.mem_cons.1 hq with rfl | hq
      · exact cl
      · exact r2.closed q hq
    · intro hf
      obtain ⟨a, b⟩ := r2.quiet hf
      simp only [Bool.or_eq_false_iff] at a
      have := (s1.quiet a.2).1
      subst this
      exact ⟨a.1, by rw [b]⟩
    · intro hf
      have l1 := s1.le.miss_le
      have l2 := r2.ple.miss_le
      unfold psMiss at l2 ⊢
      simp only [List.map_cons, List.sum_cons]
      rcases r2.flag hf with h | h
      · simp only [Bool.or_eq_true] at h
        rcases h with h | h
        · exact .inl h
        · obtain ⟨i, j, hi, hj, hne⟩ := (s1.flag h).resolve_left (by simp)
          have := s1.le.miss_lt hi hj hne
          right; omega
      · unfold psMiss at h; right; omega
    · intro N hN hB i q hq
      cases i with
      | zero =>
        simp at hq; subst hq
        exact s1.below (N 0) (hN 0 p rfl) (hB 0 p rfl)
      | succ i =>
        simp at hq
        exact r2.bound (fun i => N (i + 1)) (fun i q hq => hN (i + 1) q (by simpa using hq))
          (fun i q hq => hB (i + 1) q (by simpa using hq)) i q hq

/-! ### the whole iteration -/

/-- what the analysis may be started on -/
structure SInv (s : State) : Prop where
  augs : ∀ g ∈ s.augs, AInv s.phys g
  phys : PsWf s.phys

/-- upper bounds that are fixpoints themselves -/
structure SBound (M : Nat → (Nat → Bool) → Nat → Nat → Dep) (N : Nat → Nat → Nat → Dep) (s : State) : Prop where
  augs : ∀ (i : Nat) g, s.augs[i]? = some g → ABound (M i) N g s.phys
  phys : ∀ (i : Nat) p, s.phys[i]? = some p → MClosed p.n (N i)

structure SBelow (M : Nat → (Nat → Bool) → Nat → Nat → Dep) (N : Nat → Nat → Nat → Dep) (s : State) : Prop where
  augs : ∀ (i : Nat) g, s.augs[i]? = some g → Below (M i) g
  phys : PsBelow s.phys N

/-- a mutual fixpoint -/
structure SFix (s : State) : Prop where
  inv : SInv s
  done : ∀ g ∈ s.augs, g.wl.list = []
  up : ∀ g ∈ s.augs, ∀ l ∈ g.links, UpOk g s.phys l
  down : ∀ g ∈ s.augs, ∀ l ∈ g.links, DownOk g s.phys l
  closed : ∀ p ∈ s.phys, MClosed p.n (mget p.n p.m)

structure SR (s s' : State) : Prop where
  augs : List.Forall₂ Mono s.augs s'.augs
  phys : PsLe s.phys s'.phys
  bound : ∀ M N, SBound M N s → SBelow M N s → SBelow M N s'

theorem forall2_refl {α : Type} {r : α → α → Prop} (h : ∀ a, r a a) (l : List α) : List.Forall₂ r l l := by
  induction l with
  | nil => exact .nil
  | cons a l ih => exact .cons (h a) ih

theorem forall2_trans {α : Type} {r : α → α → Prop} (ht : ∀ a b c, r a b → r b c → r a c) {l m k : List α}
    (h1 : List.Forall₂ r l m) (h2 : List.Forall₂ r m k) : List.Forall₂ r l k := by
  induction h1 generalizing k with
  | nil => exact h2
  | cons h _ ih => cases h2 with | cons h' t' => exact .cons (ht _ _ _ h h') (ih t')

theorem forall2_get' {α β : Type} {r : α → β → Prop} {l : List α} {m : List β} (h : List.Forall₂ r l m) {i : Nat} {a : α}
    (ha : l[i]? = some a) : ∃ b, m[i]? = some b ∧ r a b := by
  induction h generalizing i with
  | nil => simp at ha
  | cons h _ ih =>
    cases i with
    | zero => simp at ha; subst ha; exact ⟨_, rfl, h⟩
    | succ i => simp at ha; obtain ⟨b, e, r⟩ := ih ha; exact ⟨b, by simpa using e, r⟩

theorem forall2_get {α : Type} {r : α → α → Prop} {l m : List α} (h : List.Forall₂ r l m) {i : Nat} {b : α}
    (hb : m[i]? = some b) : ∃ a, l[i]? = some a ∧ r a b := by
  induction h generalizing i with
  | nil => simp at hb
  | cons h _ ih =>
    cases i with
    | zero => simp at hb; subst hb; exact ⟨_, rfl, h⟩
    | succ i => simp at hb; obtain ⟨a, e, r⟩ := ih hb; exact ⟨a, by simpa using e, r⟩

theorem SR.refl (s : State) : SR s s := ⟨forall2_refl Mono.refl _, PsLe.refl _, fun _ _ _ h => h⟩

theorem SBound.mono {M N} {s s' : State} (h : SBound M N s) (r : SR s s') : SBound M N s' := by
  constructor
  · intro i g hg
    obtain ⟨g0, e0, m⟩ := forall2_get r.augs hg
    exact (h.augs i g0 e0).mono m r.phys
  · intro i p hp
    have hlt : i < s.phys.length := by rw [← r.phys.len]; exact (List.getElem?_eq_some_iff.1 hp).1
    obtain ⟨p0, e0⟩ : ∃ p, s.phys[i]? = some p := ⟨_, List.getElem?_eq_getElem hlt⟩
    obtain ⟨p', e', l⟩ := r.phys.le _ _ e0
    rw [hp] at e'; cases e'
    rw [l.n]; exact h.phys i p0 e0

theorem SR.trans' {a b c : State} (h1 : SR a b) (h2 : SR b c) : SR a c :=
  ⟨forall2_trans (fun _ _ _ x y => x.trans' y) h1.augs h2.augs, h1.phys.trans' h2.phys,
    fun M N hB h => h2.bound M N (hB.mono h1) (h1.bound M N hB h)⟩

theorem dncClose_mono {f : Nat} {s r : State} (h : dncClose f s = .ok r) : ∀ f', f ≤ f' → dncClose f' s = .ok r := by
  induction f generalizing s with
  | zero => simp [dncClose] at h
  | succ f ih =>
    intro f' hf'
    obtain ⟨f'', rfl⟩ := Nat.exists_eq_add_of_le' (show 1 ≤ f' by omega)
    rw [dncClose, Res.bind_eq_ok] at h
    obtain ⟨a, h1, h⟩ := h
    rw [Res.bind_eq_ok] at h
    obtain ⟨b, h2, h⟩ := h
    rw [dncClose, dncAugs_mono h1 f'' (by omega), Res.ok_bind, dncPhys_mono h2 f'' (by omega), Res.ok_bind]
    split at h
    · rename_i hb; rw [if_pos hb]; exact ih h f'' (by omega)
    · rename_i hb; rw [if_neg hb]; exact h

/-- one round -/
theorem dncRound (s : State) (h : SInv s) :
    ∃ f gs ps ps' c c', dncAugs f s.augs s.phys false = .ok (gs, ps, c) ∧ dncPhys f ps c = .ok (ps', c') ∧
      SInv ⟨gs, ps'⟩ ∧ SR s ⟨gs, ps'⟩ ∧ (∀ g ∈ gs, g.wl.list = []) ∧
      (c' = true → (∃ g ∈ s.augs, g.wl.list ≠ []) ∨ augsMiss gs + psMiss ps' < augsMiss s.augs + psMiss s.phys) ∧
      (c' = false → SFix ⟨gs, ps'⟩) := by
  obtain ⟨f1, gs, ps, c, e1, r1⟩ := dncAugs_total s.augs s.phys false h.augs h.phys
  obtain ⟨f2, ps', c', e2, r2⟩ := dncPhys_total ps c r1.pwf
  have inv' : SInv ⟨gs, ps'⟩ := ⟨fun g hg => (r1.inv g hg).1.mono r2.ple, r2.pwf⟩
  refine ⟨max f1 f2, gs, ps, ps', c, c', dncAugs_mono e1 _ (Nat.le_max_left _ _), dncPhys_mono e2 _ (Nat.le_max_right _ _),
    inv', ⟨r1.mono, r1.ple.trans' r2.ple, ?_⟩, fun g hg => (r1.inv g hg).2, ?_, ?_⟩
  · intro M N hB hW
    obtain ⟨x, y⟩ := r1.bound M N hB.augs hW.augs hW.phys
    refine ⟨x, r2.bound N (fun i p hp => ?_) y⟩
    have hlt : i < s.phys.length := by rw [← r1.ple.len]; exact (List.getElem?_eq_some_iff.1 hp).1
    obtain ⟨p0, e0⟩ : ∃ p, s.phys[i]? = some p := ⟨_, List.getElem?_eq_getElem hlt⟩
    obtain ⟨p', e', l⟩ := r1.ple.le _ _ e0
    rw [hp] at e'; cases e'
    rw [l.n]; exact hB.phys i p0 e0
  · intro hc
    have l1 := forall2_miss r1.mono
    have l2 := r1.ple.miss_le
    have l3 := r2.ple.miss_le
    rcases r2.flag hc with h' | h'
    · rcases r1.flag h' with h'' | h'' | h''
      · cases h''
      · exact .inl h''
      · right; omega
    · right; omega
  · intro hc
    obtain ⟨a, b⟩ := r2.quiet hc
    obtain ⟨_, x2, x3, x4⟩ := r1.quiet a
    refine ⟨inv', fun g hg => (r1.inv g hg).2, fun g hg => (inv'.augs g hg).up (r1.inv g hg).2, ?_, r2.closed⟩
    intro g hg l hl
    simp only at hg ⊢
    rw [b, x3]
    rw [x2] at hg
    exact (x4 g hg).2 l hl

theorem dncClose_quiet (s : State) (h : SInv s) (hw : ∀ g ∈ s.augs, g.wl.list = []) :
    ∃ f s', dncClose f s = .ok s' ∧ SFix s' ∧ SR s s' := by
  generalize hm : augsMiss s.augs + psMiss s.phys = m
  induction m using Nat.strong_induction_on generalizing s with
  | _ m ih =>
  obtain ⟨f, gs, ps, ps', c, c', e1, e2, inv, sr, dn, t, fx⟩ := dncRound s h
  cases c' with
  | false =>
    refine ⟨f + 1, ⟨gs, ps'⟩, ?_, fx rfl, sr⟩
    rw [dncClose, e1, Res.ok_bind, e2]; rfl
  | true =>
    have hlt : augsMiss gs + psMiss ps' < m := by
      rcases t rfl with ⟨g, hg, hne⟩ | h'
      · exact absurd (hw g hg) hne
      · omega
    obtain ⟨f', s', e3, fx', sr'⟩ := ih _ hlt ⟨gs, ps'⟩ inv dn rfl
    refine ⟨max f f' + 1, s', ?_, fx', sr.trans' sr'⟩
    rw [dncClose, dncAugs_mono e1 _ (Nat.le_max_left _ _), Res.ok_bind]
    simp only
    rw [dncPhys_mono e2 _ (Nat.le_max_left _ _), Res.ok_bind]
    simp only [if_true]
    exact dncClose_mono e3 _ (Nat.le_max_right _ _)

theorem dncClose_total (s : State) (h : SInv s) :
    ∃ f s', dncClose f s = .ok s' ∧ SFix s' ∧ SR s s' := by
  obtain ⟨f, gs, ps, ps', c, c', e1, e2, inv, sr, dn, t, fx⟩ := dncRound s h
  cases c' with
  | false =>
    refine ⟨f + 1, ⟨gs, ps'⟩, ?_, fx rfl, sr⟩
    rw [dncClose, e1, Res.ok_bind, e2]; rfl
  | true =>
    obtain ⟨f', s', e3, fx', sr'⟩ := dncClose_quiet ⟨gs, ps'⟩ inv dn
    refine ⟨max f f' + 1, s', ?_, fx', sr.trans' sr'⟩
    rw [dncClose, dncAugs_mono e1 _ (Nat.le_max_left _ _), Res.ok_bind]
    simp only
    rw [dncPhys_mono e2 _ (Nat.le_max_left _ _), Res.ok_bind]
    simp only [if_true]
    exact dncClose_mono e3 _ (Nat.le_max_right _ _)

end Aps.Dnc
