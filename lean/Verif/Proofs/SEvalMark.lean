import Verif.Proofs.SEvalForest
set_option linter.unusedVariables false
/-! The Scala runtime: the stack of pending instances, and finding a cycle. -/
namespace Aps.ScalaEval
variable {V : Type}

/-- What is known of an entry of the stack: the instance, the instance whose demand caused it
(`owner`: itself or the representative that recomputes it), and whether it is a recomputation. -/
structure Frame where
  elem : Nat
  owner : Nat
  re : Bool

structure FrameOk (s : St V) (b : Nat → Nat) (F : Frame) (below : List Frame) : Prop where
  elem : s.status F.elem = .cycle
  owner : s.status F.owner = .cycle
  first : F.re = false → F.owner = F.elem
  again : F.re = true → s.parent F.elem ≠ none
  le : b F.owner ≤ b F.elem
  same : ∀ r, Root s.parent F.elem r → Root s.parent F.owner r
  above : ∀ G ∈ below, b G.elem < b F.owner
  contig : ∀ r, Root s.parent F.elem r → r ≠ F.owner →
    ∃ G below', below = G :: below' ∧ Root s.parent G.elem r

def FrOk (s : St V) (b : Nat → Nat) : List Frame → Prop
  | [] => True
  | F :: fr => FrameOk s b F fr ∧ FrOk s b fr

structure Inv (S : Sys V) (D : Nat → Prop) (s : St V) (fr : List Frame) (b : Nat → Nat) (clk : Nat) : Prop where
  core : Core S D s b clk
  pend : s.pending = fr.map (·.elem)
  frames : FrOk s b fr
  cyc : ∀ j, s.status j = .cycle →
    (s.parent j = none ∧ ∃ F ∈ fr, F.elem = j) ∨
    ∃ F ∈ fr, ∃ r, Root s.parent j r ∧ Root s.parent F.elem r

variable {S : Sys V} {D : Nat → Prop} {s : St V} {b : Nat → Nat} {clk : Nat} {fr : List Frame}

theorem FrOk.split {X Y : List Frame} {F : Frame} (h : FrOk s b (X ++ F :: Y)) :
    FrameOk s b F Y ∧ FrOk s b Y := by
  induction X with
  | nil => exact h
  | cons G X ih => exact ih h.2

theorem FrOk.order {X Y : List Frame} {F G : Frame} (h : FrOk s b (X ++ F :: Y)) (hG : G ∈ X) :
    b F.elem < b G.owner := by
  induction X with
  | nil => cases hG
  | cons G' X ih =>
    rcases List.mem_cons.1 hG with rfl | hG
    · exact h.1.above F (by simp)
    · exact ih h.2 hG

theorem FrOk.mem (h : FrOk s b fr) {F : Frame} (hF : F ∈ fr) : ∃ Y, FrameOk s b F Y := by
  obtain ⟨X, Y, rfl⟩ := List.append_of_mem hF
  exact ⟨Y, h.split.1⟩

theorem FrOk.owner_frame {p : Nat} : ∀ {Y : List Frame} {F : Frame}, FrOk s b (F :: Y) →
    Root s.parent F.elem p → ∃ Z P W, F :: Y = Z ++ P :: W ∧ P.owner = p ∧
      (∀ G ∈ Z, Root s.parent G.elem p) ∧ Root s.parent P.elem p := by
  intro Y
  induction Y with
  | nil =>
    intro F h hr
    by_cases e : p = F.owner
    · exact ⟨[], F, [], rfl, e.symm, by simp, hr⟩
    · obtain ⟨G, Y', e', _⟩ := h.1.contig p hr e
      cases e'
  | cons G Y ih =>
    intro F h hr
    by_cases e : p = F.owner
    · exact ⟨[], F, G :: Y, rfl, e.symm, by simp, hr⟩
    · obtain ⟨G', Y', e', hg⟩ := h.1.contig p hr e
      cases e'
      obtain ⟨Z, P, W, e1, e2, e3, e4⟩ := ih h.2 hg
      refine ⟨F :: Z, P, W, by rw [e1]; rfl, e2, ?_, e4⟩
      intro H hH
      rcases List.mem_cons.1 hH with rfl | hH
      · exact hr
      · exact e3 H hH

theorem Inv.compress (h : Inv S D s fr b clk) {par' : Nat → Option Nat} (hc : Compress s.parent par') :
    Inv S D { s with parent := par' } fr b clk where
  core := h.core.same ⟨rfl, hc, rfl, fun _ => rfl⟩
  pend := h.pend
  frames := by
    have := h.frames
    generalize fr = l at this
    induction l with
    | nil => trivial
    | cons F l ih =>
      refine ⟨⟨this.1.elem, this.1.owner, this.1.first, fun hr hn => this.1.again hr (hc.none.1 hn),
        this.1.le, fun r hr => hc.root.2 (this.1.same r (hc.root.1 hr)), this.1.above, fun r hr hn => ?_⟩,
        ih this.2⟩
      obtain ⟨G, l', e, hg⟩ := this.1.contig r (hc.root.1 hr) hn
      exact ⟨G, l', e, hc.root.2 hg⟩
  cyc := fun j hj => by
    rcases h.cyc j hj with ⟨h1, h2⟩ | ⟨F, hF, r, h1, h2⟩
    · exact .inl ⟨hc.none.2 h1, h2⟩
    · exact .inr ⟨F, hF, r, hc.root.2 h1, hc.root.2 h2⟩

/-- The state `t` in the middle of marking: `Mg` are the members of the cycle by now. -/
structure LI (S : Sys V) (D : Nat → Prop) (s : St V) (fr : List Frame) (b : Nat → Nat) (clk ce : Nat) (t : St V)
    (Mg : Nat → Prop) : Prop where
  core : Core S D t b clk
  links : Links s t
  evo : Evo D s t
  root : ∀ j r, Root t.parent j r ↔ (Mg j ∧ r = ce) ∨ (¬ Mg j ∧ Root s.parent j r)
  base : ∀ j, Root s.parent j ce → Mg j
  closed : ∀ j k p, Root s.parent j p → Root s.parent k p → Mg j → Mg k
  low : ∀ F ∈ fr, Mg F.elem → Root s.parent F.elem ce ∨
    ∃ G ∈ fr, Root s.parent G.elem ce ∧ b G.elem < b F.owner

theorem LI.compress {ce : Nat} {t : St V} {Mg : Nat → Prop} (h : LI S D s fr b clk ce t Mg)
    {par' : Nat → Option Nat} (hc : Compress t.parent par') :
    LI S D s fr b clk ce { t with parent := par' } Mg where
  core := h.core.same ⟨rfl, hc, rfl, fun _ => rfl⟩
  links := ⟨h.links.status, h.links.value, h.links.pending⟩
  evo := h.evo.trans (Evo.compress t hc t.pending)
  root := fun j r => hc.root.trans (h.root j r)
  base := h.base
  closed := h.closed
  low := h.low

theorem markLoop_spec (hI : Inv S D s fr b clk) (f ce : Nat) (hce : s.parent ce = some ce)
    (hsce : s.status ce = .cycle) {G0 : Frame} (hG0 : G0 ∈ fr) (hG0r : Root s.parent G0.elem ce) :
    ∀ (todo X : List Frame) (t : St V) (Mg : Nat → Prop), fr = X ++ todo →
      (∀ F ∈ X, ¬ Root s.parent F.elem ce) → LI S D s fr b clk ce t Mg →
      Sat (markLoop S f ce (todo.map (·.elem)) t) (fun _ t' => ∃ Mg', LI S D s fr b clk ce t' Mg' ∧
        (∀ j, Mg j → Mg' j) ∧ ∀ F, todo.head? = some F → Mg' F.elem) (fun x => x = .cyclic) := by
  intro todo
  induction todo with
  | nil =>
    intro X t Mg e hX h
    exact ⟨Mg, h, fun _ h => h, fun F hF => by simp at hF⟩
  | cons F Y ih =>
    intro X t Mg e hX h
    have hfr : FrOk s b (X ++ F :: Y) := e ▸ hI.frames
    simp only [List.map_cons, markLoop]
    refine ((inCycle_spec f F.elem t h.core).mono (E' := fun x => x = .cyclic) (fun _ _ h => h)
      (fun _ h => h.elim)).bind ?_
    rintro q t1 ⟨⟨par', rfl, hc⟩, hq1, hq2⟩
    have h1 := h.compress hc
    have hroot : ∀ j, Root t.parent j ce ↔ Mg j := by
      intro j
      rw [h.root]
      constructor
      · rintro (⟨h, _⟩ | ⟨_, h'⟩)
        · exact h
        · exact h.base j h'
      · intro h; exact .inl ⟨h, rfl⟩
    split
    · next e' =>
      have := (hq2 ce).1 e'
      refine ⟨Mg, h1, fun _ h => h, fun F' hF' => ?_⟩
      simp at hF'; subst hF'
      exact (hroot _).1 this
    · next e' =>
      have hnm : ¬ Mg F.elem := fun hm => e' ((hq2 ce).2 ((hroot _).2 hm))
      have hF0 := hfr.split.1
      have hnF : ¬ Root s.parent F.elem ce := fun h' => hnm (h.base _ h')
      have hY : G0 ∈ Y := by
        rw [e] at hG0
        rcases List.mem_append.1 hG0 with h' | h'
        · exact absurd hG0r (hX G0 h')
        · rcases List.mem_cons.1 h' with rfl | h'
          · exact absurd hG0r hnF
          · exact h'
      have hb : b ce ≤ b G0.elem := hI.core.root_old hG0r
      have hGF : b G0.elem < b F.owner := hF0.above G0 hY
      -- the representative of `F` is younger than `G0`
      have hpb : ∀ p, Root s.parent F.elem p → b G0.elem < b p := by
        intro p hp
        have hpc : p ≠ ce := by rintro rfl; exact hnF hp
        have hfr' : FrOk s b (F :: Y) := ⟨hF0, hfr.split.2⟩
        obtain ⟨Z, P, W, e1, e2, e3, e4⟩ := hfr'.owner_frame hp
        have hm : G0 ∈ Z ++ P :: W := by rw [← e1]; simp [hY]
        rw [e1] at hfr'
        have hPW := hfr'.split.1
        rcases List.mem_append.1 hm with h' | h'
        · exact absurd ((e3 G0 h').unique hG0r) hpc
        · rcases List.mem_cons.1 h' with rfl | h'
          · exact absurd (e4.unique hG0r) hpc
          · rw [← e2]; exact hPW.above G0 h'
      have hrt : ∀ p, Root par' F.elem p ↔ Root s.parent F.elem p := by
        intro p
        rw [hc.root, h.root]
        simp [hnm]
      have hset := setInCycle_spec (S := S) (b := b) (clk := clk) (s := { t with parent := par' })
        f F.elem ce h1.core (by show t.status _ = _; rw [h.links.status]; exact hF0.elem)
        (by show par' ce = some ce
            exact ((hc.root).2 ((hroot ce).2 (h.base ce (.self hce)))).root)
        (by show t.status _ = _; rw [h.links.status]; exact hsce)
        (fun h' => hnF ((hrt ce).1 h'))
        (fun _ => Nat.lt_of_le_of_lt hb (Nat.lt_of_lt_of_le hGF hF0.le))
        (fun p hp => Nat.lt_of_le_of_lt hb (hpb p ((hrt p).1 hp)))
      refine hset.bind ?_
      rintro _ t2 ⟨k1, k2, k3, k4⟩
      -- who came along
      have hw : ∀ j, With { t with parent := par' } F.elem j ↔
          j = F.elem ∨ ∃ p, Root s.parent F.elem p ∧ Root s.parent j p := by
        intro j
        constructor
        · rintro (h' | ⟨p, hp, hj⟩)
          · exact .inl h'
          · have hp := (hrt p).1 hp
            have hj : Root par' j p := hj
            rw [hc.root, h.root] at hj
            rcases hj with ⟨_, rfl⟩ | ⟨_, hj⟩
            · exact absurd hp hnF
            · exact .inr ⟨p, hp, hj⟩
        · rintro (h' | ⟨p, hp, hj⟩)
          · exact .inl h'
          · refine .inr ⟨p, (hrt p).2 hp, ?_⟩
            show Root par' j p
            rw [hc.root, h.root]
            exact .inr ⟨fun hm => hnm (h.closed j F.elem p hj hp hm), hj⟩
      have h2 : LI S D s fr b clk ce t2 (fun j => Mg j ∨ With { t with parent := par' } F.elem j) := by
        refine ⟨k1, h1.links.trans k2, h1.evo.trans k3, fun j r => ?_, fun j hj => .inl (h.base j hj),
          fun j k p hj hk hm => ?_, fun F' hF' hm => ?_⟩
        · rw [k4]
          have : Root ({ t with parent := par' } : St V).parent j r ↔ _ := (hc.root).trans (h.root j r)
          rw [this]
          by_cases hwj : With { t with parent := par' } F.elem j
          · simp [hwj]
          · simp [hwj]
        · rcases hm with hm | hm
          · exact .inl (h.closed j k p hj hk hm)
          · refine .inr ((hw k).2 ?_)
            rcases (hw j).1 hm with rfl | ⟨p', h1', h2'⟩
            · exact .inr ⟨p, hj, hk⟩
            · rw [h2'.unique hj] at h1'
              exact .inr ⟨p, h1', hk⟩
        · rcases hm with hm | hm
          · exact h.low F' hF' hm
          · refine .inr ⟨G0, hG0, hG0r, ?_⟩
            rcases (hw _).1 hm with he | ⟨p, hp1, hp2⟩
            · -- the same instance, so the same entry
              rw [e] at hF'
              rcases List.mem_append.1 hF' with h' | h'
              · have o := hfr.order h'
                obtain ⟨_, hok⟩ := hI.frames.mem (e ▸ hF')
                have := hok.le
                rw [he] at this
                omega
              · rcases List.mem_cons.1 h' with rfl | h'
                · exact hGF
                · have o := hF0.above F' h'
                  have := hF0.le
                  rw [he] at o
                  omega
            · obtain ⟨_, hok⟩ := hI.frames.mem hF'
              have := hI.core.root_old (hok.same p hp2)
              have := hpb p hp1
              omega
      have hX' : ∀ F' ∈ X ++ [F], ¬ Root s.parent F'.elem ce := by
        intro F' hF'
        rcases List.mem_append.1 hF' with h' | h'
        · exact hX F' h'
        · simp at h'; subst h'; exact hnF
      refine (ih (X ++ [F]) t2 _ (by simp [e]) hX' h2).mono ?_ (fun _ h => h)
      rintro _ t' ⟨Mg', l1, l2, l3⟩
      refine ⟨Mg', l1, fun j hj => l2 j (.inl hj), fun F' hF' => ?_⟩
      simp at hF'; subst hF'
      exact l2 _ (.inr ((hw _).2 (.inl rfl)))

theorem guardMark_spec (f ce : Nat) (h : Core S D s b clk) : ∀ (es : List Nat) (out : Bool),
    Sat (guardMark S f ce out es s) (fun _ s' => s' = s ∧
      (out = true → ∀ e ∈ es, ¬ Root s.parent e ce) ∧
      ∀ X e Y g, es = X ++ e :: Y → g ∈ Y → Root s.parent g ce → Root s.parent e ce)
      (fun x => x = .skipped) := by
  intro es
  induction es with
  | nil => intro out; exact ⟨rfl, by simp, by simp⟩
  | cons e es ih =>
    intro out
    have hin := inCycle_spec f e s h
    simp only [guardMark]
    cases hq : inCycle S f e s with
    | nofuel => trivial
    | exc x t => rw [hq] at hin; exact hin.elim
    | ok q t =>
      rw [hq] at hin
      obtain ⟨_, _, h2⟩ := hin
      by_cases e' : q = some ce
      · simp only [if_pos e']
        split
        · rfl
        · next ho =>
          refine (ih out).mono ?_ (fun _ h => h)
          rintro _ s' ⟨h3, h4, h5⟩
          refine ⟨h3, fun hh => absurd hh ho, fun X x Y g hX hg hr => ?_⟩
          cases X with
          | nil => simp at hX; rw [← hX.1]; exact (h2 ce).1 e'
          | cons a X => simp at hX; exact h5 X x Y g hX.2 hg hr
      · simp only [if_neg e']
        refine (ih true).mono ?_ (fun _ h => h)
        rintro _ s' ⟨h3, h4, h5⟩
        refine ⟨h3, fun _ x hx => ?_, fun X x Y g hX hg hr => ?_⟩
        · rcases List.mem_cons.1 hx with rfl | hx
          · exact fun hr => e' ((h2 ce).2 hr)
          · exact h4 rfl x hx
        · cases X with
          | nil => simp at hX; exact absurd hr (h4 rfl g (hX.2 ▸ hg))
          | cons a X => simp at hX; exact h5 X x Y g hX.2 hg hr

theorem markPending_spec (hg : S.guard = true) (f i : Nat) (h : Inv S D s fr b clk)
    (hi : s.parent i ≠ none) (hsi : s.status i = .cycle) :
    Sat (markPending S f i s) (fun _ s' => Inv S D s' fr b clk ∧ Links s s' ∧ Evo D s s' ∧
      ∃ F fr', fr = F :: fr' ∧ ∃ r, Root s'.parent F.elem r ∧ Root s'.parent i r)
      (fun x => x = .cyclic ∨ x = .skipped) := by
  simp only [markPending]
  refine ((inCycle_spec f i s h.core).mono (E' := fun x => x = .cyclic ∨ x = .skipped)
    (fun _ _ h => h) (fun _ h => h.elim)).bind ?_
  rintro q s1 ⟨⟨par', rfl, hc⟩, hq1, hq2⟩
  cases q with
  | none => exact absurd (hq1.1 rfl) hi
  | some ce =>
    have hr : Root s.parent i ce := (hq2 ce).1 rfl
    have h1 := h.compress hc
    have hr1 : Root par' i ce := hc.root.2 hr
    have hsce : s.status ce = .cycle := by rw [h.core.root_status hr]; exact hsi
    obtain ⟨G0, hG0, hG0r⟩ : ∃ G ∈ fr, Root par' G.elem ce := by
      rcases h1.cyc i hsi with ⟨e, _⟩ | ⟨F, hF, r, h2, h3⟩
      · exact absurd e hr1.ne_none
      · rw [hr1.unique h2]; exact ⟨F, hF, h3⟩
    have base : LI S D { s with parent := par' } fr b clk ce { s with parent := par' }
        (fun j => Root par' j ce) := by
      refine ⟨h1.core, .refl _, .refl _, fun j r => ?_, fun j h => h, fun j k p hj hk hm => ?_,
        fun F hF hm => .inl hm⟩
      · show Root par' j r ↔ _ ∨ _ ∧ Root par' j r
        by_cases hj : Root par' j ce
        · constructor
          · intro h'; exact .inl ⟨hj, h'.unique hj⟩
          · rintro (⟨_, rfl⟩ | ⟨h', _⟩)
            · exact hj
            · exact absurd hj h'
        · simp [hj]
      · show Root par' k ce
        rw [← hj.unique hm]; exact hk
    have hml := markLoop_spec h1 f ce hr1.root hsce hG0 hG0r fr [] _ _ rfl (by simp) base
    rw [← h.pend] at hml
    refine (hml.mono (E' := fun x => x = .cyclic ∨ x = .skipped) (fun _ _ h => h) (fun _ h => .inl h)).bind ?_
    rintro _ t ⟨Mg, li, lm, lh⟩
    simp only [hg, if_true]
    have hpt : t.pending = fr.map (·.elem) := li.links.pending.trans h.pend
    refine ((guardMark_spec f ce li.core t.pending false).mono
      (E' := fun x => x = .cyclic ∨ x = .skipped) (fun _ _ h => h) (fun _ h => .inr h)).mono ?_ (fun _ h => h)
    rintro _ t' ⟨rfl, _, hgd⟩
    have hroot : ∀ j, Root t'.parent j ce ↔ Mg j := by
      intro j
      rw [li.root]
      constructor
      · rintro (⟨h, _⟩ | ⟨_, h'⟩)
        · exact h
        · exact li.base j h'
      · intro h; exact .inl ⟨h, rfl⟩
    have hm0 : ∀ j, Root par' j ce → Root t'.parent j ce := fun j hj => (hroot j).2 (li.base j hj)
    refine ⟨⟨li.core, hpt, ?_, ?_⟩, ⟨li.links.status, li.links.value, li.links.pending⟩,
      (Evo.compress s hc s.pending).trans li.evo, ?_⟩
    · -- the entries of the stack
      rw [hpt] at hgd
      have : ∀ Y X, fr = X ++ Y → FrOk t' b Y := by
        intro Y
        induction Y with
        | nil => intros; trivial
        | cons F Y ih =>
          intro X e
          have hF := (e ▸ h1.frames : FrOk _ b (X ++ F :: Y)).split.1
          have hfo : FrOk ({ s with parent := par' } : St V) b (X ++ F :: Y) := e ▸ h1.frames
          refine ⟨⟨by rw [li.links.status]; exact hF.elem, by rw [li.links.status]; exact hF.owner,
            hF.first, fun hr hn => hF.again hr (li.evo.none _ hn), hF.le, fun r hr => ?_, hF.above,
            fun r hr hn => ?_⟩, ih (X ++ [F]) (by simp [e])⟩
          · cases hre : F.re with
            | false => rw [hF.first hre]; exact hr
            | true =>
              obtain ⟨r0, hr0⟩ := h1.core.exists_root _ (hF.again hre)
              obtain ⟨r', a, c⟩ := li.evo.coarse _ _ r0 hr0 (hF.same r0 hr0)
              rw [hr.unique a]; exact c
          · by_cases hm : Mg F.elem
            · have hrc : r = ce := hr.unique ((hroot _).2 hm)
              subst hrc
              rcases li.low F (by rw [e]; simp) hm with hlo | ⟨G, hG, hGr, hGb⟩
              · obtain ⟨G, Y', e1, hG⟩ := hF.contig r hlo hn
                exact ⟨G, Y', e1, hm0 _ hG⟩
              · have hGY : G ∈ Y := by
                  rw [e] at hG
                  rcases List.mem_append.1 hG with h' | h'
                  · have o := hfo.order h'
                    obtain ⟨_, hok⟩ := hfo.mem hG
                    have := hok.le
                    have := hF.le
                    omega
                  · rcases List.mem_cons.1 h' with rfl | h'
                    · have := hF.le; omega
                    · exact h'
                cases Y with
                | nil => cases hGY
                | cons H Y' =>
                  refine ⟨H, Y', rfl, ?_⟩
                  rcases List.mem_cons.1 hGY with rfl | hGY
                  · exact hm0 _ hGr
                  · exact hgd ((X ++ [F]).map (·.elem)) H.elem (Y'.map (·.elem)) G.elem
                      (by simp [e]) (List.mem_map.2 ⟨G, hGY, rfl⟩) (hm0 _ hGr)
            · rw [li.root] at hr
              rcases hr with ⟨h', _⟩ | ⟨_, hr⟩
              · exact absurd h' hm
              · obtain ⟨G, Y', e1, hG⟩ := hF.contig r hr hn
                refine ⟨G, Y', e1, (li.root _ _).2 (.inr ⟨fun hmG => hm ?_, hG⟩)⟩
                exact li.closed _ _ r hG hr hmG
      exact this fr [] rfl
    · intro j hj
      rw [li.links.status] at hj
      by_cases hm : Mg j
      · exact .inr ⟨G0, hG0, ce, (hroot j).2 hm, hm0 _ hG0r⟩
      · rcases h1.cyc j hj with ⟨e, F, hF, hFj⟩ | ⟨F, hF, r, h2, h3⟩
        · cases e' : t'.parent j with
          | none => exact .inl ⟨rfl, F, hF, hFj⟩
          | some p =>
            obtain ⟨r, hr⟩ := li.core.exists_root j (by rw [e']; simp)
            rw [li.root] at hr
            rcases hr with ⟨h', _⟩ | ⟨_, hr⟩
            · exact absurd h' hm
            · exact absurd e hr.ne_none
        · refine .inr ⟨F, hF, r, (li.root _ _).2 (.inr ⟨hm, h2⟩), (li.root _ _).2 (.inr ⟨fun hmF => hm ?_, h3⟩)⟩
          exact li.closed _ _ r h3 h2 hmF
    · cases hfr : fr with
      | nil => rw [hfr] at hG0; cases hG0
      | cons F fr' => exact ⟨F, fr', rfl, ce, (hroot _).2 (lh F (by simp [hfr])), hm0 _ hr1⟩

end Aps.ScalaEval
