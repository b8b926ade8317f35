import Verif.Proofs.SEvalMain
set_option linter.unusedVariables false
/-! The Scala runtime: iterating a cycle, and `get`. -/
namespace Aps.ScalaEval
variable {V : Type}
variable {S : Sys V} {D : Nat → Prop} {le : Nat → V → V → Prop} {s : St V} {b : Nat → Nat} {clk : Nat} {fr : List Frame}

def push (c : Nat) (s : St V) : St V := { s with pending := c :: s.pending }

theorem FrOk.pend {l : List Frame} (h : FrOk s b l) (p : List Nat) :
    FrOk { s with pending := p } b l := by
  induction l with
  | nil => trivial
  | cons G l ih =>
    exact ⟨⟨h.1.elem, h.1.owner, h.1.first, h.1.again, h.1.le, h.1.same, h.1.above, h.1.contig⟩, ih h.2⟩

/-- The entry on top goes away, its cycle having a member below. -/
theorem Inv.pop {F : Frame} {r : Nat} (h : Inv S D s (F :: fr) b clk) (hr : Root s.parent F.elem r)
    (hn : r ≠ F.owner) : Inv S D { s with pending := fr.map (·.elem) } fr b clk where
  core := h.core.same ⟨rfl, .refl _, rfl, fun _ => rfl⟩
  pend := rfl
  frames := h.frames.2.pend _
  cyc := fun j hj => by
    obtain ⟨G, fr', e, hG⟩ := h.frames.1.contig r hr hn
    have hGm : G ∈ fr := by rw [e]; simp
    rcases h.cyc j hj with ⟨e, F', hF', hj'⟩ | ⟨F', hF', r', h1, h2⟩
    · rcases List.mem_cons.1 hF' with rfl | hF'
      · subst hj'; exact absurd e hr.ne_none
      · exact .inl ⟨e, F', hF', hj'⟩
    · rcases List.mem_cons.1 hF' with rfl | hF'
      · rw [h2.unique hr] at h1
        exact .inr ⟨G, hGm, r, h1, hG⟩
      · exact .inr ⟨F', hF', r', h1, h2⟩

/-- Another member of the same cycle is recomputed next. -/
theorem Inv.swap {c c' L : Nat} {p : List Nat} (h : Inv S D s (⟨c, L, true⟩ :: fr) b clk)
    (hp : p = c' :: fr.map (·.elem))
    (h1 : Root s.parent c L) (h2 : Root s.parent c' L) :
    Inv S D { s with pending := p } (⟨c', L, true⟩ :: fr) b clk where
  core := h.core.same ⟨rfl, .refl _, rfl, fun _ => rfl⟩
  pend := hp
  frames := by
    refine ⟨⟨?_, h.frames.1.owner, fun e => absurd e (by simp), fun _ => h2.ne_none, h.core.root_old h2,
      fun r hr => ?_, h.frames.1.above, fun r hr hn => absurd (hr.unique h2) hn⟩, ?_⟩
    · show s.status c' = _
      rw [← h.core.root_status h2]; exact h.frames.1.owner
    · show Root s.parent L r
      rw [hr.unique h2]; exact h2.idem
    · exact h.frames.2.pend _
  cyc := fun j hj => by
    rcases h.cyc j hj with ⟨e, F', hF', hj'⟩ | ⟨F', hF', r', g1, g2⟩
    · rcases List.mem_cons.1 hF' with rfl | hF'
      · subst hj'; exact absurd e h1.ne_none
      · exact .inl ⟨e, F', by simp [hF'], hj'⟩
    · rcases List.mem_cons.1 hF' with rfl | hF'
      · rw [g2.unique h1] at g1
        exact .inr ⟨⟨c', L, true⟩, by simp, L, g1, h2⟩
      · exact .inr ⟨F', by simp [hF'], r', g1, g2⟩

/-- `L` is about to iterate, or iterates, its cycle. -/
structure Lead (S : Sys V) (D : Nat → Prop) (le : Nat → V → V → Prop) (s0 : St V) (b0 : Nat → Nat) (fr : List Frame)
    (L c : Nat) (s : St V) (b : Nat → Nat) (clk : Nat) : Prop where
  inv : Inv S D { s with pending := c :: s.pending } (⟨c, L, true⟩ :: fr) b clk
  vinv : VInv S le s fr
  root : Root s.parent c L
  ctx : Ctx D s0 b0 s b L

/-- `L` has handed its cycle over to an older instance. -/
structure Over (S : Sys V) (D : Nat → Prop) (le : Nat → V → V → Prop) (s0 : St V) (b0 : Nat → Nat) (fr : List Frame)
    (L : Nat) (s : St V) (b : Nat → Nat) (clk : Nat) : Prop where
  inv : Inv S D s fr b clk
  vinv : VInv S le s fr
  evo : Evo D s0 s
  births : ∀ j, s0.status j ≠ .uninit → b j = b0 j
  top : s.status L ≠ .uninit ∧ (s.status L = .cycle → Top s fr L)

theorem Ctx.congr {s0 s' : St V} {b0 : Nat → Nat} {L : Nat} (h : Ctx D s0 b0 s b L)
    (e : { s with pending := s'.pending } = s') : Ctx D s0 b0 s' b L := by
  rw [← e]
  exact ⟨⟨h.evo.status, h.evo.value, h.evo.coarse, h.evo.root, h.evo.none, h.evo.path, h.evo.flag,
    h.evo.asgd, fun q => h.evo.back ⟨q.uninit, q.none, q.root⟩⟩, h.births, h.old⟩

theorem pass_spec (hD : Closed S D) (hq : EqOk S) {rec : Nat → St V → Out V V} (hr : RecSpec S D le rec) (f L : Nat)
    {s0 : St V} {b0 : Nat → Nat} : ∀ n c s b clk pre post, Lead S D le s0 b0 fr L c s b clk →
    Path s.next L (pre ++ c :: post) → (Modified s L ∨ ∀ k ∈ pre, Cur S s L k) →
    Sat (pass S rec f L n c s) (fun res s' => ∃ b' clk', clk ≤ clk' ∧
      if res = true then Lead S D le s0 b0 fr L L s' b' clk' ∧
        ∃ ls, Path s'.next L ls ∧ (Modified s' L ∨ ∀ k ∈ ls, Cur S s' L k)
      else Over S D le s0 b0 fr L s' b' clk') (Allowed S le) := by
  intro n
  induction n with
  | zero => intros; trivial
  | succ n ih =>
    intro c s b clk pre post h hp hcur
    have hpf : s.pending = fr.map (·.elem) := by
      have := h.inv.pend; simpa using this
    have hctx : Ctx D s0 b0 { s with pending := c :: s.pending } b L := h.ctx.congr rfl
    simp only [pass]
    refine (recompute_spec hD hq hr f c L h.inv (h.vinv.congr rfl rfl) h.root hctx).bind ?_
    rintro _ s1 ⟨b1, clk1, i1, v1, c1, k1, q1⟩
    have hpend : s1.pending = c :: fr.map (·.elem) := i1.pend
    simp only [pop, hpend, Out.bind]
    have hmem : ∀ k ∈ pre, s.status k = .cycle := by
      intro k hk
      obtain ⟨l, ls, g1, g2, g3, g4⟩ := h.inv.core.list L h.root.root h.inv.frames.1.owner
      have : k ∈ ls := by
        rw [← Path.unique hp g2]; simp [hk]
      rw [show s.status k = s.status L from (h.inv.core.root_status ((g4 k).1 this)).symm]
      exact h.inv.frames.1.owner
    by_cases hL : s1.parent L = some L
    · rw [if_neg (by simp [hL])]
      obtain ⟨r1, p1, m1, u1⟩ := q1 hL
      obtain ⟨ext, hp1⟩ := p1 _ hp
      have hp1 : Path s1.next L (pre ++ c :: (post ++ ext)) := by simpa using hp1
      have hcur1 : Modified s1 L ∨ ∀ k ∈ pre ++ [c], Cur S s1 L k := by
        rcases u1 with u1 | ⟨u1, u2⟩
        · exact .inl u1
        · rcases hcur with hm | hcur
          · exact .inl (m1 hm)
          · refine .inr fun k hk => ?_
            rcases List.mem_append.1 hk with hk | hk
            · exact u2 k (hmem k hk) (hcur k hk)
            · simp at hk; subst hk; exact u1
      have hcur2 : Modified { s1 with pending := fr.map (·.elem) } L ∨
          ∀ k ∈ pre ++ [c], Cur S { s1 with pending := fr.map (·.elem) } L k := hcur1
      have mk : ∀ c', Root s1.parent c' L →
          Lead S D le s0 b0 fr L c' { s1 with pending := fr.map (·.elem) } b1 clk1 := by
        intro c' hc'
        exact ⟨i1.swap rfl r1 hc', v1.congr rfl rfl, hc', c1.congr rfl⟩
      have hls : ∀ k ∈ pre ++ c :: (post ++ ext), Root s1.parent k L := by
        intro k hk
        obtain ⟨l, ls, g1, g2, g3, g4⟩ := i1.core.list L hL i1.frames.1.owner
        exact (g4 k).1 (by rw [← hp1.unique g2]; exact hk)
      have hsplit := hp1.split
      cases hnx : s1.next c with
      | none =>
        have e := hsplit.1 hnx
        rw [e] at hp1
        simp only
        exact ⟨b1, clk1, k1, by
          rw [if_pos rfl]
          exact ⟨mk L (.self hL), pre ++ [c], hp1, hcur2⟩⟩
      | some c' =>
        obtain ⟨post', e⟩ := hsplit.2 c' hnx
        simp only
        rw [e] at hp1
        have hp2 : Path s1.next L ((pre ++ [c]) ++ c' :: post') := by simpa using hp1
        refine (ih c' _ b1 clk1 (pre ++ [c]) post' (mk c' (hls c' (by rw [e]; simp))) hp2 hcur2).mono ?_ (fun _ h => h)
        rintro res s' ⟨b', clk', h1, h2⟩
        exact ⟨b', clk', Nat.le_trans k1 h1, h2⟩
    · rw [if_pos hL]
      refine ⟨b1, clk1, k1, ?_⟩
      simp only [Bool.false_eq_true, if_false]
      obtain ⟨r, hrc⟩ := i1.core.exists_root c (i1.frames.1.again rfl)
      have hrL : Root s1.parent L r := i1.frames.1.same r hrc
      have hne : r ≠ L := by rintro rfl; exact hL hrL.root
      obtain ⟨G, fr', e, hG⟩ := i1.frames.1.contig r hrc hne
      refine ⟨i1.pop hrc hne, v1.congr rfl rfl, (c1.congr rfl).evo, c1.births, ?_, fun _ => ?_⟩
      · show s1.status L ≠ _
        rw [show s1.status L = .cycle from i1.frames.1.owner]; simp
      · exact ⟨G, fr', e, r, hG, hrL⟩

theorem freeze_spec : ∀ n c (s : St V) ls, Path s.next c ls →
    Sat (freeze n c s) (fun _ s' => s' = { s with status := fun j => if j ∈ ls then .evaluated else s.status j })
      (fun _ => False) := by
  intro n
  induction n with
  | zero => intros; trivial
  | succ n ih =>
    intro c s ls hp
    simp only [freeze]
    cases hp with
    | last e =>
      simp only [e]
      show _ = _
      congr 1
      funext j
      by_cases h : j = c <;> simp [upd, h]
    | @cons _ c' ls e hp =>
      simp only [e]
      refine (ih c' { s with status := upd s.status c .evaluated } ls hp).mono ?_ (fun _ h => h)
      rintro _ s' rfl
      congr 1
      funext j
      by_cases h : j = c
      · subst h; simp [upd]
      · simp [upd, h]

/-- All members of the cycle of `L` become final. -/
theorem frozen {s0 : St V} {b0 : Nat → Nat} {L : Nat} {ls : List Nat}
    (h : Lead S D le s0 b0 fr L L s b clk) (hp : Path s.next L ls) (hcur : ∀ k ∈ ls, Cur S s L k) :
    Over S D le s0 b0 fr L { s with status := fun j => if j ∈ ls then .evaluated else s.status j } b clk := by
  have hc := h.inv.core
  obtain ⟨l, ls', g1, g2, g3, g4⟩ := hc.list L h.root.root h.inv.frames.1.owner
  have hpf : s.pending = fr.map (·.elem) := by
    have := h.inv.pend; simpa using this
  have e : ls = ls' := hp.unique g2
  subst e
  have hmem : ∀ j, j ∈ ls ↔ Root s.parent j L := g4
  have hbig : ∀ j, j ∈ ls → b L ≤ b j := fun j hj => hc.root_old ((hmem j).1 hj)
  have hcyc : ∀ j, j ∈ ls → s.status j = .cycle := fun j hj => by
    rw [show s.status j = s.status L from (hc.root_status ((hmem j).1 hj)).symm]
    exact h.inv.frames.1.owner
  have hold : ∀ j, s0.status j ≠ .uninit → j ∉ ls := by
    intro j hj hm
    have := h.ctx.old j hj
    have := hbig j hm
    omega
  have hfr : ∀ F ∈ fr, F.elem ∉ ls ∧ F.owner ∉ ls := by
    intro F hF
    have h1 := h.inv.frames.1.above F hF
    obtain ⟨_, hok⟩ := h.inv.frames.2.mem hF
    have h2 := hok.le
    simp only at h1
    constructor
    · intro hm; have := hbig _ hm; omega
    · intro hm; have := hbig _ hm; omega
  have hlink : ∀ j p, s.parent j = some p → (j ∈ ls ↔ p ∈ ls) := by
    intro j p e
    rw [hmem, hmem]
    constructor
    · intro hr
      cases hr with
      | self e' => rw [e] at e'; cases e'; exact .self e
      | step e' n hr => rw [e] at e'; cases e'; exact hr
    · intro hr
      by_cases hjp : p = j
      · subst hjp; exact hr
      · exact .step e hjp hr
  refine ⟨⟨⟨fun j => ?_, fun j hj => ?_, fun j hj => ?_, hc.nextNone, fun j hj => ?_, hc.older, fun j p e => ?_, fun r e hs => ?_⟩,
    hpf, ?_, fun j hj => ?_⟩, ⟨?_, fun j hj => ?_, fun j hj => ?_, fun O j hj hn => ?_⟩,
    ⟨fun j hj => ?_, h.ctx.evo.value, h.ctx.evo.coarse, h.ctx.evo.root, h.ctx.evo.none, h.ctx.evo.path,
      h.ctx.evo.flag, fun j hj => ?_, fun q => ?_⟩, h.ctx.births, ?_, fun hc' => ?_⟩
  · show (if j ∈ ls then Status.evaluated else s.status j) ≠ _
    split
    · simp
    · exact hc.noUneval j
  · replace hj : (if j ∈ ls then Status.evaluated else s.status j) = .cycle := hj
    split at hj
    · cases hj
    · exact hc.dom j hj
  · replace hj : (if j ∈ ls then Status.evaluated else s.status j) = .uninit := hj
    split at hj
    · cases hj
    · exact hc.fresh j hj
  · replace hj : (if j ∈ ls then Status.evaluated else s.status j) ≠ .uninit := hj
    split at hj
    · next hm => exact hc.born j (by rw [show _ = _ from hcyc j hm]; simp)
    · exact hc.born j hj
  · have := hc.link j p e
    refine ⟨this.1, this.2.1, ?_⟩
    show (if p ∈ ls then Status.evaluated else s.status p) = if j ∈ ls then Status.evaluated else s.status j
    rw [show s.status p = s.status j from this.2.2]
    by_cases hm : j ∈ ls
    · rw [if_pos hm, if_pos ((hlink j p e).1 hm)]
    · rw [if_neg hm, if_neg (fun h => hm ((hlink j p e).2 h))]
  · replace hs : (if r ∈ ls then Status.evaluated else s.status r) = .cycle := hs
    split at hs
    · cases hs
    · exact hc.list r e hs
  · have : ∀ l : List Frame, (∀ F ∈ l, F.elem ∉ ls ∧ F.owner ∉ ls) →
        FrOk { s with pending := L :: s.pending } b l →
        FrOk { s with status := fun j => if j ∈ ls then Status.evaluated else s.status j } b l := by
      intro l
      induction l with
      | nil => intros; trivial
      | cons F l ih =>
        intro hm hF
        obtain ⟨m1, m2⟩ := hm F (by simp)
        refine ⟨⟨?_, ?_, hF.1.first, hF.1.again, hF.1.le, hF.1.same, hF.1.above, hF.1.contig⟩,
          ih (fun F hF => hm F (by simp [hF])) hF.2⟩
        · show (if _ then _ else _) = _
          rw [if_neg m1]; exact hF.1.elem
        · show (if _ then _ else _) = _
          rw [if_neg m2]; exact hF.1.owner
    exact this fr hfr h.inv.frames.2
  · replace hj : (if j ∈ ls then Status.evaluated else s.status j) = .cycle := hj
    split at hj
    · cases hj
    · next hm =>
      rcases h.inv.cyc j hj with ⟨e, F, hF, hFj⟩ | ⟨F, hF, r, h1, h2⟩
      · rcases List.mem_cons.1 hF with rfl | hF
        · subst hFj; exact absurd ((hmem _).2 h.root) hm
        · exact .inl ⟨e, F, hF, hFj⟩
      · rcases List.mem_cons.1 hF with rfl | hF
        · have := h2.unique h.root
          subst this
          exact absurd ((hmem _).2 h1) hm
        · exact .inr ⟨F, hF, r, h1, h2⟩
  · exact h.vinv.bot
  · replace hj : (if j ∈ ls then Status.evaluated else s.status j) = .uninit := hj
    split at hj
    · cases hj
    · exact h.vinv.fresh j hj
  · replace hj : (if j ∈ ls then Status.evaluated else s.status j) = .evaluated := hj
    have fin : ∀ k, Fin s k → Fin { s with status := fun j => if j ∈ ls then Status.evaluated else s.status j } k := by
      intro k hk
      show (if k ∈ ls then _ else _) = _ ∨ (if k ∈ ls then _ else _) = _
      split
      · exact .inl rfl
      · exact hk
    by_cases hm : j ∈ ls
    · obtain ⟨l, a, d⟩ := hcur j hm
      refine ⟨l, a, fun p hp => ⟨(d p hp).1, ?_⟩⟩
      rcases (d p hp).2 with h' | h'
      · exact fin _ h'
      · exact .inl (if_pos ((hmem _).2 h'))
    · rw [if_neg hm] at hj
      obtain ⟨l, a, d⟩ := h.vinv.eqn j hj
      exact ⟨l, a, fun p hp => ⟨(d p hp).1, fin _ (d p hp).2⟩⟩
  · replace hj : (if j ∈ ls then Status.evaluated else s.status j) = .cycle := hj
    split at hj
    · cases hj
    · obtain ⟨l, a, d⟩ := h.vinv.grow O j hj hn
      refine ⟨l, a, fun p hp => ⟨?_, fun hc' => ?_, (d p hp).2.2⟩⟩
      · show (if _ then _ else _) ≠ _
        split
        · simp
        · exact (d p hp).1
      · replace hc' : (if p.1 ∈ ls then Status.evaluated else s.status p.1) = .cycle := hc'
        split at hc'
        · cases hc'
        · exact (d p hp).2.1 hc'
  · show (if _ then _ else _) = _
    rw [if_neg (hold j hj)]; exact h.ctx.evo.status j hj
  · replace hj : (if j ∈ ls then Status.evaluated else s.status j) = .assigned := hj
    split at hj
    · cases hj
    · exact h.ctx.evo.asgd j hj
  · exfalso
    have hL0 : s0.status L = .uninit := by
      by_contra hne
      exact hold L hne ((hmem _).2 h.root)
    have : (if L ∈ ls then Status.evaluated else s.status L) = .uninit :=
      q.uninit L (hc.dom L h.inv.frames.1.owner) hL0
    rw [if_pos ((hmem _).2 h.root)] at this; cases this
  · show (if _ then _ else _) ≠ _
    rw [if_pos ((hmem _).2 h.root)]; simp
  · replace hc' : (if L ∈ ls then Status.evaluated else s.status L) = .cycle := hc'
    rw [if_pos ((hmem _).2 h.root)] at hc'; cases hc'

theorem cycleLoop_spec (hD : Closed S D) (hq : EqOk S) {rec : Nat → St V → Out V V} (hr : RecSpec S D le rec) (f L : Nat)
    {s0 : St V} {b0 : Nat → Nat} (h0 : s0.status L = .uninit) : ∀ n s b clk, Lead S D le s0 b0 fr L L s b clk →
    Sat (cycleLoop S rec f L n s) (fun _ s' => ∃ b' clk', clk ≤ clk' ∧ Over S D le s0 b0 fr L s' b' clk')
      (Allowed S le) := by
  intro n
  induction n with
  | zero => intros; trivial
  | succ n ih =>
    intro s b clk h
    obtain ⟨l, ls, g1, g2, g3, g4⟩ := h.inv.core.list L h.root.root h.inv.frames.1.owner
    replace g1 : (s.helper L).bind (·.cycleLast) = some l := g1
    simp only [cycleLoop]
    cases hh : s.helper L with
    | none => rw [hh] at g1; cases g1
    | some x =>
      simp only
      have h' : Lead S D le s0 b0 fr L L
          { s with helper := upd s.helper L (some { x with modified := false }) } b clk := by
        refine ⟨h.inv.congr rfl rfl rfl (fun r => ?_) rfl, h.vinv.congr rfl rfl, h.root,
          ⟨⟨h.ctx.evo.status, h.ctx.evo.value, h.ctx.evo.coarse, h.ctx.evo.root, h.ctx.evo.none, h.ctx.evo.path, ?_, h.ctx.evo.asgd, fun q => ?_⟩,
            h.ctx.births, h.ctx.old⟩⟩
        · show (upd s.helper L _ r).bind _ = (s.helper r).bind _
          by_cases e : r = L
          · subst e; rw [upd_self, hh]; rfl
          · rw [upd_ne _ _ e]
        · intro r a1 a2 a3 y ey my
          show ∃ h', upd s.helper L _ r = some h' ∧ _
          rw [upd_ne _ _ (fun e => by subst e; rw [a1] at h0; cases h0)]
          exact h.ctx.evo.flag r a1 a2 a3 y ey my
        · exfalso
          have : s.status L = .uninit := q.uninit L (h.inv.core.dom L h.inv.frames.1.owner) h0
          rw [show s.status L = .cycle from h.inv.frames.1.owner] at this
          cases this
      obtain ⟨post, rfl⟩ : ∃ post, ls = L :: post := by
        cases g2 with
        | last => exact ⟨_, rfl⟩
        | cons => exact ⟨_, rfl⟩
      refine (pass_spec hD hq hr f L f L _ b clk [] post h' g2 (.inr (by simp))).bind ?_
      rintro res s1 ⟨b1, clk1, k1, hres⟩
      cases res with
      | false =>
        simp only [Bool.false_eq_true, if_false] at hres ⊢
        exact ⟨b1, clk1, k1, hres⟩
      | true =>
        simp only [if_true] at hres ⊢
        obtain ⟨hl, ls1, hp1, hcur⟩ := hres
        cases hh1 : s1.helper L with
        | none =>
          obtain ⟨l', ls', g1', _⟩ := hl.inv.core.list L hl.root.root hl.inv.frames.1.owner
          replace g1' : (s1.helper L).bind (·.cycleLast) = some l' := g1'
          rw [hh1] at g1'; cases g1'
        | some y =>
          simp only
          split
          · refine (ih s1 b1 clk1 hl).mono ?_ (fun _ h => h)
            rintro _ s' ⟨b', clk', k, h'⟩
            exact ⟨b', clk', Nat.le_trans k1 k, h'⟩
          · next hm =>
            have hcur : ∀ k ∈ ls1, Cur S s1 L k := by
              rcases hcur with ⟨z, ez, mz⟩ | h
              · rw [hh1] at ez; cases ez; exact absurd mz hm
              · exact h
            refine (freeze_spec f L s1 ls1 hp1).mono ?_ (fun _ h => h.elim)
            rintro _ s' rfl
            exact ⟨b1, clk1, k1, frozen hl hp1 hcur⟩

/-- The hypotheses on the program. -/
structure Wf (S : Sys V) : Prop where
  guard : S.guard = true
  eq : EqOk S
  init : ∀ i v, S.circular i = true → S.collection i = some v → v = S.bottom i

/-- What `initValue` leaves alone. -/
theorem initValue_spec (w : Wf S) (i : Nat) (h : Inv S D s fr b clk) (hv : VInv S le s fr)
    (hi : s.status i = .uninit) : ∃ st va, initValue S i s = { s with status := st, value := va } ∧
      (st i = .uninit ∨ st i = .uneval) ∧ (∀ j, j ≠ i → st j = s.status j ∧ va j = s.value j) ∧
      (S.circular i = true → va i = S.bottom i) := by
  simp only [initValue]
  cases hc : S.collection i with
  | none => exact ⟨s.status, s.value, rfl, .inl hi, fun _ _ => ⟨rfl, rfl⟩, fun c => hv.fresh i hi ⟨c, hc⟩⟩
  | some v =>
    simp only [hi, if_true]
    exact ⟨_, _, rfl, .inr (by simp), fun j hj => ⟨upd_ne _ _ hj, upd_ne _ _ hj⟩, fun c => by
      rw [upd_self]; exact w.init i v c hc⟩

/-- The evaluation of `i` starts. -/
theorem started (i : Nat) (hDi : D i) (h : Inv S D s fr b clk) (hv : VInv S le s fr) (hi : s.status i = .uninit)
    {st : Nat → Status} {va : Nat → V} (h2 : ∀ j, j ≠ i → st j = s.status j ∧ va j = s.value j)
    (h3 : S.circular i = true → va i = S.bottom i) :
    Inv S D { s with status := upd st i .cycle, value := va, pending := i :: s.pending }
      (⟨i, i, false⟩ :: fr) (upd b i clk) (clk + 1) ∧
    VInv S le { s with status := upd st i .cycle, value := va, pending := i :: s.pending }
      (⟨i, i, false⟩ :: fr) ∧
    Evo D s { s with status := upd st i .cycle, value := va, pending := i :: s.pending } := by
  have hc := h.core
  have hpi : s.parent i = none := hc.fresh i hi
  have nopar : ∀ j, s.parent j ≠ some i := fun j e => (hc.link j i e).2.1 hpi
  have est : ∀ j, j ≠ i → upd st i .cycle j = s.status j := fun j hj => by
    rw [upd_ne _ _ hj]; exact (h2 j hj).1
  have ne : ∀ {j}, s.status j ≠ .uninit → j ≠ i := by rintro j hj rfl; exact hj hi
  have neC : ∀ {j}, s.status j = .cycle → j ≠ i := fun hj => ne (by rw [hj]; simp)
  have hbe : ∀ j, j ≠ i → upd b i clk j = b j := fun j hj => upd_ne _ _ hj
  have frm : ∀ F ∈ fr, F.elem ≠ i ∧ F.owner ≠ i := fun F hF => by
    obtain ⟨_, hok⟩ := h.frames.mem hF
    exact ⟨neC hok.elem, neC hok.owner⟩
  have bf : ∀ F ∈ fr, upd b i clk F.elem < clk := fun F hF => by
    obtain ⟨_, hok⟩ := h.frames.mem hF
    rw [hbe _ (frm F hF).1]
    exact hc.born _ (by rw [hok.elem]; simp)
  have nr : ∀ {r}, ¬ Root s.parent i r := fun hr => hr.ne_none hpi
  refine ⟨⟨⟨fun j => ?_, fun j hj => ?_, fun j hj => ?_, hc.nextNone, fun j hj => ?_, fun j p e n => ?_, fun j p e => ?_, fun r e hs => ?_⟩,
    by show i :: s.pending = _; rw [h.pend]; rfl, ⟨⟨upd_self _ _ _, upd_self _ _ _, fun _ => rfl, fun e => absurd e (by simp), Nat.le_refl _, fun r hr => hr, fun G hG => ?_, fun r hr => absurd hr nr⟩, ?_⟩, fun j hj => ?_⟩,
    ⟨fun F hF hr hcF => ?_, fun j hj hcj => ?_, fun j hj => ?_, fun O j hj hn => ?_⟩,
    ⟨fun j hj => est j (ne hj), fun j hj => (h2 j (ne hj)).2, fun j k r a c => ⟨r, a, c⟩, fun r _ e => e, fun j e => e,
      fun r _ _ _ ls p => ⟨[], by simpa using p⟩, fun r _ _ _ x ex m => ⟨x, ex, m⟩, fun j hj => ?_, fun q => ?_⟩⟩
  · show upd st i .cycle j ≠ _
    by_cases e : j = i
    · subst e; simp
    · rw [est j e]; exact hc.noUneval j
  · replace hj : upd st i .cycle j = .cycle := hj
    by_cases e : j = i
    · subst e; exact hDi
    · rw [est j e] at hj; exact hc.dom j hj
  · replace hj : upd st i .cycle j = .uninit := hj
    by_cases e : j = i
    · subst e; exact hpi
    · rw [est j e] at hj; exact hc.fresh j hj
  · replace hj : upd st i .cycle j ≠ .uninit := hj
    by_cases e : j = i
    · subst e; rw [upd_self]; omega
    · rw [est j e] at hj; rw [hbe j e]; have := hc.born j hj; omega
  · have hj : j ≠ i := by rintro rfl; rw [show s.parent j = some p from e] at hpi; cases hpi
    have hp : p ≠ i := by rintro rfl; exact nopar j e
    rw [hbe j hj, hbe p hp]; exact hc.older j p e n
  · have hj : j ≠ i := by rintro rfl; rw [show s.parent j = some p from e] at hpi; cases hpi
    have hp : p ≠ i := by rintro rfl; exact nopar j e
    have := hc.link j p e
    exact ⟨this.1, this.2.1, by show upd st i .cycle p = upd st i .cycle j; rw [est p hp, est j hj]; exact this.2.2⟩
  · replace hs : upd st i .cycle r = .cycle := hs
    have hr : r ≠ i := by rintro rfl; rw [show s.parent r = some r from e] at hpi; cases hpi
    rw [est r hr] at hs
    exact hc.list r e hs
  · rw [upd_self]; exact bf G hG
  · have : ∀ l : List Frame, (∀ F ∈ l, F ∈ fr) → FrOk s b l →
        FrOk { s with status := upd st i .cycle, value := va, pending := i :: s.pending } (upd b i clk) l := by
      intro l
      induction l with
      | nil => intros; trivial
      | cons F l ih =>
        intro hm hF
        obtain ⟨m1, m2⟩ := frm F (hm F (by simp))
        refine ⟨⟨(est _ m1).trans hF.1.elem, (est _ m2).trans hF.1.owner, hF.1.first, hF.1.again, ?_, hF.1.same, fun G hG => ?_, hF.1.contig⟩,
          ih (fun F hF => hm F (by simp [hF])) hF.2⟩
        · rw [hbe _ m1, hbe _ m2]; exact hF.1.le
        · rw [hbe _ (frm G (hm G (by simp [hG]))).1, hbe _ m2]; exact hF.1.above G hG
    exact this fr (fun _ h => h) h.frames
  · replace hj : upd st i .cycle j = .cycle := hj
    by_cases e : j = i
    · subst e; exact .inl ⟨hpi, ⟨j, j, false⟩, by simp, rfl⟩
    · rw [est j e] at hj
      rcases h.cyc j hj with ⟨e, F, hF, hFj⟩ | ⟨F, hF, r, h1, h2⟩
      · exact .inl ⟨e, F, by simp [hF], hFj⟩
      · exact .inr ⟨F, by simp [hF], r, h1, h2⟩
  · rcases List.mem_cons.1 hF with rfl | hF
    · exact h3 hcF
    · show va F.elem = _
      rw [(h2 _ (frm F hF).1).2]; exact hv.bot F hF hr hcF
  · replace hj : upd st i .cycle j = .uninit := hj
    have e : j ≠ i := by rintro rfl; simp at hj
    rw [est j e] at hj
    show va j = _
    rw [(h2 j e).2]; exact hv.fresh j hj hcj
  · replace hj : upd st i .cycle j = .evaluated := hj
    have e : j ≠ i := by rintro rfl; simp at hj
    rw [est j e] at hj
    obtain ⟨l, a, d⟩ := hv.eqn j hj
    refine ⟨l, by show Run _ _ (va j); rw [(h2 j e).2]; exact a, fun p hp => ?_⟩
    obtain ⟨d1, d2⟩ := d p hp
    have hp' : p.1 ≠ i := ne (by rcases d2 with d2 | d2 <;> rw [d2] <;> simp)
    refine ⟨by show p.2 = va p.1; rw [(h2 _ hp').2]; exact d1, ?_⟩
    show upd st i .cycle p.1 = _ ∨ upd st i .cycle p.1 = _
    rw [est _ hp']; exact d2
  · replace hj : upd st i .cycle j = .cycle := hj
    have e : j ≠ i := by
      rintro rfl
      exact hn ⟨j, j, false⟩ (by simp) rfl rfl
    rw [est j e] at hj
    obtain ⟨l, a, d⟩ := hv.grow O j hj (fun F hF => hn F (by simp [hF]))
    refine ⟨l, by show Run _ _ (va j); rw [(h2 j e).2]; exact a, fun p hp => ?_⟩
    obtain ⟨d1, d2, d3⟩ := d p hp
    have hp' := ne d1
    refine ⟨?_, fun hc' => d2 ?_, ?_⟩
    · show upd st i .cycle p.1 ≠ _
      rw [est _ hp']; exact d1
    · replace hc' : upd st i .cycle p.1 = .cycle := hc'
      rw [est _ hp'] at hc'; exact hc'
    · show le p.1 p.2 (va p.1)
      rw [(h2 _ hp').2]; exact d3
  · replace hj : upd st i .cycle j = .assigned := hj
    have e : j ≠ i := by rintro rfl; simp at hj
    rw [est j e] at hj; exact hj
  · exfalso
    have : upd st i .cycle i = .uninit := q.uninit i hDi hi
    simp at this

theorem doEval_spec (w : Wf S) (hD : Closed S D) {rec : Nat → St V → Out V V} (hr : RecSpec S D le rec) (f i : Nat) (hDi : D i)
    (h0 : Inv S D s fr b clk) (v0 : VInv S le s fr) (hi : s.status i = .uninit)
    {st : Nat → Status} {va : Nat → V} (h2 : ∀ j, j ≠ i → st j = s.status j ∧ va j = s.value j)
    (h3 : S.circular i = true → va i = S.bottom i) :
    Sat ((runComp rec (S.compute i)
        { s with status := upd st i .cycle, value := va, pending := i :: s.pending }).bind fun v s =>
      (pop { s with value := upd s.value i v }).bind fun _ s =>
      (inCycle S f i s).bind fun q s =>
      if q ≠ none then
        (evaluateCycle S rec f i s).bind fun _ s => .ok (s.value i) s
      else
        let s := { s with status := upd s.status i .evaluated }
        .ok (s.value i) s)
      (fun v s' => ∃ b' clk', Step S D le s fr b clk s' b' clk' ∧ v = s'.value i ∧
      s'.status i ≠ .uninit ∧ (s'.status i = .cycle → Top s' fr i)) (Allowed S le) := by
  obtain ⟨it, vt, et⟩ := started i hDi h0 v0 hi h2 h3
  have hold : ∀ j, s.status j ≠ .uninit → j ≠ i := by rintro j hj rfl; exact hj hi
  refine (runComp_spec hr (S.compute i) _ _ _ _ (hD i hDi) it vt).bind ?_
  rintro v s1 ⟨b1, clk1, st1, ht⟩
  have hsi : s1.status i = .cycle := by
    have := st1.evo.status i (by show upd st i .cycle i ≠ _; simp)
    rw [this]; exact upd_self _ _ _
  have i1 := st1.inv
  have hfo := i1.frames.1
  have evo1 : Evo D s s1 := et.trans st1.evo
  have births1 : ∀ j, s.status j ≠ .uninit → b1 j = b j := by
    intro j hj
    rw [st1.births j (by rw [et.status j hj]; exact hj), upd_ne _ _ (hold j hj)]
  have hbi : b1 i = clk := by
    rw [st1.births i (by show upd st i .cycle i ≠ _; simp), upd_self]
  have clk1' : clk ≤ clk1 := by have := st1.clock; omega
  have hpend : s1.pending = i :: fr.map (·.elem) := i1.pend
  simp only [pop, hpend, Out.bind]
  -- the recorded value
  have ht' : ∃ l, Run (S.compute i) l v ∧ ∀ p ∈ l, p.2 = s1.value p.1 ∧ s1.status p.1 ≠ .uninit ∧
      (s1.status p.1 = .cycle → S.circular p.1 = true) := by
    obtain ⟨l, a, d⟩ := ht
    refine ⟨l, a, fun p hp => ⟨(d p hp).1, (d p hp).2.1, fun hc => ?_⟩⟩
    obtain ⟨F, fr', _, r, _, h'⟩ := (d p hp).2.2 hc
    exact i1.core.root_circ h'
  have hfr : ∀ F ∈ fr, F.elem ≠ i := by
    intro F hF e
    have := hfo.above F hF
    simp only [e] at this
    omega
  have v1 : VInv S le { s1 with value := upd s1.value i v } fr := by
    refine st1.vinv.setVal hsi (fun O hc => ?_) ht' (fun F hF hre => ⟨by simp [hF], hfr F hF⟩) (fun F hF hre => ?_)
    · have := st1.vinv.bot ⟨i, i, false⟩ (by simp) rfl hc
      simp only at this
      rw [this]; exact O.bot i v hc
    · rcases List.mem_cons.1 hF with rfl | hF
      · exact .inr rfl
      · exact .inl hF
  have hin := inCycle_spec f i { s1 with value := upd s1.value i v, pending := fr.map (·.elem) }
    (i1.core.same ⟨rfl, .refl _, rfl, fun _ => rfl⟩ : Core S D { s1 with value := upd s1.value i v, pending := fr.map (·.elem) } b1 clk1)
  cases hci : inCycle S f i { s1 with value := upd s1.value i v, pending := fr.map (·.elem) } with
  | nofuel => trivial
  | exc x t => rw [hci] at hin; exact hin.elim
  | ok q t =>
    rw [hci] at hin
    obtain ⟨⟨par', rfl, hc⟩, q1, q2⟩ := hin
    replace hc : Compress s1.parent par' := hc
    have evo2 : Evo D s { s1 with parent := par', value := upd s1.value i v, pending := fr.map (·.elem) } :=
      (evo1.trans (Evo.compress s1 hc (fr.map (·.elem)))).setVal hi
    cases q with
    | none =>
      have hpn : s1.parent i = none := q1.1 rfl
      have hpn' : par' i = none := hc.none.2 hpn
      have nr : ∀ {r}, ¬ Root par' i r := fun hr => hr.ne_none hpn'
      have i2 := i1.compress hc
      have nopar : ∀ j, par' j ≠ some i := fun j e => (i2.core.link j i e).2.1 hpn'
      simp only [ne_eq, not_true, if_false]
      have nst : ∀ j, j ≠ i → upd s1.status i .evaluated j = s1.status j := fun j hj => upd_ne _ _ hj
      have frn : ∀ F ∈ fr, F.elem ≠ i ∧ F.owner ≠ i := fun F hF => ⟨hfr F hF, fun e => by
        have h1 := hfo.above F hF
        obtain ⟨_, hok⟩ := i1.frames.2.mem hF
        have := hok.le
        simp only [e] at *
        omega⟩
      refine ⟨b1, clk1, ⟨⟨⟨fun j => ?_, fun j hj => ?_, fun j hj => ?_, i2.core.nextNone, fun j hj => ?_, i2.core.older, fun j p e => ?_, fun r e hs => ?_⟩, rfl, ?_, fun j hj => ?_⟩, ?_, ?_, births1, clk1'⟩, rfl, ?_, fun hc' => ?_⟩
      · show upd s1.status i .evaluated j ≠ _
        by_cases e : j = i
        · subst e; simp
        · rw [nst j e]; exact i1.core.noUneval j
      · replace hj : upd s1.status i .evaluated j = .cycle := hj
        have e : j ≠ i := by rintro rfl; simp at hj
        rw [nst j e] at hj; exact i1.core.dom j hj
      · replace hj : upd s1.status i .evaluated j = .uninit := hj
        have e : j ≠ i := by rintro rfl; simp at hj
        rw [nst j e] at hj; exact i2.core.fresh j hj
      · replace hj : upd s1.status i .evaluated j ≠ .uninit := hj
        by_cases e : j = i
        · subst e; exact i1.core.born j (by rw [hsi]; simp)
        · rw [nst j e] at hj; exact i1.core.born j hj
      · have hj : j ≠ i := by rintro rfl; rw [show par' j = some p from e] at hpn'; cases hpn'
        have hp : p ≠ i := by rintro rfl; exact nopar j e
        have := i2.core.link j p e
        exact ⟨this.1, this.2.1, by show upd s1.status i .evaluated p = upd s1.status i .evaluated j; rw [nst j hj, nst p hp]; exact this.2.2⟩
      · have hr : r ≠ i := by rintro rfl; rw [show par' r = some r from e] at hpn'; cases hpn'
        replace hs : upd s1.status i .evaluated r = .cycle := hs
        rw [nst r hr] at hs
        exact i2.core.list r e hs
      · have : ∀ l : List Frame, (∀ F ∈ l, F ∈ fr) → FrOk { s1 with parent := par' } b1 l →
            FrOk { s1 with parent := par', value := upd s1.value i v, pending := fr.map (·.elem), status := upd s1.status i .evaluated } b1 l := by
          intro l
          induction l with
          | nil => intros; trivial
          | cons F l ih =>
            intro hm hF
            obtain ⟨m1, m2⟩ := frn F (hm F (by simp))
            exact ⟨⟨(nst _ m1).trans hF.1.elem, (nst _ m2).trans hF.1.owner, hF.1.first, hF.1.again, hF.1.le, hF.1.same, hF.1.above, hF.1.contig⟩,
              ih (fun F hF => hm F (by simp [hF])) hF.2⟩
        exact this fr (fun _ h => h) i2.frames.2
      · replace hj : upd s1.status i .evaluated j = .cycle := hj
        have e : j ≠ i := by rintro rfl; simp at hj
        rw [nst j e] at hj
        rcases i2.cyc j hj with ⟨e', F, hF, hFj⟩ | ⟨F, hF, r, g1, g2⟩
        · rcases List.mem_cons.1 hF with rfl | hF
          · exact absurd hFj.symm e
          · exact .inl ⟨e', F, hF, hFj⟩
        · rcases List.mem_cons.1 hF with rfl | hF
          · exact absurd g2 nr
          · exact .inr ⟨F, hF, r, g1, g2⟩
      · -- values
        have fin : ∀ k, Fin s1 k → k ≠ i := by
          rintro k (hk | hk) rfl <;> rw [hsi] at hk <;> cases hk
        refine ⟨v1.bot, fun j hj hcj => ?_, fun j hj => ?_, fun O j hj hn => ?_⟩
        · replace hj : upd s1.status i .evaluated j = .uninit := hj
          have e : j ≠ i := by rintro rfl; simp at hj
          rw [nst j e] at hj; exact v1.fresh j hj hcj
        · replace hj : upd s1.status i .evaluated j = .evaluated := hj
          by_cases e : j = i
          · subst e
            obtain ⟨l, a, d⟩ := ht
            refine ⟨l, by show Run _ _ (upd s1.value j v j); rw [upd_self]; exact a, fun p hp => ?_⟩
            obtain ⟨d1, d2, d3⟩ := d p hp
            have hf : Fin s1 p.1 := by
              cases hs : s1.status p.1 with
              | uninit => exact absurd hs d2
              | uneval => exact absurd hs (i1.core.noUneval _)
              | evaluated => exact .inl hs
              | assigned => exact .inr hs
              | cycle =>
                obtain ⟨F, fr', e1, r, g1, g2⟩ := d3 hs
                cases e1
                exact absurd hpn g1.ne_none
            refine ⟨by show p.2 = upd s1.value j v p.1; rw [upd_ne _ _ (fin _ hf)]; exact d1, ?_⟩
            show upd s1.status j .evaluated p.1 = _ ∨ upd s1.status j .evaluated p.1 = _
            rw [nst _ (fin _ hf)]; exact hf
          · rw [nst j e] at hj
            obtain ⟨l, a, d⟩ := v1.eqn j hj
            refine ⟨l, a, fun p hp => ⟨(d p hp).1, ?_⟩⟩
            show upd s1.status i .evaluated p.1 = _ ∨ upd s1.status i .evaluated p.1 = _
            rw [nst _ (fin _ (d p hp).2)]; exact (d p hp).2
        · replace hj : upd s1.status i .evaluated j = .cycle := hj
          have e : j ≠ i := by rintro rfl; simp at hj
          rw [nst j e] at hj
          obtain ⟨l, a, d⟩ := v1.grow O j hj hn
          refine ⟨l, a, fun p hp => ⟨?_, fun hc' => ?_, (d p hp).2.2⟩⟩
          · show upd s1.status i .evaluated p.1 ≠ _
            by_cases e : p.1 = i
            · rw [e]; simp
            · rw [nst _ e]; exact (d p hp).1
          · replace hc' : upd s1.status i .evaluated p.1 = .cycle := hc'
            have e : p.1 ≠ i := by intro e; rw [e] at hc'; simp at hc'
            rw [nst _ e] at hc'; exact (d p hp).2.1 hc'
      · refine ⟨fun j hj => ?_, evo2.value, evo2.coarse, evo2.root, evo2.none, evo2.path, evo2.flag, fun j hj => ?_, fun q => ?_⟩
        · show upd s1.status i .evaluated j = _
          rw [nst j (hold j hj)]; exact evo1.status j hj
        · replace hj : upd s1.status i .evaluated j = .assigned := hj
          have e : j ≠ i := by rintro rfl; simp at hj
          rw [nst j e] at hj; exact evo1.asgd j hj
        · exfalso
          have : upd s1.status i .evaluated i = .uninit := q.uninit i hDi hi
          simp at this
      · show upd s1.status i .evaluated i ≠ _
        simp
      · replace hc' : upd s1.status i .evaluated i = .cycle := hc'
        simp at hc'
    | some r =>
      have hri : Root s1.parent i r := (q2 r).1 rfl
      have hri' : Root par' i r := hc.root.2 hri
      simp only [ne_eq, reduceCtorEq, not_false_eq_true, if_true, evaluateCycle]
      by_cases hlead : par' i = some i
      · rw [if_pos hlead]
        have hri2 : Root par' i i := .self hlead
        have lead : Lead S D le s b fr i i { s1 with parent := par', value := upd s1.value i v, pending := fr.map (·.elem) } b1 clk1 := by
          have ic := i1.compress hc
          refine ⟨⟨ic.core.same ⟨rfl, .refl _, rfl, fun _ => rfl⟩, rfl, ⟨⟨hsi, hsi, fun e => absurd e (by simp), fun _ => hri2.ne_none, Nat.le_refl _, fun r hr => hr, hfo.above, fun r hr hn => absurd (hr.unique hri2) hn⟩, ?_⟩, fun j hj => ?_⟩,
            v1.congr rfl rfl, hri2, ⟨evo2, births1, fun j hj => ?_⟩⟩
          · exact (show FrOk _ b1 fr from by
              have := ic.frames.2
              have h' : ∀ l : List Frame, FrOk { s1 with parent := par' } b1 l → FrOk { s1 with parent := par', value := upd s1.value i v, pending := i :: fr.map (·.elem) } b1 l := by
                intro l
                induction l with
                | nil => intro; trivial
                | cons F l ih =>
                  intro hF
                  exact ⟨⟨hF.1.elem, hF.1.owner, hF.1.first, hF.1.again, hF.1.le, hF.1.same, hF.1.above, hF.1.contig⟩, ih hF.2⟩
              exact h' fr this)
          · rcases ic.cyc j hj with ⟨e', F, hF, hFj⟩ | ⟨F, hF, r, g1, g2⟩
            · rcases List.mem_cons.1 hF with rfl | hF
              · subst hFj
                replace e' : par' i = none := e'
                rw [hlead] at e'; cases e'
              · exact .inl ⟨e', F, by simp [hF], hFj⟩
            · rcases List.mem_cons.1 hF with rfl | hF
              · exact .inr ⟨⟨i, i, true⟩, by simp, r, g1, g2⟩
              · exact .inr ⟨F, by simp [hF], r, g1, g2⟩
          · rw [births1 j hj, hbi]; exact h0.core.born j hj
        refine (cycleLoop_spec hD w.eq hr f i hi f _ b1 clk1 lead).bind ?_
        rintro _ s2 ⟨b2, clk2, k2, ov⟩
        exact ⟨b2, clk2, ⟨ov.inv, ov.vinv, ov.evo, ov.births, Nat.le_trans clk1' k2⟩, rfl, ov.top.1, ov.top.2⟩
      · rw [if_neg hlead]
        simp only
        have hne : r ≠ i := by rintro rfl; exact hlead hri'.root
        obtain ⟨G, fr', e, hG⟩ := hfo.contig r hri hne
        have ip := (i1.compress hc).pop hri' hne
        refine ⟨b1, clk1, ⟨ip.congr rfl rfl rfl (fun _ => rfl) rfl, v1.congr rfl rfl, evo2, births1, clk1'⟩, rfl, ?_, fun _ => ?_⟩
        · show s1.status i ≠ _
          rw [hsi]; simp
        · exact ⟨G, fr', e, r, hc.root.2 hG, hri'⟩

theorem get_spec (w : Wf S) (hD : Closed S D) : ∀ f, RecSpec S D le (get S f) := by
  intro f
  induction f with
  | zero => intros i s fr b clk _ h hv; trivial
  | succ f ih =>
    intro i s fr b clk hDi h hv
    simp only [get]
    by_cases hi : s.status i = .uninit
    · obtain ⟨st, va, e, h1, h2, h3⟩ := initValue_spec w i h hv hi
      rw [e]
      rcases h1 with h1 | h1
      · simp only [h1]
        exact doEval_spec w hD ih f i hDi h hv hi h2 h3
      · simp only [h1]
        exact doEval_spec w hD ih f i hDi h hv hi h2 h3
    · have e : initValue S i s = s := by
        simp only [initValue]
        cases S.collection i with
        | none => rfl
        | some v => simp only [if_neg hi]
      rw [e]
      cases hst : s.status i with
      | uninit => exact absurd hst hi
      | uneval => exact absurd hst (h.core.noUneval i)
      | evaluated => exact ⟨b, clk, ⟨h, hv, .refl s, fun _ _ => rfl, Nat.le_refl _⟩, rfl, hi, fun hc => absurd hc (by rw [hst]; simp)⟩
      | assigned => exact ⟨b, clk, ⟨h, hv, .refl s, fun _ _ => rfl, Nat.le_refl _⟩, rfl, hi, fun hc => absurd hc (by rw [hst]; simp)⟩
      | cycle =>
        refine (detectedCycle_spec w.guard f i h hv hst).mono ?_ (fun _ h => h)
        rintro v s' ⟨a1, a2, a3, a4, a5, a6⟩
        exact ⟨b, clk, ⟨a1, a2, a3, fun _ _ => rfl, Nat.le_refl _⟩, a4, by rw [a5]; simp, fun _ => a6⟩

end Aps.ScalaEval
