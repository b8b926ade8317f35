import Verif.Proofs.PipelineInfo
set_option linter.unusedVariables false
/-! The graphs from which the total orders are made. -/
namespace Aps.Oag
open Aps.Dnc Aps.Props

/-- what is known about the graph `g'` of which `t` is the total order; `g` is the graph at first -/
structure Source (g g' : Aug) (is : List OInst) (ps : List Phy) (info : Nat → Nat) (scheds : List (Nat × List Int)) (t : Cto) : Prop where
  order : scheduleAug g' is = .ok t
  n : g'.n = g.n
  deps : ∀ σ i j, i < g.n → j < g.n → DepUnder g σ i j → DepUnder g' σ i j
  guarded : InstsGuarded g is → InstsGuarded g' is
  phases : ∀ σ, ∀ l ∈ g.links, ∀ p, ps[l.2]? = some p → ∀ sched, (l.2, sched) ∈ scheds → ∀ a b, a < p.n → b < p.n →
    place (sget sched a) < place (sget sched b) → DepUnder g' σ (l.1 + a) (l.1 + b)
  first : ∀ l ∈ g.links, (∀ j, g.cell j (l.1 + info l.2) = []) → ∀ j, g'.cell j (l.1 + info l.2) = []

theorem oag_graphs {s : State} {dirs : List (List Dir)} {insts : List (List OInst)} (h : OagStart s dirs insts) {M N} {info : Nat → Nat}
    (hib : InfoBound M N info dirs s) (hw : SBelow M N s) :
    ∃ F s1, (∀ f, F ≤ f → dncClose f s = .ok s1) ∧ (stateCycle s1 = 0 →
      ∃ F' s' scheds ts, (∀ f, F' ≤ f → computeOag f dirs insts s1 = .ok (s', scheds, ts)) ∧
        (stateCycle s' = 0 →
          scheds.map (·.1) = List.range s.phys.length ∧
          (∀ x ∈ scheds, ∃ p d, s.phys[x.1]? = some p ∧ dirs[x.1]? = some d ∧ x.2.length = p.n ∧
            ∀ i, i < p.n → (d[i]? = some .inward ∧ sget x.2 i < 0) ∨ (d[i]? = some .outward ∧ 0 < sget x.2 i)) ∧
          ts.length = s.augs.length ∧
          ∀ (x : Nat) g is t, s.augs[x]? = some g → insts[x]? = some is → ts[x]? = some t →
            ∃ g', Source g g' is s.phys info scheds t)) := by
  obtain ⟨F, s1, e1, fx1, sr1⟩ := dncClose_total s h.start.inv
  refine ⟨F, s1, dncClose_mono e1, fun hc => ?_⟩
  have or1 := OR.of_sr sr1
  obtain ⟨F2, s2, scheds, e2, fx2, or2, hph, hmap⟩ := oagPhyla_spec (dirs := dirs) (List.range s1.phys.length) s1 [] fx1.weak hc
    (h.dirs.mono or1.phys) (by simp)
  simp only [List.nil_append] at e2
  have or12 := or1.trans' or2
  have hw2 : SBelow M N s2 := by
    refine oagPhyla_info _ s1 [] (max F2 ((s1.phys.map (·.n)).sum + 1)) s2 scheds fx1.weak (hib.mono or1) (sr1.bound M N hib.bound hw) ?_
      (e2 _ (Nat.le_max_left _ _))
    intro p hp
    have : p.n ≤ (s1.phys.map (·.n)).sum := by
      have : ∀ (l : List Nat) (a : Nat), a ∈ l → a ≤ l.sum := by
        intro l; induction l with
        | nil => intro a ha; cases ha
        | cons b l ih =>
          intro a ha
          rcases List.mem_cons.1 ha with rfl | ha
          · simp
          · have := ih a ha; simp; omega
      exact this _ _ (List.mem_map.2 ⟨p, hp, rfl⟩)
    omega
  by_cases hc2 : stateCycle s2 = 0
  · have fin : ∀ g ∈ s2.augs, Final g s2.phys := fun g hg =>
      ⟨(fx2.inv.augs g hg).wf, (fx2.inv.augs g hg).winv, fx2.done g hg, (fx2.inv.augs g hg).links, fx2.up g hg, fx2.down g hg⟩
    have hins : List.Forall₂ InstsOk s2.augs insts := by
      rw [List.forall₂_iff_get]
      have hl := or12.augs.length_eq
      have hl' := h.insts.length_eq
      refine ⟨by omega, fun i h1 h2 => ?_⟩
      have g2 := List.getElem?_eq_getElem h1
      obtain ⟨g, eg, m⟩ := forall2_get or12.augs g2
      have hi : InstsOk g (insts[i]'h2) := by
        obtain ⟨b, eb, hb⟩ := forall2_get' h.insts eg
        rw [List.getElem?_eq_getElem h2] at eb; cases eb; exact hb
      exact ⟨hi.len.trans m.n.symm, hi.rule, hi.inj, final_tested fx2 or12 h.apart eg g2 m hi.tested⟩
    obtain ⟨F3, gs', ts, ps', e3, z3, l1, l2, hall⟩ := oagAugs_spec s2.augs insts s2.phys fx2.inv.phys (fun g hg => by
      obtain ⟨x, hx⟩ := List.getElem?_of_mem hg
      obtain ⟨g0, eg, m⟩ := forall2_get or12.augs hx
      exact ⟨fin g hg, (h.apart g0 (List.mem_of_getElem? eg)).mono m or12.phys, aug_order fx2 hc2 hg⟩) hins
    refine ⟨max F2 F3, ⟨gs', ps'⟩, scheds, ts, ?_, fun _ => ⟨?_, ?_, ?_, ?_⟩⟩
    · intro f hf
      unfold computeOag
      rw [e2 f (by omega), Res.ok_bind, if_neg (by simpa using hc2), e3 f (by omega)]
      rfl
    · rw [hmap hc2, or1.phys.len]
    · intro x hx
      obtain ⟨p, d, a1, a2, a3, a4, _⟩ := (hph x hx).ph
      obtain ⟨p0, b0, n0, _⟩ := or12.phys.back a1
      refine ⟨p0, d, b0, a2, a3.trans n0, fun i hi => ?_⟩
      rcases a4 i (by rw [n0]; exact hi) with ⟨u, _, v⟩ | ⟨u, v, _⟩
      · exact .inl ⟨u, v⟩
      · exact .inr ⟨u, v⟩
    · rw [l2]; exact or12.augs.length_eq.symm
    · intro x g is t hg his ht
      obtain ⟨g2, eg2, m⟩ := forall2_get' or12.augs hg
      have hlt : x < gs'.length := by rw [l1]; exact (List.getElem?_eq_some_iff.1 eg2).1
      have ho := hall x g2 is gs'[x] t eg2 his (List.getElem?_eq_getElem hlt) ht
      have hn : gs'[x].n = g.n := ho.mono.n.trans m.n
      have hfin := fin g2 (List.mem_of_getElem? eg2)
      have same : ∀ σ i j, i < g.n → j < g.n → (DepUnder gs'[x] σ i j ↔ PathDep g s2.phys σ i j) := by
        intro σ i j hi hj
        rw [ho.same σ i j (by rw [m.n]; exact hi) (by rw [m.n]; exact hj)]
        exact final_pairs fx2 or12 h.apart hg eg2 m hi hj
      refine ⟨gs'[x], ho.order, hn, ?_, ?_, ?_, ?_⟩
      · intro σ i j hi hj hd
        exact (same σ i j hi hj).2 (.single ⟨hi, hj, .inl hd⟩)
      · intro hgd
        exact same_guarded ho.mono ho.same (final_guarded fx2 or12 h.apart hg eg2 m (h.rules x g is hg his) hgd)
      · intro σ l hl p hp sched hs a b ha hb hlt'
        obtain ⟨q, d', c1, _, _, _, c5⟩ := (hph _ hs).ph
        simp only at c1 c5
        obtain ⟨p0, b0, n0, _⟩ := or12.phys.back c1
        rw [hp] at b0; cases b0
        have d2 := c5 a b (by omega) (by omega) hlt'
        obtain ⟨q', eq', hle, _⟩ := hfin.links l (by rw [m.links]; exact hl)
        rw [c1] at eq'; cases eq'
        have hle' : l.1 + q.n ≤ g.n := by rw [← m.n]; exact hle
        exact (same σ _ _ (by omega) (by omega)).2
          (.single ⟨by omega, by omega, .inr ⟨l, hl, q, c1, a, b, by omega, by omega, rfl, rfl, d2⟩⟩)
      · intro l hl hz j
        by_contra hne
        obtain ⟨q', eq', hle, _⟩ := hfin.links l (by rw [m.links]; exact hl)
        have hle' : l.1 + q'.n ≤ g.n := by rw [← m.n]; exact hle
        obtain ⟨p0, b0, n0, _⟩ := or12.phys.back eq'
        have hin := (hib.dir l.2 p0 b0).1
        have hi0 : l.1 + info l.2 < g.n := by omega
        obtain ⟨e, he⟩ := List.exists_mem_of_ne_nil _ hne
        have hj : j < g.n := by
          by_contra hge
          apply hne
          unfold Aug.cell
          rw [List.getElem?_eq_none]
          · rfl
          · rw [ho.wf.len, hn]
            have : g.n * g.n ≤ j * g.n := Nat.mul_le_mul_right _ (by omega)
            omega
        obtain ⟨σ, hσ⟩ := exists_sat (ho.wf.ok j _ (by rw [hn]; exact hj) (by rw [hn]; exact hi0) e he).2.2.1
        have hp := (same σ j _ hj hi0).1 ⟨e, he, hσ⟩
        have hstep : ∃ y, StepDep g s2.phys σ y (l.1 + info l.2) := by
          cases hp with
          | single hs => exact ⟨_, hs⟩
          | tail _ hs => exact ⟨_, hs⟩
        obtain ⟨y, _, _, ⟨e', he', _⟩ | ⟨l', hl', p, hp', a, b, ha, hb, rfl, heq, hne'⟩⟩ := hstep
        · rw [hz y] at he'; cases he'
        · obtain ⟨p1, c1, n1, _⟩ := or12.phys.back hp'
          have hll : l = l' := h.apart g (List.mem_of_getElem? hg) l hl l' hl' p0 p1 b0 c1 (info l.2) b (by omega) (by omega) heq
          subst hll
          have hbb : b = info l.2 := by omega
          subst hbb
          have := hw2.phys l.2 p hp' a _ ha hb
          rw [hib.zero] at this
          exact hne' (le_zero this)
  · refine ⟨F2, s2, scheds, [], ?_, fun hcc => absurd hcc hc2⟩
    intro f hf
    unfold computeOag
    rw [e2 f hf, Res.ok_bind, if_pos hc2]
    rfl

end Aps.Oag
