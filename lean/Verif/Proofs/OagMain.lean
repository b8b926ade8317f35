import Verif.Proofs.OagWeak
import Verif.Props.Oag
import Verif.Props.Dnc
set_option linter.unusedVariables false
/-! The ordered attribute grammar loop. -/
namespace Aps.Oag
open Aps.Dnc Aps.Props

/-! ### orders -/

theorem exists_min (l : List Nat) (r : Nat → Nat → Prop) (hir : ∀ a ∈ l, ¬ r a a)
    (htr : ∀ a ∈ l, ∀ b ∈ l, ∀ c ∈ l, r a b → r b c → r a c) (hne : l ≠ []) : ∃ m ∈ l, ∀ z ∈ l, ¬ r z m := by
  classical
  induction l with
  | nil => exact absurd rfl hne
  | cons a l ih =>
    by_cases hl : l = []
    · subst hl
      refine ⟨a, by simp, fun z hz => ?_⟩
      simp at hz; subst hz; exact hir z (by simp)
    · obtain ⟨m, hm, hmin⟩ := ih (fun x hx => hir x (by simp [hx]))
        (fun x hx y hy z hz => htr x (by simp [hx]) y (by simp [hy]) z (by simp [hz])) hl
      by_cases h : r a m
      · refine ⟨a, by simp, fun z hz hza => ?_⟩
        rcases List.mem_cons.1 hz with rfl | hz
        · exact hir z (by simp) hza
        · exact hmin z hz (htr z (by simp [hz]) a (by simp) m (by simp [hm]) hza h)
      · refine ⟨m, by simp [hm], fun z hz hzm => ?_⟩
        rcases List.mem_cons.1 hz with rfl | hz
        · exact h hzm
        · exact hmin z hz hzm

theorem exists_order (k : Nat) (r : Nat → Nat → Prop) : ∀ (l : List Nat), l.length = k → l.Nodup → (∀ a ∈ l, ¬ r a a) →
    (∀ a ∈ l, ∀ b ∈ l, ∀ c ∈ l, r a b → r b c → r a c) →
    ∃ o : List Nat, (∀ x, x ∈ o ↔ x ∈ l) ∧ o.Nodup ∧ o.Pairwise fun a b => ¬ r b a := by
  induction k with
  | zero =>
    intro l hl _ _ _
    have : l = [] := List.length_eq_zero_iff.1 hl
    subst this
    exact ⟨[], by simp, by simp, by simp⟩
  | succ k ih =>
    intro l hl hnd hir htr
    obtain ⟨m, hm, hmin⟩ := exists_min l r hir htr (by rintro rfl; simp at hl)
    have hsub : ∀ x, x ∈ l.erase m → x ∈ l := fun x hx => List.mem_of_mem_erase hx
    obtain ⟨o, ho, hon, hp⟩ := ih (l.erase m) (by rw [List.length_erase_of_mem hm]; omega) (hnd.erase m)
      (fun a ha => hir a (hsub a ha)) (fun a ha b hb c hc => htr a (hsub a ha) b (hsub b hb) c (hsub c hc))
    refine ⟨m :: o, fun x => ?_, ?_, ?_⟩
    · rw [List.mem_cons, ho]
      by_cases hx : x = m
      · subst hx; simp [hm]
      · rw [List.mem_erase_of_ne hx]; simp [hx]
    · refine List.nodup_cons.2 ⟨fun h => ?_, hon⟩
      exact (hnd.not_mem_erase) ((ho m).1 h)
    · refine List.pairwise_cons.2 ⟨fun b hb => ?_, hp⟩
      exact hmin b (hsub b ((ho b).1 hb))

theorem totalOrder_of_strict {n : Nat} {r : Nat → Nat → Prop} (hir : ∀ a, a < n → ¬ r a a)
    (htr : ∀ a b c, a < n → b < n → c < n → r a b → r b c → r a c) : ∃ o, TotalOrder n r o := by
  obtain ⟨o, h1, h2, h3⟩ := exists_order n r (List.range n) (by simp) List.nodup_range
    (fun a ha => hir a (List.mem_range.1 ha))
    (fun a ha b hb c hc => htr a b c (List.mem_range.1 ha) (List.mem_range.1 hb) (List.mem_range.1 hc))
  refine ⟨o, fun i => by rw [h1, List.mem_range], h2, ?_⟩
  rintro pre i post rfl j hj hd
  have := (h1 j).2 (List.mem_range.2 hj)
  rcases List.mem_append.1 this with h | h
  · exact h
  · exfalso
    rcases List.mem_cons.1 h with rfl | h
    · exact hir j hj hd
    · exact (List.pairwise_cons.1 (List.pairwise_append.1 h3).2.1).1 j h hd

/-! ### the graphs of a state without cycles -/

theorem depUnder_iff {g : Aug} (w : GWf g) {σ : Nat → Bool} {i j : Nat} (hi : i < g.n) (hj : j < g.n) :
    DepUnder g σ i j ↔ kindAt σ (g.cell i j) ≠ 0 := by
  rw [dep_ne_zero]
  constructor
  · rintro ⟨e, he, hs⟩
    obtain ⟨b, hb⟩ := dep_ne_zero.1 (w.ok i j hi hj e he).2.2.2
    exact ⟨b, kindAt_bit.2 ⟨e, he, hs, hb⟩⟩
  · rintro ⟨b, hb⟩
    obtain ⟨e, he, hs, _⟩ := kindAt_bit.1 hb
    exact ⟨e, he, hs⟩

theorem depUnder_trans {g : Aug} (w : GWf g) (h : WInv g) (he : g.wl.list = []) {σ : Nat → Bool} {i k j : Nat}
    (hi : i < g.n) (hk : k < g.n) (hj : j < g.n) (h1 : DepUnder g σ i k) (h2 : DepUnder g σ k j) : DepUnder g σ i j := by
  rw [depUnder_iff w hi hk] at h1
  rw [depUnder_iff w hk hj] at h2
  rw [depUnder_iff w hi hj]
  exact le_ne_zero (closed_of_winv w h he σ i k j hi hk hj) (trans_ne_zero h1 h2)

theorem cycle_phy {s : State} (h : stateCycle s = 0) {p : Phy} (hp : p ∈ s.phys) {j : Nat} (hj : j < p.n) : mget p.n p.m j j = 0 := by
  by_contra hne
  obtain ⟨b, hb⟩ := dep_ne_zero.1 hne
  have := (C22_report s b).2 (.inl ⟨p, hp, j, hj, hb⟩)
  rw [h] at this; simp at this

theorem cycle_aug {s : State} (h : stateCycle s = 0) {g : Aug} (hg : g ∈ s.augs) (w : GWf g) {σ : Nat → Bool} {j : Nat} (hj : j < g.n) :
    ¬ DepUnder g σ j j := by
  rintro ⟨e, he, _⟩
  obtain ⟨b, hb⟩ := dep_ne_zero.1 (w.ok j j hj hj e he).2.2.2
  have := (C22_report s b).2 (.inr ⟨g, hg, j, hj, e, he, hb⟩)
  rw [h] at this; simp at this

theorem aug_order {s : State} (hx : SFix0 s) (h : stateCycle s = 0) {g : Aug} (hg : g ∈ s.augs) (σ : Nat → Bool) :
    ∃ o, TotalOrder g.n (DepUnder g σ) o := by
  have hi := hx.inv.augs g hg
  exact totalOrder_of_strict (fun a ha => cycle_aug h hg hi.wf ha)
    (fun a b c ha hb hc => depUnder_trans hi.wf hi.winv (hx.done g hg) ha hb hc)

theorem phy_order {s : State} (hx : SFix0 s) (h : stateCycle s = 0) {p : Phy} (hp : p ∈ s.phys) :
    ∃ o, TotalOrder p.n (Depends p.n p.m) o := by
  refine totalOrder_of_strict (fun a ha hd => hd (cycle_phy h hp ha)) ?_
  intro a b c ha hb hc h1 h2
  exact le_ne_zero (hx.closed p hp a b c ha hb hc) (trans_ne_zero h1 h2)

/-! ### scheduling one phylum -/

theorem sumLoop_mono {n : Nat} {dirs : List Dir} {f : Nat} {ph : Nat} {st r : SumSt} (h : sumLoop n dirs f ph st = .ok r) :
    ∀ f', f ≤ f' → sumLoop n dirs f' ph st = .ok r := by
  induction f generalizing ph st with
  | zero => simp [sumLoop] at h
  | succ f ih =>
    intro f' hf'
    obtain ⟨f'', rfl⟩ := Nat.exists_eq_add_of_le' (show 1 ≤ f' by omega)
    rw [sumLoop] at h ⊢
    by_cases h1 : st.done < n
    · rw [if_pos h1] at h ⊢
      simp only at h ⊢
      by_cases h2 : (sumPhase n dirs (ph + 1) st).localDone = 0
      · rw [if_pos h2] at h; cases h
      · rw [if_neg h2] at h ⊢
        exact ih h f'' (by omega)
    · rw [if_neg h1] at h ⊢; exact h

theorem scheduleSummary_mono {n : Nat} {dirs : List Dir} {f : Nat} {m : List Dep} {r} (h : scheduleSummary f n dirs m = .ok r) :
    ∀ f', f ≤ f' → scheduleSummary f' n dirs m = .ok r := by
  intro f' hf
  unfold scheduleSummary at h ⊢
  rw [Res.bind_eq_ok] at h
  obtain ⟨st, h1, h2⟩ := h
  rw [sumLoop_mono h1 f' hf, Res.ok_bind]
  exact h2

/-- summaries only get more pairs -/
structure NzLe (ps ps' : List Phy) : Prop where
  len : ps'.length = ps.length
  le : ∀ (i : Nat) p, ps[i]? = some p → ∃ p', ps'[i]? = some p' ∧ p'.n = p.n ∧ p'.attrs = p.attrs ∧ p'.isFunc = p.isFunc ∧
    ∀ a b, a < p.n → b < p.n → mget p.n p.m a b ≠ 0 → mget p.n p'.m a b ≠ 0

theorem NzLe.of_le {ps ps' : List Phy} (h : PsLe ps ps') : NzLe ps ps' :=
  ⟨h.len, fun i p e => by
    obtain ⟨p', e', l⟩ := h.le i p e
    exact ⟨p', e', l.n, l.attrs, l.isFunc, fun a b ha hb => le_ne_zero (l.m.le a b ha hb)⟩⟩

theorem NzLe.refl (ps : List Phy) : NzLe ps ps := NzLe.of_le (PsLe.refl ps)

theorem NzLe.trans' {a b c : List Phy} (h1 : NzLe a b) (h2 : NzLe b c) : NzLe a c := by
  refine ⟨h2.len.trans h1.len, fun i p e => ?_⟩
  obtain ⟨p', e', x1, x2, x3, x4⟩ := h1.le i p e
  obtain ⟨p'', e'', y1, y2, y3, y4⟩ := h2.le i p' e'
  rw [x1] at y1 y4
  exact ⟨p'', e'', y1, y2.trans x2, y3.trans x3, fun u v hu hv h => y4 u v hu hv (x4 u v hu hv h)⟩

theorem NzLe.back {ps ps' : List Phy} (h : NzLe ps ps') {i : Nat} {p' : Phy} (e' : ps'[i]? = some p') :
    ∃ p, ps[i]? = some p ∧ p'.n = p.n ∧ p'.attrs = p.attrs ∧ p'.isFunc = p.isFunc ∧
    ∀ a b, a < p.n → b < p.n → mget p.n p.m a b ≠ 0 → mget p.n p'.m a b ≠ 0 := by
  have hlt : i < ps.length := by rw [← h.len]; exact (List.getElem?_eq_some_iff.1 e').1
  obtain ⟨p'', e'', l⟩ := h.le _ _ (List.getElem?_eq_getElem hlt)
  rw [e'] at e''; cases e''
  exact ⟨_, List.getElem?_eq_getElem hlt, l⟩

/-- the state after scheduling phylum `j` -/
def withSummary (s : State) (j : Nat) (p : Phy) (m : List Dep) : State := { s with phys := s.phys.set j { p with m := m } }

theorem withSummary_get {s : State} {j : Nat} {p : Phy} {m : List Dep} (hp : s.phys[j]? = some p) :
    (withSummary s j p m).phys[j]? = some { p with m := m } := by
  simp [withSummary, List.getElem?_set_self (List.getElem?_eq_some_iff.1 hp).1]

theorem withSummary_nz {s : State} {j : Nat} {p : Phy} {m : List Dep} (hp : s.phys[j]? = some p)
    (h : ∀ a b, a < p.n → b < p.n → mget p.n p.m a b ≠ 0 → mget p.n m a b ≠ 0) : NzLe s.phys (withSummary s j p m).phys := by
  refine ⟨by simp [withSummary], fun i q hq => ?_⟩
  by_cases hij : j = i
  · subst hij
    rw [hp] at hq; cases hq
    exact ⟨{ p with m := m }, by simp [withSummary, List.getElem?_set_self (List.getElem?_eq_some_iff.1 hp).1], rfl, rfl, rfl, h⟩
  · exact ⟨q, by simp [withSummary, List.getElem?_set_ne hij, hq], rfl, rfl, rfl, fun _ _ _ _ h => h⟩

theorem withSummary_inv {s : State} (hx : SFix0 s) {j : Nat} {p : Phy} {m : List Dep} (hp : s.phys[j]? = some p)
    (hl : m.length = p.n * p.n) (h : ∀ a b, a < p.n → b < p.n → mget p.n p.m a b ≠ 0 → mget p.n m a b ≠ 0) :
    SInv0 (withSummary s j p m) := by
  have hlt := (List.getElem?_eq_some_iff.1 hp).1
  constructor
  · intro g hg
    have hi := hx.inv.augs g hg
    refine ⟨hi.wf, hi.winv, fun l hl' => ?_, fun he l hl' => ?_⟩
    · obtain ⟨q, e, h1, h2⟩ := hi.links l hl'
      by_cases hij : j = l.2
      · rw [← hij, hp] at e; cases e
        exact ⟨{ p with m := m }, hij ▸ withSummary_get hp, h1, h2⟩
      · exact ⟨q, by simp [withSummary, List.getElem?_set_ne hij, e], h1, h2⟩
    · intro q e a b ha hb
      by_cases hij : j = l.2
      · have : q = { p with m := m } := by
          have hh : (withSummary s j p m).phys[l.2]? = some { p with m := m } := hij ▸ withSummary_get hp
          rw [hh] at e; exact (Option.some.inj e).symm
        subst this
        simp only at ha hb
        rw [hij] at hp
        have hup := hx.up g hg l hl' p hp
        have hdn := hx.down g hg l hl' p hp a b ha hb
        refine ⟨fun hf hk => h a b ha hb (le_ne_zero (hup hf a b ha hb) hk), fun hne => ?_⟩
        by_cases h0 : mget p.n p.m a b = 0
        · right
          cases hf : p.isFunc with
          | true => exact .inl rfl
          | false =>
            right
            have hle := hup hf a b ha hb
            rw [h0] at hle
            have : indirect (edgesetKind (g.cell (l.1 + a) (l.1 + b))) = 0 := by
              by_contra hk; exact le_ne_zero hle hk rfl
            rw [this]; exact Le.zero _
        · exact .inl (hdn h0)
      · have e' : s.phys[l.2]? = some q := by
          have : (withSummary s j p m).phys[l.2]? = s.phys[l.2]? := by simp [withSummary, List.getElem?_set_ne hij]
          rw [← this]; exact e
        exact (hx.up g hg l hl').weak q e' a b ha hb
  · intro q hq
    rcases List.mem_or_eq_of_mem_set hq with h' | rfl
    · exact hx.inv.phys q h'
    · exact hl

/-! ### all phyla -/

/-- phase numbers for a phylum that agree with directions and whose order the summary knows -/
structure Phased (s : State) (dirs : List (List Dir)) (x : Nat × List Int) : Prop where
  ph : ∃ p d, s.phys[x.1]? = some p ∧ dirs[x.1]? = some d ∧ x.2.length = p.n ∧
    (∀ i, i < p.n → (d[i]? = some .inward ∧ -(p.n : Int) ≤ sget x.2 i ∧ sget x.2 i < 0) ∨
      (d[i]? = some .outward ∧ 0 < sget x.2 i ∧ sget x.2 i ≤ p.n)) ∧
    ∀ a b, a < p.n → b < p.n → place (sget x.2 a) < place (sget x.2 b) → mget p.n p.m a b ≠ 0

theorem Phased.mono {s s' : State} {dirs : List (List Dir)} {x : Nat × List Int} (h : Phased s dirs x) (hn : NzLe s.phys s'.phys) :
    Phased s' dirs x := by
  obtain ⟨p, d, e1, e2, e3, e4, e5⟩ := h.ph
  obtain ⟨p', e', x1, _, _, x4⟩ := hn.le _ _ e1
  refine ⟨p', d, e', e2, by rw [x1]; exact e3, by rw [x1]; exact e4, ?_⟩
  intro a b ha hb hlt
  rw [x1] at ha hb ⊢
  exact x4 a b ha hb (e5 a b ha hb hlt)

/-- every attribute of every phylum is inherited or synthesised -/
def Directed (dirs : List (List Dir)) (s : State) : Prop :=
  ∀ (j : Nat) p, s.phys[j]? = some p → ∃ d, dirs[j]? = some d ∧ ∀ i, i < p.n → d[i]? = some .inward ∨ d[i]? = some .outward

theorem Directed.mono {dirs : List (List Dir)} {s s' : State} (h : Directed dirs s) (hn : NzLe s.phys s'.phys) : Directed dirs s' := by
  intro j p' e'
  obtain ⟨p, e, x1, _⟩ := hn.back e'
  obtain ⟨d, ed, hd⟩ := h j p e
  exact ⟨d, ed, fun i hi => hd i (by rw [← x1]; exact hi)⟩

/-- the relation between the states before and after -/
structure OR (s s' : State) : Prop where
  augs : List.Forall₂ Mono s.augs s'.augs
  phys : NzLe s.phys s'.phys
  bound : ∀ M N, SBound M N s → SBelow M N s → (∀ (i : Nat) p, s'.phys[i]? = some p → ∀ a b, a < p.n → b < p.n →
    mget p.n p.m a b ≠ 0 → N i a b = BitVec.allOnes 32) → SBelow M N s'

theorem le_allOnes (a : Dep) : Le a (BitVec.allOnes 32) := by
  intro i hi
  rw [BitVec.getLsbD_allOnes]
  simp only [decide_eq_true_eq]
  by_contra hc
  rw [BitVec.getLsbD_of_ge _ _ (by omega)] at hi; cases hi

theorem SBound.nz {M N} {s s' : State} (h : SBound M N s) (ha : List.Forall₂ Mono s.augs s'.augs) (hp : NzLe s.phys s'.phys) : SBound M N s' := by
  constructor
  · intro i g hg
    obtain ⟨g0, e0, m⟩ := forall2_get ha hg
    have := h.augs i g0 e0
    refine ⟨by rw [m.n]; exact this.closed, fun l hl => ?_⟩
    rw [m.links] at hl
    intro p' e' a b hab hbb
    obtain ⟨p, e, x1, _, x3, _⟩ := hp.back e'
    rw [x1] at hab hbb
    rw [x3]
    exact this.links l hl p e a b hab hbb
  · intro i p' e'
    obtain ⟨p, e, x1, _⟩ := hp.back e'
    rw [x1]; exact h.phys i p e

theorem OR.refl (s : State) : OR s s := ⟨forall2_refl Mono.refl _, NzLe.refl _, fun _ _ _ h _ => h⟩

theorem OR.trans' {a b c : State} (h1 : OR a b) (h2 : OR b c) : OR a c := by
  refine ⟨forall2_trans (fun _ _ _ x y => x.trans' y) h1.augs h2.augs, h1.phys.trans' h2.phys, ?_⟩
  intro M N hB hW hN
  refine h2.bound M N (SBound.nz hB h1.augs h1.phys) (h1.bound M N hB hW ?_) hN
  intro i p hp u v hu hv hne
  obtain ⟨p', e', x1, _, _, x4⟩ := h2.phys.le i p hp
  refine hN i p' e' u v (by rw [x1]; exact hu) (by rw [x1]; exact hv) ?_
  rw [x1]; exact x4 u v hu hv hne

theorem OR.of_sr {s s' : State} (h : SR s s') : OR s s' := ⟨h.augs, NzLe.of_le h.phys, fun M N hB hW _ => h.bound M N hB hW⟩

theorem withSummary_or {s : State} {j : Nat} {p : Phy} {m : List Dep} (hp : s.phys[j]? = some p)
    (h : ∀ a b, a < p.n → b < p.n → mget p.n p.m a b ≠ 0 → mget p.n m a b ≠ 0) : OR s (withSummary s j p m) := by
  refine ⟨forall2_refl Mono.refl _, withSummary_nz hp h, ?_⟩
  intro M N hB hW hN
  refine ⟨hW.augs, fun i q hq a b ha hb => ?_⟩
  by_cases h0 : mget q.n q.m a b = 0
  · rw [h0]; exact Le.zero _
  · rw [hN i q hq a b ha hb h0]; exact le_allOnes _

theorem oagPhyla_spec {dirs : List (List Dir)} : ∀ (js : List Nat) (s : State) (acc : List (Nat × List Int)), SFix0 s →
    stateCycle s = 0 → Directed dirs s → (∀ j ∈ js, j < s.phys.length) →
    ∃ F s' new, (∀ f, F ≤ f → oagPhyla f dirs js s acc = .ok (s', acc ++ new)) ∧ SFix0 s' ∧ OR s s' ∧
      (∀ x ∈ new, Phased s' dirs x) ∧ (stateCycle s' = 0 → new.map (·.1) = js)
  | [], s, acc, hx, hc, hd, hj => ⟨0, s, [], fun f _ => by simp [oagPhyla], hx, OR.refl s, by simp, by simp⟩
  | j :: js, s, acc, hx, hc, hd, hj => by
    have hlt := hj j (by simp)
    obtain ⟨p, hp⟩ : ∃ p, s.phys[j]? = some p := ⟨_, List.getElem?_eq_getElem hlt⟩
    have hpm := List.mem_of_getElem? hp
    obtain ⟨d, ed, hdd⟩ := hd j p hp
    have hpw : p.m.length = p.n * p.n := hx.inv.phys p hpm
    obtain ⟨⟨m', sched⟩, hr⟩ := (C25_succeeds_iff (fuel := p.n + 1) hpw (by omega)).1.2 ⟨hdd, phy_order hx hc hpm⟩
    obtain ⟨c1, c2, c3, _, c5, c6⟩ := C25_schedule hpw (by omega) hr
    have hnz : ∀ a b, a < p.n → b < p.n → mget p.n p.m a b ≠ 0 → mget p.n m' a b ≠ 0 :=
      fun a b ha hb h => (c6 b a hb ha).2 (.inl h)
    have or1 := withSummary_or hp hnz
    obtain ⟨f1, s1, e1, fx1, sr1⟩ := dncClose_total0 _ (withSummary_inv hx hp c5 hnz)
    have or2 := or1.trans' (OR.of_sr sr1)
    have ph0 : Phased (withSummary s j p m') dirs (j, sched) := by
      refine ⟨{ p with m := m' }, d, by simp [withSummary, List.getElem?_set_self hlt], ed, c1, c2, ?_⟩
      intro a b ha hb hab
      exact (c6 b a hb ha).2 (.inr hab)
    have ph1 : Phased s1 dirs (j, sched) := ph0.mono (NzLe.of_le sr1.phys)
    have step : ∀ f, max (p.n + 1) f1 ≤ f → oagPhyla f dirs (j :: js) s acc =
        if stateCycle s1 ≠ 0 then .ok (s1, acc ++ [(j, sched)]) else oagPhyla f dirs js s1 (acc ++ [(j, sched)]) := by
      intro f hf
      rw [oagPhyla, hp, ed]
      simp only
      rw [scheduleSummary_mono hr f (by omega), Res.ok_bind]
      have e1' : dncClose f { s with phys := s.phys.set j { p with m := m' } } = .ok s1 := dncClose_mono e1 f (by omega)
      simp only
      rw [e1', Res.ok_bind]
      split <;> rfl
    by_cases hc1 : stateCycle s1 = 0
    · obtain ⟨F, s', new, hrun, fx', or', hph, hmap⟩ := oagPhyla_spec js s1 (acc ++ [(j, sched)]) fx1 hc1 (hd.mono or2.phys)
        (fun x hxj => by rw [or2.phys.len]; exact hj x (by simp [hxj]))
      refine ⟨max F (max (p.n + 1) f1), s', (j, sched) :: new, ?_, fx', or2.trans' or', ?_, ?_⟩
      · intro f hf
        rw [step f (by omega), if_neg (by simpa using hc1), hrun f (by omega)]
        simp
      · intro x hxm
        rcases List.mem_cons.1 hxm with rfl | hxm
        · exact ph1.mono or'.phys
        · exact hph x hxm
      · intro h0
        simp [hmap h0]
    · refine ⟨max (p.n + 1) f1, s1, [(j, sched)], ?_, fx1, or2, ?_, fun h => absurd h hc1⟩
      · intro f hf
        rw [step f hf, if_pos hc1]
      · intro x hxm
        simp only [List.mem_singleton] at hxm; subst hxm; exact ph1

end Aps.Oag
