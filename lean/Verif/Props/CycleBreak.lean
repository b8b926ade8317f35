import Verif.Proofs.CycleAug
import Verif.Props.Cycle
import Mathlib.Logic.Relation
import Mathlib.Data.Finset.Card
import Mathlib.Data.Finset.Range
/-!
# C49: breaking fiber cycles (analyze/aps-cycle.c)
-/
set_option linter.unusedVariables false
namespace Aps.Props
open Aps.Dnc Aps.Cycle

/-- Two instances of one cycle class: each depends on itself, and mutual dependencies and occurrences of summary
instances in augmented graphs connect them. -/
def Mates (s : State) (x y : Inst) : Prop := x.selfDep s ∧ y.selfDep s ∧ Relation.EqvGen (Together s) x y

/-- What breaking cycles does to the dependencies `D` of a graph whose classes are `mate`: inside a class only the pairs
`keep` stay dependent, with everything that the source had inside its class; anything else is spread uniformly over the
members of the classes. -/
def Broken (keep mate : Nat → Nat → Prop) (n : Nat) (D D' : Nat → Nat → Dep) : Prop :=
  ∀ a b, a < n → b < n → ∀ t, (D' a b).getLsbD t = true ↔
    (mate a b ∧ keep a b ∧ ∃ l, l < n ∧ mate a l ∧ (D a l).getLsbD t = true) ∨
    (¬ mate a b ∧ ∃ a' b', a' < n ∧ b' < n ∧ (a' = a ∨ mate a a') ∧ (b' = b ∨ mate b b') ∧ (D a' b').getLsbD t = true)

/-- the instance is UP (`up` says it of the fibered attributes) -/
def isUp (up : Nat → Bool) (attrs : List Nat) (k : Nat) : Prop := ∃ a, attrs[k]? = some a ∧ up a = true

theorem upOf_iff (up : Nat → Bool) (attrs : List Nat) (k : Nat) : upOf attrs up k = true ↔ isUp up attrs k := by
  unfold upOf isUp
  cases h : attrs[k]? <;> simp

theorem broken_of_passed {keep keep' mate : Nat → Nat → Prop} {n : Nat} {D D' : Nat → Nat → Dep} {cl : List (Nat → Bool)}
    (h : Passed keep n D cl D') (hm : ∀ a b, a < n → b < n → ((∃ c ∈ cl, c a = true ∧ c b = true) ↔ mate a b))
    (hk : ∀ a b, keep a b ↔ keep' a b)
    (huniq : ∀ c ∈ cl, ∀ d ∈ cl, ∀ x, c x = true → d x = true → c = d) : Broken keep' mate n D D' := by
  intro a b ha hb t
  rw [h a b ha hb t]
  have same : ∀ x y, x < n → y < n → (SameC cl x y ↔ (y = x ∨ mate x y)) := by
    intro x y hx hy
    unfold SameC; rw [hm x y hx hy, eq_comm]
  constructor
  · rintro (⟨c, hc, h1, h2, h3, l, hl, hcl, hb'⟩ | ⟨h1, a', b', ha', hb', s1, s2, hbit⟩)
    · exact .inl ⟨(hm a b ha hb).1 ⟨c, hc, h1, h2⟩, (hk a b).1 h3, l, hl, (hm a l ha hl).1 ⟨c, hc, h1, hcl⟩, hb'⟩
    · refine .inr ⟨fun hmt => ?_, a', b', ha', hb', (same _ _ ha ha').1 s1, (same _ _ hb hb').1 s2, hbit⟩
      obtain ⟨c, hc, hx⟩ := (hm a b ha hb).2 hmt
      exact h1 c hc hx
  · rintro (⟨h1, h2, l, hl, h3, hbit⟩ | ⟨h1, a', b', ha', hb', s1, s2, hbit⟩)
    · obtain ⟨c, hc, c1, c2⟩ := (hm a b ha hb).2 h1
      obtain ⟨d, hd, d1, d2⟩ := (hm a l ha hl).2 h3
      have := huniq c hc d hd a c1 d1; subst this
      exact .inl ⟨c, hc, c1, c2, (hk a b).2 h2, l, hl, d2, hbit⟩
    · exact .inr ⟨fun c hc hx => h1 ((hm a b ha hb).1 ⟨c, hc, hx⟩), a', b', ha', hb', (same _ _ ha ha').2 s1, (same _ _ hb hb').2 s2, hbit⟩

/-- C49: after a completed DNC closure, finding and breaking the cycles never fails. In every summary graph and every
augmented graph the dependencies inside a cycle class are exactly those from UP to DOWN members (UP_DOWN, `dir` true;
for DOWN_UP: none in summary graphs, DOWN to UP in augmented graphs), and every other dependency is kept and spread over
all the members of the class of its source and of its sink. In augmented graphs dependencies that are not inside a
class never get weaker, under any assignment of the conditions, and those that touch no class do not change. -/
theorem C49_pass (ord dir : Bool) (up : Nat → Bool) (s0 s : State) (h0 : DncStart s0) (f : Nat) (hr : dncClose f s0 = .ok s) :
    ∃ P P' cs s', makeCycles ord s = .ok P ∧ fiberCycles s P = .ok (P', cs) ∧ addUpDown dir P' up cs s = .ok s' ∧
      s'.phys.length = s.phys.length ∧ s'.augs.length = s.augs.length ∧
      (∀ (i : Nat) p, s.phys[i]? = some p → ∃ p', s'.phys[i]? = some p' ∧ p'.n = p.n ∧ p'.attrs = p.attrs ∧
        Broken (fun a b => dir = true ∧ isUp up p.attrs a ∧ ¬ isUp up p.attrs b) (fun a b => Mates s (.phy i a) (.phy i b)) p.n
          (mget p.n p.m) (mget p.n p'.m)) ∧
      (∀ (i : Nat) g, s.augs[i]? = some g → ∃ g', s'.augs[i]? = some g' ∧ g'.n = g.n ∧ g'.attrs = g.attrs ∧ g'.links = g.links ∧
        Broken (fun a b => (isUp up g.attrs a ↔ dir = true) ∧ (isUp up g.attrs b ↔ dir = false)) (fun a b => Mates s (.aug i a) (.aug i b)) g.n
          (fun a b => edgesetKind (g.cell a b)) (fun a b => edgesetKind (g'.cell a b)) ∧
        (∀ a b, a < g.n → b < g.n → ¬ Mates s (.aug i a) (.aug i b) → ∀ σ, Le (kindAt σ (g.cell a b)) (kindAt σ (g'.cell a b))) ∧
        (∀ a b, a < g.n → b < g.n → ¬ (Inst.aug i a).selfDep s → ¬ (Inst.aug i b).selfDep s → g'.cell a b = g.cell a b)) := by
  obtain ⟨f2, s', e, fx, r⟩ := dncClose_total s0 h0.inv
  have e1 := dncClose_mono e (max f f2) (Nat.le_max_right _ _)
  rw [dncClose_mono hr (max f f2) (Nat.le_max_left _ _)] at e1
  cases e1
  have hw : ∀ g ∈ s.augs, GWf g := fun g hg => (fx.inv.augs g hg).wf
  obtain ⟨P, P', cs, eP, eC, hnd, hdead, hlive, hcyc⟩ := C28_fiber_cycles ord s0 s h0 f hr
  obtain ⟨s', eS, sp, -, -⟩ := addUpDown_spec (dir := dir) (P := P') (up := up) cs (s0 := s) (s := s) [] (by simpa using hnd)
    (fun g hg => GW.of_wf (hw g hg)) (fun p hp => fx.inv.phys p hp) (StPass.init (fun g hg => GW.of_wf (hw g hg)) (fun p hp => fx.inv.phys p hp))
  rw [List.nil_append] at sp
  refine ⟨P, P', cs, s', eP, eC, eS, sp.plen, sp.alen, ?_, ?_⟩
  all_goals
    have tot : (starts (s.phys.map (·.n)) 0).2 = (s.phys.map (·.n)).sum := by rw [starts_total]; omega
    -- membership of a class, by the number of the instance
    have mem : ∀ x y : Inst, x.valid s → y.valid s →
        ((∃ c ∈ cs, P'[x.num s]? = some (some c.root) ∧ P'[y.num s]? = some (some c.root)) ↔ Mates s x y) := by
      intro x y hx hy
      constructor
      · rintro ⟨c, hc, h1, h2⟩
        have hsx : x.selfDep s := by
          by_contra hn; rw [hdead x hx hn] at h1; cases h1
        have hsy : y.selfDep s := by
          by_contra hn; rw [hdead y hy hn] at h2; cases h2
        obtain ⟨d, hd, k1, k2⟩ := hlive x hx hsx
        rw [k1] at h1
        simp only [Option.some.injEq] at h1
        rw [← h1] at h2
        exact ⟨hsx, hsy, (k2 y hy hsy).1 h2⟩
      · rintro ⟨hsx, hsy, hg⟩
        obtain ⟨d, hd, k1, k2⟩ := hlive x hx hsx
        exact ⟨d, hd, k1, (k2 y hy hsy).2 hg⟩
    have uniq : ∀ b, ∀ c ∈ classes P' b cs, ∀ d ∈ classes P' b cs, ∀ x, c x = true → d x = true → c = d := by
      rintro b c hc d hd x h1 h2
      obtain ⟨c', -, rfl⟩ := List.mem_map.1 hc
      obtain ⟨d', -, rfl⟩ := List.mem_map.1 hd
      simp only [inClass, beq_iff_eq] at h1 h2
      rw [h1] at h2
      simp only [Option.some.injEq] at h2
      rw [h2]
  · intro i p hp
    have hi := (List.getElem?_eq_some_iff.1 hp).1
    have hb : (layout s).phy[i]? = some ((s.phys.take i).map (·.n)).sum := by
      have := starts_get (ns := s.phys.map (·.n)) (i := i) (by simpa using hi) 0
      simp only [layout]; rw [this, List.map_take, Nat.zero_add]
    obtain ⟨p', e', pp⟩ := sp.phy i p _ hp hb
    refine ⟨p', e', pp.n, pp.attrs, broken_of_passed pp.cells ?_ ?_ (uniq _)⟩
    · intro a b ha hb
      rw [← mem (.phy i a) (.phy i b) ⟨p, hp, ha⟩ ⟨p, hp, hb⟩]
      simp [classes, inClass, Inst.num]
    · intro a b
      unfold phyKeep
      rw [← upOf_iff, ← upOf_iff]; simp
  · intro i g hg
    have hi := (List.getElem?_eq_some_iff.1 hg).1
    have hb : (layout s).aug[i]? = some ((s.phys.map (·.n)).sum + ((s.augs.take i).map (·.n)).sum) := by
      have := starts_get (ns := s.augs.map (·.n)) (i := i) (by simpa using hi) (s.phys.map (·.n)).sum
      simp only [layout]; rw [tot, this, List.map_take]
    obtain ⟨g', e', pp⟩ := sp.aug i g _ hg hb
    have hcl : ∀ a b, a < g.n → b < g.n → ((∃ c ∈ classes P' ((s.phys.map (·.n)).sum + ((s.augs.take i).map (·.n)).sum) cs, c a = true ∧ c b = true) ↔
        Mates s (.aug i a) (.aug i b)) := by
      intro a b ha hb
      rw [← mem (.aug i a) (.aug i b) ⟨g, hg, ha⟩ ⟨g, hg, hb⟩]
      simp [classes, inClass, Inst.num]
    refine ⟨g', e', pp.shape.n, pp.shape.attrs, pp.shape.links, broken_of_passed pp.cells hcl ?_ (uniq _), ?_, ?_⟩
    · intro a b
      unfold augKeep
      rw [← upOf_iff, ← upOf_iff]
      cases dir <;> cases upOf g.attrs up a <;> cases upOf g.attrs up b <;> simp
    · intro a b ha hb hm σ
      exact pp.grows a b ha hb (fun c hc hx => hm ((hcl a b ha hb).1 ⟨c, hc, hx⟩)) σ
    · intro a b ha hb h1 h2
      refine pp.out a b ha hb (fun c hc => ?_)
      have none : ∀ x, x < g.n → ¬ (Inst.aug i x).selfDep s → c x = false := by
        intro x hx hn
        cases hcx : c x with
        | false => rfl
        | true => exact absurd ((hcl x x hx hx).1 ⟨c, hc, hcx, hcx⟩).1 hn
      exact ⟨none a ha h1, none b hb h2⟩

/-! ## no cycle is left -/

/-- nothing depends on itself, directly or through others -/
def Acyclic (n : Nat) (D : Nat → Nat → Dep) : Prop :=
  ∀ a, ¬ Relation.TransGen (fun x y => x < n ∧ y < n ∧ D x y ≠ 0) a a

/-- C49: breaking leaves no cycle in a graph whose classes can be put in order: some rank is the same on the members of
a class and grows along every dependency that is not inside a class. -/
theorem C49_acyclic_of_order {keep mate : Nat → Nat → Prop} {n : Nat} {D D' : Nat → Nat → Dep} (h : Broken keep mate n D D')
    (lv : Nat → Prop) (hk : ∀ a b, keep a b → lv a ∧ ¬ lv b)
    (rank : Nat → Nat) (h1 : ∀ a b, a < n → b < n → mate a b → rank a = rank b)
    (h2 : ∀ a b, a < n → b < n → ¬ mate a b → D a b ≠ 0 → rank a < rank b) (ht : ∀ a b c, mate a b → mate b c → mate a c) (hs : ∀ a b, mate a b → mate b a) :
    Acyclic n D' := by
  classical
  have up : ∀ x y, x < n ∧ y < n ∧ D' x y ≠ 0 →
      2 * rank x + (if lv x then 0 else 1) < 2 * rank y + (if lv y then 0 else 1) := by
    rintro x y ⟨hx, hy, hd⟩
    obtain ⟨t, ht'⟩ := dep_ne_zero.1 hd
    rcases (h x y hx hy t).1 ht' with ⟨hm, hkp, -⟩ | ⟨hm, a', b', ha', hb', s1, s2, hb⟩
    · have := h1 x y hx hy hm
      obtain ⟨k1, k2⟩ := hk x y hkp
      simp [k1, k2]; omega
    · have hne : D a' b' ≠ 0 := dep_ne_zero.2 ⟨t, hb⟩
      have ra : rank x = rank a' := by
        rcases s1 with rfl | s
        · rfl
        · exact h1 _ _ hx ha' s
      have rb : rank y = rank b' := by
        rcases s2 with rfl | s
        · rfl
        · exact h1 _ _ hy hb' s
      have hm' : ¬ mate a' b' := by
        intro hm'
        apply hm
        have m1 : mate x b' := by
          rcases s1 with rfl | s
          · exact hm'
          · exact ht _ _ _ s hm'
        rcases s2 with rfl | s
        · exact m1
        · exact ht _ _ _ m1 (hs _ _ s)
      have := h2 a' b' ha' hb' hm' hne
      split <;> split <;> omega
  intro a ha
  have : ∀ x y, Relation.TransGen (fun x y => x < n ∧ y < n ∧ D' x y ≠ 0) x y →
      2 * rank x + (if lv x then 0 else 1) < 2 * rank y + (if lv y then 0 else 1) := by
    intro x y hxy
    induction hxy with
    | single h => exact up _ _ h
    | tail _ h ih => exact lt_trans ih (up _ _ h)
  exact lt_irrefl _ (this a a ha)

theorem Mates.symm {s : State} {x y : Inst} (h : Mates s x y) : Mates s y x := ⟨h.2.1, h.1, h.2.2.symm⟩
theorem Mates.trans {s : State} {x y z : Inst} (h : Mates s x y) (k : Mates s y z) : Mates s x z := ⟨h.1, k.2.1, h.2.2.trans _ _ _ k.2.2⟩

/-- C49: in a summary graph no cycle at all is left, provided the class of an instance has no other members there than the
instances that it depends on and that depend on it. -/
theorem C49_summary_acyclic (s0 s : State) (h0 : DncStart s0) (f : Nat) (hr : dncClose f s0 = .ok s) (i : Nat) (p : Phy) (hp : s.phys[i]? = some p)
    (hm : ∀ a b, a < p.n → b < p.n → Mates s (.phy i a) (.phy i b) → mget p.n p.m a b ≠ 0 ∧ mget p.n p.m b a ≠ 0)
    (ord dir : Bool) (up : Nat → Bool) (P P' : Par) (cs : List Cyc) (s' : State) (eP : makeCycles ord s = .ok P)
    (eC : fiberCycles s P = .ok (P', cs)) (eS : addUpDown dir P' up cs s = .ok s') :
    ∃ p', s'.phys[i]? = some p' ∧ Acyclic p.n (mget p.n p'.m) := by
  obtain ⟨f2, t, e, fx, r⟩ := dncClose_total s0 h0.inv
  have e1 := dncClose_mono e (max f f2) (Nat.le_max_right _ _)
  rw [dncClose_mono hr (max f f2) (Nat.le_max_left _ _)] at e1
  cases e1
  obtain ⟨Q, Q', cs', s2, k1, k2, k3, -, -, hph, -⟩ := C49_pass ord dir up s0 s h0 f hr
  rw [eP] at k1; cases k1
  rw [eC] at k2; cases k2
  rw [eS] at k3; cases k3
  obtain ⟨p', hp', hn, -, hb⟩ := hph i p hp
  refine ⟨p', hp', ?_⟩
  have cl := fx.closed p (List.mem_of_getElem? hp)
  have tr : ∀ x y z, x < p.n → y < p.n → z < p.n → mget p.n p.m x y ≠ 0 → mget p.n p.m y z ≠ 0 → mget p.n p.m x z ≠ 0 := by
    intro x y z hx hy hz h1 h2
    obtain ⟨t, ht⟩ := dep_ne_zero.1 (trans_ne_zero h1 h2)
    exact dep_ne_zero.2 ⟨t, cl x y z hx hy hz t ht⟩
  classical
  let below : Nat → Finset Nat := fun a => (Finset.range p.n).filter (fun x => mget p.n p.m x a ≠ 0 ∨ x = a)
  have subs : ∀ x y, x < p.n → y < p.n → mget p.n p.m x y ≠ 0 → below x ⊆ below y := by
    intro x y hx hy hxy z hz
    simp only [below, Finset.mem_filter, Finset.mem_range] at hz ⊢
    refine ⟨hz.1, .inl ?_⟩
    rcases hz.2 with h | rfl
    · exact tr z x y hz.1 hx hy h hxy
    · exact hxy
  refine C49_acyclic_of_order hb (fun a => isUp up p.attrs a) (fun a b h => h.2) (fun a => (below a).card) ?_ ?_
    (fun a b c h k => h.trans k) (fun a b h => h.symm)
  · intro a b ha hb' hmt
    obtain ⟨m1, m2⟩ := hm a b ha hb' hmt
    rw [Finset.Subset.antisymm (subs a b ha hb' m1) (subs b a hb' ha m2)]
  · intro a b ha hb' hmt hd
    apply Finset.card_lt_card
    refine ⟨subs a b ha hb' hd, fun hsub => ?_⟩
    have : b ∈ below a := hsub (by simp [below, hb'])
    simp only [below, Finset.mem_filter, Finset.mem_range] at this
    have hba : mget p.n p.m b a ≠ 0 := by
      rcases this.2 with h | rfl
      · exact h
      · exact hd
    apply hmt
    refine ⟨⟨p, hp, tr a b a ha hb' ha hd hba⟩, ⟨p, hp, tr b a b hb' ha hb' hba hd⟩, ?_⟩
    exact .rel _ _ (.phy hp ha hb' hd hba)

/-! ## Cases, and what does not hold -/

/-- everything up to the broken state -/
def breakOnly (dir : Bool) (up : Nat → Bool) (s : State) : Res State := do
  let P ← makeCycles true s
  let r ← fiberCycles s P
  addUpDown dir r.1 up r.2 s

theorem breakOnly_eq {dir : Bool} {up : Nat → Bool} {s s' : State} (h : breakOnly dir up s = .ok s') :
    ∃ P P' cs, makeCycles true s = .ok P ∧ fiberCycles s P = .ok (P', cs) ∧ addUpDown dir P' up cs s = .ok s' := by
  simp only [breakOnly, Res.bind_eq_ok] at h
  obtain ⟨P, h1, r, h2, h3⟩ := h
  exact ⟨P, r.1, r.2, h1, h2, h3⟩

theorem bind_ok {α β : Type} {x : Res α} {f : α → Res β} {b : β} (h : x.bind f = .ok b) : ∃ a, x = .ok a ∧ f a = .ok b := by
  cases x with
  | ok a => exact ⟨a, rfl, h⟩
  | _ => cases h

/-- Two attributes of a phylum that depend on each other, the first is UP: of four dependencies only UP to DOWN is left. -/
example : ∃ s0 s s', c28state = .ok s0 ∧ DncStart s0 ∧ dncClose 40 s0 = .ok s ∧ breakOnly true (fun a => a == 10) s = .ok s' ∧
    s.phys.map (·.m) = [[1, 1, 1, 1]] ∧ s'.phys.map (·.m) = [[0, 1, 0, 0]] ∧
    (∀ p, s.phys[0]? = some p → ∀ a b, a < p.n → b < p.n → Mates s (.phy 0 a) (.phy 0 b) → mget p.n p.m a b ≠ 0 ∧ mget p.n p.m b a ≠ 0) := by
  have key : c28state.bind (fun s0 => (dncClose 40 s0).bind fun s => (breakOnly true (fun a => a == 10) s).bind fun s' =>
      .ok (s.phys, s'.phys.map (·.m))) = .ok ([⟨2, [10, 11], false, [1, 1, 1, 1]⟩], [[0, 1, 0, 0]]) := by decide +kernel
  obtain ⟨s0, e0, key⟩ := bind_ok key
  obtain ⟨s, e1, key⟩ := bind_ok key
  obtain ⟨s', e2, key⟩ := bind_ok key
  simp only [Res.ok.injEq, Prod.mk.injEq] at key
  refine ⟨s0, s, s', e0, (buildState_start e0 (by decide +kernel)).1, e1, e2, by rw [key.1]; rfl, key.2, ?_⟩
  intro p hp a b ha hb _
  rw [key.1] at hp
  simp only [List.getElem?_cons_zero, Option.some.injEq] at hp
  subst hp
  have : ∀ a < 2, ∀ b < 2, mget 2 [1, 1, 1, 1] a b ≠ 0 ∧ mget 2 [1, 1, 1, 1] b a ≠ 0 := by decide +kernel
  exact this a ha b hb

/-- Phylum 0 has the attributes A, K, B and phylum 1 has c. In one rule A and c depend on each other, in another B and c do,
in a third B depends on K and K on A. -/
def c49state : Res State :=
  buildState [(4, [10, 11, 12, 20], [(0, 0), (3, 1)], [(0, 3, ⟨0, 0⟩, 1), (3, 0, ⟨0, 0⟩, 1)]),
    (4, [10, 11, 12, 20], [(0, 0), (3, 1)], [(2, 3, ⟨0, 0⟩, 1), (3, 2, ⟨0, 0⟩, 1)]),
    (3, [10, 11, 12], [(0, 0)], [(0, 1, ⟨0, 0⟩, 1), (1, 2, ⟨0, 0⟩, 1)])]
    [⟨3, [10, 11, 12], false, [0, 0, 0, 0, 0, 0, 0, 0, 0]⟩, ⟨1, [20], false, [0]⟩]

/-- C49 (refuted in general): the class of an instance can tie together instances of a phylum that do not depend on each
other (A and B through c). Breaking then *makes* a cycle through K, which was in none: `break_fiber_cycles` ends with a
cycle although every cycle was a fiber cycle only. -/
theorem C49_no_cycle_left_refuted : ∃ s0 s s', DncStart s0 ∧ dncClose 60 s0 = .ok s ∧ stateCycle s ≠ 0 ∧
    stateCycle s &&& NOT_JUST_FIBER = 0 ∧ breakFiberCycles 60 true false (fun a => a == 10) (stateCycle s) s = .ok s' ∧
    (∃ p, s.phys[0]? = some p ∧ mget p.n p.m 1 1 = 0) ∧ (∃ p, s'.phys[0]? = some p ∧ mget p.n p.m 1 1 ≠ 0) ∧ stateCycle s' ≠ 0 := by
  have key : c49state.bind (fun s0 => (dncClose 60 s0).bind fun s => (breakFiberCycles 60 true false (fun a => a == 10) (stateCycle s) s).bind fun s' =>
      .ok (decide (stateCycle s ≠ 0), decide (stateCycle s &&& NOT_JUST_FIBER = 0), s.phys[0]?.map (fun p => mget p.n p.m 1 1),
        s'.phys[0]?.map (fun p => decide (mget p.n p.m 1 1 = 0)), decide (stateCycle s' ≠ 0))) = .ok (true, true, some 0, some false, true) := by decide +kernel
  obtain ⟨s0, e0, key⟩ := bind_ok key
  obtain ⟨s, e1, key⟩ := bind_ok key
  obtain ⟨s', e2, key⟩ := bind_ok key
  simp only [Res.ok.injEq, Prod.mk.injEq, decide_eq_true_eq, Option.map_eq_some_iff, decide_eq_false_iff_not] at key
  obtain ⟨k1, k2, ⟨p, kp, k3⟩, ⟨q, kq, k4⟩, k5⟩ := key
  exact ⟨s0, s, s', (buildState_start e0 (by decide +kernel)).1, e1, k1, k2, e2, ⟨p, kp, k3⟩, ⟨q, kq, k4⟩, k5⟩

/-- one rule with attributes 0 and 1 (UP) and 2 (DOWN): 0 and 1 depend on each other if the condition holds, 0 and 2 if not -/
def c49cond : Res State :=
  buildState [(3, [10, 11, 12], [], [(0, 1, ⟨1, 0⟩, 1), (1, 0, ⟨1, 0⟩, 1), (0, 2, ⟨0, 1⟩, 1), (2, 0, ⟨0, 1⟩, 1)])] []

/-- C49 (refuted in general): the conditions of the dependencies that are put together are joined literal by literal, which is
their conjunction and not their disjunction. An UP instance that depended on its class under an assignment depends on no
DOWN instance of the class under that assignment afterwards. -/
theorem C49_condition_refuted : ∃ s0 s s' g g' σ, DncStart s0 ∧ dncClose 60 s0 = .ok s ∧ breakOnly true (fun a => a != 12) s = .ok s' ∧
    s.augs[0]? = some g ∧ s'.augs[0]? = some g' ∧ g.n = 3 ∧ kindAt σ (g.cell 0 1) ≠ 0 ∧ kindAt σ (g'.cell 0 0) = 0 ∧
    kindAt σ (g'.cell 0 1) = 0 ∧ kindAt σ (g'.cell 0 2) = 0 := by
  have key : c49cond.bind (fun s0 => (dncClose 60 s0).bind fun s => (breakOnly true (fun a => a != 12) s).bind fun s' =>
      .ok (s.augs[0]?.map (fun g => (g.n, (g.cell 0 1).any (fun e => e.cond == ⟨1, 0⟩ && e.kind == 1))),
        s'.augs[0]?.map (fun g => (g.cell 0 0).isEmpty && (g.cell 0 1).isEmpty && (g.cell 0 2).all (fun e => e.cond.neg == 1)))) =
      .ok (some (3, true), some true) := by decide +kernel
  obtain ⟨s0, e0, key⟩ := bind_ok key
  obtain ⟨s, e1, key⟩ := bind_ok key
  obtain ⟨s', e2, key⟩ := bind_ok key
  simp only [Res.ok.injEq, Prod.mk.injEq, Option.map_eq_some_iff] at key
  obtain ⟨⟨g, hg, k1, k2⟩, ⟨g', hg', k3⟩⟩ := key
  simp only [Bool.and_eq_true, List.isEmpty_iff, List.all_eq_true, beq_iff_eq] at k3
  obtain ⟨⟨k3, k4⟩, k5⟩ := k3
  refine ⟨s0, s, s', g, g', fun _ => true, (buildState_start e0 (by decide +kernel)).1, e1, e2, hg, hg', k1, ?_, by rw [k3]; rfl, by rw [k4]; rfl, ?_⟩
  · simp only [List.any_eq_true, Bool.and_eq_true, beq_iff_eq] at k2
    obtain ⟨e, he, c1, c2⟩ := k2
    refine dep_ne_zero.2 ⟨0, kindAt_bit.2 ⟨e, he, ?_, by rw [c2]; rfl⟩⟩
    rw [c1]
    intro i; exact ⟨fun _ => rfl, by simp⟩
  · by_contra hne
    obtain ⟨t, ht⟩ := dep_ne_zero.1 hne
    obtain ⟨e, he, hs, -⟩ := kindAt_bit.1 ht
    have h0 := k5 e he
    have := (hs 0).2 (by rw [h0]; rfl)
    cases this

/-- C49: in SCC mode nothing is broken. -/
theorem C49_scc_unchanged (dir : Bool) (P : Par) (up : Nat → Bool) (cs : List Cyc) (s : State) :
    addUpDownUnless true dir P up cs s = .ok s := rfl

end Aps.Props
