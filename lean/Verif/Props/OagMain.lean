import Verif.Proofs.OagFinal
set_option linter.unusedVariables false
/-!
# C48: from dependency graphs to visit phases and total orders (analyze/aps-oag.c: `compute_oag`)
-/
namespace Aps.Props
open Aps.Dnc Aps.Oag

/-- The dependency graphs of a grammar as built: graphs made by adding edges, with summaries of the right size
(`DncStart`); the instances of different nodes of a rule are different; every attribute of a phylum is inherited or
synthesised; each conditional of a rule is one instance, which is not an attribute of a node; and a dependency that exists only one way a conditional goes
ends in an instance that waits for the test of the conditional. -/
structure OagStart (s : State) (dirs : List (List Dir)) (insts : List (List OInst)) : Prop where
  start : DncStart s
  apart : ∀ g ∈ s.augs, LinksApart g s.phys
  dirs : Directed dirs s
  rules : ∀ (x : Nat) g is, s.augs[x]? = some g → insts[x]? = some is → RulesApart g is s.phys
  insts : List.Forall₂ InstsOk s.augs insts

/-- The phases of phylum `j`: inherited attributes have negative numbers, synthesised ones positive numbers, and
nothing is in an earlier phase than something it depends on. -/
structure GoodPhases (p : Phy) (d : List Dir) (sched : List Int) : Prop where
  len : sched.length = p.n
  dir : ∀ i, i < p.n → (d[i]? = some .inward ∧ -(p.n : Int) ≤ sget sched i ∧ sget sched i < 0) ∨
      (d[i]? = some .outward ∧ 0 < sget sched i ∧ sget sched i ≤ p.n)
  order : ∀ a b, a < p.n → b < p.n → Depends p.n p.m a b → place (sget sched a) ≤ place (sget sched b)

/-- Along the path, `j` comes before `i` whenever both are there, and `j` is there if its condition holds. -/
def ComesBefore (insts : List OInst) (σ : Nat → Bool) (path : List Nat) (j i : Nat) : Prop :=
  ∀ pre post, path = pre ++ i :: post → j ∉ i :: post ∧ (Sat σ (condOf insts j) → j ∈ pre)

/-- The total order of a rule with graph `g`: under each assignment of the conditionals, everything control reaches is
computed (and, if what is inside a conditional waits for its test, nothing else), once, after everything it depends on, and the attributes of each node of the rule in the order of the phases
of its phylum. -/
structure GoodOrder (g : Aug) (insts : List OInst) (scheds : List (Nat × List Int)) (ps : List Phy) (t : Cto) : Prop where
  once : ∀ σ, (t.path (ruleOf insts) σ).Nodup ∧ ∀ i ∈ t.path (ruleOf insts) σ, i < g.n
  all : ∀ σ i, i < g.n → Sat σ (condOf insts i) → i ∈ t.path (ruleOf insts) σ
  exact : InstsGuarded g insts → ∀ σ i, i < g.n → (i ∈ t.path (ruleOf insts) σ ↔ Sat σ (condOf insts i))
  deps : ∀ σ j i, j < g.n → i < g.n → DepUnder g σ j i → ComesBefore insts σ (t.path (ruleOf insts) σ) j i
  phases : ∀ σ, ∀ l ∈ g.links, ∀ p, ps[l.2]? = some p → ∀ sched, (l.2, sched) ∈ scheds → ∀ a b, a < p.n → b < p.n →
    place (sget sched a) < place (sget sched b) → ComesBefore insts σ (t.path (ruleOf insts) σ) (l.1 + a) (l.1 + b)

theorem stateCycle_eq_zero {s : State} (h1 : ∀ p ∈ s.phys, ∀ j, j < p.n → mget p.n p.m j j = 0)
    (h2 : ∀ g ∈ s.augs, GWf g ∧ ∀ j, j < g.n → ∀ σ, ¬ DepUnder g σ j j) : stateCycle s = 0 := by
  by_contra hne
  obtain ⟨b, hb⟩ := dep_ne_zero.1 hne
  rcases (C22_report s b).1 hb with ⟨p, hp, j, hj, hbit⟩ | ⟨g, hg, j, hj, e, he, _⟩
  · rw [h1 p hp j hj] at hbit; simp at hbit
  · obtain ⟨w, hd⟩ := h2 g hg
    obtain ⟨σ, hσ⟩ := exists_sat (w.ok j j hj hj e he).2.2.1
    exact hd j hj σ ⟨e, he, hσ⟩

/-- C48. For every grammar: the closure of its dependency graphs ends, and if it finds no cycle, the ordered attribute
grammar analysis ends without an error, and either reports a cycle in the graphs it leaves (so that the grammar is
rejected), or has found phases for every phylum and a total order for every rule. -/
theorem C48_oag {s : State} {dirs : List (List Dir)} {insts : List (List OInst)} (h : OagStart s dirs insts) :
    ∃ F s1, (∀ f, F ≤ f → dncClose f s = .ok s1) ∧ (stateCycle s1 = 0 →
      ∃ F' s' scheds ts, (∀ f, F' ≤ f → computeOag f dirs insts s1 = .ok (s', scheds, ts)) ∧
        s'.phys.length = s.phys.length ∧ (stateCycle s' ≠ 0 → ts = []) ∧
        (stateCycle s' = 0 →
          scheds.map (·.1) = List.range s.phys.length ∧
          (∀ x ∈ scheds, ∃ p d, s'.phys[x.1]? = some p ∧ dirs[x.1]? = some d ∧ GoodPhases p d x.2 ∧
            ∃ p0, s.phys[x.1]? = some p0 ∧ p.n = p0.n ∧ ∀ a b, a < p.n → b < p.n → Depends p0.n p0.m a b → Depends p.n p.m a b) ∧
          ts.length = s.augs.length ∧
          ∀ (x : Nat) g is t, s.augs[x]? = some g → insts[x]? = some is → ts[x]? = some t → GoodOrder g is scheds s'.phys t)) := by
  obtain ⟨F, s1, e1, fx1, sr1⟩ := dncClose_total s h.start.inv
  refine ⟨F, s1, dncClose_mono e1, fun hc => ?_⟩
  have or1 := OR.of_sr sr1
  obtain ⟨F2, s2, scheds, e2, fx2, or2, hph, hmap⟩ := oagPhyla_spec (dirs := dirs) (List.range s1.phys.length) s1 [] fx1.weak hc
    (h.dirs.mono or1.phys) (by simp)
  simp only [List.nil_append] at e2
  have or12 := or1.trans' or2
  by_cases hc2 : stateCycle s2 = 0
  · have fin : ∀ g ∈ s2.augs, Final g s2.phys := fun g hg =>
      ⟨(fx2.inv.augs g hg).wf, (fx2.inv.augs g hg).winv, fx2.done g hg, (fx2.inv.augs g hg).links, fx2.up g hg, fx2.down g hg⟩
    have hins : List.Forall₂ InstsOk s2.augs insts := by
      rw [List.forall₂_iff_get]
      have hl := or12.augs.length_eq
      have hl' := h.insts.length_eq
      refine ⟨by omega, fun i h1 h2 => ?_⟩
      have g2 := List.getElem?_eq_getElem h1
      obtain ⟨g, eg, m⟩ := forall2_get or12.augs g2
      have hi : InstsOk g (insts[i]'h2) := by
        obtain ⟨b, eb, hb⟩ := forall2_get' h.insts eg
        rw [List.getElem?_eq_getElem h2] at eb; cases eb; exact hb
      exact ⟨hi.len.trans m.n.symm, hi.rule, hi.inj, final_tested fx2 or12 h.apart eg g2 m hi.tested⟩
    obtain ⟨F3, gs', ts, ps', e3, z3, l1, l2, hall⟩ := oagAugs_spec s2.augs insts s2.phys fx2.inv.phys (fun g hg => by
      obtain ⟨x, hx⟩ := List.getElem?_of_mem hg
      obtain ⟨g0, eg, m⟩ := forall2_get or12.augs hx
      exact ⟨fin g hg, (h.apart g0 (List.mem_of_getElem? eg)).mono m or12.phys, aug_order fx2 hc2 hg⟩) hins
    refine ⟨max F2 F3, ⟨gs', ps'⟩, scheds, ts, ?_, ?_, fun hne => absurd ?_ hne, fun _ => ⟨?_, ?_, ?_, ?_⟩⟩
    · intro f hf
      unfold computeOag
      rw [e2 f (by omega), Res.ok_bind, if_neg (by simpa using hc2), e3 f (by omega)]
      rfl
    · show ps'.length = _
      rw [z3.len, or12.phys.len]
    · apply stateCycle_eq_zero
      · intro p hp j hj
        obtain ⟨y, hy⟩ := List.getElem?_of_mem hp
        obtain ⟨p2, b1, zz⟩ := z3.back hy
        rw [zz.le.n] at hj ⊢
        by_contra hne
        exact zz.z j j hj hj hne (cycle_phy hc2 (List.mem_of_getElem? b1) hj)
      · intro g hg
        obtain ⟨y, hy⟩ := List.getElem?_of_mem hg
        have hlt : y < gs'.length := (List.getElem?_eq_some_iff.1 hy).1
        have hi := hins.length_eq
        have ho := hall y _ _ g _ (List.getElem?_eq_getElem (by omega)) (List.getElem?_eq_getElem (by omega)) hy
          (List.getElem?_eq_getElem (by omega))
        refine ⟨ho.wf, fun j hj σ hd => ?_⟩
        rw [ho.mono.n] at hj
        exact cycle_aug hc2 (List.getElem_mem _) (fin _ (List.getElem_mem _)).wf hj ((ho.same σ j j hj hj).1 hd)
    · rw [hmap hc2, or1.phys.len]
    · intro x hx
      obtain ⟨p, d, a1, a2, a3, a4, a5⟩ := ((hph x hx).mono (s' := ⟨gs', ps'⟩) (NzLe.of_le z3.le)).ph
      refine ⟨p, d, a1, a2, ⟨a3, a4, ?_⟩, ?_⟩
      · intro a b ha hb hd
        by_contra hlt
        obtain ⟨p2, b1, zz⟩ := z3.back a1
        have hn := zz.le.n
        rw [hn] at ha hb hd
        have d1 : mget p2.n p2.m a b ≠ 0 := zz.z a b ha hb hd
        obtain ⟨q, d', c1, _, _, _, c5⟩ := (hph x hx).ph
        rw [b1] at c1; cases c1
        have d2 := c5 b a hb ha (by omega)
        have hcl := fx2.closed p2 (List.mem_of_getElem? b1) a b a ha hb ha
        exact le_ne_zero hcl (trans_ne_zero d1 d2) (cycle_phy hc2 (List.mem_of_getElem? b1) ha)
      · obtain ⟨p0, b0, n0, _, _, hz⟩ := (or12.phys.trans' (NzLe.of_le z3.le)).back a1
        refine ⟨p0, b0, n0, fun a b ha hb hd => ?_⟩
        rw [n0] at ha hb
        unfold Depends
        rw [n0]
        exact hz a b ha hb hd
    · rw [l2]; exact or12.augs.length_eq.symm
    · intro x g is t hg his ht
      obtain ⟨g2, eg2, m⟩ := forall2_get' or12.augs hg
      have hlt : x < gs'.length := by rw [l1]; exact (List.getElem?_eq_some_iff.1 eg2).1
      have ho := hall x g2 is gs'[x] t eg2 his (List.getElem?_eq_getElem hlt) ht
      obtain ⟨is', eis, hio⟩ := forall2_get' h.insts hg
      rw [his] at eis; cases eis
      have hn : gs'[x].n = g.n := ho.mono.n.trans m.n
      have hfin := fin g2 (List.mem_of_getElem? eg2)
      have key : ∀ σ j i, j < g.n → i < g.n → DepUnder g2 σ j i → ComesBefore is σ (t.path (ruleOf is) σ) j i := by
        intro σ j i hj hi hd pre post hp
        have hd' := (ho.same σ j i (by rw [m.n]; exact hj) (by rw [m.n]; exact hi)).2 hd
        obtain ⟨b1, b2⟩ := (C26_path hio.rule ho.order σ).2.2.2 pre i post hp j hd'
        exact ⟨b1, fun hs => b2 (by rw [hn]; exact hj) hs⟩
      constructor
      · intro σ
        have := C26_path hio.rule ho.order σ
        exact ⟨this.1, fun i hi => hn ▸ this.2.1 i hi⟩
      · intro σ i hi hs
        exact (C26_path hio.rule ho.order σ).2.2.1 i (by rw [hn]; exact hi) hs
      · intro hgd σ i hi
        exact C26_exact hio.rule hio.inj (same_guarded ho.mono ho.same
          (final_guarded fx2 or12 h.apart hg eg2 m (h.rules x g is hg his) hgd)) ho.order σ i (by rw [hn]; exact hi)
      · intro σ j i hj hi hd
        refine key σ j i hj hi (hfin.pathDep m (.single ⟨hj, hi, .inl hd⟩))
      · intro σ l hl p hp sched hs a b ha hb hlt'
        obtain ⟨p2, b1, zz⟩ := z3.back hp
        have hn2 := zz.le.n
        rw [hn2] at ha hb
        obtain ⟨q, d', c1, _, _, _, c5⟩ := (hph _ hs).ph
        simp only at c1 c5
        rw [b1] at c1; cases c1
        have d2 := c5 a b ha hb hlt'
        obtain ⟨q', eq', hle, _⟩ := hfin.links l (by rw [m.links]; exact hl)
        rw [b1] at eq'; cases eq'
        have hle' : l.1 + p2.n ≤ g.n := by rw [← m.n]; exact hle
        exact key σ _ _ (by omega) (by omega)
          (hfin.pathDep m (.single ⟨by omega, by omega, .inr ⟨l, hl, p2, b1, a, b, ha, hb, rfl, rfl, d2⟩⟩))
  · refine ⟨F2, s2, scheds, [], ?_, or12.phys.len, fun _ => rfl, fun hcc => absurd hcc hc2⟩
    intro f hf
    unfold computeOag
    rw [e2 f hf, Res.ok_bind, if_pos hc2]
    rfl

/-! ## An example

One phylum with an inherited attribute (instance 1 at the parent, 3 at the child) and a synthesised one (2 and 4), and a
rule with a conditional (instance 0): the result is copied from the child's if the test (of the inherited attribute)
holds, and computed from the inherited attribute otherwise. -/

def c48graph : Res Aug := do
  let g ← addEdgeToGraph 1 0 ⟨0, 0⟩ 15 (emptyAug 5 [99, 10, 11, 10, 11] [(1, 0), (3, 0)])
  let g ← addEdgeToGraph 0 2 ⟨0, 0⟩ 15 g
  let g ← addEdgeToGraph 1 3 ⟨0, 0⟩ 15 g
  let g ← addEdgeToGraph 4 2 ⟨1, 0⟩ 15 g
  addEdgeToGraph 1 2 ⟨0, 1⟩ 15 g

def c48phy : Phy := ⟨2, [10, 11], false, [0, 0, 0, 0]⟩
def c48dirs : List (List Dir) := [[.inward, .outward]]
def c48insts : List OInst := [⟨⟨0, 0⟩, some 0⟩, ⟨⟨0, 0⟩, none⟩, ⟨⟨0, 0⟩, none⟩, ⟨⟨0, 0⟩, none⟩, ⟨⟨0, 0⟩, none⟩]

theorem c48graph_built : ∃ g, c48graph = .ok g ∧ Dnc.Built 5 [99, 10, 11, 10, 11] [(1, 0), (3, 0)] g :=
  ⟨_, rfl, .add (g := _) 1 2 ⟨0, 1⟩ 15 (.add (g := _) 4 2 ⟨1, 0⟩ 15 (.add (g := _) 1 3 ⟨0, 0⟩ 15 (.add (g := _) 0 2 ⟨0, 0⟩ 15
    (.add 1 0 ⟨0, 0⟩ 15 .empty (by omega) (by omega)
    (exists_sat (by unfold Cond.ok; decide)) (by decide) rfl) (by omega) (by omega)
    (exists_sat (by unfold Cond.ok; decide)) (by decide) rfl) (by omega) (by omega)
    (exists_sat (by unfold Cond.ok; decide)) (by decide) rfl) (by omega) (by omega)
    (exists_sat (by unfold Cond.ok; decide)) (by decide) rfl) (by omega) (by omega)
    (exists_sat (by unfold Cond.ok; decide)) (by decide) rfl⟩

/-- the conditions of the edges of the example graph -/
def c48cells : List (List Cond) := [
  [], [], [⟨0, 0⟩], [], [],
  [⟨0, 0⟩], [], [⟨0, 1⟩], [⟨0, 0⟩], [],
  [], [], [], [], [],
  [], [], [], [], [],
  [], [], [⟨1, 0⟩], [], []]

/-- The hypotheses of C48 hold for it. -/
example : ∃ g, c48graph = .ok g ∧ OagStart ⟨[g], [c48phy]⟩ c48dirs [c48insts] := by
  obtain ⟨g, e, hb⟩ := c48graph_built
  obtain ⟨hn, ha, hl⟩ := built_n hb
  refine ⟨g, e, ⟨⟨?_, ?_, ?_⟩, ?_, ?_, ?_, ?_⟩⟩
  · intro x hx; simp only [List.mem_singleton] at hx; subst hx; rw [hn, ha, hl]; exact hb
  · intro p hp; simp only [List.mem_singleton] at hp; subst hp; rfl
  · intro x hx l hll
    simp only [List.mem_singleton] at hx; subst hx
    rw [hl] at hll
    refine ⟨c48phy, ?_⟩
    rw [ha, hn]
    simp only [List.mem_cons, List.not_mem_nil, or_false] at hll
    rcases hll with rfl | rfl
    · refine ⟨rfl, by simp [c48phy], fun i hi => ?_⟩
      have : i < 2 := hi
      interval_cases i <;> rfl
    · refine ⟨rfl, by simp [c48phy], fun i hi => ?_⟩
      have : i < 2 := hi
      interval_cases i <;> rfl
  · intro x hx l hll l' hll' p p' hp hp' a a' haa haa' heq
    simp only [List.mem_singleton] at hx; subst hx
    rw [hl] at hll hll'
    simp only [List.mem_cons, List.not_mem_nil, or_false] at hll hll'
    rcases hll with rfl | rfl <;> rcases hll' with rfl | rfl <;> simp at hp hp' heq ⊢ <;> subst hp hp' <;>
      simp only [c48phy] at haa haa' <;> omega
  · intro j p hp
    match j, hp with
    | 0, hp =>
      simp at hp; subst hp
      refine ⟨_, rfl, fun i hi => ?_⟩
      have : i < 2 := hi
      interval_cases i <;> simp
    | j + 1, hp => simp at hp
  · intro x g' is hx his r k hr l hll p hp
    match x, hx, his with
    | 0, hx, his =>
      simp at hx his; subst hx his
      rw [hl] at hll
      simp only [List.mem_cons, List.not_mem_nil, or_false] at hll
      have : r = 0 := by
        have : r < 5 := by
          by_contra hc
          have : c48insts[r]? = none := List.getElem?_eq_none (by simp [c48insts]; omega)
          simp [ruleOf, this] at hr
        interval_cases r <;> simp [ruleOf, c48insts] at hr ⊢
      subst this
      rcases hll with rfl | rfl <;> simp
    | x + 1, hx, his => simp at hx
  · refine .cons ⟨by rw [hn]; rfl, ?_, ?_, EdgesGuarded.tested ?_⟩ .nil
    · intro i k h
      have : i < 5 := by
        by_contra hc
        have : c48insts[i]? = none := List.getElem?_eq_none (by simp [c48insts]; omega)
        simp [ruleOf, this] at h
      interval_cases i <;> simp [ruleOf, c48insts] at h
      omega
    · have key : ∀ i k, ruleOf c48insts i = some k → i = 0 := by
        intro i k h
        have : i < 5 := by
          by_contra hc
          have : c48insts[i]? = none := List.getElem?_eq_none (by simp [c48insts]; omega)
          simp [ruleOf, this] at h
        interval_cases i <;> simp [ruleOf, c48insts] at h ⊢
      intro a b k h1 h2
      rw [key a k h1, key b k h2]
    · have hc : ∀ i, i < 5 → ∀ j, j < 5 → (g.cell i j).map (·.cond) = (c48cells[i * 5 + j]?).getD [] := by
        have : (c48graph.bind fun g => .ok (decide (∀ i : Fin 5, ∀ j : Fin 5,
            (g.cell i j).map (·.cond) = (c48cells[i.1 * 5 + j.1]?).getD []))) = .ok true := by
          decide +kernel
        rw [e] at this
        have := of_decide_eq_true (Res.ok.inj this)
        exact fun i hi j hj => this ⟨i, hi⟩ ⟨j, hj⟩
      intro i j hi hj ed hed k hk
      rw [hn] at hi hj
      have hm : ed.cond ∈ (c48cells[j * 5 + i]?).getD [] := by
        rw [← hc j hj i hi]; exact List.mem_map.2 ⟨ed, hed, rfl⟩
      have hed' : (ed.cond = ⟨0, 0⟩) ∨ (i = 2 ∧ (ed.cond = ⟨1, 0⟩ ∨ ed.cond = ⟨0, 1⟩)) := by
        interval_cases i <;> interval_cases j <;> simp [c48cells] at hm <;> simp [hm]
      have hk0 : k = 0 := bit_zero_of (by rcases hed' with h | ⟨_, h | h⟩ <;> simp [h]) hk
      subst hk0
      rcases hed' with h | ⟨rfl, hcs⟩
      · rw [h] at hk; rcases hk with h | h <;> simp at h
      · have h02 := hc 0 (by omega) 2 (by omega)
        have hm' : (⟨0, 0⟩ : Cond) ∈ (g.cell 0 2).map (·.cond) := by rw [h02]; simp [c48cells]
        obtain ⟨e', he', hce⟩ := List.mem_map.1 hm'
        refine ⟨0, by omega, rfl, ?_, e', he', ?_, ?_⟩
        · rcases hcs with h | h <;> rw [h] <;> exact fun i => by simp [condOf, c48insts]
        · rcases hcs with h | h <;> rw [h, hce] <;> exact fun i => by simp
        · rw [hce]; rintro (h | h) <;> simp at h

/-- Running the analysis on it gives the phases -1 and 1, and an order in which the synthesised attribute waits for the child only
if the test holds. -/
example : (c48graph.bind fun g => (dncClose 40 ⟨[g], [c48phy]⟩).bind fun s => (computeOag 40 c48dirs [c48insts] s).bind fun r =>
    .ok (r.2.1, r.2.2.map (fun t => (t.path (ruleOf c48insts) (fun _ => true), t.path (ruleOf c48insts) (fun _ => false))))) =
    .ok ([(0, [-1, 1])], [([1, 0, 3, 4, 2], [1, 0, 2, 3, 4])]) := by
  decide +kernel

end Aps.Props
