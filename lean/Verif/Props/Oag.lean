import Verif.Proofs.OagSum
import Verif.Proofs.OagCto
import Mathlib.Tactic.IntervalCases
/-! Properties C25, C26, C45. -/
set_option linter.unusedVariables false
namespace Aps.Props
open Aps.Dnc Aps.Oag

/-- The summary graph records that `i` depends on `j`. -/
def Depends (n : Nat) (m : List Dep) (j i : Nat) : Prop := mget n m j i ≠ 0

/-- C25. When scheduling the attributes of a phylum succeeds, every attribute has a phase of at most the
number of attributes, negative exactly for inherited attributes; nothing is visited before something it
depends on; there is one total order in which all attributes can be computed visit by visit; and the
dependency graph handed on records exactly the old dependencies and the order of the visits. -/
theorem C25_schedule {fuel n : Nat} {dirs : List Dir} {m m' : List Dep} {sched : List Int}
    (hm : m.length = n * n) (hf : n < fuel) (h : scheduleSummary fuel n dirs m = .ok (m', sched)) :
    sched.length = n ∧
    (∀ i, i < n → (dirs[i]? = some .inward ∧ -(n : Int) ≤ sget sched i ∧ sget sched i < 0) ∨
      (dirs[i]? = some .outward ∧ 0 < sget sched i ∧ sget sched i ≤ n)) ∧
    (∀ i j, i < n → j < n → Depends n m j i → place (sget sched j) ≤ place (sget sched i)) ∧
    (∃ order, TotalOrder n (Depends n m) order ∧
      order.Pairwise fun a b => place (sget sched a) ≤ place (sget sched b)) ∧
    (m'.length = n * n ∧ ∀ i j, i < n → j < n →
      (Depends n m' j i ↔ Depends n m j i ∨ place (sget sched j) < place (sget sched i))) := by
  unfold scheduleSummary at h
  obtain ⟨st, h1, h2⟩ := Res.bind_eq_ok.1 h
  simp at h2
  obtain ⟨rfl, rfl⟩ := h2
  rcases sumLoop_inv (dirs := dirs) fuel 0 (initial_inv hm) (by simp; omega) (by simp) with ⟨st', l, e, hi, hl⟩ | ⟨e, _⟩
  · rw [h1] at e; cases e
    have hall := full_of_length hi.topo.nodup hi.topo.lt hl
    have hord : TotalOrder n (Depends n m) l.reverse :=
      ⟨by simpa using hall, (List.reverse_perm l).nodup_iff.2 hi.topo.nodup, hi.topo.order⟩
    have hsort : l.reverse.Pairwise fun a b => place (sget st.sched a) ≤ place (sget st.sched b) := by
      rw [List.pairwise_reverse]; exact hi.sorted
    refine ⟨hi.sl, ?_, ?_, ⟨l.reverse, hord, hsort⟩, hi.ml, ?_⟩
    · intro i hin
      have hil := (hall i).2 hin
      have hle := hi.le i hil
      rcases hi.dir i hil with ⟨a, b⟩ | ⟨a, b⟩
      · left
        refine ⟨a, ?_, b⟩
        unfold place at hle; rw [if_pos b] at hle; omega
      · right
        refine ⟨a, b, ?_⟩
        unfold place at hle; rw [if_neg (by omega)] at hle; omega
    · intro i j hin hjn hd
      have hil : i ∈ l.reverse := by simpa using (hall i).2 hin
      obtain ⟨pre, post, ho⟩ := List.append_of_mem hil
      have := hord.before pre i post ho j hjn hd
      rw [ho] at hsort
      exact (List.pairwise_append.1 hsort).2.2 j this i (by simp)
    · intro i j hin hjn
      show mget n st.m j i ≠ 0 ↔ _
      rw [hi.grow j i hjn hin]
      simp [hall, hin, hjn, Depends]
  · rw [h1] at e; cases e

/-- C25. Scheduling ends after at most as many phases as there are attributes; it succeeds exactly if every
attribute is inherited or synthesised and some total order respects the dependencies, and otherwise reports
a cycle. -/
theorem C25_succeeds_iff {fuel n : Nat} {dirs : List Dir} {m : List Dep} (hm : m.length = n * n) (hf : n < fuel) :
    ((∃ r, scheduleSummary fuel n dirs m = .ok r) ↔
      (∀ i, i < n → dirs[i]? = some .inward ∨ dirs[i]? = some .outward) ∧ ∃ order, TotalOrder n (Depends n m) order) ∧
    ((∃ r, scheduleSummary fuel n dirs m = .ok r) ∨ scheduleSummary fuel n dirs m = .stop) := by
  rcases sumLoop_inv (dirs := dirs) fuel 0 (initial_inv hm) (by simp; omega) (by simp) with
    ⟨st', l, e, hi, hl⟩ | ⟨e, l, hl, hnd, hlt, hstuck⟩
  · have hok : scheduleSummary fuel n dirs m = .ok (st'.m, st'.sched) := by
      unfold scheduleSummary; rw [e]; rfl
    refine ⟨⟨fun _ => ?_, fun _ => ⟨_, hok⟩⟩, .inl ⟨_, hok⟩⟩
    obtain ⟨_, h2, _, ⟨o, ho, _⟩, _⟩ := C25_schedule hm hf hok
    refine ⟨fun i hin => ?_, o, ho⟩
    rcases h2 i hin with ⟨a, _⟩ | ⟨a, _⟩
    · exact .inl a
    · exact .inr a
  · have hst : scheduleSummary fuel n dirs m = .stop := by
      unfold scheduleSummary; rw [e]; rfl
    refine ⟨⟨?_, ?_⟩, .inr hst⟩
    · rintro ⟨r, hr⟩; rw [hst] at hr; cases hr
    · rintro ⟨hd, o, ho⟩
      exfalso
      obtain ⟨i, hin, hil⟩ := exists_missing hl
      refine ho.no_stuck (fun i => i < n ∧ i ∉ l) ?_ i ⟨hin, hil⟩
      rintro i ⟨hin, hil⟩
      obtain ⟨j, hj, hm, hjl⟩ := hstuck i hin hil (hd i hin)
      exact ⟨hin, j, hj, hm, hj, hjl⟩

/-- Four attributes: two inherited, two synthesised, needing two phases. -/
example : scheduleSummary 5 4 [.inward, .outward, .inward, .outward]
    [0, 3, 0, 0,  0, 0, 3, 0,  0, 0, 0, 3,  0, 0, 0, 0] =
    .ok ([0, 3, 3, 3,  0, 0, 3, 3,  0, 0, 0, 3,  0, 0, 0, 0], [-1, 1, -2, 2]) := by decide +kernel

/-- A cycle is reported. -/
example : scheduleSummary 3 2 [.inward, .outward] [0, 3, 3, 0] = .stop := by decide +kernel

/-! ## The conditional total order -/

theorem scheduleAug_ok {g : Aug} {insts : List OInst} {t : Cto} (h : scheduleAug g insts = .ok t) :
    ∃ s, scheduleRest g insts g.n ⟨0, 0⟩ (List.replicate g.n false) = .ok (t, s) := by
  unfold scheduleAug at h
  obtain ⟨⟨t', s⟩, h1, h2⟩ := Res.bind_eq_ok.1 h
  simp at h2; subst h2
  exact ⟨s, h1⟩

/-- C26. For every branch assignment the path it chooses through the conditional total order schedules no
instance twice, schedules every instance whose condition the assignment satisfies, and schedules it after
everything it depends on under that assignment. -/
theorem C26_path {g : Aug} {insts : List OInst} {t : Cto} (hrule : ∀ i k, ruleOf insts i = some k → k < 32)
    (h : scheduleAug g insts = .ok t) (σ : Nat → Bool) :
    let path := t.path (ruleOf insts) σ
    path.Nodup ∧ (∀ i ∈ path, i < g.n) ∧ (∀ i, i < g.n → Sat σ (condOf insts i) → i ∈ path) ∧
    ∀ pre i post, path = pre ++ i :: post → ∀ j, DepUnder g σ j i →
      j ∉ i :: post ∧ (j < g.n → Sat σ (condOf insts j) → j ∈ pre) := by
  obtain ⟨s, hs⟩ := scheduleAug_ok h
  obtain ⟨_, hg⟩ := scheduleRest_good hrule g.n _ _ _ _ (by simp) (unsched_init _) hs
  obtain ⟨l, hl⟩ := hg σ (sat_nil σ)
  have hmem : ∀ i, i ∈ l ↔ i < g.n := by
    intro i
    rw [hl.mem]
    simp only [and_iff_left_iff_imp]
    intro hi; simp [bget, hi]
  obtain ⟨hp, hself⟩ := hl.pairwise
  have hcov : ∀ i, i < g.n → Sat σ (condOf insts i) → i ∈ t.path (ruleOf insts) σ :=
    fun i hi hs => hl.cover i ((hmem i).2 hi) hs
  refine ⟨hl.nodup.sublist hl.sub, fun i hi => (hmem i).1 (hl.sub.subset hi), hcov, ?_⟩
  intro pre i post he j hd
  have hp' := hp.sublist hl.sub
  have hi : i ∈ l := hl.sub.subset (by rw [he]; simp)
  rw [he] at hp'
  have hnot : j ∉ i :: post := by
    intro hj
    rcases List.mem_cons.1 hj with rfl | hj
    · exact hself _ hi hd
    · exact (List.pairwise_cons.1 (List.pairwise_append.1 hp').2.1).1 j hj hd
  refine ⟨hnot, fun hj hs => ?_⟩
  have := hcov j hj hs
  rw [he] at this
  exact (List.mem_append.1 this).resolve_right hnot

/-- C26. If every instance depends on the conditionals it is nested in (as `record_condition_dependencies`
arranges), then the path contains exactly the instances whose condition the assignment satisfies. -/
theorem C26_exact {g : Aug} {insts : List OInst} {t : Cto} (hrule : ∀ i k, ruleOf insts i = some k → k < 32)
    (hinj : ∀ a b k, ruleOf insts a = some k → ruleOf insts b = some k → a = b)
    (hg : InstsGuarded g insts) (h : scheduleAug g insts = .ok t) (σ : Nat → Bool) (i : Nat) (hi : i < g.n) :
    i ∈ t.path (ruleOf insts) σ ↔ Sat σ (condOf insts i) := by
  obtain ⟨s, hs⟩ := scheduleAug_ok h
  refine ⟨fun hp => ?_, fun hsat => (C26_path hrule h σ).2.2.1 i hi hsat⟩
  exact scheduleRest_exact hrule hinj hg g.n _ _ _ _ (by simp) (unsched_init _) (known_init g insts) hs σ (sat_nil σ) i hp

/-- C26. If every dependency that is conditional waits for the tests of its conditionals, a conditional
total order is found exactly when under every branch assignment the dependencies have a total order;
otherwise failure is reported. -/
theorem C26_succeeds_iff {g : Aug} {insts : List OInst} (hlen : insts.length = g.n)
    (hrule : ∀ i k, ruleOf insts i = some k → k < 32)
    (hinj : ∀ a b k, ruleOf insts a = some k → ruleOf insts b = some k → a = b) (hg : Tested g insts) :
    ((∃ t, scheduleAug g insts = .ok t) ↔ ∀ σ, ∃ order, TotalOrder g.n (DepUnder g σ) order) ∧
    ((∃ t, scheduleAug g insts = .ok t) ∨ scheduleAug g insts = .stop) := by
  constructor
  · constructor
    · rintro ⟨t, ht⟩ σ
      obtain ⟨s, hs⟩ := scheduleAug_ok ht
      obtain ⟨_, hgood⟩ := scheduleRest_good hrule g.n _ _ _ _ (by simp) (unsched_init _) hs
      obtain ⟨l, hl⟩ := hgood σ (sat_nil σ)
      have hmem : ∀ i, i ∈ l ↔ i < g.n := by
        intro i
        rw [hl.mem]
        simp only [and_iff_left_iff_imp]
        intro hi; simp [bget, hi]
      refine ⟨l, hmem, hl.nodup, ?_⟩
      intro pre i post he j hj hd
      have := (hmem j).2 hj
      rw [he] at this
      exact (List.mem_append.1 this).resolve_right fun hc => hl.before pre i post he j hc hd
    · intro ho
      obtain ⟨t, ht⟩ := scheduleRest_total hlen hrule hinj hg ho g.n _ _ (by simp) (unsched_init _) (known_init g insts)
      refine ⟨t, ?_⟩
      unfold scheduleAug
      rw [ht]; rfl
  · unfold scheduleAug
    rcases scheduleRest_cases hlen g.n ⟨0, 0⟩ (List.replicate g.n false) with ⟨x, hx⟩ | hx <;> rw [hx]
    · exact .inl ⟨_, rfl⟩
    · exact .inr rfl

/-- Instance 0 is the test of a conditional, 1 is under its true branch, 2 under its false branch; 3 and 4
depend on each other, in one direction in each branch. -/
def ctoGraph : Aug :=
  { n := 5, attrs := [], links := [], wl := ⟨[], 100⟩
    cells := [[], [⟨0, 0, 1, ⟨0, 0⟩, 3⟩], [⟨1, 0, 2, ⟨0, 0⟩, 3⟩], [⟨2, 0, 3, ⟨0, 0⟩, 3⟩], [⟨3, 0, 4, ⟨0, 0⟩, 3⟩],
      [], [], [], [⟨4, 1, 3, ⟨1, 0⟩, 3⟩], [],
      [], [], [], [⟨5, 2, 3, ⟨0, 1⟩, 3⟩], [],
      [], [], [], [], [⟨6, 3, 4, ⟨1, 0⟩, 3⟩],
      [], [], [], [⟨7, 4, 3, ⟨0, 1⟩, 3⟩], []] }

/-- see `ctoGraph` -/
def ctoInsts : List OInst := [⟨⟨0, 0⟩, some 0⟩, ⟨⟨1, 0⟩, none⟩, ⟨⟨0, 1⟩, none⟩, ⟨⟨0, 0⟩, none⟩, ⟨⟨0, 0⟩, none⟩]

example : scheduleAug ctoGraph ctoInsts =
    .ok (.ifs 0 (.node 2 (.node 4 (.node 3 .nil))) (.node 1 (.node 3 (.node 4 .nil)))) := by decide +kernel

theorem cto_rules : ∀ i k, ruleOf ctoInsts i = some k → i = 0 ∧ k = 0 := by
  intro i k
  rcases i with _ | _ | _ | _ | _ | i <;> simp [ruleOf, ctoInsts] <;> omega

theorem bit_zero_of {c : Cond} (hc : c = ⟨1, 0⟩ ∨ c = ⟨0, 1⟩ ∨ c = ⟨0, 0⟩) {k : Nat} (h : c.bit k) : k = 0 := by
  rcases hc with rfl | rfl | rfl <;> rcases h with h | h <;> simp at h <;> omega

/-- The hypotheses of `C26_exact` and `C26_succeeds_iff` hold for it. -/
example : InstsGuarded ctoGraph ctoInsts ∧ Tested ctoGraph ctoInsts ∧
    (∀ a b k, ruleOf ctoInsts a = some k → ruleOf ctoInsts b = some k → a = b) := by
  refine ⟨?_, EdgesGuarded.tested ?_, ?_⟩
  · intro i hi k hb
    have hi' : i < 5 := hi
    have hk : k = 0 := by
      apply bit_zero_of ?_ hb
      interval_cases i <;> decide
    subst hk
    refine ⟨0, by decide, rfl, ?_, ?_⟩
    · intro x; simp [condOf, ctoInsts]
    · have : i = 1 ∨ i = 2 := by
        interval_cases i <;> simp [condOf, ctoInsts, Cond.bit] at hb <;> decide
      rcases this with rfl | rfl
      · exact .inl ⟨⟨0, 0, 1, ⟨0, 0⟩, 3⟩, by decide, fun x => by simp⟩
      · exact .inl ⟨⟨1, 0, 2, ⟨0, 0⟩, 3⟩, by decide, fun x => by simp⟩
  · intro i j hi hj e he k hb
    have hi' : i < 5 := hi
    have hj' : j < 5 := hj
    have hk : k = 0 ∧ (i = 3 ∨ i = 4) := by
      interval_cases i <;> interval_cases j <;> simp [ctoGraph, Aug.cell] at he <;> subst he <;>
        first
          | exact ⟨bit_zero_of (by decide) hb, by decide⟩
          | (exfalso; rcases hb with h | h <;> simp at h)
    obtain ⟨rfl, hi3⟩ := hk
    refine ⟨0, by decide, rfl, fun x => by simp [condOf, ctoInsts], ?_⟩
    rcases hi3 with rfl | rfl
    · exact ⟨⟨2, 0, 3, ⟨0, 0⟩, 3⟩, by decide, fun x => by simp, by rintro (h | h) <;> simp at h⟩
    · exact ⟨⟨3, 0, 4, ⟨0, 0⟩, 3⟩, by decide, fun x => by simp, by rintro (h | h) <;> simp at h⟩
  · intro a b k ha hb
    rw [(cto_rules a k ha).1, (cto_rules b k hb).1]

/-! ## Directions -/

/-- What the direction of an attribute occurrence should be: a value of a synthesised attribute flows out of
the node on the left-hand side and into the rule from a child; inherited attributes the other way; a reverse
fiber flows against its attribute. -/
def FlowsIn (syn reverse child : Bool) : Bool := ((!syn) != reverse) != child

/-- C45. Inverting a direction twice gives it back, and only local attributes are their own inverse. -/
theorem C45_invert (d : Dir) :
    invertDirection (invertDirection d) = d ∧ (invertDirection d = d ↔ d = .loc) := by
  cases d <;> simp [invertDirection]

/-- C45. For an attribute marked synthesised or inherited (not both) on a node of the rule the direction is
inward exactly if an odd number of the following hold: inherited, reverse fiber, child position. Attributes
that are neither are local; on nodes that are only locals of the module everything is local, and a node of
no kind is an error. -/
theorem C45_direction (nodeFlags : Option Word) (flags : Word) (fiber : Option Int) :
    let syn := flags &&& SYN_FLAG ≠ 0
    let inh := flags &&& INH_FLAG ≠ 0
    let reverse := fiber ≠ none ∧ fiber ≠ some FORWARD
    let lhs := nodeFlags = none ∨ ∃ nf, nodeFlags = some nf ∧ nf &&& LHS_FLAG ≠ 0
    let rhs := ∃ nf, nodeFlags = some nf ∧ nf &&& RHS_FLAG ≠ 0
    let loc := ∃ nf, nodeFlags = some nf ∧ nf &&& LOCAL_FLAG ≠ 0
    (¬ (syn ∧ inh) → (syn ∨ inh) → (lhs ∨ rhs) →
      instanceDirection nodeFlags flags fiber =
        .ok (if FlowsIn (decide syn) (decide reverse) (decide (¬ lhs)) then .inward else .outward)) ∧
    (¬ (syn ∨ inh) → (lhs ∨ rhs ∨ loc) → instanceDirection nodeFlags flags fiber = .ok .loc) ∧
    (¬ lhs → ¬ rhs → loc → instanceDirection nodeFlags flags fiber = .ok .loc) ∧
    (¬ lhs → ¬ rhs → ¬ loc → instanceDirection nodeFlags flags fiber = .stop) := by
  have hrev : fiberIsReverse fiber = decide (fiber ≠ none ∧ fiber ≠ some FORWARD) := by
    cases fiber with
    | none => simp [fiberIsReverse]
    | some d => by_cases h : d = FORWARD <;> simp [fiberIsReverse, h]
  have hfd : ∀ (hx : ¬ (flags &&& SYN_FLAG ≠ 0 ∧ flags &&& INH_FLAG ≠ 0)) (hy : flags &&& SYN_FLAG ≠ 0 ∨ flags &&& INH_FLAG ≠ 0),
      fiberedAttrDirection flags fiber =
      if FlowsIn (decide (flags &&& SYN_FLAG ≠ 0)) (decide (fiber ≠ none ∧ fiber ≠ some FORWARD)) false then .inward else .outward := by
    intro hx hy
    unfold fiberedAttrDirection FlowsIn
    rw [hrev]
    generalize decide (fiber ≠ none ∧ fiber ≠ some FORWARD) = r
    by_cases h1 : flags &&& SYN_FLAG ≠ 0
    · rw [if_pos h1, decide_eq_true h1]; cases r <;> rfl
    · have h2 : flags &&& INH_FLAG ≠ 0 := hy.resolve_left h1
      rw [if_neg h1, if_pos h2, decide_eq_false h1]; cases r <;> rfl
  intro syn inh reverse lhs rhs loc
  refine ⟨?_, ?_, ?_, ?_⟩
  · intro hx hy hn
    unfold instanceDirection
    simp only
    have hf := hfd hx hy
    cases nodeFlags with
    | none =>
      simp only
      have : lhs := .inl rfl
      rw [hf, decide_eq_false (not_not_intro this)]
    | some nf =>
      simp only
      by_cases h1 : nf &&& LHS_FLAG ≠ 0
      · rw [if_pos h1]
        have : lhs := .inr ⟨nf, rfl, h1⟩
        rw [hf, decide_eq_false (not_not_intro this)]
      · rw [if_neg h1]
        have hl : ¬ lhs := by
          rintro (h | ⟨_, h, h'⟩)
          · cases h
          · cases h; exact h1 h'
        have h2 : nf &&& RHS_FLAG ≠ 0 := by
          rcases hn with h | ⟨_, h, h'⟩
          · exact absurd h hl
          · cases h; exact h'
        rw [if_pos h2, hf]
        simp only [hl, not_false_eq_true, decide_true, FlowsIn]
        show Res.ok (invertDirection (if FlowsIn (decide syn) (decide reverse) false = true then _ else _)) = _
        unfold FlowsIn
        generalize decide syn = a
        generalize decide reverse = b
        cases a <;> cases b <;> rfl
  · intro hx hn
    unfold instanceDirection
    simp only
    have hf : fiberedAttrDirection flags fiber = .loc := by
      unfold fiberedAttrDirection
      rw [if_neg (fun h => hx (.inl h)), if_neg (fun h => hx (.inr h))]
    rw [hf]
    cases nodeFlags with
    | none => rfl
    | some nf =>
      simp only
      by_cases h1 : nf &&& LHS_FLAG ≠ 0
      · rw [if_pos h1]
      · rw [if_neg h1]
        by_cases h2 : nf &&& RHS_FLAG ≠ 0
        · rw [if_pos h2]; rfl
        · rw [if_neg h2]
          have h3 : nf &&& LOCAL_FLAG ≠ 0 := by
            rcases hn with (h | ⟨_, h, h'⟩) | ⟨_, h, h'⟩ | ⟨_, h, h'⟩
            · cases h
            · cases h; exact absurd h' h1
            · cases h; exact absurd h' h2
            · cases h; exact h'
          rw [if_pos h3]
  · rintro hl hr ⟨nf, rfl, h3⟩
    unfold instanceDirection
    simp only
    rw [if_neg (fun h => hl (.inr ⟨nf, rfl, h⟩)), if_neg (fun h => hr ⟨nf, rfl, h⟩), if_pos h3]
  · intro hl hr hc
    unfold instanceDirection
    cases nodeFlags with
    | none => exact absurd (.inl rfl) hl
    | some nf =>
      simp only
      rw [if_neg (fun h => hl (.inr ⟨nf, rfl, h⟩)), if_neg (fun h => hr ⟨nf, rfl, h⟩), if_neg (fun h => hc ⟨nf, rfl, h⟩)]

/-- A synthesised attribute of a child flows into the rule; its reverse fiber flows out. -/
example : instanceDirection (some RHS_FLAG) SYN_FLAG none = .ok .inward ∧
    instanceDirection (some RHS_FLAG) SYN_FLAG (some 1) = .ok .outward := by decide

end Aps.Props
