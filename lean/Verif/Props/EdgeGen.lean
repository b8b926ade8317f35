import Verif.Proofs.EdgeGenTotal
/-! Property C62. -/
set_option linter.unusedVariables false
namespace Aps.Props
open Aps.Dnc Aps.Oag Aps.Gen

/-- a direct dependency of values -/
def direct : Dep := SOME ||| NOT_JUST_FIBER ||| MAYBE_DIRECT

theorem direct_bits {t : Nat} (h : direct.getLsbD t = true) : t ≠ 2 ∧ controlDependency.getLsbD t = true ∧ dependency.getLsbD t = true := by
  unfold controlDependency dependency
  unfold direct at h
  simp only [BitVec.getLsbD_or, Bool.or_eq_true, bit1, bit2, bit4, bit8] at h ⊢
  omega

theorem kind_direct {ε : Eqn} {t : Nat} (h : direct.getLsbD t = true) : ε.kind.getLsbD t = true := by
  unfold Eqn.kind
  split
  · exact (direct_bits h).2.1
  · exact (direct_bits h).2.2

/-- the graph of a rule -/
theorem rule_graph {env : Env} (ok : env.Ok) {body results : Sts} {lhs : Nat × Nat} {kids : List (Nat × Nat)} {attrs : List Nat}
    {links : List (Nat × Nat)} {g : Aug} (hb : body.Fresh []) (hr : results.Fresh [])
    (h : ruleEdges env body results lhs kids (emptyAug env.keys.length attrs links) = .ok g) :
    Built env.keys.length attrs links g ∧ ∃ cs, Good env (ruleEqns env.reverseField body results lhs kids) cs ∧
      ∀ σ a b, a < env.keys.length → b < env.keys.length → ∀ t, (kindAt σ (g.cell a b)).getLsbD t = true ↔
        ∃ x ∈ cs, ∃ k, Gives env x a b k ∧ Sat σ x.cond ∧ k.getLsbD t = true := by
  obtain ⟨cs, h1, h2⟩ := ruleEdges_good ok hb hr h
  obtain ⟨g', h3, h4⟩ := runCalls_added (env := env) cs h1.ok (emptyAug env.keys.length attrs links) rfl (built_spec .empty).1
  rw [h2] at h3
  cases h3
  refine ⟨h4.built attrs links .empty, cs, h1, ?_⟩
  intro σ a b ha hb t
  rw [h4.exact σ a b ha hb t]
  have : (emptyAug env.keys.length attrs links).cell a b = [] := by
    unfold Aug.cell emptyAug
    simp only [List.getElem?_replicate]
    split <;> rfl
  rw [this]
  constructor
  · rintro (h | ⟨c, k, ⟨x, hx, rfl, h5⟩, h6, h7⟩)
    · rw [kindAt_bit] at h; simp at h
    · exact ⟨x, hx, k, h5, h6, h7⟩
  · rintro ⟨x, hx, k, h5, h6, h7⟩
    exact .inr ⟨_, k, ⟨x, hx, rfl, h5⟩, h6, h7⟩

theorem at_lt {env : Env} {i : Nat} {v : Vertex} {f : Nat} (h : env.At i v f) : i < env.keys.length := by
  obtain ⟨_, _, h⟩ := h
  exact (List.getElem?_eq_some_iff.1 h).1

theorem is_at {env : Env} {i : Nat} {p : Place} (h : env.Is i p) : env.At i (vx p) env.base := ⟨env.base, rfl, by unfold Env.Is at h; simpa [vx] using h⟩

/-- C62. The graph of a rule the analysis accepts is built without failure, by adding edges one at a time. -/
theorem C62_total {env : Env} (ok : env.Ok) {body results : Sts} (hb : body.Bound) (hr : results.Bound) (fb : body.Fresh []) (fr : results.Fresh [])
    (lhs : Nat × Nat) (kids : List (Nat × Nat)) (attrs : List Nat) (links : List (Nat × Nat)) :
    ∃ g, ruleEdges env body results lhs kids (emptyAug env.keys.length attrs links) = .ok g ∧ Built env.keys.length attrs links g := by
  obtain ⟨r, h1⟩ := callsB_ends (env := env) body ⟨0, 0⟩ hb
  obtain ⟨q, h2⟩ := callsB_ends (env := env) results ⟨0, 0⟩ hr
  have g1 := callsB_good ok body [] _ [] r (OnWay.nil []) fb h1
  have g2 := callsB_good ok results [] _ [] q (OnWay.nil []) fr h2
  have g3 := (g1.append g2).append (infoCalls_good ok lhs kids)
  obtain ⟨g', h3, h4⟩ := runCalls_added (env := env) _ g3.ok (emptyAug env.keys.length attrs links) rfl (built_spec .empty).1
  exact ⟨g', by simp only [ruleEdges, h1, h2, Res.ok_bind]; exact h3, h4.built attrs links .empty⟩

/-- C62. What an equation reads comes before what it computes, whenever the outcomes of the conditionals are such that the
equation is reached. Partial: not for initial values of collections declared inside a rule, see `C62_collection_refuted`. -/
theorem C62_reads_partial {env : Env} (ok : env.Ok) {body results : Sts} {lhs : Nat × Nat} {kids : List (Nat × Nat)} {attrs : List Nat}
    {links : List (Nat × Nat)} {g : Aug} (hb : body.Fresh []) (hr : results.Fresh [])
    (h : ruleEdges env body results lhs kids (emptyAug env.keys.length attrs links) = .ok g)
    {ε : Eqn} (hε : ε ∈ ruleEqns env.reverseField body results lhs kids) (hloc : ¬ (ε.loc = true ∧ ε.init = true))
    {p : Place} (hp : p ∈ ε.rhs.reads) {i j : Nat} (hi : env.Is i p) (hj : env.At j ε.target env.base)
    {σ : Nat → Bool} (hσ : ε.way.holds σ) : Le direct (kindAt σ (g.cell i j)) := by
  obtain ⟨_, cs, h1, h2⟩ := rule_graph ok hb hr h
  intro t ht
  rw [h2 σ i j (at_lt (is_at hi)) (at_lt hj)]
  obtain ⟨c, ⟨used, hw⟩, hcov⟩ := h1.full ε hε
  obtain ⟨x, hx, e1, e2, e3, e4⟩ := hcov.reads (by simpa using hloc) p hp
  refine ⟨x, hx, x.kind, .base ?_ ?_, ?_, e4 t (direct_bits ht).1 (kind_direct ht)⟩
  · rw [e1, vertexInstance_at ok]; exact is_at hi
  · rw [e2, vertexInstance_at ok]; exact hj
  · rw [e3]; exact hw.sat.2 hσ

/-- C62. The tests on the way to an equation come before what it computes. Partial: not for locals declared inside a rule,
see `C62_local_refuted`. -/
theorem C62_guards_partial {env : Env} (ok : env.Ok) {body results : Sts} {lhs : Nat × Nat} {kids : List (Nat × Nat)} {attrs : List Nat}
    {links : List (Nat × Nat)} {g : Aug} (hb : body.Fresh []) (hr : results.Fresh [])
    (hk : env.Knows (body.ifs [] ++ results.ifs []))
    (h : ruleEdges env body results lhs kids (emptyAug env.keys.length attrs links) = .ok g)
    {ε : Eqn} (hε : ε ∈ ruleEqns env.reverseField body results lhs kids) (hloc : ε.loc = false)
    {x : Cnd} (hx : x ∈ body.ifs [] ++ results.ifs []) {b : Bool} (hxb : (x.ix, b) ∈ ε.way) {i j : Nat} (hi : env.Is i (x.id, none))
    (hj : env.At j ε.target env.base) {σ : Nat → Bool} (hσ : ε.way.holds σ) : Le direct (kindAt σ (g.cell i j)) := by
  obtain ⟨_, cs, h1, h2⟩ := rule_graph ok hb hr h
  intro t ht
  rw [h2 σ i j (at_lt (is_at hi)) (at_lt hj)]
  obtain ⟨c, ⟨used, hw⟩, hcov⟩ := h1.full ε hε
  obtain ⟨c1, k1, k2⟩ := hk x hx
  have hm : (⟨⟨x.id, none, []⟩, ε.target, c1, controlDependency⟩ : Call) ∈ cs :=
    hcov.guard hloc _ (recordCond_mem.2 ⟨x.ix, _, k1, hw.bit.2 ⟨_, hxb, rfl⟩, rfl⟩)
  refine ⟨_, hm, controlDependency, .base ?_ ?_, ?_, (direct_bits ht).2.1⟩
  · rw [vertexInstance_at ok]; exact is_at hi
  · rw [vertexInstance_at ok]; exact hj
  · obtain ⟨x', hx', e1, e2⟩ := led_rule ε hε _ hxb
    obtain ⟨c2, k3, k4⟩ := hk x' hx'
    rw [e1, k1] at k3
    have k5 : c1 = c2 := (Prod.mk.injEq .. ▸ Option.some.inj k3).2
    rw [k5]
    exact (k4 σ).2 fun z hz => hσ z (e2 z hz)

/-- C62. Between values (not fibers) there are no other dependencies: one value precedes another under some outcomes only if
an equation that is reached under them reads it, or it is a test that governs such an equation and that is itself reached.
Objects are passed on only by equations that take their value from there. -/
theorem C62_nothing_else {env : Env} (ok : env.Ok) {body results : Sts} {lhs : Nat × Nat} {kids : List (Nat × Nat)} {attrs : List Nat}
    {links : List (Nat × Nat)} {g : Aug} (hb : body.Fresh []) (hr : results.Fresh [])
    (hk : env.Knows (body.ifs [] ++ results.ifs []))
    (h : ruleEdges env body results lhs kids (emptyAug env.keys.length attrs links) = .ok g)
    {p q : Place} {i j : Nat} (hi : env.Is i p) (hj : env.Is j q) {σ : Nat → Bool} {t : Nat} (ht : (kindAt σ (g.cell i j)).getLsbD t = true) :
    ∃ ε ∈ ruleEqns env.reverseField body results lhs kids, ε.target = vx q ∧
      ((ε.way.holds σ ∧ p ∈ ε.rhs.reads ∧ (t = 2 → ε.test = false ∧ vx p ∈ ε.rhs.flows [])) ∨
       (t ≠ 2 ∧ ∃ x ∈ body.ifs [] ++ results.ifs [], p = (x.id, none) ∧ (∃ b, (x.ix, b) ∈ ε.way) ∧ x.way.holds σ)) := by
  obtain ⟨_, cs, h1, h2⟩ := rule_graph ok hb hr h
  obtain ⟨x, hx, k, hgv, hs, hkt⟩ := (h2 σ i j (at_lt (is_at hi)) (at_lt (is_at hj)) t).1 ht
  obtain ⟨e1, e2, rfl⟩ := (gives_base ok hi hj).1 hgv
  obtain ⟨ε, hε, c, ⟨used, hw⟩, f1, f2⟩ := h1.only x hx (by rw [e1]) (by rw [e2])
  refine ⟨ε, hε, by rw [← f1, e2]; rfl, ?_⟩
  rcases f2 with f2 | ⟨r, f2, f3⟩
  · right
    obtain ⟨n, y, g1, g2, g3⟩ := recordCond_mem.1 f2
    obtain ⟨⟨n', b⟩, g4, rfl⟩ := hw.bit.1 g2
    obtain ⟨z, hz, g5, g6⟩ := led_rule ε hε _ g4
    obtain ⟨c1, k1, k2⟩ := hk z hz
    simp only at g1 g5 g4
    rw [g5, g1] at k1
    cases k1
    refine ⟨?_, z, hz, ?_, ⟨b, by rw [g5]; exact g4⟩, ?_⟩
    · rintro rfl
      rw [g3] at hkt
      exact absurd (show controlDependency.getLsbD 2 = true from hkt) (by decide)
    · rw [g3] at e1
      simp only [Vertex.mk.injEq, and_true] at e1
      exact Prod.ext e1.1.symm e1.2.symm
    · rw [← k2 σ]
      rw [g3] at hs
      exact hs
  · left
    refine ⟨hw.sat.1 (by rw [← f2.cond x f3]; exact hs), ?_, ?_⟩
    · have := f2.read x f3 (by rw [e1])
      rw [e1] at this
      exact this
    · rintro rfl
      refine ⟨?_, ?_⟩
      · have := f2.gain x f3 2 (by decide) hkt
        cases hte : ε.test with
        | false => rfl
        | true =>
          unfold Eqn.kind at this
          rw [hte, if_pos rfl] at this
          revert this
          decide
      · have := f2.flow x f3 hkt
        rw [e1] at this
        exact this

/-- C62. Objects: where the value of an equation comes from (a place, or fields of objects there) it is passed on with its
fibers, forward for what is read from the objects, backward for what is assigned to them. -/
theorem C62_carries_partial {env : Env} (ok : env.Ok) {body results : Sts} {lhs : Nat × Nat} {kids : List (Nat × Nat)} {attrs : List Nat}
    {links : List (Nat × Nat)} {g : Aug} (hb : body.Fresh []) (hr : results.Fresh [])
    (h : ruleEdges env body results lhs kids (emptyAug env.keys.length attrs links) = .ok g)
    {ε : Eqn} (hε : ε ∈ ruleEqns env.reverseField body results lhs kids) (hloc : ¬ (ε.loc = true ∧ ε.init = true)) (hte : ε.test = false)
    {v : Vertex} (hv : v ∈ ε.rhs.flows []) {i j : Nat} {σ : Nat → Bool} (hσ : ε.way.holds σ) :
    (env.At i v env.base → env.At j ε.target env.base → Le dependency (kindAt σ (g.cell i j))) ∧
    (∀ f ∈ env.fibers, f ≠ env.base → env.At i v f → env.At j ε.target f →
      Le fiberDependency (if env.isReverse f then kindAt σ (g.cell j i) else kindAt σ (g.cell i j))) := by
  obtain ⟨_, cs, h1, h2⟩ := rule_graph ok hb hr h
  obtain ⟨c, ⟨used, hw⟩, hcov⟩ := h1.full ε hε
  obtain ⟨x, hx, e1, e2, e3, e4⟩ := hcov.flows (by simpa using hloc) v hv
  have e5 : ∀ t, dependency.getLsbD t = true → x.kind.getLsbD t = true := fun t ht => e4 t (by
    unfold Eqn.kind; rw [hte]; exact ht)
  have hc : x.kind &&& MAYBE_CARRYING ≠ 0 := dep_ne_zero.2 ⟨2, by
    simp only [BitVec.getLsbD_and, Bool.and_eq_true]
    exact ⟨e5 2 (by decide), by decide⟩⟩
  have hsat : Sat σ x.cond := by rw [e3]; exact hw.sat.2 hσ
  constructor
  · intro hi hj t ht
    rw [h2 σ i j (at_lt hi) (at_lt hj)]
    refine ⟨x, hx, x.kind, .base ?_ ?_, hsat, e5 t ht⟩
    · rw [e1, vertexInstance_at ok]; exact hi
    · rw [e2, vertexInstance_at ok]; exact hj
  · intro f hf hfb hi hj
    have fk : ∀ t, fiberDependency.getLsbD t = true → (x.kind &&& ~~~NOT_JUST_FIBER).getLsbD t = true := by
      intro t ht
      have h0 : t ≠ 1 ∧ dependency.getLsbD t = true := by
        unfold fiberDependency at ht
        unfold dependency
        simp only [BitVec.getLsbD_or, Bool.or_eq_true, bit1, bit2, bit4, bit8] at ht ⊢
        omega
      rw [andnot_getLsbD, e5 t h0.2]
      have := bit2 (i := t)
      cases hb : NOT_JUST_FIBER.getLsbD t
      · rfl
      · exact absurd (this.1 hb) h0.1
    cases hrev : env.isReverse f with
    | false =>
      simp only [Bool.false_eq_true, if_false]
      intro t ht
      rw [h2 σ i j (at_lt hi) (at_lt hj)]
      refine ⟨x, hx, _, .fwd hc hf hfb hrev ?_ ?_, hsat, fk t ht⟩
      · rw [e1, vertexInstance_at ok]; exact hi
      · rw [e2, vertexInstance_at ok]; exact hj
    | true =>
      simp only [if_true]
      intro t ht
      rw [h2 σ j i (at_lt hj) (at_lt hi)]
      refine ⟨x, hx, _, .bwd hc hf hfb hrev ?_ ?_, hsat, fk t ht⟩
      · rw [e1, vertexInstance_at ok]; exact hi
      · rw [e2, vertexInstance_at ok]; exact hj

/-- C62. The hypotheses about conditionals hold for programs without for statements as the analysis numbers them: with the
numbers it assigns, they are fresh, and the tables it computes know every conditional and the way to it. -/
theorem C62_numbered {b : Sts} (hn : IfCond.noForB b.erase) (hnum : (IfCond.countB b.erase 0).1 = b.erase)
    {rules : List (Nat × Nat)} {conds : List (Nat × Cond)} (h : IfCond.analyse b.erase = .ok (rules, conds)) :
    b.Fresh [] ∧ ∀ x ∈ b.ifs [], (x.ix, x.id) ∈ rules ∧ ∃ c, (x.id, c) ∈ conds ∧ ∀ σ, Sat σ c ↔ x.way.holds σ := by
  unfold IfCond.analyse at h
  simp only at h
  split at h
  · cases h
  · rename_i h32
    simp only [Res.ok.injEq, Prod.mk.injEq] at h
    have hf := fresh_sts b 0 [] hnum (by omega) hn (by simp)
    refine ⟨hf, fun x hx => ?_⟩
    obtain ⟨h1, c, h2, used, h3⟩ := listed_sts b [] ⟨0, 0⟩ [] (OnWay.nil []) hf hn x hx
    rw [← h.1, ← h.2, hnum]
    exact ⟨h1, c, h2, fun σ => h3.sat⟩

/-! Example: node 10 is the left-hand side, 11 a child; 20 is inherited, 21 synthesized, 22 the shared info; 30 is a local,
40 a field (fiber 1), 41 its reverse (fiber 2).

  if X.i then Y.i := X.i; X.s := Y.s else X.s := d.f; end
  d := Y.s -/

def c62env : Env where
  keys := [⟨1, none, none⟩, ⟨22, none, some 10⟩, ⟨20, none, some 10⟩, ⟨21, none, some 10⟩, ⟨22, none, some 11⟩, ⟨20, none, some 11⟩,
    ⟨21, none, some 11⟩, ⟨21, some 1, some 11⟩, ⟨21, some 2, some 11⟩, ⟨30, none, none⟩, ⟨30, some 1, none⟩, ⟨30, some 2, none⟩]
  start := fun d => if d = 10 then 1 else if d = 11 then 4 else if d = 30 then 9 else 0
  base := 0
  fibers := [0, 1, 2]
  longer := fun f m => if f = 0 ∧ m = 40 then some 1 else if f = 0 ∧ m = 41 then some 2 else none
  isReverse := fun f => f == 2
  reverseField := fun f => if f = 40 then 41 else f
  circular := fun _ => false
  ifRules := [(1, ⟨0, 0⟩)]

def c62body : Sts :=
  .cons (.ifS 1 0 (.attrRef 20 (some 10))
    (.cons (.assign (.attrRef 20 (some 11)) (.attrRef 20 (some 10))) (.cons (.assign (.attrRef 21 (some 10)) (.attrRef 21 (some 11))) .nil))
    (.cons (.assign (.attrRef 21 (some 10)) (.fieldRef 40 false (.use (.plain 30)))) .nil))
  (.cons (.value 30 (some 10) none (.simple (.attrRef 21 (some 11)) none)) .nil)

theorem c62env_ok : c62env.Ok where
  nodup := by decide
  start := by
    intro i k h
    have hi : i < 12 := by
      by_contra hc
      rw [List.getElem?_eq_none (by simp [c62env]; omega)] at h
      cases h
    have : ∀ i, i < 12 → ∀ k, c62env.keys[i]? = some k → c62env.start (k.node.getD k.attr) ≤ i := by
      intro i hi k hk
      have : (c62env.keys[i]?).all (fun k => decide (c62env.start (k.node.getD k.attr) ≤ i)) = true := by
        clear hk
        revert i
        decide
      rw [hk] at this
      simpa using this
    exact this i hi k h
  base := by
    intro f m h
    simp only [c62env] at h
    split at h
    · cases h
    · split at h <;> cases h
  rules := by decide
  conds := by
    intro r hr
    simp only [c62env, List.mem_singleton] at hr; subst hr
    exact ⟨fun _ => false, fun i => by simp⟩

theorem c62fresh : c62body.Fresh [] := by
  simp [c62body, Sts.Fresh, St.Fresh]

theorem c62nil : Sts.nil.Fresh [] := by simp [Sts.Fresh]

theorem c62knows : c62env.Knows (c62body.ifs [] ++ Sts.nil.ifs []) := by
  intro x hx
  simp [c62body, Sts.ifs, St.ifs] at hx
  subst hx
  refine ⟨⟨0, 0⟩, rfl, fun σ => ⟨fun _ => ?_, fun _ => ?_⟩⟩
  · intro y hy; cases hy
  · intro i; simp

example : ∃ g, ruleEdges c62env c62body .nil (10, 22) [(11, 22)] (emptyAug c62env.keys.length [] []) = .ok g ∧
    Built c62env.keys.length [] [] g :=
  C62_total c62env_ok (by simp [c62body, Sts.Bound, St.Bound, Ex.Bound, Ex.Target, Dflt.Bound]) (by simp [Sts.Bound]) c62fresh c62nil _ _ _ _

/-- the equation of `X.s` in the else branch -/
def c62eqn : Eqn := ⟨⟨21, some 10, []⟩, [(0, false)], .fieldRef 40 false (.use (.plain 30)), false, false, false⟩

theorem c62mem : c62eqn ∈ ruleEqns c62env.reverseField c62body .nil (10, 22) [(11, 22)] := by
  simp [ruleEqns, c62body, Sts.eqns, St.eqns, Ex.assigned, Ex.inner, c62eqn]

example {g : Aug} (h : ruleEdges c62env c62body .nil (10, 22) [(11, 22)] (emptyAug c62env.keys.length [] []) = .ok g) :
    -- the test, the local and its field come before `X.s`
    Le direct (kindAt (fun _ => false) (g.cell 0 3)) ∧ Le direct (kindAt (fun _ => false) (g.cell 9 3)) ∧
    Le dependency (kindAt (fun _ => false) (g.cell 10 3)) := by
  have hw : c62eqn.way.holds (fun _ => false) := by simp [c62eqn, Way.holds]
  have h3 : c62env.At 3 c62eqn.target c62env.base := ⟨0, rfl, rfl⟩
  refine ⟨?_, ?_, ?_⟩
  · exact C62_guards_partial c62env_ok c62fresh c62nil c62knows h c62mem rfl (x := ⟨[], 1, 0⟩) (by simp [c62body, Sts.ifs, St.ifs])
      (b := false) (by simp [c62eqn]) (i := 0) (show c62env.keys[0]? = _ from rfl) h3 hw
  · exact C62_reads_partial c62env_ok c62fresh c62nil h c62mem (by simp [c62eqn]) (p := (30, none)) (by simp [c62eqn, Ex.reads]) (i := 9) (show c62env.keys[9]? = _ from rfl) h3 hw
  · exact (C62_carries_partial c62env_ok c62fresh c62nil h c62mem (by simp [c62eqn]) rfl (v := ⟨30, none, [40]⟩)
      (by simp [c62eqn, Ex.flows]) hw).1 ⟨1, rfl, rfl⟩ h3

/-- the tables of the example are those of the numbering -/
example : IfCond.analyse c62body.erase = .ok ([(0, 1)], [(1, ⟨0, 0⟩), (0, ⟨1, 0⟩), (0, ⟨1, 0⟩), (0, ⟨0, 1⟩), (30, ⟨0, 0⟩)]) ∧
    (IfCond.countB c62body.erase 0).1 = c62body.erase := by
  constructor
  · rfl
  · rfl

/-- The same with the local declared inside the branch. -/
def c62local : Sts :=
  .cons (.ifS 1 0 (.attrRef 20 (some 10)) (.cons (.value 30 (some 10) none (.simple (.attrRef 21 (some 11)) none)) .nil) .nil) .nil

/-- A collection with an initial value. -/
def c62coll : Sts := .cons (.value 30 (some 10) none (.composite (.attrRef 21 (some 11)))) .nil

/-- C62 fails for locals declared inside a branch: the test does not come before the local, which may be computed although
(or before it is known that) the branch is not taken. -/
theorem C62_local_refuted : ∃ g, ruleEdges c62env c62local .nil (10, 22) [(11, 22)] (emptyAug c62env.keys.length [] []) = .ok g ∧
    (⟨⟨30, none, []⟩, [(0, true)], .attrRef 21 (some 11), false, true, false⟩ : Eqn) ∈
      ruleEqns c62env.reverseField c62local .nil (10, 22) [(11, 22)] ∧
    c62env.Is 0 (1, none) ∧ c62env.Is 9 (30, none) ∧ g.cell 0 9 = [] := by
  refine ⟨_, rfl, ?_, rfl, rfl, rfl⟩
  simp [ruleEqns, c62local, Sts.eqns, St.eqns, declared, Ex.inner]

/-- C62 fails for the initial value of a collection declared inside a rule: what it reads does not come before it. -/
theorem C62_collection_refuted : ∃ g, ruleEdges c62env c62coll .nil (10, 22) [(11, 22)] (emptyAug c62env.keys.length [] []) = .ok g ∧
    (⟨⟨30, none, []⟩, [], .attrRef 21 (some 11), false, true, true⟩ : Eqn) ∈
      ruleEqns c62env.reverseField c62coll .nil (10, 22) [(11, 22)] ∧
    c62env.Is 6 (21, some 11) ∧ c62env.Is 9 (30, none) ∧ g.cell 6 9 = [] := by
  refine ⟨_, rfl, ?_, rfl, rfl, rfl⟩
  simp [ruleEqns, c62coll, Sts.eqns, St.eqns, declared, Ex.inner]

end Aps.Props
