import Verif.Proofs.SourceKeys
set_option linter.unusedVariables false
/-! The dependency graph of a production in source form. -/
namespace Aps.Static
open Aps.Gen Aps.Oag Aps.Dnc Aps.Props

variable {V : Type} {phyla : List Phylum} {P : Prod V} {g : Aug}

/-- like `C62_guards_partial`, as soon as the conditional is reached -/
theorem guards_early {env : Env} (ok : env.Ok) {body results : Sts} {lhs : Nat × Nat} {kids : List (Nat × Nat)} {attrs : List Nat}
    {links : List (Nat × Nat)} {g : Aug} (hb : body.Fresh []) (hr : results.Fresh [])
    (hk : env.Knows (body.ifs [] ++ results.ifs []))
    (h : ruleEdges env body results lhs kids (emptyAug env.keys.length attrs links) = .ok g)
    {ε : Eqn} (hε : ε ∈ ruleEqns env.reverseField body results lhs kids) (hloc : ε.loc = false)
    {x : Cnd} (hx : x ∈ body.ifs [] ++ results.ifs []) {b : Bool} (hxb : (x.ix, b) ∈ ε.way) {i j : Nat} (hi : env.Is i (x.id, none))
    (hj : env.At j ε.target env.base) : ∃ c, env.ifRules[x.ix]? = some (x.id, c) ∧ Ent (g.cell i j) c controlDependency := by
  obtain ⟨cs, h1, h2⟩ := ruleEdges_good ok hb hr h
  obtain ⟨g', h3, h4⟩ := runCalls_added (env := env) cs h1.ok (emptyAug env.keys.length attrs links) rfl (built_spec .empty).1
  rw [h2] at h3
  cases h3
  obtain ⟨c, ⟨used, hw⟩, hcov⟩ := h1.full ε hε
  obtain ⟨c1, k1, k2⟩ := hk x hx
  have hm : (⟨⟨x.id, none, []⟩, ε.target, c1, controlDependency⟩ : Call) ∈ cs :=
    hcov.guard hloc _ (recordCond_mem.2 ⟨x.ix, _, k1, hw.bit.2 ⟨_, hxb, rfl⟩, rfl⟩)
  refine ⟨c1, k1, h4.ent i j (at_lt (is_at hi)) (at_lt hj) _ _ ⟨_, hm, rfl, .base ?_ ?_⟩⟩
  · rw [vertexInstance_at ok]; exact is_at hi
  · rw [vertexInstance_at ok]; exact hj

/-- the equations of the production -/
def Prod.equations (phyla : List Phylum) (P : Prod V) : List Eqn :=
  ruleEqns P.env.reverseField (P.stsOf P.body) .nil (lhsDecl, infoAttr phyla P.lhsPhy)
    ((List.range P.kidPhy.length).filterMap fun c => ((P.kidPhy[c]?).bind id).map fun k => (kidDecl c, infoAttr phyla k))

theorem mem_equations {ε : Eqn} : ε ∈ P.equations phyla ↔ ε ∈ P.eqns [] P.body ∨ ∃ c k, P.kidPhy[c]? = some (some k) ∧
    ε = ⟨vx (infoAttr phyla k, some (kidDecl c)), [], .attrRef (infoAttr phyla P.lhsPhy) (some lhsDecl), false, false, false⟩ := by
  unfold Prod.equations ruleEqns
  simp only [List.mem_append, List.mem_map, List.mem_filterMap, List.mem_range]
  constructor
  · rintro ((h | h) | ⟨k, ⟨c, hc, h1⟩, rfl⟩)
    · exact .inl h
    · simp [Sts.eqns] at h
    · obtain ⟨k', h2, rfl⟩ := Option.map_eq_some_iff.1 h1
      obtain ⟨o, h3, h4⟩ := Option.bind_eq_some_iff.1 h2
      cases h4
      exact .inr ⟨c, k', h3, rfl⟩
  · rintro (h | ⟨c, k, h, rfl⟩)
    · exact .inl (.inl h)
    · refine .inr ⟨(kidDecl c, infoAttr phyla k), ⟨c, (List.getElem?_eq_some_iff.1 h).1, ?_⟩, rfl⟩
      simp [h]

/-- A production in source form, with its graph. -/
structure Made (phyla : List Phylum) (P : Prod V) (g : Aug) : Prop where
  attrs : ∀ q ∈ phyla, q.attrs.Nodup ∧ q.info < q.attrs.length ∧ ∀ x, q.attrs[q.info]? = some x → q.implicit x = true
  sound : P.Sound phyla
  graph : P.graph phyla = .ok g

theorem Made.nodup (M : Made phyla P g) : ∀ q ∈ phyla, q.attrs.Nodup := fun q hq => (M.attrs q hq).1

theorem nil_fresh : Sts.nil.Fresh [] := by simp [Sts.Fresh]

theorem Prod.Sound.total (hq : ∀ q ∈ phyla, q.attrs.Nodup) (S : P.Sound phyla) :
    ∃ g, P.graph phyla = .ok g ∧ Built P.keys.length (P.insts.map (·.attr)) P.links g :=
  C62_total (S.envOk hq) (bound_block P P.body S.readsIn) (by simp [Sts.Bound]) S.fresh nil_fresh _ _ _ _

theorem built_same {n : Nat} {attrs : List Nat} {links : List (Nat × Nat)} {g : Aug} (h : Built n attrs links g) :
    g.n = n ∧ g.attrs = attrs ∧ g.links = links := by
  induction h with
  | empty => exact ⟨rfl, rfl, rfl⟩
  | @add g g' i j c k hb hi hj hc hk he ih =>
    unfold addEdgeToGraph at he
    obtain ⟨x, h1, h2⟩ := Res.bind_eq_ok.1 he
    cases h2
    exact ih

theorem Made.built (M : Made phyla P g) : Built P.keys.length (P.insts.map (·.attr)) P.links g := by
  obtain ⟨g', h1, h2⟩ := M.sound.total M.nodup
  rw [M.graph] at h1
  cases h1
  exact h2

theorem Made.n (M : Made phyla P g) : g.n = P.insts.length := by rw [(built_same M.built).1, keys_len]

theorem Made.dep_iff (M : Made phyla P g) {σ : Nat → Bool} {i j : Nat} (hi : i < P.insts.length) (hj : j < P.insts.length) :
    DepUnder g σ i j ↔ ∃ t, (kindAt σ (g.cell i j)).getLsbD t = true := by
  have hw := (built_spec M.built).1
  have hn := M.n
  simp only [kindAt_bit]
  constructor
  · rintro ⟨e, he, hs⟩
    obtain ⟨t, ht⟩ := dep_ne_zero.1 (hw.ok i j (by omega) (by omega) e he).2.2.2
    exact ⟨t, e, he, hs, ht⟩
  · rintro ⟨t, e, he, hs, _⟩
    exact ⟨e, he, hs⟩

theorem dep_of_direct {σ : Nat → Bool} {i j : Nat} (h : Le direct (kindAt σ (g.cell i j))) : DepUnder g σ i j := by
  have := h 0 (by decide)
  rw [kindAt_bit] at this
  obtain ⟨e, he, hs, _⟩ := this
  exact ⟨e, he, hs⟩

theorem at_place {i : Nat} (hi : i < P.insts.length) : P.env.At i (vx (P.place i)) P.env.base := is_at (is_place hi)

/-- what an equation reads comes before -/
theorem Made.reads (M : Made phyla P g) {ε : Eqn} (hε : ε ∈ P.equations phyla) (hloc : ε.init = false) {i j : Nat} (hi : i < P.insts.length)
    (hj : j < P.insts.length) (hp : P.place i ∈ ε.rhs.reads) (ht : ε.target = vx (P.place j)) {τ : Nat → Bool} (hτ : ε.way.holds τ) : DepUnder g τ i j :=
  dep_of_direct (C62_reads_partial (M.sound.envOk M.nodup) M.sound.fresh nil_fresh M.graph hε (by simp [hloc]) hp (is_place hi)
    (by rw [ht]; exact at_place hj) hτ)

theorem place_rule {r : Nat} (h : P.IsRule r) : P.place r = (ifDecl r, none) := by
  obtain ⟨inst, h1, h2⟩ := h
  obtain ⟨rule, h2⟩ := Option.isSome_iff_exists.1 h2
  rw [place_at h1, key_rule h2]

/-- a conditional comes before what is inside, with its own condition -/
theorem Made.guards (M : Made phyla P g) {ε : Eqn} (hε : ε ∈ P.equations phyla) (hloc : ε.loc = false) {x : Cnd} (hx : x ∈ P.ifsOf [] P.body) {b : Bool}
    (hxb : (x.ix, b) ∈ ε.way) (hr : P.IsRule x.ix) {j : Nat} (hj : j < P.insts.length) (ht : ε.target = vx (P.place j)) :
    Ent (g.cell x.ix j) (P.declCond (ifDecl x.ix)) controlDependency := by
  have hi : x.ix < P.insts.length := by obtain ⟨_, h, _⟩ := hr; exact (List.getElem?_eq_some_iff.1 h).1
  obtain ⟨c, h1, h2⟩ := guards_early (M.sound.envOk M.nodup) M.sound.fresh nil_fresh M.sound.knows M.graph hε hloc
    (List.mem_append_left _ hx) hxb (i := x.ix) (j := j) (by rw [(ifs_map P P.body []).2 x hx, ← place_rule hr]; exact is_place hi) (by rw [ht]; exact at_place hj)
  rw [M.sound.ifRule (M.sound.cnd_lt hx)] at h1
  rw [(_root_.Prod.mk.inj (Option.some.inj h1)).2]
  exact h2

theorem Made.guards_dep (M : Made phyla P g) {ε : Eqn} (hε : ε ∈ P.equations phyla) (hloc : ε.loc = false) {x : Cnd} (hx : x ∈ P.ifsOf [] P.body) {b : Bool}
    (hxb : (x.ix, b) ∈ ε.way) (hr : P.IsRule x.ix) {j : Nat} (hj : j < P.insts.length) (ht : ε.target = vx (P.place j)) {τ : Nat → Bool}
    (hτ : x.way.holds τ) : DepUnder g τ x.ix j := by
  obtain ⟨e, he, hs, _⟩ := M.guards hε hloc hx hxb hr hj ht
  obtain ⟨u, hu⟩ := M.sound.cond hx
  exact ⟨e, he, sat_sub hs (hu.sat.2 hτ)⟩

/-- where dependencies come from -/
theorem Made.only (M : Made phyla P g) {i j : Nat} (hi : i < P.insts.length) (hj : j < P.insts.length) {τ : Nat → Bool} (h : DepUnder g τ i j) :
    ∃ ε ∈ P.equations phyla, ε.target = vx (P.place j) ∧ ((ε.way.holds τ ∧ P.place i ∈ ε.rhs.reads) ∨
      ∃ x ∈ P.ifsOf [] P.body, P.place i = (ifDecl x.ix, none) ∧ (∃ b, (x.ix, b) ∈ ε.way) ∧ x.way.holds τ) := by
  obtain ⟨t, ht⟩ := (M.dep_iff hi hj).1 h
  obtain ⟨ε, h1, h2, h3⟩ := C62_nothing_else (M.sound.envOk M.nodup) M.sound.fresh nil_fresh M.sound.knows M.graph (is_place hi) (is_place hj) ht
  refine ⟨ε, h1, h2, ?_⟩
  rcases h3 with ⟨h3, h4, _⟩ | ⟨_, x, h3, h4, h5, h6⟩
  · exact .inl ⟨h3, h4⟩
  · have hx : x ∈ P.ifsOf [] P.body := by simpa [Sts.ifs, Prod.ifsOf] using h3
    exact .inr ⟨x, hx, by rw [h4, (ifs_map P P.body []).2 x hx], h5, h6⟩

/-- conditionals on the way -/
theorem Made.led (M : Made phyla P g) {ε : Eqn} (hε : ε ∈ P.equations phyla) {y : Nat × Bool} (hy : y ∈ ε.way) :
    ∃ x ∈ P.ifsOf [] P.body, x.ix = y.1 ∧ ∀ z ∈ x.way, z ∈ ε.way := by
  obtain ⟨x, h1, h2⟩ := led_rule ε hε y hy
  exact ⟨x, by simpa [Sts.ifs, Prod.ifsOf] using h1, h2⟩

theorem Made.isRule (M : Made phyla P g) {x : Cnd} (hx : x ∈ P.ifsOf [] P.body) : P.IsRule x.ix := by
  have h := M.sound.cnd_lt hx
  -- a conditional of the body has an instance
  have : ∀ (b : Block V) (w : Way), x ∈ P.ifsOf w b → ∃ t f, b.Has x.ix t f := by
    intro b
    induction b with
    | nil => intro w hx; simp [Prod.ifsOf, Prod.stsOf, Sts.ifs] at hx
    | decl i rest ih =>
      intro w hx; rw [ifs_decl] at hx
      obtain ⟨t, f, h⟩ := ih w hx
      exact ⟨t, f, .decl h⟩
    | assign i e rest ih =>
      intro w hx; rw [ifs_assign] at hx
      obtain ⟨t, f, h⟩ := ih w hx
      exact ⟨t, f, .assign h⟩
    | cond r t f rest iht ihf ih =>
      intro w hx
      rw [ifs_cond] at hx
      simp only [List.cons_append, List.mem_cons, List.mem_append] at hx
      rcases hx with rfl | (hx | hx) | hx
      · exact ⟨t, f, .here⟩
      · obtain ⟨t', f', h⟩ := iht _ hx
        exact ⟨t', f', .inTrue h⟩
      · obtain ⟨t', f', h⟩ := ihf _ hx
        exact ⟨t', f', .inFalse h⟩
      · obtain ⟨t', f', h⟩ := ih _ hx
        exact ⟨t', f', .rest h⟩
  obtain ⟨t, f, h⟩ := this P.body [] hx
  obtain ⟨inst, rule, h1, h2, _⟩ := M.sound.declared.body _ _ _ h
  exact ⟨inst, h1, by simp [h2]⟩

theorem Made.mem_assigns (M : Made phyla P g) : ∀ x ∈ P.body.assigns, x.1 < P.insts.length := fun q hq => (M.sound.readsIn.assigns q hq).1

theorem Made.init (M : Made phyla P g) {ε : Eqn} (hε : ε ∈ P.equations phyla) : ε.init = false := by
  rcases mem_equations.1 hε with h | ⟨c, k, _, rfl⟩
  · exact (eqn_cases P P.body [] M.mem_assigns ε h).1
  · rfl

theorem Made.loc (M : Made phyla P g) {ε : Eqn} (hε : ε ∈ P.equations phyla) {y : Nat × Bool} (hy : y ∈ ε.way) : ε.loc = false := by
  rcases mem_equations.1 hε with h | ⟨c, k, _, rfl⟩
  · cases hl : ε.loc with
    | false => rfl
    | true =>
      rw [loc_way P P.body [] M.mem_assigns M.sound.nested ε h hl] at hy
      cases hy
  · rfl

theorem Made.test_eqn (M : Made phyla P g) {x : Cnd} (hx : x ∈ P.ifsOf [] P.body) :
    ⟨vx (P.place x.ix), x.way, P.testOf x.ix, true, false, false⟩ ∈ P.equations phyla := by
  refine mem_equations.2 (.inl ?_)
  rw [place_rule (M.isRule hx), ← (ifs_map P P.body []).2 x hx]
  exact Static.test_eqn P P.body [] M.mem_assigns x hx

theorem Made.way_fresh (M : Made phyla P g) {x : Cnd} (hx : x ∈ P.ifsOf [] P.body) (b : Bool) : (x.ix, b) ∉ x.way := by
  have : ∀ (bl : Block V) (w : Way), bl.rules.Nodup → (∀ y ∈ w, y.1 ∉ bl.rules) → ∀ x ∈ P.ifsOf w bl, (x.ix, b) ∉ x.way := by
    intro bl
    induction bl with
    | nil => intro w _ _ x hx; simp [Prod.ifsOf, Prod.stsOf, Sts.ifs] at hx
    | decl i rest ih => intro w h1 h2 x hx; rw [ifs_decl] at hx; exact ih w h1 h2 x hx
    | assign i e rest ih => intro w h1 h2 x hx; rw [ifs_assign] at hx; exact ih w h1 h2 x hx
    | cond r t f rest iht ihf ih =>
      intro w h1 h2 x hx
      simp only [Block.rules, List.nodup_cons, List.mem_append, not_or] at h1
      obtain ⟨⟨⟨n1, n2⟩, n3⟩, hn⟩ := h1
      have hn1 := List.nodup_append.1 hn
      have hn2 := List.nodup_append.1 hn1.1
      simp only [Block.rules, List.mem_cons, List.mem_append, not_or] at h2
      rw [ifs_cond] at hx
      simp only [List.cons_append, List.mem_cons, List.mem_append] at hx
      rcases hx with rfl | (hx | hx) | hx
      · exact fun h => (h2 _ h).1 rfl
      · refine iht _ hn2.1 ?_ x hx
        intro y hy
        rcases List.mem_append.1 hy with hy | hy
        · exact (h2 y hy).2.1.1
        · rw [List.mem_singleton] at hy; subst hy; exact n1
      · refine ihf _ hn2.2.1 ?_ x hx
        intro y hy
        rcases List.mem_append.1 hy with hy | hy
        · exact (h2 y hy).2.1.2
        · rw [List.mem_singleton] at hy; subst hy; exact n2
      · exact ih _ hn1.2.1 (fun y hy => (h2 y hy).2.2) x hx
  exact this P.body [] M.sound.rules_nodup (by simp) x hx

end Aps.Static
