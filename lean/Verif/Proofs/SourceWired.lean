import Verif.Proofs.SourceGraph
set_option linter.unusedVariables false
/-! The graph of a production in source form has the dependencies of the production. -/
namespace Aps.Static
open Aps.Gen Aps.Oag Aps.Dnc Aps.Props

variable {V : Type} {phyla : List Phylum} {P : Prod V} {g : Aug}

theorem Made.rule_lt (M : Made phyla P g) {r : Nat} (h : P.IsRule r) : r < P.insts.length := by
  obtain ⟨_, h, _⟩ := h; exact (List.getElem?_eq_some_iff.1 h).1

theorem Made.cnd (M : Made phyla P g) {r : Nat} (h : P.IsRule r) : ∃ x ∈ P.ifsOf [] P.body, x.ix = r :=
  M.sound.has_cnd ((isRule_iff M.sound (M.rule_lt h)).1 h)

theorem holds_flip {τ : Nat → Bool} {w : Way} {k : Nat} (h : w.holds τ) (hk : ∀ b, (k, b) ∉ w) : w.holds (Oag.flip τ k) := by
  intro y hy
  have : y.1 ≠ k := fun e => hk y.2 (by rw [← e]; exact hy)
  simp only [Oag.flip, if_neg this]
  exact h y hy

theorem Made.tested (M : Made phyla P g) : Tested g P.conds := by
  intro τ k i j hi hj hd hn
  rw [M.n] at hi hj
  obtain ⟨ε, hε, ht, hc⟩ := M.only hj hi hd
  -- it is enough that the conditional is on the way
  have key : ∀ b x, (k, b) ∈ ε.way → x ∈ P.ifsOf [] P.body → x.ix = k → x.way.holds τ →
      ∃ r, r < g.n ∧ ruleOf P.conds r = some k ∧ Sat τ (condOf P.conds r) ∧ DepUnder g (Oag.flip τ k) r i := by
    rintro b x hb hx rfl hw
    have hr := M.isRule hx
    obtain ⟨u, hu⟩ := M.sound.cond hx
    refine ⟨x.ix, by rw [M.n]; exact M.rule_lt hr, ruleOf_conds.2 ⟨rfl, hr⟩, ?_, ?_⟩
    · rw [condOf_rule M.sound hr]; exact hu.sat.2 hw
    · exact M.guards_dep hε (M.loc hε hb) hx hb hr hi ht (holds_flip hw (M.way_fresh hx))
  rcases hc with ⟨hw, hp⟩ | ⟨x, hx, hp, ⟨b, hb⟩, hw⟩
  · by_cases hk : ∃ b, (k, b) ∈ ε.way
    · obtain ⟨b, hb⟩ := hk
      obtain ⟨x, hx, he, hsub⟩ := M.led hε hb
      exact key b x hb hx he fun z hz => hw z (hsub z hz)
    · exact absurd (M.reads hε (M.init hε) hj hi hp ht (holds_flip hw (not_exists.1 hk))) hn
  · have hj' : x.ix = j := by
      have := place_rule (M.isRule hx)
      exact place_inj M.nodup M.sound (M.rule_lt (M.isRule hx)) hj (this.trans hp.symm)
    by_cases hk : ∃ b, (k, b) ∈ x.way
    · obtain ⟨b', hb'⟩ := hk
      obtain ⟨y, hy, he, hsub⟩ := M.led (M.test_eqn hx) hb'
      obtain ⟨x', hx', he', hsub'⟩ := M.led hε hb
      have : x' = x := M.sound.cnd_one hx' hx he'
      subst this
      exact key b' y (hsub' _ hb') hy he fun z hz => hw z (hsub z hz)
    · refine absurd ?_ hn
      rw [← hj']
      exact M.guards_dep hε (M.loc hε hb) hx hb (M.isRule hx) hi ht (holds_flip hw (not_exists.1 hk))

theorem OnWay.sub {w w' : Way} {c c' : Cond} {u u'} (h : OnWay w c u) (h' : OnWay w' c' u') (hs : ∀ y ∈ w, y ∈ w') : c.sub c' :=
  fun k => ⟨fun hp => (h'.pos k).2 (hs _ ((h.pos k).1 hp)), fun hp => (h'.neg k).2 (hs _ ((h.neg k).1 hp))⟩

theorem Made.nested (M : Made phyla P g) : InstsGuarded g P.conds := by
  intro i hi k hb
  rw [M.n] at hi
  by_cases hr : P.IsRule i
  · obtain ⟨x, hx, rfl⟩ := M.cnd hr
    rw [condOf_rule M.sound hr] at hb ⊢
    obtain ⟨u, hu⟩ := M.sound.cond hx
    obtain ⟨⟨k', b⟩, hy, rfl⟩ := hu.bit.1 hb
    obtain ⟨y, hy1, hy2, hy3⟩ := M.led (M.test_eqn hx) hy
    simp only at hy2 hy
    subst hy2
    have hry := M.isRule hy1
    obtain ⟨u', hu'⟩ := M.sound.cond hy1
    have hsub := OnWay.sub hu' hu hy3
    refine ⟨y.ix, by rw [M.n]; exact M.rule_lt hry, ruleOf_conds.2 ⟨rfl, hry⟩, ?_, .inl ?_⟩
    · rw [condOf_rule M.sound hry]; exact hsub
    · obtain ⟨e, he, hs, _⟩ := M.guards (M.test_eqn hx) rfl hy1 hy hry hi rfl
      exact ⟨e, he, Cond.sub_trans hs hsub⟩
  · rw [condOf_other M.sound hr] at hb
    simp [Cond.bit] at hb

theorem Made.insts (M : Made phyla P g) : InstsOk g P.conds where
  len := by rw [M.n]; simp [Prod.conds]
  rule := by
    intro i k h
    obtain ⟨rfl, hr⟩ := ruleOf_conds.1 h
    have := (isRule_iff M.sound (M.rule_lt hr)).1 hr
    have := M.sound.few
    omega
  inj := by
    intro a b k h1 h2
    rw [← (ruleOf_conds.1 h1).1, ← (ruleOf_conds.1 h2).1]
  tested := M.tested

theorem Made.byRule (M : Made phyla P g) (σ : Nat → Bool) : ∀ r ∈ P.body.rules, byRule P.conds σ r = σ r := by
  intro r hr
  have h := M.sound.rules_lt hr
  obtain ⟨x, hx, rfl⟩ := M.sound.has_cnd h
  have hr := M.isRule hx
  have hl : x.ix < P.conds.length := by simpa [Prod.conds] using M.rule_lt hr
  unfold Static.byRule
  cases hs : σ x.ix with
  | true =>
    rw [List.any_eq_true]
    exact ⟨x.ix, by simpa using hl, by simp [ruleOf_conds.2 ⟨rfl, hr⟩, hs]⟩
  | false =>
    rw [List.any_eq_false]
    intro i hi
    by_cases he : ruleOf P.conds i = some x.ix
    · have := (ruleOf_conds.1 he).1
      rw [← this, hs]; simp
    · simp [he]

theorem Made.active (M : Made phyla P g) (σ : Nat → Bool) {x : Cnd} (hx : x ∈ P.ifsOf [] P.body) :
    Active P.conds σ x.ix ↔ x.way.holds (Static.byRule P.conds σ) := by
  obtain ⟨u, hu⟩ := M.sound.cond hx
  unfold Active
  rw [condOf_rule M.sound (M.isRule hx)]
  exact hu.sat

theorem Made.tested_active (M : Made phyla P g) (σ : Nat → Bool) {r : Nat} (h : P.IsRule r) : r ∈ P.body.tested σ ↔ Active P.conds σ r := by
  obtain ⟨x, hx, rfl⟩ := M.cnd h
  rw [tested_iff P P.body [] (M.byRule σ) (by simp [Way.holds]), M.active σ hx]
  constructor
  · rintro ⟨y, hy, he, hw⟩
    rw [← M.sound.cnd_one hy hx he]; exact hw
  · exact fun h => ⟨x, hx, rfl, h⟩

theorem zero_sat (τ : Nat → Bool) : Sat τ ⟨0, 0⟩ := by intro k; simp

theorem Made.other_active (M : Made phyla P g) (σ : Nat → Bool) {i : Nat} (h : ¬ P.IsRule i) : Active P.conds σ i := by
  unfold Active
  rw [condOf_other M.sound h]
  exact zero_sat _

theorem stored_not_rule {i : Nat} (h : P.Stored i) : ¬ P.IsRule i := by
  obtain ⟨inst, h1, h2, _⟩ := h
  rintro ⟨inst', h3, h4⟩
  rw [h1] at h3; cases h3
  rw [h2] at h4; cases h4

/-- locals are declared outside conditionals -/
theorem decls_locals {σ : Nat → Bool} {i : Nat} : ∀ (b : Block V), (∀ r t f, b.Has r t f → t.decls = [] ∧ f.decls = []) → i ∈ b.decls → i ∈ b.locals σ
  | .nil, h, hi => by simp [Block.decls] at hi
  | .decl j rest, h, hi => by
    simp only [Block.decls, Block.locals, List.mem_cons] at hi ⊢
    exact hi.imp id (decls_locals rest fun r t f hh => h r t f (.decl hh))
  | .assign j e rest, h, hi => decls_locals rest (fun r t f hh => h r t f (.assign hh)) hi
  | .cond r t f rest, h, hi => by
    obtain ⟨h1, h2⟩ := h r t f .here
    simp only [Block.decls, h1, h2, List.nil_append] at hi
    simp only [Block.locals, List.mem_append]
    exact .inr (decls_locals rest (fun r t f hh => h r t f (.rest hh)) hi)

theorem Made.wired (M : Made phyla P g) : Wired P g P.conds where
  rule := by
    intro i
    constructor
    · intro h
      obtain ⟨k, hk⟩ := Option.isSome_iff_exists.1 h
      exact (ruleOf_conds.1 hk).2
    · intro h; rw [ruleOf_conds.2 ⟨rfl, h⟩]; rfl
  nested := M.nested
  attrs := by
    intro i inst hi h
    refine condOf_other M.sound ?_
    rintro ⟨inst', h1, h2⟩
    rw [hi] at h1; cases h1
    obtain ⟨h3, h4⟩ := M.sound.declared.rule i inst hi h2
    rcases h with h | h
    · rw [h3] at h; cases h
    · exact h h4
  tested := fun σ r h => M.tested_active σ h
  locals := by
    intro σ i inst hi hk hr
    have hnr : ¬ P.IsRule i := by
      rintro ⟨inst', h1, h2⟩
      rw [hi] at h1; cases h1
      rw [hr] at h2; cases h2
    refine ⟨fun _ => M.other_active σ hnr, fun _ => decls_locals P.body M.sound.nested ((M.sound.locals i).2 ?_)⟩
    obtain ⟨b, kb, L⟩ := M.sound.arranged
    refine ⟨inst, hi, hr, ?_, ?_⟩
    · cases hl : inst.lhs with
      | false => rfl
      | true =>
        obtain ⟨_, q, a, _, _, _, h5, _⟩ := L.lhs i inst hi hl
        rw [hk] at h5; cases h5
    · cases hc : inst.ch with
      | none => rfl
      | some c =>
        obtain ⟨k, q, a, _, _, _, _, h5, _⟩ := L.ch i inst c hi hc
        rw [hk] at h5; cases h5
  tests := by
    intro σ r inst rule hi hr ha j hj
    have hR : P.IsRule r := ⟨inst, hi, by simp [hr]⟩
    have hst := M.sound.tests r inst rule hi hr j hj
    obtain ⟨x, hx, rfl⟩ := M.cnd hR
    refine ⟨hst, M.other_active σ (stored_not_rule hst), ?_⟩
    refine M.reads (M.test_eqn hx) rfl (stored_lt hst) (M.rule_lt hR) ?_ rfl ((M.active σ hx).1 ha)
    have : P.testOf x.ix = .call (P.refs rule.test.reads) := by
      unfold Prod.testOf
      rw [hi, Option.bind_some, hr]
    simp only [this, Ex.reads]
    rw [refs_reads P (M.sound.readsIn.tests x.ix inst rule hi hr)]
    exact List.mem_map_of_mem hj
  reads := by
    intro σ i e he ha j hj
    unfold Prod.rhs at he
    split at he
    · rename_i q hq
      cases he
      have h1 := List.mem_of_find?_eq_some hq
      have h2 := List.find?_some hq
      simp only [decide_eq_true_eq] at h2
      subst h2
      have hmem : q ∈ P.body.assigns := by
        have : ∀ b : Block V, q ∈ b.active σ → q ∈ b.assigns := by
          intro b
          induction b with
          | nil => exact id
          | decl i rest ih => exact ih
          | assign i e rest ih =>
            intro h
            simp only [Block.active, Block.assigns, List.mem_cons] at h ⊢
            exact h.imp id ih
          | cond r t f rest iht ihf ih =>
            intro h
            simp only [Block.active, Block.assigns, List.mem_append] at h ⊢
            rcases h with h | h
            · split at h
              · exact .inl (.inl (iht h))
              · exact .inl (.inr (ihf h))
            · exact .inr (ih h)
        exact this P.body h1
      obtain ⟨s1, s2⟩ := M.sound.assigned q hmem
      obtain ⟨ε, e1, e2, e3, e4, e5⟩ := active_eqn P P.body [] M.mem_assigns (M.byRule σ) (by simp [Way.holds]) h1
      refine ⟨s2 j hj, M.other_active σ (stored_not_rule (s2 j hj)), ?_⟩
      have hε : ε ∈ P.equations phyla := mem_equations.2 (.inl e1)
      refine M.reads hε (M.init hε) (stored_lt (s2 j hj)) (stored_lt s1) ?_ e2 e5
      rw [e3, exprOf_reads P (fun x hx => stored_lt (s2 x hx))]
      exact List.mem_map_of_mem hj
    · have hd : P.defaults[i]? = some (some e) := by
        cases hd : P.defaults[i]? with
        | none => rw [hd] at he; cases he
        | some o => rw [hd] at he; simp only [Option.getD_some] at he; rw [he]
      obtain ⟨s1, s2⟩ := M.sound.defaults i e hd
      refine ⟨s1 j hj, M.other_active σ (stored_not_rule (s1 j hj)), ?_⟩
      by_cases hl : P.IsLocal i
      · obtain ⟨ε, e1, e2, e3, e4, e5⟩ := decl_eqn P hd P.body [] M.mem_assigns M.sound.nested ((M.sound.locals i).2 hl)
        have hε : ε ∈ P.equations phyla := mem_equations.2 (.inl e1)
        obtain ⟨_, _, hpl⟩ := local_decl hl
        refine M.reads hε e4 (stored_lt (s1 j hj)) ?_ ?_ ?_ ?_
        · obtain ⟨_, h, _⟩ := hl
          exact (List.getElem?_eq_some_iff.1 h).1
        · rw [e3, exprOf_reads P (fun x hx => stored_lt (s1 x hx))]
          exact List.mem_map_of_mem hj
        · rw [e2, hpl]
        · rw [e5]; simp [Way.holds]
      · rw [s2 hl] at hj; cases hj
  guards := by
    rintro σ i hnr ha r hr t f hh ⟨e, he⟩
    obtain ⟨x, hx, rfl, hq⟩ := has_eqn P hh [] M.mem_assigns
    obtain ⟨ε, e1, e2, e3, e4⟩ := hq (σ x.ix) (i, e) he
    have hε : ε ∈ P.equations phyla := mem_equations.2 (.inl e1)
    have hi : i < P.insts.length := by
      have : ∀ (b : Block V) {q : Nat × Expr V}, q ∈ b.own → q ∈ b.assigns := by
        intro b
        induction b with
        | nil => exact id
        | decl i rest ih => exact ih
        | assign i e rest ih =>
          intro q h
          simp only [Block.own, Block.assigns, List.mem_cons] at h ⊢
          exact h.imp id ih
        | cond r t f rest iht ihf ih =>
          intro q h
          simp only [Block.own, Block.assigns, List.mem_append] at h ⊢
          exact .inr (ih h)
      have h2 : ∀ {b : Block V} {r t f}, b.Has r t f → ∀ q, q ∈ t.assigns ∨ q ∈ f.assigns → q ∈ b.assigns := by
        intro b r t f h
        induction h with
        | here => intro q hq; simp only [Block.assigns, List.mem_append]; exact .inl hq
        | decl _ ih => exact ih
        | assign _ ih => intro q hq; simp only [Block.assigns, List.mem_cons]; exact .inr (ih q hq)
        | rest _ ih => intro q hq; simp only [Block.assigns, List.mem_append]; exact .inr (ih q hq)
        | inTrue _ ih => intro q hq; simp only [Block.assigns, List.mem_append]; exact .inl (.inl (ih q hq))
        | inFalse _ ih => intro q hq; simp only [Block.assigns, List.mem_append]; exact .inl (.inr (ih q hq))
      refine M.mem_assigns (i, e) (h2 hh _ ?_)
      split at he
      · exact .inl (this _ he)
      · exact .inr (this _ he)
    exact M.guards_dep hε e4 hx e3 (M.isRule hx) hi e2 ((M.active σ hx).1 ((M.tested_active σ (M.isRule hx)).1 hr))

end Aps.Static
