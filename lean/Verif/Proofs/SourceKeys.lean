import Verif.Proofs.SourceEnv
import Verif.Props.EdgeGen
set_option linter.unusedVariables false
/-! Instances of a production in source form. -/
namespace Aps.Static
open Aps.Gen Aps.Oag Aps.Dnc

variable {V : Type} {phyla : List Phylum} {P : Prod V}

theorem key_at {i : Nat} {inst : Inst V} (h : P.insts[i]? = some inst) : P.keys[i]? = some (inst.key i) := by
  simp [Prod.keys, h]

theorem keys_len : P.keys.length = P.insts.length := by simp [Prod.keys]

theorem place_at {i : Nat} {inst : Inst V} (h : P.insts[i]? = some inst) : P.place i = ((inst.key i).attr, (inst.key i).node) := by
  simp [Prod.place, key_at h]

theorem key_fiber {i : Nat} {inst : Inst V} : (inst.key i).fiber = none := by
  unfold Inst.key
  split
  · rfl
  · split
    · rfl
    · split <;> rfl

theorem is_place {i : Nat} (h : i < P.insts.length) : P.env.Is i (P.place i) := by
  have h1 := List.getElem?_eq_getElem h
  show P.keys[i]? = _
  rw [key_at h1, place_at h1]
  congr 1
  have := key_fiber (i := i) (inst := P.insts[i])
  cases hk : P.insts[i].key i
  rw [hk] at this
  simp only at this
  rw [this]

theorem key_rule {i : Nat} {inst : Inst V} {rule : Rule V} (h : inst.rule = some rule) : inst.key i = ⟨ifDecl i, none, none⟩ := by
  unfold Inst.key; rw [h]

theorem key_ch {i c : Nat} {inst : Inst V} (h : inst.rule = none) (hc : inst.ch = some c) : inst.key i = ⟨attrDecl inst.attr, none, some (kidDecl c)⟩ := by
  unfold Inst.key; rw [h, hc]

theorem key_lhs {i : Nat} {inst : Inst V} (h : inst.rule = none) (hc : inst.ch = none) (hl : inst.lhs = true) : inst.key i = ⟨attrDecl inst.attr, none, some lhsDecl⟩ := by
  unfold Inst.key; rw [h, hc, hl]; rfl

theorem key_loc {i : Nat} {inst : Inst V} (h : inst.rule = none) (hc : inst.ch = none) (hl : inst.lhs = false) : inst.key i = ⟨locDecl inst.attr, none, none⟩ := by
  unfold Inst.key; rw [h, hc, hl]; rfl

theorem attrDecl_inj {a b : Nat} (h : attrDecl a = attrDecl b) : a = b := by unfold attrDecl at h; omega

theorem kid_ne_lhs (c : Nat) : kidDecl c ≠ lhsDecl := by unfold kidDecl lhsDecl; omega

theorem key_inj (hq : ∀ q ∈ phyla, q.attrs.Nodup) (S : P.Sound phyla) {i j : Nat} {a b : Inst V} (ha : P.insts[i]? = some a)
    (hb : P.insts[j]? = some b) (h : a.key i = b.key j) : i = j := by
  obtain ⟨b0, kb, L⟩ := S.arranged
  have D := S.declared
  cases hra : a.rule with
  | some ra =>
    rw [key_rule hra] at h
    cases hrb : b.rule with
    | some rb =>
      rw [key_rule hrb] at h
      simp only [Gen.Key.mk.injEq, and_true] at h
      exact ifDecl_inj h
    | none =>
      exfalso
      cases hcb : b.ch with
      | some c => rw [key_ch hrb hcb] at h; simp at h
      | none =>
        cases hlb : b.lhs with
        | true => rw [key_lhs hrb hcb hlb] at h; simp at h
        | false => rw [key_loc hrb hcb hlb] at h; simp [ifDecl, locDecl] at h; omega
  | none =>
    cases hca : a.ch with
    | some c =>
      rw [key_ch hra hca] at h
      cases hrb : b.rule with
      | some rb => rw [key_rule hrb] at h; simp at h
      | none =>
        cases hcb : b.ch with
        | some c' =>
          rw [key_ch hrb hcb] at h
          simp only [Gen.Key.mk.injEq, true_and, Option.some.injEq, kidDecl] at h
          have hat := attrDecl_inj h.1
          have : c = c' := by omega
          subst this
          obtain ⟨k, q, x, e1, e2, e3, e4, _⟩ := L.ch i a c ha hca
          obtain ⟨k', q', x', e1', e2', e3', e4', _⟩ := L.ch j b c hb hcb
          rw [e1] at e1'
          cases e1'
          rw [e2] at e2'
          cases e2'
          have := (List.getElem?_inj (List.getElem?_eq_some_iff.1 e3).1 (hq q (List.mem_of_getElem? e2))).1 (e3.trans ((by rw [hat]) : _ = some b.attr) |>.trans e3'.symm)
          omega
        | none =>
          exfalso
          cases hlb : b.lhs with
          | true =>
            rw [key_lhs hrb hcb hlb] at h
            simp only [Gen.Key.mk.injEq, true_and, Option.some.injEq] at h
            exact kid_ne_lhs _ h.2
          | false => rw [key_loc hrb hcb hlb] at h; simp at h
    | none =>
      cases hla : a.lhs with
      | true =>
        rw [key_lhs hra hca hla] at h
        cases hrb : b.rule with
        | some rb => rw [key_rule hrb] at h; simp at h
        | none =>
          cases hcb : b.ch with
          | some c' =>
            rw [key_ch hrb hcb] at h
            simp only [Gen.Key.mk.injEq, true_and, Option.some.injEq] at h
            exact absurd h.2.symm (kid_ne_lhs _)
          | none =>
            cases hlb : b.lhs with
            | true =>
              rw [key_lhs hrb hcb hlb] at h
              simp only [Gen.Key.mk.injEq, and_true] at h
              have hat := attrDecl_inj h
              obtain ⟨_, q, x, e2, e3, e4, _⟩ := L.lhs i a ha hla
              obtain ⟨_, q', x', e2', e3', e4', _⟩ := L.lhs j b hb hlb
              rw [e2] at e2'
              cases e2'
              have := (List.getElem?_inj (List.getElem?_eq_some_iff.1 e3).1 (hq q (List.mem_of_getElem? e2))).1 (e3.trans ((by rw [hat]) : _ = some b.attr) |>.trans e3'.symm)
              omega
            | false => rw [key_loc hrb hcb hlb] at h; simp at h
      | false =>
        rw [key_loc hra hca hla] at h
        cases hrb : b.rule with
        | some rb => rw [key_rule hrb] at h; simp [ifDecl, locDecl] at h; omega
        | none =>
          cases hcb : b.ch with
          | some c' => rw [key_ch hrb hcb] at h; simp at h
          | none =>
            cases hlb : b.lhs with
            | true => rw [key_lhs hrb hcb hlb] at h; simp at h
            | false =>
              rw [key_loc hrb hcb hlb] at h
              simp only [Gen.Key.mk.injEq, and_true, locDecl] at h
              exact D.locs i j a b ha hb hra hrb hla hlb hca hcb (by omega)

theorem place_inj (hq : ∀ q ∈ phyla, q.attrs.Nodup) (S : P.Sound phyla) {i j : Nat} (hi : i < P.insts.length) (hj : j < P.insts.length)
    (h : P.place i = P.place j) : i = j := by
  have h1 := List.getElem?_eq_getElem hi
  have h2 := List.getElem?_eq_getElem hj
  refine key_inj hq S h1 h2 ?_
  rw [place_at h1, place_at h2] at h
  have f1 := key_fiber (i := i) (inst := P.insts[i])
  have f2 := key_fiber (i := j) (inst := P.insts[j])
  cases hk : P.insts[i].key i
  cases hk' : P.insts[j].key j
  rw [hk] at f1 h
  rw [hk'] at f2 h
  simp only at f1 f2
  simp only [_root_.Prod.mk.injEq] at h
  rw [f1, f2, h.1, h.2]

theorem keys_nodup (hq : ∀ q ∈ phyla, q.attrs.Nodup) (S : P.Sound phyla) : P.keys.Nodup := by
  rw [List.nodup_iff_getElem?_ne_getElem?]
  intro i j hij hj he
  rw [keys_len] at hj
  have h1 := List.getElem?_eq_getElem (show i < P.insts.length by omega)
  have h2 := List.getElem?_eq_getElem hj
  rw [key_at h1, key_at h2] at he
  have := key_inj hq S h1 h2 (Option.some.inj he)
  omega

theorem stored_lt {i : Nat} (h : P.Stored i) : i < P.insts.length := by
  obtain ⟨inst, h, _⟩ := h
  exact (List.getElem?_eq_some_iff.1 h).1

theorem Prod.Sound.readsIn (S : P.Sound phyla) : ReadsIn P P.body :=
  ⟨fun r inst rule h1 h2 j hj => stored_lt (S.tests r inst rule h1 h2 j hj),
   fun q hq => ⟨stored_lt (S.assigned q hq).1, fun j hj => stored_lt ((S.assigned q hq).2 j hj)⟩,
   fun i e h j hj => stored_lt ((S.defaults i e h).1 j hj)⟩

theorem Prod.Sound.rules_lt (S : P.Sound phyla) {r : Nat} (h : r ∈ P.body.rules) : r < P.body.rules.length := by
  rw [S.numbered] at h
  simpa using h

theorem Prod.Sound.rules_mem (S : P.Sound phyla) {r : Nat} (h : r < P.body.rules.length) : r ∈ P.body.rules := by
  rw [S.numbered]
  simpa using h

theorem Prod.Sound.rules_nodup (S : P.Sound phyla) : P.body.rules.Nodup := by
  rw [S.numbered]
  exact List.nodup_range

theorem local_decl {i : Nat} (h : P.IsLocal i) : ∃ a, P.declOf i = locDecl a ∧ P.place i = (P.declOf i, none) := by
  obtain ⟨inst, h1, h2, h3, h4⟩ := h
  refine ⟨inst.attr, ?_, ?_⟩
  · simp [Prod.declOf, key_at h1, key_loc h2 h4 h3]
  · simp [Prod.declOf, place_at h1, key_at h1, key_loc h2 h4 h3]

theorem Prod.Sound.decl_ne (S : P.Sound phyla) : ∀ i ∈ P.body.decls, ∀ r, P.declOf i ≠ ifDecl r := by
  intro i hi r
  obtain ⟨a, h, _⟩ := local_decl ((S.locals i).1 hi)
  rw [h]
  unfold locDecl ifDecl
  omega

theorem Prod.Sound.fresh (S : P.Sound phyla) : (P.stsOf P.body).Fresh [] :=
  fresh_block P P.body [] S.rules_nodup fun r hr => ⟨by have := S.rules_lt hr; have := S.few; omega, by simp⟩

/-- the condition of a conditional -/
theorem Prod.Sound.cond (S : P.Sound phyla) {x : Cnd} (hx : x ∈ P.ifsOf [] P.body) : ∃ u, OnWay x.way (P.declCond (ifDecl x.ix)) u := by
  obtain ⟨c, h1, h2⟩ := conds_find P P.body [] ⟨0, 0⟩ [] (OnWay.nil []) S.rules_nodup
    (fun r hr => ⟨by have := S.rules_lt hr; have := S.few; omega, by simp⟩) S.decl_ne x hx
  unfold Prod.declCond
  rw [h1]
  exact h2

/-- conditions of other declarations -/
theorem Prod.Sound.cond_zero (S : P.Sound phyla) {d : Nat} (h0 : d ≠ 0) (h : ∀ r, d ≠ ifDecl r) : P.declCond d = ⟨0, 0⟩ := by
  unfold Prod.declCond
  split
  · rename_i q hq
    have h1 := List.mem_of_find?_eq_some hq
    have h2 := List.find?_some hq
    simp only [decide_eq_true_eq] at h2
    rcases conds_keys P P.body _ q h1 with h3 | ⟨i, h3, h4, h5⟩ | ⟨r, h3, h4⟩
    · exact absurd (h2.symm.trans h3) h0
    · exact h5 S.nested
    · exact absurd (h2.symm.trans h4) (h r)
  · rfl

/-- every conditional is in the body -/
theorem Prod.Sound.has_cnd (S : P.Sound phyla) {r : Nat} (h : r < P.body.rules.length) : ∃ x ∈ P.ifsOf [] P.body, x.ix = r := by
  have := S.rules_mem h
  rw [← (ifs_map P P.body []).1] at this
  obtain ⟨x, h1, h2⟩ := List.mem_map.1 this
  exact ⟨x, h1, h2⟩

theorem Prod.Sound.cnd_one (S : P.Sound phyla) {x y : Cnd} (hx : x ∈ P.ifsOf [] P.body) (hy : y ∈ P.ifsOf [] P.body) (h : x.ix = y.ix) : x = y := by
  have hn := S.rules_nodup
  rw [← (ifs_map P P.body []).1] at hn
  exact List.inj_on_of_nodup_map hn hx hy h

theorem Prod.Sound.cnd_lt (S : P.Sound phyla) {x : Cnd} (hx : x ∈ P.ifsOf [] P.body) : x.ix < P.body.rules.length := by
  apply S.rules_lt
  rw [← (ifs_map P P.body []).1]
  exact List.mem_map_of_mem hx

theorem Prod.Sound.ifRule (S : P.Sound phyla) {r : Nat} (h : r < P.body.rules.length) : P.env.ifRules[r]? = some (ifDecl r, P.declCond (ifDecl r)) := by
  simp [Prod.env, h]

theorem Prod.Sound.envOk (hq : ∀ q ∈ phyla, q.attrs.Nodup) (S : P.Sound phyla) : P.env.Ok where
  nodup := keys_nodup hq S
  start := by
    intro i k h
    show P.keys.findIdx _ ≤ i
    have hk : P.keys[i]? = some k := h
    obtain ⟨hi, he⟩ := List.getElem?_eq_some_iff.1 hk
    by_contra hc
    have := List.not_of_lt_findIdx (Nat.lt_of_not_le hc)
    rw [he] at this
    simp at this
  base := by intro f m h; cases h
  rules := by simp only [Prod.env, List.length_map, List.length_range]; exact S.few
  conds := by
    intro r hr
    simp only [Prod.env, List.mem_map, List.mem_range] at hr
    obtain ⟨k, hk, rfl⟩ := hr
    obtain ⟨x, hx, rfl⟩ := S.has_cnd hk
    obtain ⟨u, hu⟩ := S.cond hx
    exact hu.exists_sat

theorem Prod.Sound.knows (S : P.Sound phyla) : P.env.Knows ((P.stsOf P.body).ifs [] ++ Sts.nil.ifs []) := by
  intro x hx
  have hx' : x ∈ P.ifsOf [] P.body := by simpa [Sts.ifs, Prod.ifsOf] using hx
  obtain ⟨u, hu⟩ := S.cond hx'
  refine ⟨_, ?_, fun σ => hu.sat⟩
  rw [S.ifRule (S.cnd_lt hx'), (ifs_map P P.body []).2 x hx']

/-! ## Conditions of instances -/

theorem conds_at {i : Nat} {inst : Inst V} (h : P.insts[i]? = some inst) : P.conds[i]? =
    some ⟨instanceCondition ((inst.key i).node.map P.declCond) (some (P.declCond (inst.key i).attr)), if inst.rule.isSome then some i else none⟩ := by
  simp [Prod.conds, h]

theorem ruleOf_conds {i k : Nat} : ruleOf P.conds i = some k ↔ k = i ∧ P.IsRule i := by
  unfold ruleOf Prod.IsRule
  cases h : P.insts[i]? with
  | none =>
    have : P.conds[i]? = none := by simp [Prod.conds] at h ⊢; exact h
    simp [this]
  | some inst =>
    rw [conds_at h]
    cases hr : inst.rule with
    | some r =>
      simp only [Option.bind_some, Option.isSome_some, if_true, Option.some.injEq, exists_eq_left']
      exact ⟨fun h => ⟨h.symm, by simp [hr]⟩, fun h => h.1.symm⟩
    | none => simp [hr]

theorem condOf_rule (S : P.Sound phyla) {r : Nat} (h : P.IsRule r) : condOf P.conds r = P.declCond (ifDecl r) := by
  obtain ⟨inst, h1, h2⟩ := h
  obtain ⟨rule, h2⟩ := Option.isSome_iff_exists.1 h2
  unfold condOf
  rw [conds_at h1, key_rule h2]
  rfl

theorem condOf_other (S : P.Sound phyla) {i : Nat} (h : ¬ P.IsRule i) : condOf P.conds i = ⟨0, 0⟩ := by
  unfold condOf
  cases hi : P.insts[i]? with
  | none =>
    have : P.conds[i]? = none := by simp [Prod.conds] at hi ⊢; exact hi
    simp [this]
  | some inst =>
    have hr : inst.rule = none := by
      cases hr : inst.rule with
      | none => rfl
      | some r => exact absurd ⟨inst, hi, by simp [hr]⟩ h
    rw [conds_at hi]
    cases hc : inst.ch with
    | some c =>
      rw [key_ch hr hc]
      exact S.cond_zero (by unfold kidDecl; omega) (by intro r; unfold kidDecl ifDecl; omega)
    | none =>
      cases hl : inst.lhs with
      | true =>
        rw [key_lhs hr hc hl]
        exact S.cond_zero (by unfold lhsDecl; omega) (by intro r; unfold lhsDecl ifDecl; omega)
      | false =>
        rw [key_loc hr hc hl]
        exact S.cond_zero (by show locDecl inst.attr ≠ 0; unfold locDecl; omega) (by intro r; show locDecl inst.attr ≠ _; unfold locDecl ifDecl; omega)

theorem isRule_iff (S : P.Sound phyla) {r : Nat} (hr : r < P.insts.length) : P.IsRule r ↔ r < P.body.rules.length := by
  have h1 := List.getElem?_eq_getElem hr
  rw [← S.first r _ h1]
  constructor
  · rintro ⟨inst, h2, h3⟩
    rw [h1] at h2; cases h2; exact h3
  · exact fun h => ⟨_, h1, h⟩

/-! ## Where the instances of a node begin -/

theorem start_eq {d k : Nat} {key : Gen.Key} (hk : P.keys[k]? = some key) (hd : key.node.getD key.attr = d)
    (hb : ∀ i < k, ∀ key' : Gen.Key, P.keys[i]? = some key' → key'.node.getD key'.attr ≠ d) : P.env.start d = k := by
  show P.keys.findIdx _ = k
  have hlt := (List.getElem?_eq_some_iff.1 hk).1
  refine (List.findIdx_eq hlt).2 ⟨?_, ?_⟩
  · rw [(List.getElem?_eq_some_iff.1 hk).2]
    simpa using hd
  · intro j hj
    simpa using hb j hj _ (List.getElem?_eq_getElem (by omega))

theorem key_lhsDecl {i : Nat} {inst : Inst V} (h : (inst.key i).node.getD (inst.key i).attr = lhsDecl) : inst.rule = none ∧ inst.ch = none ∧ inst.lhs = true := by
  cases hr : inst.rule with
  | some r => rw [key_rule hr] at h; simp only [Option.getD, ifDecl, lhsDecl] at h; omega
  | none =>
    cases hc : inst.ch with
    | some c => rw [key_ch hr hc] at h; exact absurd h (kid_ne_lhs c)
    | none =>
      cases hl : inst.lhs with
      | true => exact ⟨rfl, rfl, rfl⟩
      | false => rw [key_loc hr hc hl] at h; simp only [Option.getD, locDecl, lhsDecl] at h; omega

theorem key_kidDecl {i c : Nat} {inst : Inst V} (h : (inst.key i).node.getD (inst.key i).attr = kidDecl c) : inst.rule = none ∧ inst.ch = some c := by
  cases hr : inst.rule with
  | some r => rw [key_rule hr] at h; simp only [Option.getD, ifDecl, kidDecl] at h; omega
  | none =>
    cases hc : inst.ch with
    | some c' =>
      rw [key_ch hr hc] at h
      simp only [Option.getD, kidDecl] at h
      have : c' = c := by omega
      exact ⟨rfl, by rw [this]⟩
    | none =>
      cases hl : inst.lhs with
      | true => rw [key_lhs hr hc hl] at h; exact absurd h.symm (kid_ne_lhs c)
      | false => rw [key_loc hr hc hl] at h; simp only [Option.getD, locDecl, kidDecl] at h; omega

theorem inst_of_key {i : Nat} {key : Gen.Key} (h : P.keys[i]? = some key) : ∃ inst : Inst V, P.insts[i]? = some inst ∧ key = inst.key i := by
  have hlt := (List.getElem?_eq_some_iff.1 h).1
  rw [keys_len] at hlt
  have h1 := List.getElem?_eq_getElem hlt
  rw [key_at h1] at h
  exact ⟨_, h1, (Option.some.inj h).symm⟩

/-- The graph before edges are added has the instances where they belong. -/
theorem Prod.Sound.laid (hq : ∀ q ∈ phyla, 0 < q.attrs.length) (S : P.Sound phyla) : ∃ b kb, Laid phyla P P.blank b kb := by
  obtain ⟨b, kb, A⟩ := S.arranged
  have hb : P.env.start lhsDecl = b := by
    obtain ⟨q, e⟩ := S.lhs
    obtain ⟨inst, h1, h2⟩ := A.lhsAll q 0 e (hq q (List.mem_of_getElem? e))
    rw [Nat.add_zero] at h1
    have hr : inst.rule = none := by
      cases hr : inst.rule with
      | none => rfl
      | some r =>
        have := (S.declared.rule b inst h1 (by simp [hr])).1
        rw [h2] at this; cases this
    refine start_eq (key_at h1) ?_ ?_
    · rw [key_lhs hr (A.lhs b inst h1 h2).1 h2]; rfl
    · intro i hi key' hk hd
      obtain ⟨inst', h3, rfl⟩ := inst_of_key hk
      obtain ⟨_, q', a, _, _, e3, _⟩ := A.lhs i inst' h3 (key_lhsDecl hd).2.2
      omega
  have hk : ∀ c k, P.kidPhy[c]? = some (some k) → P.env.start (kidDecl c) = kb c := by
    intro c k hc
    obtain ⟨q, e⟩ := S.kids c k hc
    obtain ⟨inst, h1, h2⟩ := A.chAll c k q 0 hc e (hq q (List.mem_of_getElem? e))
    rw [Nat.add_zero] at h1
    have hr : inst.rule = none := by
      cases hr : inst.rule with
      | none => rfl
      | some r =>
        have := (S.declared.rule _ inst h1 (by simp [hr])).2
        rw [h2] at this; cases this
    refine start_eq (key_at h1) ?_ ?_
    · rw [key_ch hr h2]; rfl
    · intro i hi key' hk' hd
      obtain ⟨inst', h3, rfl⟩ := inst_of_key hk'
      obtain ⟨_, q', a, _, _, _, e3, _⟩ := A.ch i inst' c h3 (key_kidDecl hd).2
      omega
  refine ⟨b, kb, A, by simp [Prod.blank, emptyAug, Prod.keys], fun l => ?_⟩
  show l ∈ P.links ↔ _
  unfold Prod.links
  rw [List.mem_cons, hb, List.mem_filterMap]
  refine or_congr Iff.rfl ⟨?_, ?_⟩
  · rintro ⟨c, _, hc⟩
    obtain ⟨k, h1, rfl⟩ := Option.map_eq_some_iff.1 hc
    obtain ⟨o, h2, h3⟩ := Option.bind_eq_some_iff.1 h1
    cases h3
    exact ⟨c, k, h2, by rw [hk c k h2]⟩
  · rintro ⟨c, k, h1, rfl⟩
    refine ⟨c, List.mem_range.2 (List.getElem?_eq_some_iff.1 h1).1, ?_⟩
    rw [h1, ← hk c k h1]
    rfl

end Aps.Static
