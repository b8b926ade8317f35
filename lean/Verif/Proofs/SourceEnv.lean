import Verif.Proofs.SourceBlock
import Verif.Proofs.StaticSched
set_option linter.unusedVariables false
/-! The tables of the analysis for a production in source form. -/
namespace Aps.Static
open Aps.Gen Aps.Oag Aps.Dnc

variable {V : Type}

theorem fresh_block (P : Prod V) : ∀ (b : Block V) (used : List Nat), b.rules.Nodup → (∀ r ∈ b.rules, r < 32 ∧ r ∉ used) → (P.stsOf b).Fresh used
  | .nil, used, hn, h => by simp [Prod.stsOf, Sts.Fresh]
  | .decl i rest, used, hn, h => by
    simp only [Prod.stsOf, Sts.Fresh, St.Fresh, true_and]
    exact fresh_block P rest used hn h
  | .assign i e rest, used, hn, h => by
    simp only [Prod.stsOf, Sts.Fresh, St.Fresh, true_and]
    exact fresh_block P rest used hn h
  | .cond r t f rest, used, hn, h => by
    simp only [Block.rules, List.nodup_cons, List.mem_append, not_or] at hn
    obtain ⟨⟨⟨n1, n2⟩, n3⟩, hn⟩ := hn
    have hn1 := List.nodup_append.1 hn
    have hn2 := List.nodup_append.1 hn1.1
    simp only [Block.rules, List.mem_cons, List.mem_append, forall_eq_or_imp] at h
    simp only [Prod.stsOf, Sts.Fresh, St.Fresh]
    refine ⟨⟨h.1.1, h.1.2, ?_, ?_⟩, ?_⟩
    · refine fresh_block P t _ hn2.1 fun x hx => ⟨(h.2 x (.inl (.inl hx))).1, ?_⟩
      simp only [List.mem_cons, not_or]
      exact ⟨fun e => n1 (e ▸ hx), (h.2 x (.inl (.inl hx))).2⟩
    · refine fresh_block P f _ hn2.2.1 fun x hx => ⟨(h.2 x (.inl (.inr hx))).1, ?_⟩
      simp only [List.mem_cons, not_or]
      exact ⟨fun e => n2 (e ▸ hx), (h.2 x (.inl (.inr hx))).2⟩
    · exact fresh_block P rest _ hn1.2.1 fun x hx => h.2 x (.inr hx)

theorem ref_bound (P : Prod V) {i : Nat} (hi : i < P.insts.length) : (P.ref i).Bound ∧ (P.ref i).Target := by
  have : P.keys[i]? = some (P.keys[i]'(by simpa [Prod.keys] using hi)) := List.getElem?_eq_getElem _
  simp only [Prod.ref, this]
  split <;> simp [Ex.Bound, Ex.Target]

theorem refs_bound (P : Prod V) : ∀ {l : List Nat}, (∀ i ∈ l, i < P.insts.length) → (P.refs l).Bound
  | [], _ => by simp [Prod.refs, Exs.Bound]
  | i :: l, h => by
    simp only [Prod.refs, Exs.Bound]
    exact ⟨(ref_bound P (h i (by simp))).1, refs_bound P fun j hj => h j (by simp [hj])⟩

/-- expressions read instances of the production -/
structure ReadsIn (P : Prod V) (b : Block V) : Prop where
  tests : ∀ (r : Nat) (inst : Inst V) (rule : Rule V), P.insts[r]? = some inst → inst.rule = some rule → ∀ j ∈ rule.test.reads, j < P.insts.length
  assigns : ∀ q ∈ b.assigns, q.1 < P.insts.length ∧ ∀ j ∈ q.2.reads, j < P.insts.length
  defaults : ∀ (i : Nat) e, P.defaults[i]? = some (some e) → ∀ j ∈ e.reads, j < P.insts.length

theorem bound_block (P : Prod V) : ∀ (b : Block V), ReadsIn P b → (P.stsOf b).Bound
  | .nil, h => by simp [Prod.stsOf, Sts.Bound]
  | .decl i rest, h => by
    simp only [Prod.stsOf, Sts.Bound, St.Bound]
    refine ⟨?_, bound_block P rest ⟨h.tests, h.assigns, h.defaults⟩⟩
    unfold Prod.dfltOf
    cases hd : P.defaults[i]?.getD none with
    | none => simp [Dflt.Bound]
    | some e =>
      simp only [Dflt.Bound, Prod.exprOf, Ex.Bound]
      cases hd' : P.defaults[i]? with
      | none => rw [hd'] at hd; cases hd
      | some o => rw [hd'] at hd; cases hd; exact refs_bound P (h.defaults i e hd')
  | .assign i e rest, h => by
    simp only [Prod.stsOf, Sts.Bound, St.Bound]
    have := h.assigns (i, e) (by simp [Block.assigns])
    exact ⟨⟨(ref_bound P this.1).2, refs_bound P this.2⟩,
      bound_block P rest ⟨h.tests, fun q hq => h.assigns q (by simp [Block.assigns, hq]), h.defaults⟩⟩
  | .cond r t f rest, h => by
    simp only [Prod.stsOf, Sts.Bound, St.Bound]
    refine ⟨⟨?_, ?_, ?_⟩, ?_⟩
    · unfold Prod.testOf
      cases hr : (P.insts[r]?).bind (·.rule) with
      | none => simp [Ex.Bound]
      | some rule =>
        obtain ⟨inst, h1, h2⟩ := Option.bind_eq_some_iff.1 hr
        exact refs_bound P (h.tests r inst rule h1 h2)
    · exact bound_block P t ⟨h.tests, fun q hq => h.assigns q (by simp [Block.assigns, hq]), h.defaults⟩
    · exact bound_block P f ⟨h.tests, fun q hq => h.assigns q (by simp [Block.assigns, hq]), h.defaults⟩
    · exact bound_block P rest ⟨h.tests, fun q hq => h.assigns q (by simp [Block.assigns, hq]), h.defaults⟩

/-! ## Conditions -/

theorem conds_decl (P : Prod V) (c : Cond) (i : Nat) (rest : Block V) :
    IfCond.condsB c (P.stsOf (.decl i rest)).erase = (P.declOf i, c) :: IfCond.condsB c (P.stsOf rest).erase := by
  simp [Prod.stsOf, Sts.erase, St.erase, IfCond.condsB, IfCond.condsD]

theorem conds_assign (P : Prod V) (c : Cond) (i : Nat) (e : Expr V) (rest : Block V) :
    IfCond.condsB c (P.stsOf (.assign i e rest)).erase = (0, c) :: IfCond.condsB c (P.stsOf rest).erase := by
  simp [Prod.stsOf, Sts.erase, St.erase, IfCond.condsB, IfCond.condsD]

theorem conds_cond (P : Prod V) (c : Cond) (r : Nat) (t f rest : Block V) :
    IfCond.condsB c (P.stsOf (.cond r t f rest)).erase = (ifDecl r, c) ::
      (IfCond.condsB ⟨c.pos ||| cmask r, c.neg⟩ (P.stsOf t).erase ++ IfCond.condsB ⟨c.pos, c.neg ||| cmask r⟩ (P.stsOf f).erase) ++
      IfCond.condsB c (P.stsOf rest).erase := by
  simp [Prod.stsOf, Sts.erase, St.erase, IfCond.condsB, IfCond.condsD]

/-- what conditions are stored for -/
theorem conds_keys (P : Prod V) : ∀ (b : Block V) (c : Cond), ∀ q ∈ IfCond.condsB c (P.stsOf b).erase,
    q.1 = 0 ∨ (∃ i ∈ b.decls, q.1 = P.declOf i ∧ ((∀ r t f, b.Has r t f → t.decls = [] ∧ f.decls = []) → q.2 = c)) ∨ ∃ r ∈ b.rules, q.1 = ifDecl r
  | .nil, c, q, h => by simp [Prod.stsOf, Sts.erase, IfCond.condsB] at h
  | .decl i rest, c, q, h => by
    rw [conds_decl] at h
    rcases List.mem_cons.1 h with rfl | h
    · exact .inr (.inl ⟨i, by simp [Block.decls], rfl, fun _ => rfl⟩)
    · rcases conds_keys P rest c q h with h | ⟨j, h1, h2, h3⟩ | h
      · exact .inl h
      · exact .inr (.inl ⟨j, by simp [Block.decls, h1], h2, fun hh => h3 fun r t f hx => hh r t f (.decl hx)⟩)
      · exact .inr (.inr h)
  | .assign i e rest, c, q, h => by
    rw [conds_assign] at h
    rcases List.mem_cons.1 h with rfl | h
    · exact .inl rfl
    · rcases conds_keys P rest c q h with h | ⟨j, h1, h2, h3⟩ | h
      · exact .inl h
      · exact .inr (.inl ⟨j, by simp [Block.decls, h1], h2, fun hh => h3 fun r t f hx => hh r t f (.assign hx)⟩)
      · exact .inr (.inr h)
  | .cond r t f rest, c, q, h => by
    rw [conds_cond] at h
    simp only [List.cons_append, List.mem_cons, List.mem_append] at h
    rcases h with rfl | (h | h) | h
    · exact .inr (.inr ⟨r, by simp [Block.rules], rfl⟩)
    · rcases conds_keys P t _ q h with h | ⟨j, h1, h2, h3⟩ | ⟨r', h1, h2⟩
      · exact .inl h
      · refine .inr (.inl ⟨j, by simp [Block.decls, h1], h2, fun hh => ?_⟩)
        rw [(hh r t f .here).1] at h1; cases h1
      · exact .inr (.inr ⟨r', by simp [Block.rules, h1], h2⟩)
    · rcases conds_keys P f _ q h with h | ⟨j, h1, h2, h3⟩ | ⟨r', h1, h2⟩
      · exact .inl h
      · refine .inr (.inl ⟨j, by simp [Block.decls, h1], h2, fun hh => ?_⟩)
        rw [(hh r t f .here).2] at h1; cases h1
      · exact .inr (.inr ⟨r', by simp [Block.rules, h1], h2⟩)
    · rcases conds_keys P rest _ q h with h | ⟨j, h1, h2, h3⟩ | ⟨r', h1, h2⟩
      · exact .inl h
      · exact .inr (.inl ⟨j, by simp [Block.decls, h1], h2, fun hh => h3 fun r t f hx => hh r t f (.rest hx)⟩)
      · exact .inr (.inr ⟨r', by simp [Block.rules, h1], h2⟩)

theorem ifDecl_inj {a b : Nat} (h : ifDecl a = ifDecl b) : a = b := by unfold ifDecl at h; omega

theorem conds_none (P : Prod V) {b : Block V} (hd : ∀ i ∈ b.decls, ∀ r, P.declOf i ≠ ifDecl r) {r : Nat} (hr : r ∉ b.rules) (c : Cond) :
    (IfCond.condsB c (P.stsOf b).erase).find? (fun q => q.1 = ifDecl r) = none := by
  rw [List.find?_eq_none]
  intro q hq
  simp only [decide_eq_true_eq]
  intro he
  rcases conds_keys P b c q hq with h | ⟨i, h1, h2, _⟩ | ⟨r', h1, h2⟩
  · rw [h] at he; unfold ifDecl at he; omega
  · exact hd i h1 r (h2 ▸ he)
  · exact hr (ifDecl_inj (he.symm.trans h2) ▸ h1)

/-- the condition stored for a conditional is that of the way to it -/
theorem conds_find (P : Prod V) : ∀ (b : Block V) (w : Way) (c : Cond) (used : List Nat), OnWay w c used → b.rules.Nodup →
    (∀ r ∈ b.rules, r < 32 ∧ r ∉ used) → (∀ i ∈ b.decls, ∀ r, P.declOf i ≠ ifDecl r) → ∀ x ∈ P.ifsOf w b,
    ∃ c', (IfCond.condsB c (P.stsOf b).erase).find? (fun q => q.1 = ifDecl x.ix) = some (ifDecl x.ix, c') ∧ ∃ u, OnWay x.way c' u
  | .nil, w, c, used, hw, hn, h, hd, x, hx => by simp [Prod.ifsOf, Prod.stsOf, Sts.ifs] at hx
  | .decl i rest, w, c, used, hw, hn, h, hd, x, hx => by
    rw [ifs_decl] at hx
    obtain ⟨c', h1, h2⟩ := conds_find P rest w c used hw hn h (fun j hj => hd j (by simp [Block.decls, hj])) x hx
    refine ⟨c', ?_, h2⟩
    rw [conds_decl, List.find?_cons_of_neg, h1]
    simpa using hd i (by simp [Block.decls]) x.ix
  | .assign i e rest, w, c, used, hw, hn, h, hd, x, hx => by
    rw [ifs_assign] at hx
    obtain ⟨c', h1, h2⟩ := conds_find P rest w c used hw hn h hd x hx
    refine ⟨c', ?_, h2⟩
    rw [conds_assign, List.find?_cons_of_neg, h1]
    simp [ifDecl]
  | .cond r t f rest, w, c, used, hw, hn, h, hd, x, hx => by
    simp only [Block.rules, List.nodup_cons, List.mem_append, not_or] at hn
    obtain ⟨⟨⟨n1, n2⟩, n3⟩, hn⟩ := hn
    have hn1 := List.nodup_append.1 hn
    have hn2 := List.nodup_append.1 hn1.1
    simp only [Block.rules, List.mem_cons, List.mem_append, forall_eq_or_imp] at h
    have hd1 : ∀ i ∈ t.decls, ∀ r, P.declOf i ≠ ifDecl r := fun j hj => hd j (by simp [Block.decls, hj])
    have hd2 : ∀ i ∈ f.decls, ∀ r, P.declOf i ≠ ifDecl r := fun j hj => hd j (by simp [Block.decls, hj])
    have hd3 : ∀ i ∈ rest.decls, ∀ r, P.declOf i ≠ ifDecl r := fun j hj => hd j (by simp [Block.decls, hj])
    rw [ifs_cond] at hx
    rw [conds_cond]
    have hmem : ∀ (b : Block V) (v : Way), x ∈ P.ifsOf v b → x.ix ∈ b.rules := by
      intro b v hx
      rw [← (ifs_map P b v).1]
      exact List.mem_map_of_mem hx
    simp only [List.cons_append, List.mem_cons, List.mem_append] at hx
    have skip : x.ix ≠ r → ∀ l : List (Nat × Cond), List.find? (fun q => decide (q.1 = ifDecl x.ix)) ((ifDecl r, c) :: l) =
        List.find? (fun q => decide (q.1 = ifDecl x.ix)) l := by
      intro hne l
      rw [List.find?_cons_of_neg]
      simp only [decide_eq_true_eq]
      exact fun e => hne (ifDecl_inj e).symm
    rcases hx with rfl | (hx | hx) | hx
    · exact ⟨c, by simp, used, hw⟩
    · obtain ⟨c', h1, h2⟩ := conds_find P t (w ++ [(r, true)]) _ (r :: used) (hw.yes h.1.1 h.1.2) hn2.1 (fun y hy => ⟨(h.2 y (.inl (.inl hy))).1, by
        simp only [List.mem_cons, not_or]; exact ⟨fun e => n1 (e ▸ hy), (h.2 y (.inl (.inl hy))).2⟩⟩) hd1 x hx
      refine ⟨c', ?_, h2⟩
      rw [List.cons_append, skip (fun e => n1 (e ▸ hmem t _ hx)), List.find?_append, List.find?_append, h1]
      rfl
    · obtain ⟨c', h1, h2⟩ := conds_find P f (w ++ [(r, false)]) _ (r :: used) (hw.no h.1.1 h.1.2) hn2.2.1 (fun y hy => ⟨(h.2 y (.inl (.inr hy))).1, by
        simp only [List.mem_cons, not_or]; exact ⟨fun e => n2 (e ▸ hy), (h.2 y (.inl (.inr hy))).2⟩⟩) hd2 x hx
      have hm := hmem f _ hx
      refine ⟨c', ?_, h2⟩
      rw [List.cons_append, skip (fun e => n2 (e ▸ hm)), List.find?_append, List.find?_append, h1,
        conds_none P hd1 (fun e => hn2.2.2 _ e _ hm rfl)]
      rfl
    · obtain ⟨c', h1, h2⟩ := conds_find P rest w c used hw hn1.2.1 (fun y hy => h.2 y (.inr hy)) hd3 x hx
      have hm := hmem rest _ hx
      refine ⟨c', ?_, h2⟩
      rw [List.cons_append, skip (fun e => n3 (e ▸ hm)), List.find?_append, List.find?_append, h1,
        conds_none P hd1 (fun e => hn1.2.2 _ (List.mem_append_left _ e) _ hm rfl),
        conds_none P hd2 (fun e => hn1.2.2 _ (List.mem_append_right _ e) _ hm rfl)]
      rfl

end Aps.Static
