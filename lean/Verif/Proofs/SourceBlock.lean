import Verif.Spec.Source
import Verif.Proofs.EdgeGenWay
set_option linter.unusedVariables false
/-! The body of a production as the dependency analysis sees it: equations and conditionals. -/
namespace Aps.Static
open Aps.Gen Aps.Oag Aps.Dnc

variable {V : Type}

/-- the place of an instance -/
def Prod.place (P : Prod V) (i : Nat) : Place := ((P.keys[i]?).map fun k => (k.attr, k.node)).getD (0, none)

theorem refs_reads_ref (P : Prod V) {i : Nat} (hi : i < P.insts.length) : (P.ref i).reads = [P.place i] := by
  have : P.keys[i]? = some (P.keys[i]'(by simpa [Prod.keys] using hi)) := List.getElem?_eq_getElem _
  simp only [Prod.ref, Prod.place, this]
  cases h : (P.keys[i]'(by simpa [Prod.keys] using hi)).node <;> simp [Ex.reads, h]

theorem refs_reads (P : Prod V) : ∀ {l : List Nat}, (∀ i ∈ l, i < P.insts.length) → (P.refs l).reads = l.map P.place
  | [], _ => by simp [Prod.refs, Exs.reads]
  | i :: l, h => by
    simp only [Prod.refs, Exs.reads, List.map_cons]
    rw [refs_reads_ref P (h i (by simp)), refs_reads P (fun j hj => h j (by simp [hj]))]
    rfl

theorem ref_inner (P : Prod V) (i : Nat) (w : Way) : (P.ref i).inner w = [] := by
  unfold Prod.ref
  split
  · simp [Ex.inner]
  · split <;> simp [Ex.inner]

theorem refs_inner (P : Prod V) (w : Way) : ∀ (l : List Nat), (P.refs l).inner w = []
  | [] => by simp [Prod.refs, Exs.inner]
  | i :: l => by simp only [Prod.refs, Exs.inner, ref_inner, refs_inner P w l, List.append_nil]

theorem exprOf_inner (P : Prod V) (e : Expr V) (w : Way) : (P.exprOf e).inner w = [] := by
  simp only [Prod.exprOf, Ex.inner, refs_inner]

theorem testOf_inner (P : Prod V) (r : Nat) (w : Way) : (P.testOf r).inner w = [] := by
  unfold Prod.testOf
  split
  · simp [Ex.inner]
  · simp only [Ex.inner, refs_inner]

theorem exprOf_reads (P : Prod V) {e : Expr V} (h : ∀ i ∈ e.reads, i < P.insts.length) : (P.exprOf e).reads = e.reads.map P.place := by
  simp only [Prod.exprOf, Ex.reads, refs_reads P h]

theorem ref_assigned (P : Prod V) {i : Nat} (hi : i < P.insts.length) (w : Way) (rhs : Ex) :
    (P.ref i).assigned (fun f => f) w false [] rhs = [⟨vx (P.place i), w, rhs, false, false, false⟩] := by
  have : P.keys[i]? = some (P.keys[i]'(by simpa [Prod.keys] using hi)) := List.getElem?_eq_getElem _
  simp only [Prod.ref, Prod.place, this]
  cases h : (P.keys[i]'(by simpa [Prod.keys] using hi)).node <;> simp [Ex.assigned, h, vx]

/-- the equations of a block -/
def Prod.eqns (P : Prod V) (w : Way) (b : Block V) : List Eqn := (P.stsOf b).eqns (fun f => f) w

theorem eqns_decl (P : Prod V) (w : Way) (i : Nat) (rest : Block V) :
    P.eqns w (.decl i rest) = declared w (P.declOf i) (some lhsDecl) false
      (match P.defaults[i]?.getD none with | none => .const | some e => P.exprOf e) ++ P.eqns w rest := by
  simp only [Prod.eqns, Prod.stsOf, Sts.eqns, St.eqns, Prod.dfltOf]
  cases P.defaults[i]?.getD none with
  | none => rfl
  | some e => simp only [exprOf_inner, List.append_nil]

theorem eqns_assign (P : Prod V) (w : Way) {i : Nat} (hi : i < P.insts.length) (e : Expr V) (rest : Block V) :
    P.eqns w (.assign i e rest) = ⟨vx (P.place i), w, P.exprOf e, false, false, false⟩ :: P.eqns w rest := by
  simp only [Prod.eqns, Prod.stsOf, Sts.eqns, St.eqns, ref_inner, exprOf_inner, List.append_nil, ref_assigned P hi]
  rfl

theorem eqns_cond (P : Prod V) (w : Way) (r : Nat) (t f rest : Block V) :
    P.eqns w (.cond r t f rest) = ⟨vx (ifDecl r, none), w, P.testOf r, true, false, false⟩ ::
      (P.eqns (w ++ [(r, true)]) t ++ P.eqns (w ++ [(r, false)]) f) ++ P.eqns w rest := by
  simp only [Prod.eqns, Prod.stsOf, Sts.eqns, St.eqns, testOf_inner, List.nil_append]
  rfl

/-- the conditionals of a block -/
def Prod.ifsOf (P : Prod V) (w : Way) (b : Block V) : List Cnd := (P.stsOf b).ifs w

theorem ifs_decl (P : Prod V) (w : Way) (i : Nat) (rest : Block V) : P.ifsOf w (.decl i rest) = P.ifsOf w rest := by
  simp [Prod.ifsOf, Prod.stsOf, Sts.ifs, St.ifs]

theorem ifs_assign (P : Prod V) (w : Way) (i : Nat) (e : Expr V) (rest : Block V) : P.ifsOf w (.assign i e rest) = P.ifsOf w rest := by
  simp [Prod.ifsOf, Prod.stsOf, Sts.ifs, St.ifs]

theorem ifs_cond (P : Prod V) (w : Way) (r : Nat) (t f rest : Block V) :
    P.ifsOf w (.cond r t f rest) = ⟨w, ifDecl r, r⟩ :: (P.ifsOf (w ++ [(r, true)]) t ++ P.ifsOf (w ++ [(r, false)]) f) ++ P.ifsOf w rest := by
  simp [Prod.ifsOf, Prod.stsOf, Sts.ifs, St.ifs]

theorem holds_snoc {σ : Nat → Bool} {w : Way} {r : Nat} {b : Bool} : Way.holds σ (w ++ [(r, b)]) ↔ Way.holds σ w ∧ σ r = b := by
  simp [Way.holds, or_imp, forall_and]

theorem ifs_map (P : Prod V) : ∀ (b : Block V) (w : Way), (P.ifsOf w b).map (·.ix) = b.rules ∧ ∀ x ∈ P.ifsOf w b, x.id = ifDecl x.ix
  | .nil, w => by simp [Prod.ifsOf, Prod.stsOf, Sts.ifs, Block.rules]
  | .decl i rest, w => by rw [ifs_decl]; exact ifs_map P rest w
  | .assign i e rest, w => by rw [ifs_assign]; exact ifs_map P rest w
  | .cond r t f rest, w => by
    obtain ⟨h1, h2⟩ := ifs_map P t (w ++ [(r, true)])
    obtain ⟨h3, h4⟩ := ifs_map P f (w ++ [(r, false)])
    obtain ⟨h5, h6⟩ := ifs_map P rest w
    rw [ifs_cond]
    constructor
    · simp [Block.rules, h1, h3, h5]
    · intro x hx
      simp only [List.cons_append, List.mem_cons, List.mem_append] at hx
      rcases hx with rfl | (hx | hx) | hx
      · rfl
      · exact h2 x hx
      · exact h4 x hx
      · exact h6 x hx

/-- a conditional is reached iff the way to it holds -/
theorem tested_iff (P : Prod V) {σ τ : Nat → Bool} {r : Nat} : ∀ (b : Block V) (w : Way), (∀ r ∈ b.rules, τ r = σ r) → Way.holds τ w →
    (r ∈ b.tested σ ↔ ∃ x ∈ P.ifsOf w b, x.ix = r ∧ Way.holds τ x.way)
  | .nil, w, hs, hw => by simp [Prod.ifsOf, Prod.stsOf, Sts.ifs, Block.tested]
  | .decl i rest, w, hs, hw => by rw [ifs_decl]; exact tested_iff P rest w hs hw
  | .assign i e rest, w, hs, hw => by rw [ifs_assign]; exact tested_iff P rest w hs hw
  | .cond r' t f rest, w, hs, hw => by
    simp only [Block.rules, List.mem_cons, List.mem_append] at hs
    rw [ifs_cond]
    have h1 := tested_iff P (r := r) t (w ++ [(r', true)]) (fun x hx => hs x (.inr (.inl (.inl hx))))
    have h2 := tested_iff P (r := r) f (w ++ [(r', false)]) (fun x hx => hs x (.inr (.inl (.inr hx))))
    have h3 := tested_iff P (r := r) rest w (fun x hx => hs x (.inr (.inr hx))) hw
    have hr := hs r' (.inl rfl)
    simp only [holds_snoc, hw, true_and] at h1 h2
    have pre : ∀ (b : Block V) (bb : Bool), τ r' ≠ bb → ¬ ∃ x ∈ P.ifsOf (w ++ [(r', bb)]) b, x.ix = r ∧ Way.holds τ x.way := by
      rintro b bb hne ⟨x, hx, _, hh⟩
      have : ∀ (b : Block V) (v : Way), ∀ x ∈ P.ifsOf v b, ∀ y ∈ v, y ∈ x.way := by
        intro b
        induction b with
        | nil => intro v x hx; simp [Prod.ifsOf, Prod.stsOf, Sts.ifs] at hx
        | decl i rest ih => intro v x hx; rw [ifs_decl] at hx; exact ih v x hx
        | assign i e rest ih => intro v x hx; rw [ifs_assign] at hx; exact ih v x hx
        | cond r t f rest iht ihf ih =>
          intro v x hx y hy
          rw [ifs_cond] at hx
          simp only [List.cons_append, List.mem_cons, List.mem_append] at hx
          rcases hx with rfl | (hx | hx) | hx
          · exact hy
          · exact iht _ x hx y (by simp [hy])
          · exact ihf _ x hx y (by simp [hy])
          · exact ih _ x hx y hy
      exact hne (hh _ (this b _ x hx (r', bb) (by simp)))
    have e0 : (∃ x ∈ (⟨w, ifDecl r', r'⟩ : Cnd) :: (P.ifsOf (w ++ [(r', true)]) t ++ P.ifsOf (w ++ [(r', false)]) f) ++ P.ifsOf w rest,
        x.ix = r ∧ Way.holds τ x.way) ↔ r' = r ∨ (∃ x ∈ P.ifsOf (w ++ [(r', true)]) t, x.ix = r ∧ Way.holds τ x.way) ∨
          (∃ x ∈ P.ifsOf (w ++ [(r', false)]) f, x.ix = r ∧ Way.holds τ x.way) ∨ (∃ x ∈ P.ifsOf w rest, x.ix = r ∧ Way.holds τ x.way) := by
      constructor
      · rintro ⟨x, hx, h⟩
        simp only [List.cons_append, List.mem_cons, List.mem_append] at hx
        rcases hx with rfl | (hx | hx) | hx
        · exact .inl h.1
        · exact .inr (.inl ⟨x, hx, h⟩)
        · exact .inr (.inr (.inl ⟨x, hx, h⟩))
        · exact .inr (.inr (.inr ⟨x, hx, h⟩))
      · rintro (h | ⟨x, hx, h⟩ | ⟨x, hx, h⟩ | ⟨x, hx, h⟩)
        · exact ⟨_, List.mem_cons_self, h, hw⟩
        · exact ⟨x, by simp [hx], h⟩
        · exact ⟨x, by simp [hx], h⟩
        · exact ⟨x, by simp [hx], h⟩
    rw [e0, ← h3]
    simp only [Block.tested, List.mem_cons, List.mem_append]
    cases hσ : σ r' with
    | true =>
      rw [hσ] at hr
      rw [← h1 hr]
      simp only [if_true]
      have := pre f false (by simp [hr])
      grind
    | false =>
      rw [hσ] at hr
      rw [← h2 hr]
      simp only [Bool.false_eq_true, if_false]
      have := pre t true (by simp [hr])
      grind

/-- an active assignment is an equation whose way holds -/
theorem active_eqn (P : Prod V) {σ τ : Nat → Bool} {q : Nat × Expr V} : ∀ (b : Block V) (w : Way), (∀ x ∈ b.assigns, x.1 < P.insts.length) →
    (∀ r ∈ b.rules, τ r = σ r) → Way.holds τ w → q ∈ b.active σ →
    ∃ ε ∈ P.eqns w b, ε.target = vx (P.place q.1) ∧ ε.rhs = P.exprOf q.2 ∧ ε.loc = false ∧ Way.holds τ ε.way
  | .nil, w, ha, hs, hw, h => by simp [Block.active] at h
  | .decl i rest, w, ha, hs, hw, h => by
    obtain ⟨ε, h1, h2⟩ := active_eqn P rest w ha hs hw h
    exact ⟨ε, by rw [eqns_decl]; exact List.mem_append_right _ h1, h2⟩
  | .assign i e rest, w, ha, hs, hw, h => by
    simp only [Block.assigns, List.mem_cons, forall_eq_or_imp] at ha
    rw [eqns_assign P w ha.1]
    simp only [Block.active, List.mem_cons] at h
    rcases h with rfl | h
    · exact ⟨_, List.mem_cons_self, rfl, rfl, rfl, hw⟩
    · obtain ⟨ε, h1, h2⟩ := active_eqn P rest w ha.2 hs hw h
      exact ⟨ε, List.mem_cons_of_mem _ h1, h2⟩
  | .cond r t f rest, w, ha, hs, hw, h => by
    simp only [Block.rules, List.mem_cons, List.mem_append] at hs
    simp only [Block.assigns, List.mem_append] at ha
    rw [eqns_cond]
    have hr := hs r (.inl rfl)
    simp only [Block.active, List.mem_append] at h
    rcases h with h | h
    · cases hσ : σ r with
      | true =>
        rw [hσ] at h hr
        obtain ⟨ε, h1, h2⟩ := active_eqn P t (w ++ [(r, true)]) (fun x hx => ha x (.inl (.inl hx))) (fun x hx => hs x (.inr (.inl (.inl hx))))
          (holds_snoc.2 ⟨hw, hr⟩) h
        exact ⟨ε, by simp [h1], h2⟩
      | false =>
        rw [hσ] at h hr
        obtain ⟨ε, h1, h2⟩ := active_eqn P f (w ++ [(r, false)]) (fun x hx => ha x (.inl (.inr hx))) (fun x hx => hs x (.inr (.inl (.inr hx))))
          (holds_snoc.2 ⟨hw, hr⟩) h
        exact ⟨ε, by simp [h1], h2⟩
    · obtain ⟨ε, h1, h2⟩ := active_eqn P rest w (fun x hx => ha x (.inr hx)) (fun x hx => hs x (.inr (.inr hx))) hw h
      exact ⟨ε, by simp [h1], h2⟩

/-- the assignments directly in a block are equations with the way of the block -/
theorem own_eqn (P : Prod V) {q : Nat × Expr V} : ∀ (b : Block V) (w : Way), (∀ x ∈ b.assigns, x.1 < P.insts.length) → q ∈ b.own →
    ∃ ε ∈ P.eqns w b, ε.target = vx (P.place q.1) ∧ ε.way = w ∧ ε.loc = false
  | .nil, w, ha, h => by simp [Block.own] at h
  | .decl i rest, w, ha, h => by
    obtain ⟨ε, h1, h2⟩ := own_eqn P rest w ha h
    exact ⟨ε, by rw [eqns_decl]; exact List.mem_append_right _ h1, h2⟩
  | .assign i e rest, w, ha, h => by
    simp only [Block.assigns, List.mem_cons, forall_eq_or_imp] at ha
    rw [eqns_assign P w ha.1]
    simp only [Block.own, List.mem_cons] at h
    rcases h with rfl | h
    · exact ⟨_, List.mem_cons_self, rfl, rfl, rfl⟩
    · obtain ⟨ε, h1, h2⟩ := own_eqn P rest w ha.2 h
      exact ⟨ε, List.mem_cons_of_mem _ h1, h2⟩
  | .cond r t f rest, w, ha, h => by
    simp only [Block.assigns, List.mem_append] at ha
    rw [eqns_cond]
    obtain ⟨ε, h1, h2⟩ := own_eqn P rest w (fun x hx => ha x (.inr hx)) h
    exact ⟨ε, by simp [h1], h2⟩

/-- the assignments directly in a branch are equations with the conditional on the way -/
theorem has_eqn (P : Prod V) {b : Block V} {r : Nat} {t f : Block V} (h : b.Has r t f) : ∀ (w : Way), (∀ x ∈ b.assigns, x.1 < P.insts.length) →
    ∃ x ∈ P.ifsOf w b, x.ix = r ∧ ∀ bb (q : Nat × Expr V), q ∈ (if bb then t else f).own → ∃ ε ∈ P.eqns w b, ε.target = vx (P.place q.1) ∧
      (r, bb) ∈ ε.way ∧ ε.loc = false := by
  induction h with
  | @here r t f rest =>
    intro w ha
    simp only [Block.assigns, List.mem_append] at ha
    rw [ifs_cond, eqns_cond]
    refine ⟨_, List.mem_cons_self, rfl, fun bb q hq => ?_⟩
    cases bb with
    | true =>
      obtain ⟨ε, h1, h2, h3, h4⟩ := own_eqn P t (w ++ [(r, true)]) (fun x hx => ha x (.inl (.inl hx))) hq
      exact ⟨ε, by simp [h1], h2, by simp [h3], h4⟩
    | false =>
      obtain ⟨ε, h1, h2, h3, h4⟩ := own_eqn P f (w ++ [(r, false)]) (fun x hx => ha x (.inl (.inr hx))) hq
      exact ⟨ε, by simp [h1], h2, by simp [h3], h4⟩
  | decl _ ih =>
    intro w ha
    obtain ⟨x, h1, h2, h3⟩ := ih w ha
    rw [ifs_decl, eqns_decl]
    refine ⟨x, h1, h2, fun bb q hq => ?_⟩
    obtain ⟨ε, h4, h5⟩ := h3 bb q hq
    exact ⟨ε, List.mem_append_right _ h4, h5⟩
  | assign _ ih =>
    intro w ha
    simp only [Block.assigns, List.mem_cons, forall_eq_or_imp] at ha
    obtain ⟨x, h1, h2, h3⟩ := ih w ha.2
    rw [ifs_assign, eqns_assign P w ha.1]
    refine ⟨x, h1, h2, fun bb q hq => ?_⟩
    obtain ⟨ε, h4, h5⟩ := h3 bb q hq
    exact ⟨ε, List.mem_cons_of_mem _ h4, h5⟩
  | rest _ ih =>
    intro w ha
    simp only [Block.assigns, List.mem_append] at ha
    obtain ⟨x, h1, h2, h3⟩ := ih w fun x hx => ha x (.inr hx)
    rw [ifs_cond, eqns_cond]
    refine ⟨x, by simp [h1], h2, fun bb q hq => ?_⟩
    obtain ⟨ε, h4, h5⟩ := h3 bb q hq
    exact ⟨ε, by simp [h4], h5⟩
  | inTrue _ ih =>
    intro w ha
    simp only [Block.assigns, List.mem_append] at ha
    rename_i r0 _ _ _ _ _ _ _
    obtain ⟨x, h1, h2, h3⟩ := ih (w ++ [(r0, true)]) fun x hx => ha x (.inl (.inl hx))
    rw [ifs_cond, eqns_cond]
    refine ⟨x, by simp [h1], h2, fun bb q hq => ?_⟩
    obtain ⟨ε, h4, h5⟩ := h3 bb q hq
    exact ⟨ε, by simp [h4], h5⟩
  | inFalse _ ih =>
    intro w ha
    simp only [Block.assigns, List.mem_append] at ha
    rename_i r0 _ _ _ _ _ _ _
    obtain ⟨x, h1, h2, h3⟩ := ih (w ++ [(r0, false)]) fun x hx => ha x (.inl (.inr hx))
    rw [ifs_cond, eqns_cond]
    refine ⟨x, by simp [h1], h2, fun bb q hq => ?_⟩
    obtain ⟨ε, h4, h5⟩ := h3 bb q hq
    exact ⟨ε, by simp [h4], h5⟩

/-- every conditional has the equation of its test -/
theorem test_eqn (P : Prod V) : ∀ (b : Block V) (w : Way), (∀ x ∈ b.assigns, x.1 < P.insts.length) → ∀ x ∈ P.ifsOf w b,
    ⟨vx (x.id, none), x.way, P.testOf x.ix, true, false, false⟩ ∈ P.eqns w b
  | .nil, w, ha, x, hx => by simp [Prod.ifsOf, Prod.stsOf, Sts.ifs] at hx
  | .decl i rest, w, ha, x, hx => by
    rw [ifs_decl] at hx
    rw [eqns_decl]
    exact List.mem_append_right _ (test_eqn P rest w ha x hx)
  | .assign i e rest, w, ha, x, hx => by
    simp only [Block.assigns, List.mem_cons, forall_eq_or_imp] at ha
    rw [ifs_assign] at hx
    rw [eqns_assign P w ha.1]
    exact List.mem_cons_of_mem _ (test_eqn P rest w ha.2 x hx)
  | .cond r t f rest, w, ha, x, hx => by
    simp only [Block.assigns, List.mem_append] at ha
    rw [ifs_cond] at hx
    rw [eqns_cond]
    simp only [List.cons_append, List.mem_cons, List.mem_append] at hx ⊢
    rcases hx with rfl | (hx | hx) | hx
    · exact .inl rfl
    · exact .inr (.inl (.inl (test_eqn P t _ (fun x hx => ha x (.inl (.inl hx))) x hx)))
    · exact .inr (.inl (.inr (test_eqn P f _ (fun x hx => ha x (.inl (.inr hx))) x hx)))
    · exact .inr (.inr (test_eqn P rest w (fun x hx => ha x (.inr hx)) x hx))

/-- locals are declared directly in the block if there are none in conditionals -/
theorem decl_eqn (P : Prod V) {i : Nat} {e : Expr V} (he : P.defaults[i]? = some (some e)) : ∀ (b : Block V) (w : Way),
    (∀ x ∈ b.assigns, x.1 < P.insts.length) → (∀ r t f, b.Has r t f → t.decls = [] ∧ f.decls = []) → i ∈ b.decls →
    ∃ ε ∈ P.eqns w b, ε.target = vx (P.declOf i, none) ∧ ε.rhs = P.exprOf e ∧ ε.init = false ∧ ε.way = w
  | .nil, w, ha, hd, h => by simp [Block.decls] at h
  | .decl j rest, w, ha, hd, h => by
    simp only [Block.decls, List.mem_cons] at h
    rw [eqns_decl]
    rcases h with rfl | h
    · refine ⟨_, List.mem_append_left _ List.mem_cons_self, rfl, ?_, rfl, rfl⟩
      simp [he]
    · obtain ⟨ε, h1, h2⟩ := decl_eqn P he rest w ha (fun r t f hh => hd r t f (.decl hh)) h
      exact ⟨ε, List.mem_append_right _ h1, h2⟩
  | .assign j e' rest, w, ha, hd, h => by
    simp only [Block.assigns, List.mem_cons, forall_eq_or_imp] at ha
    rw [eqns_assign P w ha.1]
    obtain ⟨ε, h1, h2⟩ := decl_eqn P he rest w ha.2 (fun r t f hh => hd r t f (.assign hh)) h
    exact ⟨ε, List.mem_cons_of_mem _ h1, h2⟩
  | .cond r t f rest, w, ha, hd, h => by
    simp only [Block.assigns, List.mem_append] at ha
    obtain ⟨h1, h2⟩ := hd r t f .here
    simp only [Block.decls, h1, h2, List.nil_append] at h
    rw [eqns_cond]
    obtain ⟨ε, h1, h2⟩ := decl_eqn P he rest w (fun x hx => ha x (.inr hx)) (fun r t f hh => hd r t f (.rest hh)) h
    exact ⟨ε, by simp [h1], h2⟩

/-- What an equation can be. -/
theorem eqn_cases (P : Prod V) : ∀ (b : Block V) (w : Way), (∀ x ∈ b.assigns, x.1 < P.insts.length) →
    ∀ ε ∈ P.eqns w b, ε.init = false ∧
      ((∃ i ∈ b.decls, (ε.target = vx (P.declOf i, none) ∧ ε.loc = true ∨ ε.target = vx (P.declOf i, some lhsDecl) ∧ ε.loc = false)) ∨
       (∃ q ∈ b.assigns, ε.target = vx (P.place q.1) ∧ ε.loc = false) ∨
       (∃ r ∈ b.rules, ε.target = vx (ifDecl r, none) ∧ ε.loc = false))
  | .nil, w, ha, ε, h => by simp [Prod.eqns, Prod.stsOf, Sts.eqns] at h
  | .decl i rest, w, ha, ε, h => by
    rw [eqns_decl] at h
    simp only [declared, List.mem_append, List.mem_cons, List.not_mem_nil, or_false] at h
    rcases h with (rfl | rfl) | h
    · exact ⟨rfl, .inl ⟨i, by simp [Block.decls], .inl ⟨rfl, rfl⟩⟩⟩
    · exact ⟨rfl, .inl ⟨i, by simp [Block.decls], .inr ⟨rfl, rfl⟩⟩⟩
    · obtain ⟨h1, h2⟩ := eqn_cases P rest w ha ε h
      refine ⟨h1, ?_⟩
      rcases h2 with ⟨j, hj, h2⟩ | h2 | h2
      · exact .inl ⟨j, by simp [Block.decls, hj], h2⟩
      · exact .inr (.inl h2)
      · exact .inr (.inr h2)
  | .assign i e rest, w, ha, ε, h => by
    simp only [Block.assigns, List.mem_cons, forall_eq_or_imp] at ha
    rw [eqns_assign P w ha.1] at h
    rcases List.mem_cons.1 h with rfl | h
    · exact ⟨rfl, .inr (.inl ⟨(i, e), by simp [Block.assigns], rfl, rfl⟩)⟩
    · obtain ⟨h1, h2⟩ := eqn_cases P rest w ha.2 ε h
      refine ⟨h1, ?_⟩
      rcases h2 with h2 | ⟨q, hq, h2⟩ | h2
      · exact .inl h2
      · exact .inr (.inl ⟨q, by simp [Block.assigns, hq], h2⟩)
      · exact .inr (.inr h2)
  | .cond r t f rest, w, ha, ε, h => by
    simp only [Block.assigns, List.mem_append] at ha
    rw [eqns_cond] at h
    simp only [List.cons_append, List.mem_cons, List.mem_append] at h
    rcases h with rfl | (h | h) | h
    · exact ⟨rfl, .inr (.inr ⟨r, by simp [Block.rules], rfl, rfl⟩)⟩
    · obtain ⟨h1, h2⟩ := eqn_cases P t _ (fun x hx => ha x (.inl (.inl hx))) ε h
      refine ⟨h1, ?_⟩
      rcases h2 with ⟨j, hj, h2⟩ | ⟨q, hq, h2⟩ | ⟨r', hr, h2⟩
      · exact .inl ⟨j, by simp [Block.decls, hj], h2⟩
      · exact .inr (.inl ⟨q, by simp [Block.assigns, hq], h2⟩)
      · exact .inr (.inr ⟨r', by simp [Block.rules, hr], h2⟩)
    · obtain ⟨h1, h2⟩ := eqn_cases P f _ (fun x hx => ha x (.inl (.inr hx))) ε h
      refine ⟨h1, ?_⟩
      rcases h2 with ⟨j, hj, h2⟩ | ⟨q, hq, h2⟩ | ⟨r', hr, h2⟩
      · exact .inl ⟨j, by simp [Block.decls, hj], h2⟩
      · exact .inr (.inl ⟨q, by simp [Block.assigns, hq], h2⟩)
      · exact .inr (.inr ⟨r', by simp [Block.rules, hr], h2⟩)
    · obtain ⟨h1, h2⟩ := eqn_cases P rest _ (fun x hx => ha x (.inr hx)) ε h
      refine ⟨h1, ?_⟩
      rcases h2 with ⟨j, hj, h2⟩ | ⟨q, hq, h2⟩ | ⟨r', hr, h2⟩
      · exact .inl ⟨j, by simp [Block.decls, hj], h2⟩
      · exact .inr (.inl ⟨q, by simp [Block.assigns, hq], h2⟩)
      · exact .inr (.inr ⟨r', by simp [Block.rules, hr], h2⟩)

/-- declarations of locals have no conditional on their way, if there are none in conditionals -/
theorem loc_way (P : Prod V) : ∀ (b : Block V) (w : Way), (∀ x ∈ b.assigns, x.1 < P.insts.length) →
    (∀ r t f, b.Has r t f → t.decls = [] ∧ f.decls = []) → ∀ ε ∈ P.eqns w b, ε.loc = true → ε.way = w
  | .nil, w, ha, hd, ε, h, hl => by simp [Prod.eqns, Prod.stsOf, Sts.eqns] at h
  | .decl i rest, w, ha, hd, ε, h, hl => by
    rw [eqns_decl] at h
    simp only [declared, List.mem_append, List.mem_cons, List.not_mem_nil, or_false] at h
    rcases h with (rfl | rfl) | h
    · rfl
    · rfl
    · exact loc_way P rest w ha (fun r t f hh => hd r t f (.decl hh)) ε h hl
  | .assign i e rest, w, ha, hd, ε, h, hl => by
    simp only [Block.assigns, List.mem_cons, forall_eq_or_imp] at ha
    rw [eqns_assign P w ha.1] at h
    rcases List.mem_cons.1 h with rfl | h
    · rfl
    · exact loc_way P rest w ha.2 (fun r t f hh => hd r t f (.assign hh)) ε h hl
  | .cond r t f rest, w, ha, hd, ε, h, hl => by
    simp only [Block.assigns, List.mem_append] at ha
    obtain ⟨d1, d2⟩ := hd r t f .here
    rw [eqns_cond] at h
    simp only [List.cons_append, List.mem_cons, List.mem_append] at h
    rcases h with rfl | (h | h) | h
    · cases hl
    · obtain ⟨_, h2⟩ := eqn_cases P t _ (fun x hx => ha x (.inl (.inl hx))) ε h
      rcases h2 with ⟨j, hj, _⟩ | ⟨q, hq, h3, h4⟩ | ⟨r', hr, h3, h4⟩
      · rw [d1] at hj; cases hj
      · rw [h4] at hl; cases hl
      · rw [h4] at hl; cases hl
    · obtain ⟨_, h2⟩ := eqn_cases P f _ (fun x hx => ha x (.inl (.inr hx))) ε h
      rcases h2 with ⟨j, hj, _⟩ | ⟨q, hq, h3, h4⟩ | ⟨r', hr, h3, h4⟩
      · rw [d2] at hj; cases hj
      · rw [h4] at hl; cases hl
      · rw [h4] at hl; cases hl
    · exact loc_way P rest w (fun x hx => ha x (.inr hx)) (fun r t f hh => hd r t f (.rest hh)) ε h hl

end Aps.Static
