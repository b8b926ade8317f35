import Verif.Proofs.SourceWired
set_option linter.unusedVariables false
/-! Grammars in source form have the graphs the analysis wants. -/
namespace Aps.Static
open Aps.Gen Aps.Oag Aps.Dnc Aps.Props

variable {V : Type} {phyla : List Phylum} {P : Prod V} {g : Aug}

theorem Made.laid (M : Made phyla P g) : ∃ b kb, Laid phyla P g b kb := by
  obtain ⟨b, kb, L⟩ := M.sound.laid fun q hq => Nat.lt_of_le_of_lt (Nat.zero_le _) (M.attrs q hq).2.1
  obtain ⟨h1, h2, h3⟩ := built_same M.built
  have hl : P.blank.links = g.links := h3.symm
  exact ⟨b, kb, L.toArranged, by rw [M.n], by rw [← hl]; exact L.links⟩

theorem cell_out {j i : Nat} (h : GWf g) (hj : ¬ j < g.n) : g.cell j i = [] := by
  unfold Aug.cell
  have : g.cells[j * g.n + i]? = none := by
    rw [List.getElem?_eq_none]
    rw [h.len]
    have : g.n * g.n ≤ j * g.n := Nat.mul_le_mul_right _ (by omega)
    omega
  rw [this]; rfl

/-- the shared info of the left-hand side -/
theorem Made.lhs_info (M : Made phyla P g) {b : Nat} {kb : Nat → Nat} (L : Laid phyla P g b kb) {q : Phylum} (hq : phyla[P.lhsPhy]? = some q) :
    b + q.info < P.insts.length ∧ P.place (b + q.info) = (infoAttr phyla P.lhsPhy, some lhsDecl) ∧ ¬ P.Stored (b + q.info) := by
  obtain ⟨_, h2, h3⟩ := M.attrs q (List.mem_of_getElem? hq)
  obtain ⟨inst, hi, hl⟩ := L.lhsAll q q.info hq h2
  obtain ⟨hc, q', a, e1, e2, e3, e4, _⟩ := L.lhs _ inst hi hl
  rw [hq] at e1
  cases e1
  have : a = q.info := by omega
  subst this
  have hr : inst.rule = none := by
    cases hr : inst.rule with
    | none => rfl
    | some r =>
      have := (M.sound.declared.rule _ inst hi (by simp [hr])).1
      rw [hl] at this; cases this
  refine ⟨(List.getElem?_eq_some_iff.1 hi).1, ?_, ?_⟩
  · rw [place_at hi, key_lhs hr hc hl]
    simp [infoAttr, hq, e2]
  · rintro ⟨inst', h4, _, h5⟩
    rw [hi] at h4; cases h4
    rw [e4, h3 _ e2] at h5
    rcases h5 with h5 | h5 <;> cases h5

/-- the shared info of a child -/
theorem Made.kid_info (M : Made phyla P g) {b : Nat} {kb : Nat → Nat} (L : Laid phyla P g b kb) {c k : Nat} {q : Phylum} (hk : P.kidPhy[c]? = some (some k))
    (hq : phyla[k]? = some q) :
    kb c + q.info < P.insts.length ∧ P.place (kb c + q.info) = (infoAttr phyla k, some (kidDecl c)) ∧ ¬ P.Stored (kb c + q.info) := by
  obtain ⟨_, h2, h3⟩ := M.attrs q (List.mem_of_getElem? hq)
  obtain ⟨inst, hi, hl⟩ := L.chAll c k q q.info hk hq h2
  obtain ⟨k', q', a, e0, e1, e2, e3, e4, _⟩ := L.ch _ inst c hi hl
  rw [hk] at e0
  cases e0
  rw [hq] at e1
  cases e1
  have : a = q.info := by omega
  subst this
  have hr : inst.rule = none := by
    cases hr : inst.rule with
    | none => rfl
    | some r =>
      have := (M.sound.declared.rule _ inst hi (by simp [hr])).2
      rw [hl] at this; cases this
  refine ⟨(List.getElem?_eq_some_iff.1 hi).1, ?_, ?_⟩
  · rw [place_at hi, key_ch hr hl]
    simp [infoAttr, hq, e2]
  · rintro ⟨inst', h4, _, h5⟩
    rw [hi] at h4; cases h4
    rw [e4, h3 _ e2] at h5
    rcases h5 with h5 | h5 <;> cases h5

theorem vx_inj {p q : Place} (h : vx p = vx q) : p = q := by
  simp only [vx, Vertex.mk.injEq, and_true] at h
  exact Prod.ext h.1 h.2

theorem infoAttr_ne {p a : Nat} {q : Phylum} (hq : phyla[p]? = some q) (hi : q.info < q.attrs.length) : infoAttr phyla p ≠ locDecl a := by
  simp only [infoAttr, hq, Option.bind_some, List.getElem?_eq_getElem hi, Option.map_some, Option.getD_some, attrDecl, locDecl]
  omega

/-- only the equations for the shared info of children compute shared info -/
theorem Made.info_eqn (M : Made phyla P g) {i p d : Nat} {q : Phylum} (hq : phyla[p]? = some q) (hi : i < P.insts.length)
    (hp : P.place i = (infoAttr phyla p, some d)) (hs : ¬ P.Stored i) {ε : Eqn} (hε : ε ∈ P.equations phyla) (ht : ε.target = vx (P.place i)) :
    ∃ c k, P.kidPhy[c]? = some (some k) ∧ d = kidDecl c ∧
      ε = ⟨vx (infoAttr phyla k, some (kidDecl c)), [], .attrRef (infoAttr phyla P.lhsPhy) (some lhsDecl), false, false, false⟩ := by
  rcases mem_equations.1 hε with h | ⟨c, k, hk, rfl⟩
  · exfalso
    rcases (eqn_cases P P.body [] M.mem_assigns ε h).2 with ⟨j, hj, ⟨h1, _⟩ | ⟨h1, _⟩⟩ | ⟨y, hy, h1, _⟩ | ⟨r, hr, h1, _⟩
    · have := vx_inj (h1.symm.trans ht)
      rw [hp] at this
      simp at this
    · have := vx_inj (h1.symm.trans ht)
      rw [hp] at this
      obtain ⟨a, ha, _⟩ := local_decl ((M.sound.locals j).1 hj)
      rw [ha] at this
      exact infoAttr_ne hq (M.attrs q (List.mem_of_getElem? hq)).2.1 (_root_.Prod.mk.inj this).1.symm
    · have := vx_inj (h1.symm.trans ht)
      have h2 := (M.sound.assigned y hy).1
      rw [place_inj M.nodup M.sound (stored_lt h2) hi this] at h2
      exact hs h2
    · have := vx_inj (h1.symm.trans ht)
      rw [hp] at this
      simp at this
  · refine ⟨c, k, hk, ?_, rfl⟩
    have := vx_inj ht
    rw [hp] at this
    exact (Option.some.inj (_root_.Prod.mk.inj this).2).symm

theorem Made.informed (M : Made phyla P g) {b : Nat} {kb : Nat → Nat} (L : Laid phyla P g b kb) : Informed phyla P g b kb where
  lhs := by
    intro q hq j
    obtain ⟨h1, h2, h3⟩ := M.lhs_info L hq
    by_cases hj : j < g.n
    · by_contra hne
      obtain ⟨e, he⟩ := List.exists_mem_of_ne_nil _ hne
      have hw := (built_spec M.built).1
      obtain ⟨σ, hσ⟩ := exists_sat (hw.ok j (b + q.info) hj (by rw [M.n]; exact h1) e he).2.2.1
      obtain ⟨ε, e1, e2, _⟩ := M.only (by rw [← M.n]; exact hj) h1 ⟨e, he, hσ⟩
      obtain ⟨c, k, _, e3, _⟩ := M.info_eqn hq h1 h2 h3 e1 e2
      exact kid_ne_lhs c e3.symm
    · exact cell_out (built_spec M.built).1 hj
  kids := by
    intro c k q p hk hq hp j hne
    obtain ⟨h1, h2, h3⟩ := M.kid_info L hk hq
    obtain ⟨p1, p2, _⟩ := M.lhs_info L hp
    by_cases hj : j < g.n
    · obtain ⟨e, he⟩ := List.exists_mem_of_ne_nil _ hne
      have hw := (built_spec M.built).1
      obtain ⟨σ, hσ⟩ := exists_sat (hw.ok j (kb c + q.info) hj (by rw [M.n]; exact h1) e he).2.2.1
      have hj' : j < P.insts.length := by rw [← M.n]; exact hj
      obtain ⟨ε, e1, e2, e3⟩ := M.only hj' h1 ⟨e, he, hσ⟩
      obtain ⟨c', k', _, _, rfl⟩ := M.info_eqn hq h1 h2 h3 e1 e2
      rcases e3 with ⟨_, e3⟩ | ⟨x, _, _, ⟨b', hb'⟩, _⟩
      · simp only [Ex.reads, List.mem_singleton] at e3
        exact place_inj M.nodup M.sound hj' p1 (e3.trans p2.symm)
      · cases hb'
    · exact absurd (cell_out (built_spec M.built).1 hj) hne

theorem Made.links (M : Made phyla P g) : ∀ l ∈ g.links, ∃ q, phyla[l.2]? = some q ∧ l.1 + q.attrs.length ≤ g.n ∧
    (∀ i, i < q.attrs.length → g.attrs[l.1 + i]? = q.attrs[i]?) := by
  obtain ⟨b, kb, L⟩ := M.laid
  have hat : g.attrs = P.insts.map (·.attr) := (built_same M.built).2.1
  intro l hl
  rcases (L.links l).1 hl with rfl | ⟨c, k, hk, rfl⟩
  · obtain ⟨q, hq⟩ := M.sound.lhs
    have hne := (M.attrs q (List.mem_of_getElem? hq)).2.1
    refine ⟨q, hq, ?_, ?_⟩
    · obtain ⟨inst, hi, hl⟩ := L.lhsAll q (q.attrs.length - 1) hq (by omega)
      have := (List.getElem?_eq_some_iff.1 hi).1
      rw [M.n]; simp only; omega
    · intro i hi
      obtain ⟨inst, hi', hl⟩ := L.lhsAll q i hq hi
      obtain ⟨_, q', a, e1, e2, e3, _⟩ := L.lhs _ inst hi' hl
      rw [hq] at e1; cases e1
      have : a = i := by omega
      subst this
      rw [hat, e2]
      simp [hi']
  · obtain ⟨q, hq⟩ := M.sound.kids c k hk
    have hne := (M.attrs q (List.mem_of_getElem? hq)).2.1
    refine ⟨q, hq, ?_, ?_⟩
    · obtain ⟨inst, hi, hl⟩ := L.chAll c k q (q.attrs.length - 1) hk hq (by omega)
      have := (List.getElem?_eq_some_iff.1 hi).1
      rw [M.n]; simp only; omega
    · intro i hi
      obtain ⟨inst, hi', hl⟩ := L.chAll c k q i hk hq hi
      obtain ⟨k', q', a, e0, e1, e2, e3, _⟩ := L.ch _ inst c hi' hl
      rw [hk] at e0; cases e0
      rw [hq] at e1; cases e1
      have : a = i := by omega
      subst this
      rw [hat, e2]
      simp [hi']

/-- whose instance it is -/
theorem Made.owner (M : Made phyla P g) {b : Nat} {kb : Nat → Nat} (L : Laid phyla P g b kb) {l : Nat × Nat} (hl : l ∈ g.links) {q : Phylum}
    (hq : phyla[l.2]? = some q) {a : Nat} (ha : a < q.attrs.length) : ∃ inst : Inst V, P.insts[l.1 + a]? = some inst ∧
      ((inst.lhs = true ∧ l = (b, P.lhsPhy)) ∨ ∃ c k, P.kidPhy[c]? = some (some k) ∧ inst.ch = some c ∧ l = (kb c, k)) := by
  rcases (L.links l).1 hl with rfl | ⟨c, k, hk, rfl⟩
  · obtain ⟨inst, h1, h2⟩ := L.lhsAll q a hq ha
    exact ⟨inst, h1, .inl ⟨h2, rfl⟩⟩
  · obtain ⟨inst, h1, h2⟩ := L.chAll c k q a hk hq ha
    exact ⟨inst, h1, .inr ⟨c, k, hk, h2, rfl⟩⟩

theorem start_phys {p : Nat} {y : Phy} (h : (phyla.map Phylum.start)[p]? = some y) : ∃ q, phyla[p]? = some q ∧ y = q.start := by
  rw [List.getElem?_map] at h
  obtain ⟨q, hq, he⟩ := Option.map_eq_some_iff.1 h
  exact ⟨q, hq, he.symm⟩

theorem Made.apart (M : Made phyla P g) : LinksApart g (phyla.map Phylum.start) := by
  obtain ⟨b, kb, L⟩ := M.laid
  intro l hl l' hl' p p' e e' a a' ha ha' heq
  obtain ⟨q, hq, rfl⟩ := start_phys e
  obtain ⟨q', hq', rfl⟩ := start_phys e'
  obtain ⟨inst, h1, h2⟩ := M.owner L hl hq ha
  obtain ⟨inst', h1', h2'⟩ := M.owner L hl' hq' ha'
  rw [heq, h1'] at h1
  cases h1
  rcases h2 with ⟨h2, rfl⟩ | ⟨c, k, hk, h2, rfl⟩
  · rcases h2' with ⟨_, rfl⟩ | ⟨c', k', _, h2', rfl⟩
    · rfl
    · have := (L.lhs _ inst h1' h2).1
      rw [h2'] at this; cases this
  · rcases h2' with ⟨h2', rfl⟩ | ⟨c', k', hk', h2', rfl⟩
    · have := (L.lhs _ inst h1' h2').1
      rw [h2] at this; cases this
    · rw [h2] at h2'; cases h2'
      rw [hk] at hk'; cases hk'
      rfl

theorem Made.rulesApart (M : Made phyla P g) : RulesApart g P.conds (phyla.map Phylum.start) := by
  obtain ⟨b, kb, L⟩ := M.laid
  intro r k hr l hl p hp
  obtain ⟨rfl, inst, h1, h2⟩ := ruleOf_conds.1 hr
  obtain ⟨q, hq, rfl⟩ := start_phys hp
  by_contra hc
  have hc' : l.1 ≤ k ∧ k < l.1 + q.attrs.length := by
    have : (Phylum.start q).n = q.attrs.length := rfl
    omega
  obtain ⟨inst', h3, h4⟩ := M.owner L hl hq (a := k - l.1) (by omega)
  rw [show l.1 + (k - l.1) = k by omega, h1] at h3
  cases h3
  obtain ⟨h5, h6⟩ := M.sound.declared.rule k inst h1 h2
  rcases h4 with ⟨h4, _⟩ | ⟨c, _, _, h4, _⟩
  · rw [h5] at h4; cases h4
  · rw [h6] at h4; cases h4

theorem mapM_ok {A B : Type} {f : A → Res B} : ∀ (l : List A), (∀ x ∈ l, ∃ y, f x = .ok y) → ∃ ys, l.mapM f = .ok ys ∧ List.Forall₂ (fun x y => f x = .ok y) l ys
  | [], _ => ⟨[], rfl, .nil⟩
  | x :: l, h => by
    obtain ⟨y, hy⟩ := h x (by simp)
    obtain ⟨ys, h1, h2⟩ := mapM_ok l fun z hz => h z (by simp [hz])
    exact ⟨y :: ys, by rw [List.mapM_cons, hy, Res.ok_bind, h1, Res.ok_bind]; rfl, .cons hy h2⟩

/-- A grammar in source form: the graphs of its productions are made, and they are as the analysis wants them. -/
theorem source_ok {prods : List (Prod V)} (h : SourceOk phyla prods) :
    ∃ gs, prods.mapM (fun P => P.graph phyla) = .ok gs ∧ (⟨phyla, prods, gs, prods.map (·.conds)⟩ : Grammar V).Ok := by
  have hat : ∀ q ∈ phyla, q.attrs.Nodup := fun q hq => (h.attrs q hq).1
  obtain ⟨gs, h1, h2⟩ := mapM_ok prods fun P hP => by
    obtain ⟨g, hg, _⟩ := (h.rules P hP).total hat
    exact ⟨g, hg⟩
  have made : ∀ (x : Nat) P g, prods[x]? = some P → gs[x]? = some g → Made phyla P g := by
    intro x P g hP hg
    obtain ⟨g', e1, e2⟩ := forall2_get' h2 hP
    rw [hg] at e1; cases e1
    exact ⟨fun q hq => ⟨hat q hq, (h.attrs q hq).2.2.2.1, (h.attrs q hq).2.2.2.2.2⟩, h.rules P (List.mem_of_getElem? hP), e2⟩
  have hlen := h2.length_eq
  have made' : ∀ g ∈ gs, ∃ P : Prod V, Made phyla P g := by
    intro g hg
    obtain ⟨x, hx⟩ := List.getElem?_of_mem hg
    have hlt := (List.getElem?_eq_some_iff.1 hx).1
    exact ⟨_, made x _ g (List.getElem?_eq_getElem (by omega)) hx⟩
  refine ⟨gs, h1, ⟨hlen.symm, by simp, fun q hq => ⟨hat q hq, (h.attrs q hq).2.2.2.1, (h.attrs q hq).2.2.2.2.1⟩, ⟨⟨?_, ?_, ?_⟩, ?_, ?_, ?_, ?_⟩, ?_⟩⟩
  · intro g hg
    obtain ⟨P, M⟩ := made' g hg
    obtain ⟨b1, b2, b3⟩ := built_same M.built
    rw [b1, b2, b3]
    exact M.built
  · intro p hp
    obtain ⟨q, hq, rfl⟩ := List.mem_map.1 hp
    simp [Phylum.start]
  · intro g hg l hl
    obtain ⟨P, M⟩ := made' g hg
    obtain ⟨q, e1, e2, e3⟩ := M.links l hl
    exact ⟨q.start, by simp [Grammar.state, e1], e2, e3⟩
  · intro g hg
    obtain ⟨P, M⟩ := made' g hg
    exact M.apart
  · intro j p hp
    obtain ⟨q, hq, rfl⟩ := start_phys hp
    obtain ⟨_, e2, e3, _⟩ := h.attrs q (List.mem_of_getElem? hq)
    refine ⟨q.dirs, by simp [hq], fun i hi => ?_⟩
    have hi' : i < q.dirs.length := by rw [e2]; exact hi
    rw [List.getElem?_eq_getElem hi']
    rcases e3 _ (List.getElem_mem hi') with e | e
    · exact .inl (by rw [e])
    · exact .inr (by rw [e])
  · intro x g is hg his
    have hlt := (List.getElem?_eq_some_iff.1 hg).1
    have hlt' : x < prods.length := by simp only [Grammar.state] at hlt; omega
    have hP := List.getElem?_eq_getElem hlt'
    have his' : (prods.map (·.conds))[x]? = some is := his
    rw [List.getElem?_map, hP] at his'
    cases his'
    exact (made x _ g hP hg).rulesApart
  · rw [List.forall₂_iff_get]
    refine ⟨by simp [Grammar.state, hlen], fun x hx hx' => ?_⟩
    have hlt' : x < prods.length := by simpa using hx'
    have hlt : x < gs.length := hx
    have := (made x _ _ (List.getElem?_eq_getElem hlt') (List.getElem?_eq_getElem hlt)).insts
    simpa [Grammar.state] using this
  · intro x P g oi hP hg hoi
    have M := made x P g hP hg
    have hoi' : (prods.map (·.conds))[x]? = some oi := hoi
    rw [List.getElem?_map, show prods[x]? = some P from hP] at hoi'
    cases hoi'
    obtain ⟨b, kb, L⟩ := M.laid
    exact ⟨M.sound.declared, M.wired, b, kb, L, M.informed L⟩

end Aps.Static
