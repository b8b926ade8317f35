import Verif.Proofs.StaticPos
import Verif.Props.Oag
set_option linter.unusedVariables false
/-!
# Static visit procedures: what the scheduler of compute_oag gives
-/
namespace Aps.Static

open Aps.Oag Aps.Dnc

variable {V : Type} {ph : Phyla} {P : Prod V} {g : Aug} {oi : List OInst}

theorem byRule_eq (hinj : ∀ a b k, ruleOf oi a = some k → ruleOf oi b = some k → a = b) {i k : Nat} (h : ruleOf oi i = some k)
    (σ : Nat → Bool) : byRule oi σ k = σ i := by
  unfold byRule
  have hi : i < oi.length := by
    by_contra hn
    rw [ruleOf, List.getElem?_eq_none (by omega)] at h; cases h
  cases hs : σ i with
  | true =>
    rw [List.any_eq_true]
    exact ⟨i, by simpa using hi, by simp [h, hs]⟩
  | false =>
    rw [List.any_eq_false]
    intro j hj
    by_cases hj' : ruleOf oi j = some k
    · rw [hinj j i k hj' h]; simp [hs]
    · simp [hj']

/-- the branching nodes are those of the conditionals -/
def ShapedBy (oi : List OInst) : Cto → Prop
  | .nil => True
  | .node i next => ruleOf oi i = none ∧ ShapedBy oi next
  | .ifs i f t => (ruleOf oi i).isSome ∧ ShapedBy oi f ∧ ShapedBy oi t

theorem scheduleRest_shaped : ∀ (r : Nat) (c : Cond) (s : List Bool) (t : Cto) (s' : List Bool),
    scheduleRest g oi r c s = .ok (t, s') → ShapedBy oi t := by
  intro r
  induction r with
  | zero => intro c s t s' h; simp only [scheduleRest] at h; cases h; trivial
  | succ r ih =>
    intro c s t s' h
    simp only [scheduleRest] at h
    cases hfr : findReady g c s with
    | none => rw [hfr] at h; cases h
    | some i =>
      rw [hfr] at h
      simp only at h
      cases hin : oi[i]? with
      | none => rw [hin] at h; cases h
      | some inst =>
        rw [hin] at h
        simp only at h
        by_cases hig : ignored c inst.cond = true
        · rw [if_pos hig] at h
          obtain ⟨⟨t1, s1⟩, h1, h2⟩ := Res.bind_eq_ok.1 h
          simp at h2
          obtain ⟨rfl, rfl⟩ := h2
          exact ih _ _ _ _ h1
        · rw [if_neg hig] at h
          cases hrl : inst.rule with
          | some k =>
            rw [hrl] at h
            simp only at h
            obtain ⟨⟨t1, s1⟩, h1, h2⟩ := Res.bind_eq_ok.1 h
            obtain ⟨⟨t2, s2⟩, h3, h4⟩ := Res.bind_eq_ok.1 h2
            simp at h4
            obtain ⟨rfl, rfl⟩ := h4
            exact ⟨by simp [ruleOf, hin, hrl], ih _ _ _ _ h1, ih _ _ _ _ h3⟩
          | none =>
            rw [hrl] at h
            simp only at h
            obtain ⟨⟨t1, s1⟩, h1, h2⟩ := Res.bind_eq_ok.1 h
            simp at h2
            obtain ⟨rfl, rfl⟩ := h2
            exact ⟨by simp [ruleOf, hin, hrl], ih _ _ _ _ h1⟩

theorem path_byRule (hinj : ∀ a b k, ruleOf oi a = some k → ruleOf oi b = some k → a = b) (σ : Nat → Bool) : ∀ {t : Cto}, ShapedBy oi t →
    t.path (ruleOf oi) (byRule oi σ) = t.path (fun i => some i) σ := by
  intro t
  induction t with
  | nil => intro _; rfl
  | node i next ih => intro h; simp only [Cto.path]; rw [ih h.2]
  | ifs i f t ihf iht =>
    intro h
    obtain ⟨k, hk⟩ := Option.isSome_iff_exists.1 h.1
    simp only [Cto.path, hk, Option.map_some, Option.some.injEq, byRule_eq hinj hk, ihf h.2.1, iht h.2.2]

theorem shaped_of (hr : ∀ i, (ruleOf oi i).isSome ↔ P.IsRule i) : ∀ {t : Cto}, ShapedBy oi t → P.Shaped t := by
  intro t
  induction t with
  | nil => intro _; trivial
  | node i next ih => intro h; exact ⟨(fun hc => by have := (hr i).2 hc; rw [h.1] at this; cases this), ih h.2⟩
  | ifs i f t ihf iht => intro h; exact ⟨(hr i).1 h.1, ihf h.2.1, iht h.2.2⟩

/-- the first instance that is not a conditional has at most the number of one that depends on nothing -/
theorem first_le (hrule : ∀ i k, ruleOf oi i = some k → k < 32) {i₀ : Nat} (hi₀ : i₀ < g.n) (hcell : ∀ j, g.cell j i₀ = [])
    (hcond : condOf oi i₀ = ⟨0, 0⟩) (hnr : ruleOf oi i₀ = none) {τ : Nat → Bool} :
    ∀ (r : Nat) (c : Cond) (s : List Bool) (t : Cto) (s' : List Bool), s.length = g.n → unsched g.n s = r → bget s i₀ = false → Sat τ c →
      scheduleRest g oi r c s = .ok (t, s') →
      ∀ pre i post, t.path (ruleOf oi) τ = pre ++ i :: post → (∀ j ∈ pre, (ruleOf oi j).isSome) → ruleOf oi i = none → i ≤ i₀ := by
  intro r
  induction r with
  | zero =>
    intro c s t s' _ _ _ _ h pre i post hp
    simp only [scheduleRest] at h
    cases h
    simp [Cto.path] at hp
  | succ r ih =>
    intro c s t s' hl hu hb₀ hsat h pre x post hp hpre hx
    simp only [scheduleRest] at h
    cases hfr : findReady g c s with
    | none => rw [hfr] at h; cases h
    | some i =>
      rw [hfr] at h
      simp only at h
      obtain ⟨hi, hb, _⟩ := findReady_some hfr
      have hle : i ≤ i₀ := by
        by_contra hlt
        unfold findReady at hfr
        have := List.find?_eq_some_iff_getElem.1 hfr
        obtain ⟨_, n, hn, he, hall⟩ := this
        simp at he
        subst he
        have := hall i₀ (by omega)
        simp only [List.getElem_range, hb₀, Bool.not_false, Bool.true_and, Bool.not_eq_true'] at this
        unfold restReady at this
        rw [List.all_eq_false] at this
        obtain ⟨j, _, hj⟩ := this
        rw [hcell j] at hj
        simp [edgeBlocks] at hj
      cases hin : oi[i]? with
      | none => rw [hin] at h; cases h
      | some inst =>
        rw [hin] at h
        simp only at h
        have hri : ruleOf oi i = inst.rule := by simp [ruleOf, hin]
        have hl' : (s.set i true).length = g.n := by simpa using hl
        have hu' : unsched g.n (s.set i true) = r := by
          have := unsched_set hl hi hb; omega
        have hb' : i ≠ i₀ → bget (s.set i true) i₀ = false := by
          intro hne
          rw [bget_set hl hi, if_neg (fun h => hne h.symm)]
          exact hb₀
        by_cases hig : ignored c inst.cond = true
        · rw [if_pos hig] at h
          obtain ⟨⟨t1, s1⟩, h1, h2⟩ := Res.bind_eq_ok.1 h
          simp at h2
          obtain ⟨rfl, rfl⟩ := h2
          have hne : i ≠ i₀ := by
            rintro rfl
            have hci : condOf oi i = inst.cond := by simp [condOf, hin]
            rw [hcond] at hci
            rw [← hci] at hig
            exact ignored_iff.1 hig (ok_of_sat (sat_both.2 ⟨hsat, sat_nil τ⟩))
          exact ih c _ _ _ hl' hu' (hb' hne) hsat h1 pre x post hp hpre hx
        · rw [if_neg hig] at h
          cases hrl : inst.rule with
          | some k =>
            rw [hrl] at h
            simp only at h
            have hk := hrule i k (by rw [hri, hrl])
            have hne : i ≠ i₀ := by rintro rfl; rw [hri, hrl] at hnr; cases hnr
            obtain ⟨⟨t1, s1⟩, h1, h2⟩ := Res.bind_eq_ok.1 h
            obtain ⟨rfl, _⟩ := scheduleRest_good hrule r _ _ _ _ hl' hu' h1
            obtain ⟨⟨t2, s2⟩, h3, h4⟩ := Res.bind_eq_ok.1 h2
            simp at h4
            obtain ⟨rfl, rfl⟩ := h4
            cases pre with
            | nil =>
              simp only [Cto.path, List.nil_append] at hp
              have := (List.cons.inj hp).1
              subst this
              rw [hri, hrl] at hx; cases hx
            | cons y pre =>
              simp only [Cto.path, List.cons_append] at hp
              obtain ⟨rfl, hq⟩ := List.cons.inj hp
              have hpre' : ∀ j ∈ pre, (ruleOf oi j).isSome := fun j hj => hpre j (by simp [hj])
              rw [hri, hrl] at hq
              simp only [Option.map_some, Option.some.injEq] at hq
              cases hsk : τ k with
              | true =>
                rw [if_pos hsk] at hq
                exact ih _ _ _ _ hl' hu' (hb' hne) (sat_true hk hsat hsk) h3 pre x post hq hpre' hx
              | false =>
                rw [if_neg (by simp [hsk])] at hq
                exact ih _ _ _ _ hl' hu' (hb' hne) (sat_false hk hsat hsk) h1 pre x post hq hpre' hx
          | none =>
            rw [hrl] at h
            simp only at h
            obtain ⟨⟨t1, s1⟩, h1, h2⟩ := Res.bind_eq_ok.1 h
            simp at h2
            obtain ⟨rfl, rfl⟩ := h2
            cases pre with
            | nil =>
              simp only [Cto.path, List.nil_append] at hp
              have := (List.cons.inj hp).1
              omega
            | cons y pre =>
              simp only [Cto.path, List.cons_append] at hp
              obtain ⟨rfl, hp⟩ := List.cons.inj hp
              have := hpre i (by simp)
              rw [hri, hrl] at this; cases this

theorem scheduled_of_graph (hd : Described ph P) (hG : Graphed ph P g oi) (h : scheduleAug g oi = .ok P.cto)
    (hdef : ∀ (σ : Nat → Bool) i, P.Output σ i → P.rhs σ i ≠ none)
    (hcases : ∀ (σ : Nat → Bool) pre r post, P.path σ = pre ++ r :: post → ∀ (inst : Inst V) (e : Expr V) (pat : V → Bool) (t : Block V)
      (f : Option (Block V)), P.insts[r]? = some inst → inst.rule = some ⟨.mat false e pat, t, f⟩ → P.caseExpr pre = some e) :
    Scheduled ph P := by
  obtain ⟨s', hrest⟩ := Aps.Props.scheduleAug_ok h
  have hshape := scheduleRest_shaped _ _ _ _ _ hrest
  have hpath : ∀ σ, P.cto.path (ruleOf oi) (byRule oi σ) = P.path σ := fun σ => path_byRule hG.inj σ hshape
  have hP := fun σ => Aps.Props.C26_path hG.range h (byRule oi σ)
  simp only [hpath] at hP
  have hexact : ∀ σ i, i < g.n → (i ∈ P.path σ ↔ Active oi σ i) := by
    intro σ i hi
    rw [← hpath]
    exact Aps.Props.C26_exact hG.range hG.inj hG.nested h (byRule oi σ) i hi
  have hlt : ∀ (i : Nat) (inst : Inst V), P.insts[i]? = some inst → i < g.n := by
    intro i inst hi
    rw [← hG.same]
    by_contra hn
    rw [List.getElem?_eq_none (by omega)] at hi; cases hi
  have hat : ∀ (σ : Nat → Bool) (i : Nat) (inst : Inst V), P.insts[i]? = some inst → (inst.lhs = true ∨ inst.ch ≠ none) → i ∈ P.path σ := by
    intro σ i inst hi hc
    refine (hexact σ i (hlt i inst hi)).2 ?_
    unfold Active
    rw [hG.attrs i inst hi hc]
    exact sat_nil _
  have hact : ∀ {σ : Nat → Bool} {pre : List Nat} {i : Nat} {post : List Nat}, P.path σ = pre ++ i :: post → Active oi σ i := by
    intro σ pre i post hp
    have hm : i ∈ P.path σ := by rw [hp]; simp
    exact (hexact σ i ((hP σ).2.1 i hm)).1 hm
  have hdep : ∀ {σ : Nat → Bool} {pre : List Nat} {i : Nat} {post : List Nat}, P.path σ = pre ++ i :: post → ∀ j, j < g.n →
      Active oi σ j → DepUnder g (byRule oi σ) j i → j ∈ pre := by
    intro σ pre i post hp j hj ha hd
    exact ((hP σ).2.2.2 pre i post hp j hd).2 hj ha
  have hstored : ∀ j, P.Stored j → j < g.n := by
    rintro j ⟨inst, hj, _⟩; exact hlt j inst hj
  refine ⟨shaped_of hG.rule hshape, fun σ => (hP σ).1, fun σ i hi => by rw [hG.same]; exact (hP σ).2.1 i hi, ?_, ?_, ?_, ?_, ?_, ?_, ?_, ?_, ?_, hdef, hcases⟩
  · intro σ x s hx
    obtain ⟨i, inst, hi, hl, ha⟩ := hG.lhs x s hx
    exact ⟨i, hat σ i inst hi (.inl hl), inst, hi, hl, ha⟩
  · intro σ c k x s hk hx
    obtain ⟨i, inst, hi, hc, ha⟩ := hG.ch c k x s hk hx
    exact ⟨i, hat σ i inst hi (.inr (by simp [hc])), inst, hi, hc, ha⟩
  · intro σ r
    constructor
    · intro hr
      obtain ⟨t, f, hh, _⟩ := tested_source hr
      obtain ⟨inst, rule, hi, hru, _⟩ := hd.body r t f hh
      have hR : P.IsRule r := ⟨inst, hi, by rw [hru]; rfl⟩
      exact ⟨(hexact σ r (hlt r inst hi)).2 ((hG.tested σ r hR).1 hr), hR⟩
    · rintro ⟨hr, hR⟩
      exact (hG.tested σ r hR).2 ((hexact σ r ((hP σ).2.1 r hr)).1 hr)
  · intro σ i inst hi hk hr
    exact (hG.locals σ i inst hi hk hr).trans (hexact σ i (hlt i inst hi)).symm
  · intro σ
    rw [List.pairwise_iff_getElem]
    intro m n hm hn hmn a b ha hb hc
    by_contra hlt'
    have hd' := hG.phases _ _ b a hb ha (by
      rcases hc with ⟨h1, h2⟩ | ⟨h1, h2⟩
      · exact .inl ⟨h2, h1⟩
      · exact .inr ⟨h2 ▸ h1, h2.symm⟩) (by omega) (byRule oi σ)
    have hsplit : P.path σ = (P.path σ).take m ++ (P.path σ)[m] :: (P.path σ).drop (m + 1) := by
      rw [← List.drop_eq_getElem_cons hm, List.take_append_drop]
    have hnot := ((hP σ).2.2.2 _ _ _ hsplit _ hd').1
    apply hnot
    rw [← List.drop_eq_getElem_cons hm]
    rw [List.mem_drop_iff_getElem]
    exact ⟨n - m, by omega, by congr 1; omega⟩
  · intro σ pre i post hp hpre hi
    obtain ⟨i₀, hi₀, hcell, hcond, hnr, hle⟩ := hG.first
    have hn : ∀ j, ¬ P.IsRule j → ruleOf oi j = none := by
      intro j hj
      cases hr : ruleOf oi j with
      | none => rfl
      | some k => exact absurd ((hG.rule j).1 (by rw [hr]; rfl)) hj
    refine hle i ?_ hi
    refine first_le hG.range hi₀ hcell hcond (hn i₀ hnr) (τ := byRule oi σ) g.n _ _ _ _ (by simp) (unsched_init _) ?_ (sat_nil _) hrest pre i post
      (by rw [hpath]; exact hp) (fun j hj => (hG.rule j).2 (hpre j hj)) (hn i hi)
    simp [bget, hi₀]
  · intro σ pre r post hp inst rule hi hr j hj
    obtain ⟨h1, h2, h3⟩ := hG.tests σ r inst rule hi hr (hact hp) j hj
    exact ⟨hdep hp j (hstored j h1) h2 h3, h1⟩
  · intro σ pre i post hp e he j hj
    obtain ⟨h1, h2, h3⟩ := hG.reads σ i e he (hact hp) j hj
    exact ⟨hdep hp j (hstored j h1) h2 h3, h1⟩
  · intro σ pre i post hp hi r hr t f hh he
    have hd' := hG.guards σ i hi (hact hp) r hr t f hh he
    obtain ⟨inst, rule, hri, hru, _⟩ := hd.body r t f hh
    have hR : P.IsRule r := ⟨inst, hri, by rw [hru]; rfl⟩
    exact hdep hp r (hlt r inst hri) ((hG.tested σ r hR).1 hr) hd'

end Aps.Static
