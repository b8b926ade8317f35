import Verif.Proofs.Points
/-! # Object flow: the traversal keeps the invariant; the loop ends -/
set_option linter.unusedVariables false
namespace Aps.Points
open Spec

theorem occurs_trans {a b c : Node} {r r' r'' : Option Nat} (h1 : Occurs a r b r') (h2 : Occurs b r' c r'') :
    Occurs a r c r'' := by
  induction h1 with
  | here => exact h2
  | seqL _ ih => exact .seqL (ih h2)
  | seqR _ ih => exact .seqR (ih h2)
  | ifT _ ih => exact .ifT (ih h2)
  | ifE _ ih => exact .ifE (ih h2)
  | loop _ ih => exact .loop (ih h2)
  | caseM _ ih => exact .caseM (ih h2)
  | caseD _ ih => exact .caseD (ih h2)
  | matchB _ ih => exact .matchB (ih h2)
  | matchN _ ih => exact .matchN (ih h2)
  | rule _ ih => exact .rule (ih h2)
  | func _ ih => exact .func (ih h2)

/-- result of a piece of the traversal -/
def Good (P : Prog) (B : Nat) (st st' : St) : Prop := Ok P B st' ∧ Step B st st'

theorem Good.trans {P : Prog} {B : Nat} {a b c : St} (h1 : Good P B a b) (h2 : Good P B b c) : Good P B a c :=
  ⟨h2.1, h1.2.trans h2.2⟩

theorem visitE_ok {P : Prog} {B : Nat} (hB : Bd P B) {r : Option Nat} {e : Expr} {st st' : St} (he : ExprAt P r e)
    (h : Ok P B st) (hr : visitE P r e st = .ok st') : Good P B st st' := by
  unfold visitE at hr
  obtain ⟨⟨os, s⟩, hw, hr⟩ := Res.bind_eq_ok.1 hr
  cases hr
  obtain ⟨a1, a2, _, _⟩ := doOU_ok hB e [] st os s he h List.nodup_nil (by simp) hw
  exact ⟨a1, a2⟩

theorem visitEs_ok {P : Prog} {B : Nat} (hB : Bd P B) {r : Option Nat} : ∀ (es : List Expr) (st st' : St),
    (∀ e ∈ es, ExprAt P r e) → Ok P B st → visitEs P r es st = .ok st' → Good P B st st'
  | [], st, st', he, h, hr => by cases hr; exact ⟨h, Step.refl _⟩
  | e :: es, st, st', he, h, hr => by
    simp only [visitEs] at hr
    obtain ⟨s, hw, hr⟩ := Res.bind_eq_ok.1 hr
    have h1 := visitE_ok hB (he e (List.mem_cons_self ..)) h hw
    exact h1.trans (visitEs_ok hB es s st' (fun e h => he e (List.mem_cons_of_mem _ h)) h1.1 hr)

mutual
theorem mem_conds : ∀ (p : Pat) (e : Expr), e ∈ p.conds ↔ HasCond p e
  | .other, e => by simp only [Pat.conds, List.not_mem_nil, false_iff]; intro h; cases h
  | .none, e => by simp only [Pat.conds, List.not_mem_nil, false_iff]; intro h; cases h
  | .var _ _, e => by simp only [Pat.conds, List.not_mem_nil, false_iff]; intro h; cases h
  | .cond e', e => by
    simp only [Pat.conds, List.mem_singleton]
    constructor
    · rintro rfl; exact .cond _
    · intro h; cases h; rfl
  | .rest lt p, e => by
    simp only [Pat.conds]
    rw [mem_conds p e]
    exact ⟨.rest, fun h => by cases h; assumption⟩
  | .and lt p q, e => by
    simp only [Pat.conds, List.mem_append]
    rw [mem_conds p e, mem_conds q e]
    constructor
    · rintro (h | h)
      · exact .andL h
      · exact .andR h
    · intro h
      cases h with
      | andL h => exact .inl h
      | andR h => exact .inr h
  | .call lt ps, e => by
    simp only [Pat.conds]
    rw [mem_condsL ps e]
    constructor
    · rintro ⟨p, hp, h⟩; exact .call hp h
    · intro h
      cases h with
      | call hp h => exact ⟨_, hp, h⟩
theorem mem_condsL : ∀ (ps : List Pat) (e : Expr), e ∈ Pat.condsL ps ↔ ∃ p ∈ ps, HasCond p e
  | [], e => by simp [Pat.condsL]
  | p :: ps, e => by
    simp only [Pat.condsL, List.mem_append, List.mem_cons]
    rw [mem_conds p e, mem_condsL ps e]
    constructor
    · rintro (h | ⟨q, hq, h⟩)
      · exact ⟨p, .inl rfl, h⟩
      · exact ⟨q, .inr hq, h⟩
    · rintro ⟨q, rfl | hq, h⟩
      · exact .inl h
      · exact .inr ⟨q, hq, h⟩
end

theorem casePats_ok {P : Prog} {B : Nat} (hB : Bd P B) {r : Option Nat} {e : Expr} {ms dflt : Node} {os : List Nat}
    (hc : At P (.cases e ms dflt) r) (hn : os.Nodup) (ho : ∀ o ∈ os, HoldsE P e o) : ∀ (m : Node) (st st' : St),
    (∀ p, MatchOf m p → MatchOf ms p) → Ok P B st → casePats P r e os m st = .ok st' → Good P B st st' := by
  intro m
  induction m with
  | mtch p b n _ ih =>
    intro st st' hm h hr
    simp only [casePats] at hr
    obtain ⟨⟨o1, s⟩, hw, hr⟩ := Res.bind_eq_ok.1 hr
    obtain ⟨a1, a2, a3, a4⟩ := doUOp_ok (e := e) p os st h hn (fun v k hk => by
      have ed := Edge.case hc (hm p (.here p b n)) hk
      refine ⟨hB.case hc (hm p (.here p b n)) hk, ?_, ?_⟩
      · rintro u ⟨y, hy, hu⟩
        exact ⟨y, usedBy_edge ed hy, hu⟩
      · rintro rfl o h1
        exact ⟨(ho o h1).1, .step (ho o h1).2 ed rfl⟩)
    obtain ⟨b1, b2, _, _⟩ := doOU_ok hB e _ _ o1 s (.case hc) a1 a3 a4 hw
    have k := ih s st' (fun q hq => hm q (.next hq)) b1 hr
    exact ⟨k.1, a2.trans (b2.trans k.2)⟩
  | _ =>
    intro st st' hm h hr
    cases hr
    exact ⟨h, Step.refl _⟩

theorem ruleKids_ok {P : Prog} {B : Nat} (hB : Bd P B) {r : Option Nat} {si : Nat} {kids : List Nat} {p : Pat} {b : Node}
    (ha : At P (.rule si kids p b) r) : ∀ (ks : List Nat) (st : St), (∀ k ∈ ks, k ∈ kids) → Ok P B st →
    Good P B st (ruleKids si ks st)
  | [], st, _, h => ⟨h, Step.refl _⟩
  | k :: ks, st, hk, h => by
    have hk0 := hk k (List.mem_cons_self ..)
    have ed := Edge.child ha hk0
    rw [ruleKids]
    obtain ⟨a1, a2⟩ := addO_ok (os := st.O si) (hB.kid ha hk0) (h.ndO si)
      (fun o ho => ⟨(h.holds _ _ ho).1, .step (h.holds _ _ ho).2 ed rfl⟩) h
    obtain ⟨b1, b2⟩ := addU_ok (us := (addO k (st.O si) st).U k) (hB.ruleSi ha) (a1.ndU k) (fun u hu => by
      obtain ⟨y, hy, hu⟩ := a1.used _ _ hu
      exact ⟨y, usedBy_edge ed hy, hu⟩) a1
    exact Good.trans ⟨b1, a2.trans b2⟩ (ruleKids_ok hB ha ks _ (fun k h => hk k (List.mem_cons_of_mem _ h)) b1)

theorem computeOU_ok {P : Prog} {B : Nat} (hB : Bd P B) : ∀ (n : Node) (r : Option Nat) (st st' : St),
    At P n r → Ok P B st → computeOU P r n st = .ok st' → Good P B st st' := by
  intro n
  induction n with
  | skip => intro r st st' ha h hr; cases hr; exact ⟨h, Step.refl _⟩
  | seq a b iha ihb =>
    intro r st st' ha h hr
    simp only [computeOU] at hr
    obtain ⟨s, hw, hr⟩ := Res.bind_eq_ok.1 hr
    have h1 := iha r st s (occurs_trans ha (.seqL (.here _ _))) h hw
    exact h1.trans (ihb r s st' (occurs_trans ha (.seqR (.here _ _))) h1.1 hr)
  | value d k init =>
    intro r st st' ha h hr
    cases init with
    | none => cases hr; exact ⟨h, Step.refl _⟩
    | some e =>
      simp only [computeOU] at hr
      obtain ⟨⟨os, s⟩, hw, hr⟩ := Res.bind_eq_ok.1 hr
      have ed := Edge.init ha
      obtain ⟨a1, a2, a3, a4⟩ := doOU_ok hB e _ st os s (.init ha) h (h.ndU d) (fun u hu => by
        obtain ⟨y, hy, hu⟩ := h.used _ _ hu
        exact ⟨y, usedBy_edge ed hy, hu⟩) hw
      obtain ⟨b1, b2⟩ := addO_ok (hB.value ha) a3 (fun o ho => ⟨(a4 o ho).1, .step (a4 o ho).2 ed rfl⟩) a1
      exact Good.trans ⟨b1, a2.trans b2⟩ (visitE_ok hB (.init ha) b1 hr)
  | attr d init =>
    intro r st st' ha h hr
    simp only [computeOU] at hr
    cases init with
    | none => cases hr; exact ⟨h, Step.refl _⟩
    | some e => exact visitE_ok hB (.dflt ha) h hr
  | expr e =>
    intro r st st' ha h hr
    exact visitE_ok hB (.expr ha) h hr
  | assign d l e =>
    intro r st st' ha h hr
    simp only [computeOU] at hr
    obtain ⟨⟨os, s⟩, hw, hr⟩ := Res.bind_eq_ok.1 hr
    obtain ⟨⟨us, t⟩, hv, hr⟩ := Res.bind_eq_ok.1 hr
    cases hr
    have ed := Edge.rhs ha
    obtain ⟨a1, a2, a3, a4⟩ := doOU_ok hB e _ st os s (.rhs ha) h (h.ndU d) (fun u hu => by
      obtain ⟨y, hy, hu⟩ := h.used _ _ hu
      exact ⟨y, usedBy_edge ed hy, hu⟩) hw
    obtain ⟨b1, b2⟩ := addO_ok (hB.assign ha) a3 (fun o ho => ⟨(a4 o ho).1, .step (a4 o ho).2 ed rfl⟩) a1
    obtain ⟨c1, c2, c3, c4⟩ := doUO_ok hB ha b1 hv
    obtain ⟨d1, d2⟩ := addU_ok (hB.assign ha) c3 c4 c1
    exact ⟨d1, a2.trans (b2.trans (c2.trans d2))⟩
  | ifs c t e iht ihe =>
    intro r st st' ha h hr
    simp only [computeOU] at hr
    obtain ⟨s, hw, hr⟩ := Res.bind_eq_ok.1 hr
    obtain ⟨s2, hw2, hr⟩ := Res.bind_eq_ok.1 hr
    have h0 := visitE_ok hB (.test ha) h hw
    have h1 := iht r s s2 (occurs_trans ha (.ifT (.here _ _))) h0.1 hw2
    exact (h0.trans h1).trans (ihe r s2 st' (occurs_trans ha (.ifE (.here _ _))) h1.1 hr)
  | forIn f q b ihb =>
    intro r st st' ha h hr
    simp only [computeOU] at hr
    obtain ⟨⟨os, s⟩, hw, hr⟩ := Res.bind_eq_ok.1 hr
    obtain ⟨⟨os2, s2⟩, hw2, hr⟩ := Res.bind_eq_ok.1 hr
    obtain ⟨s3, hw3, hr⟩ := Res.bind_eq_ok.1 hr
    have ed := Edge.loop ha
    obtain ⟨a1, a2, a3, a4⟩ := doOU_ok hB q _ st os s (.loop ha) h List.nodup_nil (by simp) hw
    obtain ⟨b1, b2⟩ := addO_ok (hB.loop ha) a3 (fun o ho => ⟨(a4 o ho).1, .step (a4 o ho).2 ed rfl⟩) a1
    obtain ⟨c1, c2, c3, c4⟩ := doOU_ok hB q _ _ os2 s2 (.loop ha) b1 (b1.ndU f) (fun u hu => by
      obtain ⟨y, hy, hu⟩ := b1.used _ _ hu
      exact ⟨y, usedBy_edge ed hy, hu⟩) hw2
    have h0 := visitE_ok hB (.loop ha) c1 hw3
    have h1 := ihb r s3 st' (occurs_trans ha (.loop (.here _ _))) h0.1 hr
    exact Good.trans ⟨c1, a2.trans (b2.trans c2)⟩ (h0.trans h1)
  | cases e ms d ihm ihd =>
    intro r st st' ha h hr
    simp only [computeOU] at hr
    obtain ⟨⟨os, s⟩, hw, hr⟩ := Res.bind_eq_ok.1 hr
    obtain ⟨s2, hw2, hr⟩ := Res.bind_eq_ok.1 hr
    obtain ⟨s3, hw3, hr⟩ := Res.bind_eq_ok.1 hr
    obtain ⟨s4, hw4, hr⟩ := Res.bind_eq_ok.1 hr
    obtain ⟨a1, a2, a3, a4⟩ := doOU_ok hB e _ st os s (.case ha) h List.nodup_nil (by simp) hw
    have h0 := casePats_ok hB ha a3 a4 ms s s2 (fun p h => h) a1 hw2
    have h1 := visitE_ok hB (.case ha) h0.1 hw3
    have h2 := ihm r s3 s4 (occurs_trans ha (.caseM (.here _ _))) h1.1 hw4
    have h3 := ihd r s4 st' (occurs_trans ha (.caseD (.here _ _))) h2.1 hr
    exact Good.trans ⟨a1, a2⟩ (h0.trans (h1.trans (h2.trans h3)))
  | mtch p b n ihb ihn =>
    intro r st st' ha h hr
    simp only [computeOU] at hr
    obtain ⟨s, hw, hr⟩ := Res.bind_eq_ok.1 hr
    obtain ⟨s2, hw2, hr⟩ := Res.bind_eq_ok.1 hr
    have h0 := visitEs_ok hB p.conds st s (fun e he => .condM ha ((mem_conds p e).1 he)) h hw
    have h1 := ihb r s s2 (occurs_trans ha (.matchB (.here _ _))) h0.1 hw2
    exact (h0.trans h1).trans (ihn r s2 st' (occurs_trans ha (.matchN (.here _ _))) h1.1 hr)
  | rule si ks p b ihb =>
    intro r st st' ha h hr
    simp only [computeOU] at hr
    obtain ⟨s, hw, hr⟩ := Res.bind_eq_ok.1 hr
    have h0 := ruleKids_ok hB ha ks st (fun k h => h) h
    have h1 := visitEs_ok hB p.conds _ s (fun e he => .condR ha ((mem_conds p e).1 he)) h0.1 hw
    exact (h0.trans h1).trans (ihb (some si) s st' (occurs_trans ha (.rule (.here _ _))) h1.1 hr)
  | func si b ihb =>
    intro r st st' ha h hr
    exact ihb (some si) st st' (occurs_trans ha (.func (.here _ _))) h hr

theorem pass_ok {P : Prog} {B : Nat} (hB : Bd P B) {st st' : St} (h : Ok P B st) (hr : pass P st = .ok st') :
    Good P B { st with done := true } st' := by
  unfold pass at hr
  obtain ⟨s, hw, hr⟩ := Res.bind_eq_ok.1 hr
  cases hr
  have h0 := computeOU_ok hB P.body none _ s (.here _ _) (h.done true) hw
  obtain ⟨a1, a2⟩ := addU_ok (us := s.U P.startSi) hB.module (h0.1.ndU _) (fun u hu => by
    obtain ⟨y, hy, hu⟩ := h0.1.used _ _ hu
    exact ⟨y, usedBy_edge .root hy, hu⟩) h0.1
  exact h0.trans ⟨a1, a2⟩

/-! ### the number of rounds -/

theorem length_le_of_bounded {α : Type} [DecidableEq α] {l m : List α} (hn : l.Nodup) (h : ∀ x ∈ l, x ∈ m) :
    l.length ≤ m.length := (hn.subperm h).length_le

/-- all uses with bounded components -/
def allUses (B : Nat) : List Use :=
  (List.range B).flatMap fun i => (List.range B).flatMap fun f =>
    ⟨i, some f, none⟩ :: (List.range B).map fun a => ⟨i, some f, some a⟩

theorem size_bound {B M : Nat} {st : St} (hO : ∀ d, (st.O d).length ≤ M) (hU : ∀ d, (st.U d).length ≤ M) :
    ∀ n, size n st ≤ n * (M + M)
  | 0 => by simp [size]
  | n + 1 => by
    have ih := size_bound (B := B) hO hU n
    have := hO n
    have := hU n
    simp only [size, Nat.add_mul, Nat.one_mul]
    omega

/-- no state is larger -/
def cap (B : Nat) : Nat := B * ((B + (allUses B).length) + (B + (allUses B).length))

theorem Ok.size {P : Prog} {B : Nat} (hB : Bd P B) {st : St} (h : Ok P B st) : Points.size B st ≤ cap B := by
  refine size_bound (B := B) (M := B + (allUses B).length) (fun d => ?_) (fun d => ?_) B
  · have : (st.O d).length ≤ (List.range B).length :=
      length_le_of_bounded (h.ndO d) (fun o ho => List.mem_range.2 (hB.obj (h.holds _ _ ho).1))
    rw [List.length_range] at this
    omega
  · have : (st.U d).length ≤ (allUses B).length := by
      refine length_le_of_bounded (h.ndU d) (fun u hu => ?_)
      obtain ⟨y, _, hu⟩ := h.used _ _ hu
      obtain ⟨h1, ⟨f, hf, h2⟩, h3⟩ := hB.useAt hu
      unfold allUses
      refine List.mem_flatMap.2 ⟨u.id, List.mem_range.2 h1, List.mem_flatMap.2 ⟨f, List.mem_range.2 h2, ?_⟩⟩
      obtain ⟨i, fl, lo⟩ := u
      simp only at hf h3
      subst hf
      cases lo with
      | none => exact List.mem_cons_self ..
      | some a => exact List.mem_cons_of_mem _ (List.mem_map.2 ⟨a, List.mem_range.2 (h3 a rfl), rfl⟩)
    omega

/-- the result of the loop, if every round returns -/
theorem loop_ok {P : Prog} {B : Nat} (hB : Bd P B) (ht : ∀ st, Ok P B st → ∃ st', pass P st = .ok st') :
    ∀ (n : Nat) (st : St), Ok P B st → cap B < n + size B st →
      ∃ st', loop P n st = .ok st'
  | 0, st, h, hc => by have := h.size hB; omega
  | n + 1, st, h, hc => by
    obtain ⟨s, hs⟩ := ht st h
    have g := pass_ok hB h hs
    simp only [loop, hs, Res.ok_bind]
    by_cases hd : s.done = true
    · rw [if_pos hd]; exact ⟨s, rfl⟩
    · rw [if_neg hd]
      refine loop_ok hB ht n s g.1 ?_
      rcases g.2 with e | ⟨_, e⟩
      · rw [e] at hd; exact absurd rfl hd
      · rw [size_done] at e; omega

theorem loop_fix {P : Prog} {B : Nat} (hB : Bd P B) : ∀ (n : Nat) (st st' : St), Ok P B st → loop P n st = .ok st' →
    Ok P B st' ∧ st'.done = true ∧ pass P st' = .ok st'
  | 0, st, st', h, hr => by cases hr
  | n + 1, st, st', h, hr => by
    simp only [loop] at hr
    obtain ⟨s, hs, hr⟩ := Res.bind_eq_ok.1 hr
    have g := pass_ok hB h hs
    by_cases hd : s.done = true
    · rw [if_pos hd] at hr
      cases hr
      refine ⟨g.1, hd, ?_⟩
      have e := g.2.done hd
      have : pass P st' = pass P st := by rw [e]; rfl
      rw [this, hs]
    · rw [if_neg hd] at hr
      exact loop_fix hB n s st' g.1 hr

end Aps.Points
