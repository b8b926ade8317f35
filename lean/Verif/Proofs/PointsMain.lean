import Verif.Proofs.PointsFix
set_option linter.unusedVariables false
/-!
# Everything that flows is in the sets
-/
namespace Aps.Points
open Aps.Points.Spec

section fix
variable {P : Prog} {st : St} (hd : st.done = true)
include hd

mutual
theorem doUOp_fix : ∀ (p : Pat) (os : List Nat), (doUOp p os st).2 = st → ∀ v k, HasVar p v k →
    (k = true → ∀ o ∈ os, o ∈ st.O v) ∧ ∀ u ∈ st.U v, u ∈ (doUOp p os st).1
  | .other, os, h, v, k, hv => by cases hv
  | .none, os, h, v, k, hv => by cases hv
  | .cond _, os, h, v, k, hv => by cases hv
  | .and lt p q, os, h, v, k, hv => by
    simp only [doUOp] at h ⊢
    have m2 := doUOp_mon q (cut lt os) (doUOp p (cut lt os) st).2
    rw [h] at m2
    have e := Mon.mid hd (doUOp_mon p (cut lt os) st) m2
    cases hv with
    | @andL _ _ _ _ k hv =>
      obtain ⟨h1, h2⟩ := doUOp_fix p (cut lt os) e v k hv
      refine ⟨fun hk o ho => ?_, fun u hu => (mem_union _ _ _).2 (.inl (h2 u hu))⟩
      rw [Bool.and_eq_true] at hk
      exact h1 hk.2 o (mem_cut.2 ⟨hk.1, ho⟩)
    | @andR _ _ _ _ k hv =>
      rw [e] at h ⊢
      obtain ⟨h1, h2⟩ := doUOp_fix q (cut lt os) h v k hv
      refine ⟨fun hk o ho => ?_, fun u hu => (mem_union _ _ _).2 (.inr (h2 u hu))⟩
      rw [Bool.and_eq_true] at hk
      exact h1 hk.2 o (mem_cut.2 ⟨hk.1, ho⟩)
  | .var lt d, os, h, v, k, hv => by
    cases hv
    simp only [doUOp] at h ⊢
    rw [h]
    exact ⟨fun hk o ho => addO_id h o (mem_cut.2 ⟨hk, ho⟩), fun u hu => hu⟩
  | .rest lt p, os, h, v, k, hv => by
    simp only [doUOp] at h ⊢
    cases hv with
    | @rest _ _ _ k hv =>
      obtain ⟨h1, h2⟩ := doUOp_fix p (cut lt os) h v k hv
      refine ⟨fun hk o ho => ?_, h2⟩
      rw [Bool.and_eq_true] at hk
      exact h1 hk.2 o (mem_cut.2 ⟨hk.1, ho⟩)
  | .call lt ps, os, h, v, k, hv => by
    simp only [doUOp] at h ⊢
    cases hv with
    | @call _ _ p _ k hp hv =>
      obtain ⟨h1, h2⟩ := doUOps_fix ps (cut lt os) [] h p hp v k hv
      refine ⟨fun hk o ho => ?_, h2⟩
      rw [Bool.and_eq_true] at hk
      exact h1 hk.2 o (mem_cut.2 ⟨hk.1, ho⟩)
theorem doUOps_fix : ∀ (ps : List Pat) (os : List Nat) (acc : List Use), (doUOps ps os acc st).2 = st →
    ∀ p ∈ ps, ∀ v k, HasVar p v k →
    (k = true → ∀ o ∈ os, o ∈ st.O v) ∧ ∀ u ∈ st.U v, u ∈ (doUOps ps os acc st).1
  | [], os, acc, h, p, hp, v, k, hv => by cases hp
  | q :: ps, os, acc, h, p, hp, v, k, hv => by
    simp only [doUOps] at h ⊢
    obtain ⟨m2, sub⟩ := doUOps_mon ps os (union acc (doUOp q os st).1) (doUOp q os st).2
    rw [h] at m2
    have e := Mon.mid hd (doUOp_mon q os st) m2
    rcases List.mem_cons.1 hp with hpq | hp
    · obtain ⟨h1, h2⟩ := doUOp_fix q os e v k (hpq ▸ hv)
      exact ⟨h1, fun u hu => sub u ((mem_union _ _ _).2 (.inr (h2 u hu)))⟩
    · rw [e] at h ⊢
      exact doUOps_fix ps os _ h p hp v k hv
end

theorem casePats_fix {r : Option Nat} {e : Expr} {os : List Nat} {p : Pat} {m : Node} (hm : MatchOf m p)
    (h : casePats P r e os m st = .ok st) :
    ∃ us os', (∀ v k, HasVar p v k → (k = true → ∀ o ∈ os, o ∈ st.O v) ∧ ∀ u ∈ st.U v, u ∈ us) ∧
      Called P st r e us os' := by
  induction hm with
  | here p b n =>
    simp only [casePats] at h
    obtain ⟨⟨o1, s⟩, hw, hr⟩ := Res.bind_eq_ok.1 h
    have m1 := doUOp_mon p os st
    have m2 := doOU_mon e _ _ _ _ hw
    have m3 := casePats_mon _ _ _ hr
    have e1 := Mon.mid hd m1 (m2.trans m3)
    have e2 := Mon.mid hd (m1.trans m2) m3
    rw [e1, e2] at hw
    exact ⟨_, o1, doUOp_fix hd p os e1, hw⟩
  | next _ ih =>
    simp only [casePats] at h
    obtain ⟨⟨o1, s⟩, hw, hr⟩ := Res.bind_eq_ok.1 h
    have e2 := Mon.mid hd ((doUOp_mon _ os st).trans (doOU_mon e _ _ _ _ hw)) (casePats_mon _ _ _ hr)
    rw [e2] at hr
    exact ih hr

theorem ruleKids_fix (si : Nat) : ∀ (ks : List Nat), ruleKids si ks st = st → ∀ k ∈ ks,
    (∀ o ∈ st.O si, o ∈ st.O k) ∧ ∀ u ∈ st.U k, u ∈ st.U si
  | [], h, k, hk => by cases hk
  | k :: ks, h, k', hk => by
    rw [ruleKids] at h
    have m1 := addO_mon k (st.O si) st
    have m2 := addU_mon si ((addO k (st.O si) st).U k) (addO k (st.O si) st)
    have m3 := ruleKids_mon si ks (addU si ((addO k (st.O si) st).U k) (addO k (st.O si) st))
    rw [h] at m3
    have e1 := Mon.mid hd m1 (m2.trans m3)
    have e2 := Mon.mid hd (m1.trans m2) m3
    rw [e2] at h
    rcases List.mem_cons.1 hk with rfl | hk
    · rw [e1] at e2
      exact ⟨addO_id e1, addU_id e2⟩
    · exact ruleKids_fix si ks h k' hk

/-- what is known about each node at the end -/
theorem value_fix {d k e r} (h : computeOU P r (.value d k (some e)) st = .ok st) :
    ∃ os, Called P st r e (st.U d) os ∧ ∀ o ∈ os, o ∈ st.O d := by
  simp only [computeOU] at h
  obtain ⟨⟨os, s⟩, hw, hr⟩ := Res.bind_eq_ok.1 h
  have m1 := doOU_mon e _ _ _ _ hw
  have m2 := addO_mon d os s
  have m3 := visitE_mon hr
  have e1 := Mon.mid hd m1 (m2.trans m3)
  have e2 := Mon.mid hd (m1.trans m2) m3
  rw [e1] at hw
  simp only [e1] at e2
  exact ⟨os, hw, addO_id e2⟩

theorem assign_fix {d l e r} (h : computeOU P r (.assign d l e) st = .ok st) :
    (∃ os, Called P st r e (st.U d) os ∧ ∀ o ∈ os, o ∈ st.O d) ∧
      ∃ us, doUO P r d (st.O d) st l = .ok (us, st) ∧ ∀ u ∈ us, u ∈ st.U d := by
  simp only [computeOU] at h
  obtain ⟨⟨os, s⟩, hw, hr⟩ := Res.bind_eq_ok.1 h
  obtain ⟨⟨us, t⟩, hv, hr⟩ := Res.bind_eq_ok.1 hr
  simp only [Res.ok.injEq] at hr
  have m1 := doOU_mon e _ _ _ _ hw
  have m2 := addO_mon d os s
  have m3 := doUO_mon hv
  have m4 := addU_mon d us t
  rw [hr] at m4
  have e1 := Mon.mid hd m1 (m2.trans (m3.trans m4))
  have e2 := Mon.mid hd (m1.trans m2) (m3.trans m4)
  have e3 := Mon.mid hd (m1.trans (m2.trans m3)) m4
  simp only [e2, e3] at hv
  rw [e1] at hw
  simp only [e1] at e2
  rw [e3] at hr
  exact ⟨⟨os, hw, addO_id e2⟩, us, hv, addU_id hr⟩

theorem for_fix {f q b r} (h : computeOU P r (.forIn f q b) st = .ok st) :
    (∃ os, Called P st r q [] os ∧ ∀ o ∈ os, o ∈ st.O f) ∧ ∃ os, Called P st r q (st.U f) os := by
  simp only [computeOU] at h
  obtain ⟨⟨os, s⟩, hw, hr⟩ := Res.bind_eq_ok.1 h
  obtain ⟨⟨os2, s2⟩, hw2, hr⟩ := Res.bind_eq_ok.1 hr
  obtain ⟨s3, hw3, hr⟩ := Res.bind_eq_ok.1 hr
  have m1 := doOU_mon q _ _ _ _ hw
  have m2 := addO_mon f os s
  have m3 := doOU_mon q _ _ _ _ hw2
  have m4 := (visitE_mon hw3).trans (computeOU_mon _ _ _ _ hr)
  have e1 := Mon.mid hd m1 (m2.trans (m3.trans m4))
  have e2 := Mon.mid hd (m1.trans m2) (m3.trans m4)
  have e3 := Mon.mid hd (m1.trans (m2.trans m3)) m4
  simp only [e2, e3] at hw2
  rw [e1] at hw
  simp only [e1] at e2
  exact ⟨⟨os, hw, addO_id e2⟩, os2, hw2⟩

theorem case_fix {e ms d r} (h : computeOU P r (.cases e ms d) st = .ok st) :
    ∃ os, Called P st r e [] os ∧ casePats P r e os ms st = .ok st := by
  simp only [computeOU] at h
  obtain ⟨⟨os, s⟩, hw, hr⟩ := Res.bind_eq_ok.1 h
  obtain ⟨s2, hw2, hr⟩ := Res.bind_eq_ok.1 hr
  obtain ⟨s3, hw3, hr⟩ := Res.bind_eq_ok.1 hr
  obtain ⟨s4, hw4, hr⟩ := Res.bind_eq_ok.1 hr
  have m1 := doOU_mon e _ _ _ _ hw
  have m2 := casePats_mon _ _ _ hw2
  have m3 := (visitE_mon hw3).trans ((computeOU_mon _ _ _ _ hw4).trans (computeOU_mon _ _ _ _ hr))
  have e1 := Mon.mid hd m1 (m2.trans m3)
  have e2 := Mon.mid hd (m1.trans m2) m3
  rw [e1] at hw
  simp only [e1, e2] at hw2
  exact ⟨os, hw, hw2⟩

theorem match_fix {p b n r} (h : computeOU P r (.mtch p b n) st = .ok st) : visitEs P r p.conds st = .ok st := by
  simp only [computeOU] at h
  obtain ⟨s, hw, hr⟩ := Res.bind_eq_ok.1 h
  obtain ⟨s2, hw2, hr⟩ := Res.bind_eq_ok.1 hr
  have e := Mon.mid hd (visitEs_mon _ _ _ hw) ((computeOU_mon _ _ _ _ hw2).trans (computeOU_mon _ _ _ _ hr))
  rw [e] at hw
  exact hw

theorem rule_fix {si ks p b r} (h : computeOU P r (.rule si ks p b) st = .ok st) :
    ruleKids si ks st = st ∧ visitEs P (some si) p.conds st = .ok st := by
  simp only [computeOU] at h
  obtain ⟨s, hw, hr⟩ := Res.bind_eq_ok.1 h
  have m1 := ruleKids_mon si ks st
  have m2 := visitEs_mon _ _ _ hw
  have m3 := computeOU_mon _ _ _ _ hr
  have e1 := Mon.mid hd m1 (m2.trans m3)
  have e2 := Mon.mid hd (m1.trans m2) m3
  rw [e1, e2] at hw
  exact ⟨e1, hw⟩

theorem if_fix {c t e r} (h : computeOU P r (.ifs c t e) st = .ok st) : visitE P r c st = .ok st := by
  simp only [computeOU] at h
  obtain ⟨s, hw, hr⟩ := Res.bind_eq_ok.1 h
  obtain ⟨s2, hw2, hr⟩ := Res.bind_eq_ok.1 hr
  have e := Mon.mid hd (visitE_mon hw) ((computeOU_mon _ _ _ _ hw2).trans (computeOU_mon _ _ _ _ hr))
  rw [e] at hw
  exact hw

end fix

section main
variable {P : Prog} {B : Nat} {st : St} (hd : st.done = true) (hp : pass P st = .ok st)
include hd hp

theorem at_fix {m : Node} {r : Option Nat} (h : At P m r) : computeOU P r m st = .ok st := by
  unfold pass at hp
  obtain ⟨s, hw, hr⟩ := Res.bind_eq_ok.1 hp
  simp only [Res.ok.injEq] at hr
  have e0 : ({ st with done := true } : St) = st := by cases st; simp only at hd; subst hd; rfl
  rw [e0] at hw
  have m2 := addU_mon P.module (s.U P.startSi) s
  rw [hr] at m2
  have e := Mon.mid hd (computeOU_mon _ _ _ _ hw) m2
  rw [e] at hw
  exact occurs_fix hd h hw

theorem root_fix : ∀ u ∈ st.U P.startSi, u ∈ st.U P.module := by
  unfold pass at hp
  obtain ⟨s, hw, hr⟩ := Res.bind_eq_ok.1 hp
  simp only [Res.ok.injEq] at hr
  have e0 : ({ st with done := true } : St) = st := by cases st; simp only at hd; subst hd; rfl
  rw [e0] at hw
  have m2 := addU_mon P.module (s.U P.startSi) s
  rw [hr] at m2
  have e := Mon.mid hd (computeOU_mon _ _ _ _ hw) m2
  rw [e] at hr
  exact addU_id hr

theorem exprAt_fix {r : Option Nat} {e : Expr} (h : ExprAt P r e) : ∃ us os, Called P st r e us os := by
  induction h with
  | init h => obtain ⟨os, h, _⟩ := value_fix hd (at_fix hd hp h); exact ⟨_, os, h⟩
  | dflt h =>
    have h := at_fix hd hp h
    simp only [computeOU, visitO] at h
    obtain ⟨os, h⟩ := called_visit hd h
    exact ⟨_, os, h⟩
  | expr h =>
    have h := at_fix hd hp h
    simp only [computeOU] at h
    obtain ⟨os, h⟩ := called_visit hd h
    exact ⟨_, os, h⟩
  | rhs h => obtain ⟨⟨os, h, _⟩, _⟩ := assign_fix hd (at_fix hd hp h); exact ⟨_, os, h⟩
  | lhsObj h =>
    obtain ⟨_, us, h, _⟩ := assign_fix hd (at_fix hd hp h)
    simp only [doUO] at h
    obtain ⟨⟨ow, st1⟩, hw, hr⟩ := Res.bind_eq_ok.1 h
    simp only [Res.ok.injEq, Prod.mk.injEq] at hr
    rw [hr.2] at hw
    exact ⟨_, ow, hw⟩
  | test h =>
    obtain ⟨os, h⟩ := called_visit hd (if_fix hd (at_fix hd hp h))
    exact ⟨_, os, h⟩
  | loop h => obtain ⟨⟨os, h, _⟩, _⟩ := for_fix hd (at_fix hd hp h); exact ⟨_, os, h⟩
  | case h => obtain ⟨os, h, _⟩ := case_fix hd (at_fix hd hp h); exact ⟨_, os, h⟩
  | condM h hc =>
    obtain ⟨os, h⟩ := called_visits hd _ (match_fix hd (at_fix hd hp h)) _ ((mem_conds _ _).2 hc)
    exact ⟨_, os, h⟩
  | condR h hc =>
    obtain ⟨os, h⟩ := called_visits hd _ (rule_fix hd (at_fix hd hp h)).2 _ ((mem_conds _ _).2 hc)
    exact ⟨_, os, h⟩
  | rep _ ih => obtain ⟨us, os, h⟩ := ih; exact ⟨_, os, called_rep hd h⟩
  | obj _ ih => obtain ⟨us, os, h⟩ := ih; obtain ⟨ow, h, _⟩ := called_field hd h; exact ⟨_, ow, h⟩
  | arg _ ha ih =>
    obtain ⟨us, os, h⟩ := ih
    obtain ⟨k, hk⟩ := List.getElem?_of_mem ha
    obtain ⟨f, os, _, h, _⟩ := doActuals_fix hd _ _ (called_call hd h).2.2.1 k _ hk
    exact ⟨_, os, h⟩
  | prim _ ha ih =>
    obtain ⟨us, os, h⟩ := ih
    obtain ⟨oa, h, _⟩ := called_prim hd h _ ha
    exact ⟨_, oa, h⟩

/-- the objects and the uses of a location, read off the sets -/
def Has (P : Prog) (st : St) : Loc → Nat → Prop
  | .decl d, o => o ∈ st.O d
  | .expr e, o => RO P st e o
def Dem (P : Prog) (st : St) : Loc → Use → Prop
  | .decl d, u => u ∈ st.U d
  | .expr e, u => ∃ r us os, Called P st r e us os ∧ u ∈ us

theorem edge_fix (hok : Ok P B st) (hm : ∀ x o u, ¬ Edge P x (.decl P.module) o u) {x y : Loc} {o u : Bool}
    (e : Edge P x y o u) : (o = true → ∀ a, Has P st x a → Has P st y a) ∧ (u = true → ∀ q, Dem P st y q → Dem P st x q) := by
  cases e with
  | use hl =>
    refine ⟨fun _ a h => .use hl h, fun hu q h => ?_⟩
    obtain ⟨r, us, os, h, hq⟩ := h
    exact addU_id (called_use hd h hl).2.2 q (mem_cut.2 ⟨hu, hq⟩)
  | attrRef =>
    refine ⟨fun _ a h => .attrRef h, fun hu q h => ?_⟩
    obtain ⟨r, us, os, h, hq⟩ := h
    exact addU_id (called_attr hd h).2 q (mem_cut.2 ⟨hu, hq⟩)
  | rep =>
    refine ⟨fun _ a h => .rep h, fun hu q h => ?_⟩
    obtain ⟨r, us, os, h, hq⟩ := h
    exact ⟨r, _, os, called_rep hd h, mem_cut.2 ⟨hu, hq⟩⟩
  | prim ha =>
    refine ⟨fun _ a h => .prim ha h, fun hu q h => ?_⟩
    obtain ⟨r, us, os, h, hq⟩ := h
    obtain ⟨oa, h, _⟩ := called_prim hd h _ ha
    exact ⟨r, _, oa, h, mem_cut.2 ⟨hu, hq⟩⟩
  | result =>
    refine ⟨fun _ a h => .call h, fun hu q h => ?_⟩
    obtain ⟨r, us, os, h, hq⟩ := h
    exact addU_id (called_call hd h).2.2.2 q (mem_cut.2 ⟨hu, hq⟩)
  | arg he ha hf =>
    obtain ⟨us, os, h⟩ := exprAt_fix hd hp he
    obtain ⟨f', os, hf', h, hs⟩ := doActuals_fix hd _ _ (called_call hd h).2.2.1 _ _ ha
    rw [hf] at hf'
    cases hf'
    exact ⟨fun _ a h' => hs a (ro_sub hd h' h), fun _ q hq => ⟨_, _, os, h, hq⟩⟩
  | @callee r lt g as he =>
    obtain ⟨us, os, h⟩ := exprAt_fix hd hp he
    have hn := (called_call hd h).2.1
    simp only [noteCall] at hn
    have m2 := addU_mon r ((addO (P.siOf g) (st.O r) st).U (P.siOf g)) (addO (P.siOf g) (st.O r) st)
    rw [hn] at m2
    have e := Mon.mid hd (addO_mon ..) m2
    rw [e] at hn
    exact ⟨fun _ a h => addO_id e a h, fun _ q hq => addU_id hn q hq⟩
  | init ha =>
    obtain ⟨os, h, hs⟩ := value_fix hd (at_fix hd hp ha)
    exact ⟨fun _ a h' => hs a (ro_sub hd h' h), fun _ q hq => ⟨_, _, os, h, hq⟩⟩
  | rhs ha =>
    obtain ⟨⟨os, h, hs⟩, _⟩ := assign_fix hd (at_fix hd hp ha)
    exact ⟨fun _ a h' => hs a (ro_sub hd h' h), fun _ q hq => ⟨_, _, os, h, hq⟩⟩
  | @lhsUse d i lt x e r ha hl =>
    obtain ⟨_, us, h, hs⟩ := assign_fix hd (at_fix hd hp ha)
    simp only [doUO] at h
    rw [if_neg (by simp [hl])] at h
    split at h
    · cases r with
      | none => cases h
      | some r =>
        simp only [Res.ok.injEq, Prod.mk.injEq] at h
        obtain ⟨h1, h2⟩ := h
        have m2 := addO_mon x (cut o (st.O d)) (addU r [⟨i, some x, some d⟩] st)
        rw [h2] at m2
        have e := Mon.mid hd (addU_mon ..) m2
        rw [h2] at h1
        rw [e] at h2
        refine ⟨fun ho a h => addO_id h2 a (mem_cut.2 ⟨ho, h⟩), fun _ q hq => hs q ?_⟩
        rw [← h1]; exact hq
    · split at h
      · cases h
      · simp only [Res.ok.injEq, Prod.mk.injEq] at h
        obtain ⟨h1, h2⟩ := h
        rw [h2] at h1
        refine ⟨fun ho a h => addO_id h2 a (mem_cut.2 ⟨ho, h⟩), fun _ q hq => hs q ?_⟩
        rw [← h1]; exact hq
  | lhsAttr ha =>
    obtain ⟨_, us, h, hs⟩ := assign_fix hd (at_fix hd hp ha)
    simp only [doUO, Res.ok.injEq, Prod.mk.injEq] at h
    obtain ⟨h1, h2⟩ := h
    rw [h2] at h1
    refine ⟨fun ho a h => addO_id h2 a (mem_cut.2 ⟨ho, h⟩), fun _ q hq => hs q ?_⟩
    rw [← h1]; exact hq
  | loop ha =>
    obtain ⟨⟨os, h, hs⟩, os2, h2⟩ := for_fix hd (at_fix hd hp ha)
    exact ⟨fun _ a h' => hs a (ro_sub hd h' h), fun _ q hq => ⟨_, _, os2, h2, hq⟩⟩
  | case ha hmt hv =>
    obtain ⟨os, h, hc⟩ := case_fix hd (at_fix hd hp ha)
    obtain ⟨us, os2, h1, h2⟩ := casePats_fix hd hmt hc
    obtain ⟨k1, k2⟩ := h1 _ _ hv
    exact ⟨fun ho a h' => k1 ho a (ro_sub hd h' h), fun _ q hq => ⟨_, _, os2, h2, k2 q hq⟩⟩
  | child ha hk =>
    obtain ⟨h1, h2⟩ := ruleKids_fix hd _ _ (rule_fix hd (at_fix hd hp ha)).1 _ hk
    exact ⟨fun _ a h => h1 a h, fun _ q h => h2 q h⟩
  | root =>
    refine ⟨fun _ a h => ?_, fun _ q h => root_fix hd hp q h⟩
    have hf := (hok.holds _ _ h).2
    generalize hx : Loc.decl a = x at hf
    generalize hy : Loc.decl P.module = y at hf
    generalize hb : true = b at hf
    have : a = P.module := by
      cases hf with
      | refl => rw [← hy] at hx; cases hx; rfl
      | step _ e _ => rw [← hy] at e; exact absurd e (hm _ _ _)
      | field => cases hy
    rw [this]
    exact hok.root

theorem useAt_fix {y : Loc} {u : Use} (h : UseAt P y u) : Dem P st y u := by
  cases h with
  | read he =>
    obtain ⟨us, os, h⟩ := exprAt_fix hd hp he
    obtain ⟨ow, h, _⟩ := called_field hd h
    exact ⟨_, _, ow, h, by simp⟩
  | write ha =>
    obtain ⟨_, us, h, _⟩ := assign_fix hd (at_fix hd hp ha)
    simp only [doUO] at h
    obtain ⟨⟨ow, st1⟩, hw, hr⟩ := Res.bind_eq_ok.1 h
    simp only [Res.ok.injEq, Prod.mk.injEq] at hr
    rw [hr.2] at hw
    exact ⟨_, _, ow, hw, by simp⟩
  | readShared he hl hs =>
    obtain ⟨us, os, h⟩ := exprAt_fix hd hp he
    have := (called_use hd h hl).2.1
    simp only [noteShared, hs, if_true] at this
    exact addU_id this _ (by simp)
  | @writeShared r d i lt x e ha hl hs =>
    obtain ⟨_, us, h, _⟩ := assign_fix hd (at_fix hd hp ha)
    simp only [doUO] at h
    rw [if_neg (by simp [hl]), if_pos hs] at h
    simp only [Res.ok.injEq, Prod.mk.injEq] at h
    have m2 := addO_mon x (cut lt (st.O d)) (addU r [⟨i, some x, some d⟩] st)
    rw [h.2] at m2
    have e := Mon.mid hd (addU_mon ..) m2
    exact addU_id e _ (by simp)

theorem flow_fix (hok : Ok P B st) (hm : ∀ x o u, ¬ Edge P x (.decl P.module) o u) {b : Bool} {x y : Loc}
    (h : Flow P b x y) : (b = true → ∀ o, Has P st x o → Has P st y o) ∧ (b = false → ∀ u, Dem P st y u → Dem P st x u) := by
  induction h with
  | refl => exact ⟨fun _ o h => h, fun _ u h => h⟩
  | @step b x y z o u _ e c ih =>
    have k := edge_fix hd hp hok hm e
    refine ⟨?_, ?_⟩
    · rintro rfl a h; exact k.1 c a (ih.1 rfl a h)
    · rintro rfl q h; exact ih.2 rfl q (k.2 c q h)
  | @field b x a o w y q f i lt _ ho _ _ hu hc iha ihw ihy =>
    have hw : RO P st w o := ihw.1 rfl o (hok.own o ho)
    have hq : _ ∈ st.U o := ihy.2 rfl _ (useAt_fix hd hp hu)
    refine ⟨?_, ?_⟩
    · rintro rfl o' h
      exact .field hw hq rfl rfl (iha.1 rfl o' h)
    · rintro rfl u ⟨r, us, os, h, hu⟩
      apply iha.2 rfl
      obtain ⟨ow, h1, h2⟩ := called_field hd h
      refine addU_id (h2 o (ro_sub hd hw h1) _ hq a rfl rfl).1 u (mem_cut.2 ⟨?_, hu⟩)
      rcases hc with hc | hc
      · cases hc
      · exact hc

theorem holds_fix (hok : Ok P B st) (hm : ∀ x o u, ¬ Edge P x (.decl P.module) o u) {d o : Nat} (h : Holds P d o) :
    o ∈ st.O d :=
  (flow_fix hd hp hok hm h.2).1 rfl o (hok.own o h.1)

theorem used_fix (hok : Ok P B st) (hm : ∀ x o u, ¬ Edge P x (.decl P.module) o u) {d : Nat} {u : Use} (h : UsedBy P d u) :
    u ∈ st.U d := by
  obtain ⟨y, hf, hu⟩ := h
  exact (flow_fix hd hp hok hm hf).2 rfl u (useAt_fix hd hp hu)

end main
end Aps.Points
