import Verif.Proofs.PointsBd
set_option linter.unusedVariables false
/-!
# The sets at the end of the loop are closed under the flow graph
-/
namespace Aps.Points
open Aps.Points.Spec

/-- a call leaves the state alone or lowers the flag -/
def Mon (a b : St) : Prop := b = a ∨ b.done = false

theorem Mon.refl (a : St) : Mon a a := .inl rfl
theorem Mon.trans {a b c : St} (h1 : Mon a b) (h2 : Mon b c) : Mon a c := by
  rcases h2 with rfl | h2
  · exact h1
  · exact .inr h2

theorem Mon.mid {a b : St} (ha : a.done = true) (h1 : Mon a b) (h2 : Mon b a) : b = a := by
  rcases h1 with h | h
  · exact h
  · rcases h2 with h2 | h2
    · exact h2.symm
    · rw [ha] at h2; cases h2

theorem addO_mon (d : Nat) (os : List Nat) (st : St) : Mon st (addO d os st) := by
  unfold addO
  by_cases e : union (st.O d) os = st.O d
  · simp only [if_pos e]; exact .refl _
  · simp only [if_neg e]; exact .inr rfl

theorem addU_mon (d : Nat) (us : List Use) (st : St) : Mon st (addU d us st) := by
  unfold addU
  by_cases e : union (st.U d) us = st.U d
  · simp only [if_pos e]; exact .refl _
  · simp only [if_neg e]; exact .inr rfl

theorem readUses_mon (f : Nat) (us : List Use) : ∀ (qs : List Use) (acc : List Nat) (st : St),
    Mon st (readUses f us qs acc st).2
  | [], acc, st => .refl _
  | q :: qs, acc, st => by
    rw [readUses]
    cases hl : q.lhsOf with
    | none => exact readUses_mon f us qs acc st
    | some a =>
      simp only []
      split
      · exact (addU_mon a us st).trans (readUses_mon f us qs _ _)
      · exact readUses_mon f us qs acc st

theorem readObjs_mon (f : Nat) (us : List Use) : ∀ (os acc : List Nat) (st : St),
    Mon st (readObjs f us os acc st).2
  | [], acc, st => .refl _
  | o :: os, acc, st => by
    rw [readObjs]
    exact (readUses_mon f us _ acc st).trans (readObjs_mon f us os _ _)

theorem noteShared_mon (P : Prog) (r : Option Nat) (u : Use) (d : Nat) (st : St) : Mon st (noteShared P r u d st) := by
  unfold noteShared
  split
  · cases r with
    | none => exact .refl _
    | some r => exact addU_mon _ _ _
  · exact .refl _

theorem noteCall_mon (P : Prog) (r : Option Nat) (g : Nat) (st : St) : Mon st (noteCall P r g st) := by
  unfold noteCall
  cases r with
  | none => exact .refl _
  | some r => exact (addO_mon _ _ _).trans (addU_mon _ _ _)

mutual
theorem doOU_mon {P : Prog} {r : Option Nat} : ∀ (e : Expr) (us : List Use) (st : St) (os : List Nat) (st' : St),
    doOU P r e us st = .ok (os, st') → Mon st st'
  | .const, us, st, os, st', hr => by
    simp only [doOU, Res.ok.injEq, Prod.mk.injEq] at hr
    exact .inl hr.2.symm
  | .other, us, st, os, st', hr => by
    simp only [doOU, Res.ok.injEq, Prod.mk.injEq] at hr
    exact .inl hr.2.symm
  | .rep lt e, us, st, os, st', hr => by
    simp only [doOU] at hr
    exact doOU_mon e _ st os st' hr
  | .use i lt d, us, st, os, st', hr => by
    simp only [doOU] at hr
    split at hr
    · simp only [Res.ok.injEq, Prod.mk.injEq] at hr
      exact .inl hr.2.symm
    · simp only [Res.ok.injEq, Prod.mk.injEq] at hr
      rw [← hr.2]
      exact (noteShared_mon ..).trans (addU_mon ..)
  | .attrRef lt a, us, st, os, st', hr => by
    simp only [doOU, Res.ok.injEq, Prod.mk.injEq] at hr
    rw [← hr.2]
    exact addU_mon ..
  | .fieldRef i lt f w, us, st, os, st', hr => by
    simp only [doOU] at hr
    obtain ⟨⟨ow, st1⟩, hw, hr⟩ := Res.bind_eq_ok.1 hr
    simp only [Res.ok.injEq] at hr
    have := readObjs_mon f (cut lt us) ow [] st1
    rw [hr] at this
    exact (doOU_mon w _ st ow st1 hw).trans this
  | .call lt g as, us, st, os, st', hr => by
    simp only [doOU] at hr
    obtain ⟨st1, hw, hr⟩ := Res.bind_eq_ok.1 hr
    simp only [Res.ok.injEq, Prod.mk.injEq] at hr
    rw [← hr.2]
    exact (noteCall_mon ..).trans ((doActuals_mon _ as _ st1 hw).trans (addU_mon ..))
  | .prim lt as, us, st, os, st', hr => by
    simp only [doOU] at hr
    exact (doPrims_mon as _ _ st os st' hr).1
theorem doActuals_mon {P : Prog} {r : Option Nat} : ∀ (fs : List Nat) (as : List Expr) (st st' : St),
    doActuals P r fs as st = .ok st' → Mon st st'
  | fs, [], st, st', hr => by
    simp only [doActuals, Res.ok.injEq] at hr
    exact .inl hr.symm
  | [], _ :: _, st, st', hr => by simp [doActuals] at hr
  | f :: fs, a :: as, st, st', hr => by
    simp only [doActuals] at hr
    obtain ⟨⟨os, st1⟩, hw, hr⟩ := Res.bind_eq_ok.1 hr
    exact (doOU_mon a _ st os st1 hw).trans ((addO_mon ..).trans (doActuals_mon fs as _ st' hr))
theorem doPrims_mon {P : Prog} {r : Option Nat} : ∀ (as : List Expr) (us : List Use) (acc : List Nat) (st : St)
    (os : List Nat) (st' : St), doPrims P r as us acc st = .ok (os, st') → Mon st st' ∧ ∀ o ∈ acc, o ∈ os
  | [], us, acc, st, os, st', hr => by
    simp only [doPrims, Res.ok.injEq, Prod.mk.injEq] at hr
    obtain ⟨rfl, rfl⟩ := hr
    exact ⟨.refl _, fun o h => h⟩
  | a :: as, us, acc, st, os, st', hr => by
    simp only [doPrims] at hr
    obtain ⟨⟨o1, st1⟩, hw, hr⟩ := Res.bind_eq_ok.1 hr
    obtain ⟨h1, h2⟩ := doPrims_mon as us _ st1 os st' hr
    exact ⟨(doOU_mon a us st o1 st1 hw).trans h1, fun o ho => h2 o ((mem_union _ _ _).2 (.inl ho))⟩
end

theorem visitE_mon {P : Prog} {r : Option Nat} {e : Expr} {st st' : St} (hr : visitE P r e st = .ok st') : Mon st st' := by
  unfold visitE at hr
  obtain ⟨⟨os, s⟩, hw, hr⟩ := Res.bind_eq_ok.1 hr
  cases hr
  exact doOU_mon e _ st os _ hw

theorem visitEs_mon {P : Prog} {r : Option Nat} : ∀ (es : List Expr) (st st' : St), visitEs P r es st = .ok st' → Mon st st'
  | [], st, st', hr => by cases hr; exact .refl _
  | e :: es, st, st', hr => by
    simp only [visitEs] at hr
    obtain ⟨s, hw, hr⟩ := Res.bind_eq_ok.1 hr
    exact (visitE_mon hw).trans (visitEs_mon es s st' hr)

mutual
theorem doUOp_mon : ∀ (p : Pat) (os : List Nat) (st : St), Mon st (doUOp p os st).2
  | .other, os, st => by simp only [doUOp]; exact .refl _
  | .none, os, st => by simp only [doUOp]; exact .refl _
  | .cond _, os, st => by simp only [doUOp]; exact .refl _
  | .and lt p q, os, st => by simp only [doUOp]; exact (doUOp_mon p _ st).trans (doUOp_mon q _ _)
  | .var lt d, os, st => by simp only [doUOp]; exact addO_mon ..
  | .rest lt p, os, st => by simp only [doUOp]; exact doUOp_mon p _ st
  | .call lt ps, os, st => by simp only [doUOp]; exact (doUOps_mon ps _ _ st).1
theorem doUOps_mon : ∀ (ps : List Pat) (os : List Nat) (acc : List Use) (st : St),
    Mon st (doUOps ps os acc st).2 ∧ ∀ u ∈ acc, u ∈ (doUOps ps os acc st).1
  | [], os, acc, st => by simp only [doUOps]; exact ⟨.refl _, fun u h => h⟩
  | p :: ps, os, acc, st => by
    simp only [doUOps]
    obtain ⟨h1, h2⟩ := doUOps_mon ps os (union acc (doUOp p os st).1) (doUOp p os st).2
    exact ⟨(doUOp_mon p os st).trans h1, fun u hu => h2 u ((mem_union _ _ _).2 (.inl hu))⟩
end

theorem casePats_mon {P : Prog} {r : Option Nat} {e : Expr} {os : List Nat} : ∀ (m : Node) (st st' : St),
    casePats P r e os m st = .ok st' → Mon st st' := by
  intro m
  induction m with
  | mtch p b n _ ih =>
    intro st st' hr
    simp only [casePats] at hr
    obtain ⟨⟨o1, s⟩, hw, hr⟩ := Res.bind_eq_ok.1 hr
    exact (doUOp_mon p os st).trans ((doOU_mon e _ _ o1 s hw).trans (ih s st' hr))
  | _ => intro st st' hr; cases hr; exact .refl _

theorem ruleKids_mon (si : Nat) : ∀ (ks : List Nat) (st : St), Mon st (ruleKids si ks st)
  | [], st => .refl _
  | k :: ks, st => by
    rw [ruleKids]
    exact (addO_mon ..).trans ((addU_mon ..).trans (ruleKids_mon si ks _))

theorem doUO_mon {P : Prog} {r : Option Nat} {d : Nat} {l : Expr} {os : List Nat} {st st' : St} {us : List Use}
    (hr : doUO P r d os st l = .ok (us, st')) : Mon st st' := by
  cases l with
  | const => cases hr; exact .refl _
  | other => cases hr; exact .refl _
  | rep lt e => cases hr; exact .refl _
  | call lt g as => cases hr
  | prim lt as => cases hr
  | attrRef lt b =>
    simp only [doUO, Res.ok.injEq, Prod.mk.injEq] at hr
    rw [← hr.2]; exact addO_mon ..
  | fieldRef i lt f w =>
    simp only [doUO] at hr
    obtain ⟨⟨ow, st1⟩, hw, hr⟩ := Res.bind_eq_ok.1 hr
    simp only [Res.ok.injEq, Prod.mk.injEq] at hr
    rw [← hr.2]; exact doOU_mon w _ _ _ _ hw
  | use i lt x =>
    simp only [doUO] at hr
    split at hr
    · cases hr; exact .refl _
    split at hr
    · cases r with
      | none => cases hr
      | some r =>
        simp only [Res.ok.injEq, Prod.mk.injEq] at hr
        rw [← hr.2]; exact (addU_mon ..).trans (addO_mon ..)
    · split at hr
      · cases hr
      · simp only [Res.ok.injEq, Prod.mk.injEq] at hr
        rw [← hr.2]; exact addO_mon ..

theorem computeOU_mon {P : Prog} : ∀ (n : Node) (r : Option Nat) (st st' : St),
    computeOU P r n st = .ok st' → Mon st st' := by
  intro n
  induction n with
  | skip => intro r st st' hr; cases hr; exact .refl _
  | seq a b iha ihb =>
    intro r st st' hr
    simp only [computeOU] at hr
    obtain ⟨s, hw, hr⟩ := Res.bind_eq_ok.1 hr
    exact (iha r st s hw).trans (ihb r s st' hr)
  | value d k init =>
    intro r st st' hr
    cases init with
    | none => cases hr; exact .refl _
    | some e =>
      simp only [computeOU] at hr
      obtain ⟨⟨os, s⟩, hw, hr⟩ := Res.bind_eq_ok.1 hr
      exact (doOU_mon e _ _ _ _ hw).trans ((addO_mon ..).trans (visitE_mon hr))
  | attr d init =>
    intro r st st' hr
    simp only [computeOU] at hr
    cases init with
    | none => cases hr; exact .refl _
    | some e => exact visitE_mon hr
  | expr e => intro r st st' hr; exact visitE_mon hr
  | assign d l e =>
    intro r st st' hr
    simp only [computeOU] at hr
    obtain ⟨⟨os, s⟩, hw, hr⟩ := Res.bind_eq_ok.1 hr
    obtain ⟨⟨us, t⟩, hv, hr⟩ := Res.bind_eq_ok.1 hr
    cases hr
    exact (doOU_mon e _ _ _ _ hw).trans ((addO_mon ..).trans ((doUO_mon hv).trans (addU_mon ..)))
  | ifs c t e iht ihe =>
    intro r st st' hr
    simp only [computeOU] at hr
    obtain ⟨s, hw, hr⟩ := Res.bind_eq_ok.1 hr
    obtain ⟨s2, hw2, hr⟩ := Res.bind_eq_ok.1 hr
    exact (visitE_mon hw).trans ((iht r s s2 hw2).trans (ihe r s2 st' hr))
  | forIn f q b ihb =>
    intro r st st' hr
    simp only [computeOU] at hr
    obtain ⟨⟨os, s⟩, hw, hr⟩ := Res.bind_eq_ok.1 hr
    obtain ⟨⟨os2, s2⟩, hw2, hr⟩ := Res.bind_eq_ok.1 hr
    obtain ⟨s3, hw3, hr⟩ := Res.bind_eq_ok.1 hr
    exact (doOU_mon q _ _ _ _ hw).trans ((addO_mon ..).trans ((doOU_mon q _ _ _ _ hw2).trans ((visitE_mon hw3).trans (ihb r s3 st' hr))))
  | cases e ms d ihm ihd =>
    intro r st st' hr
    simp only [computeOU] at hr
    obtain ⟨⟨os, s⟩, hw, hr⟩ := Res.bind_eq_ok.1 hr
    obtain ⟨s2, hw2, hr⟩ := Res.bind_eq_ok.1 hr
    obtain ⟨s3, hw3, hr⟩ := Res.bind_eq_ok.1 hr
    obtain ⟨s4, hw4, hr⟩ := Res.bind_eq_ok.1 hr
    exact (doOU_mon e _ _ _ _ hw).trans ((casePats_mon ms _ _ hw2).trans ((visitE_mon hw3).trans
      ((ihm r s3 s4 hw4).trans (ihd r s4 st' hr))))
  | mtch p b n ihb ihn =>
    intro r st st' hr
    simp only [computeOU] at hr
    obtain ⟨s, hw, hr⟩ := Res.bind_eq_ok.1 hr
    obtain ⟨s2, hw2, hr⟩ := Res.bind_eq_ok.1 hr
    exact (visitEs_mon _ _ _ hw).trans ((ihb r s s2 hw2).trans (ihn r s2 st' hr))
  | rule si ks p b ihb =>
    intro r st st' hr
    simp only [computeOU] at hr
    obtain ⟨s, hw, hr⟩ := Res.bind_eq_ok.1 hr
    exact (ruleKids_mon si ks st).trans ((visitEs_mon _ _ _ hw).trans (ihb (some si) s st' hr))
  | func si b ihb => intro r st st' hr; exact ihb (some si) st st' hr

/-! ### calls that leave the state alone -/

section fix
variable {P : Prog} {st : St} (hd : st.done = true)
include hd

theorem occurs_fix {n m : Node} {r r' : Option Nat} (ho : Occurs n r m r') (h : computeOU P r n st = .ok st) :
    computeOU P r' m st = .ok st := by
  induction ho with
  | here => exact h
  | @seqL a b r m r' _ ih =>
    simp only [computeOU] at h
    obtain ⟨s, hw, hr⟩ := Res.bind_eq_ok.1 h
    have e := Mon.mid hd (computeOU_mon _ _ _ _ hw) (computeOU_mon _ _ _ _ hr)
    rw [e] at hw; exact ih hw
  | @seqR a b r m r' _ ih =>
    simp only [computeOU] at h
    obtain ⟨s, hw, hr⟩ := Res.bind_eq_ok.1 h
    have e := Mon.mid hd (computeOU_mon _ _ _ _ hw) (computeOU_mon _ _ _ _ hr)
    rw [e] at hr; exact ih hr
  | @ifT c t e r m r' _ ih =>
    simp only [computeOU] at h
    obtain ⟨s, hw, hr⟩ := Res.bind_eq_ok.1 h
    obtain ⟨s2, hw2, hr⟩ := Res.bind_eq_ok.1 hr
    have m3 := computeOU_mon _ _ _ _ hr
    have m2 := computeOU_mon _ _ _ _ hw2
    have e1 := Mon.mid hd (visitE_mon hw) (m2.trans m3)
    rw [e1] at hw2 m2
    have e2 := Mon.mid hd m2 m3
    rw [e2] at hw2; exact ih hw2
  | @ifE c t e r m r' _ ih =>
    simp only [computeOU] at h
    obtain ⟨s, hw, hr⟩ := Res.bind_eq_ok.1 h
    obtain ⟨s2, hw2, hr⟩ := Res.bind_eq_ok.1 hr
    have e2 := Mon.mid hd ((visitE_mon hw).trans (computeOU_mon _ _ _ _ hw2)) (computeOU_mon _ _ _ _ hr)
    rw [e2] at hr; exact ih hr
  | @loop f q b r m r' _ ih =>
    simp only [computeOU] at h
    obtain ⟨⟨os, s⟩, hw, hr⟩ := Res.bind_eq_ok.1 h
    obtain ⟨⟨os2, s2⟩, hw2, hr⟩ := Res.bind_eq_ok.1 hr
    obtain ⟨s3, hw3, hr⟩ := Res.bind_eq_ok.1 hr
    have e2 := Mon.mid hd ((doOU_mon q _ _ _ _ hw).trans ((addO_mon ..).trans ((doOU_mon q _ _ _ _ hw2).trans (visitE_mon hw3))))
      (computeOU_mon _ _ _ _ hr)
    rw [e2] at hr; exact ih hr
  | @caseM e ms d r m r' _ ih =>
    simp only [computeOU] at h
    obtain ⟨⟨os, s⟩, hw, hr⟩ := Res.bind_eq_ok.1 h
    obtain ⟨s2, hw2, hr⟩ := Res.bind_eq_ok.1 hr
    obtain ⟨s3, hw3, hr⟩ := Res.bind_eq_ok.1 hr
    obtain ⟨s4, hw4, hr⟩ := Res.bind_eq_ok.1 hr
    have m0 := (doOU_mon e _ _ _ _ hw).trans ((casePats_mon ms _ _ hw2).trans (visitE_mon hw3))
    have m4 := computeOU_mon _ _ _ _ hw4
    have m5 := computeOU_mon _ _ _ _ hr
    have e1 := Mon.mid hd m0 (m4.trans m5)
    rw [e1] at hw4 m4
    have e2 := Mon.mid hd m4 m5
    rw [e2] at hw4; exact ih hw4
  | @caseD e ms d r m r' _ ih =>
    simp only [computeOU] at h
    obtain ⟨⟨os, s⟩, hw, hr⟩ := Res.bind_eq_ok.1 h
    obtain ⟨s2, hw2, hr⟩ := Res.bind_eq_ok.1 hr
    obtain ⟨s3, hw3, hr⟩ := Res.bind_eq_ok.1 hr
    obtain ⟨s4, hw4, hr⟩ := Res.bind_eq_ok.1 hr
    have e1 := Mon.mid hd ((doOU_mon e _ _ _ _ hw).trans ((casePats_mon ms _ _ hw2).trans ((visitE_mon hw3).trans
      (computeOU_mon _ _ _ _ hw4)))) (computeOU_mon _ _ _ _ hr)
    rw [e1] at hr; exact ih hr
  | @matchB p b n r m r' _ ih =>
    simp only [computeOU] at h
    obtain ⟨s, hw, hr⟩ := Res.bind_eq_ok.1 h
    obtain ⟨s2, hw2, hr⟩ := Res.bind_eq_ok.1 hr
    have m3 := computeOU_mon _ _ _ _ hr
    have m2 := computeOU_mon _ _ _ _ hw2
    have e1 := Mon.mid hd (visitEs_mon _ _ _ hw) (m2.trans m3)
    rw [e1] at hw2 m2
    have e2 := Mon.mid hd m2 m3
    rw [e2] at hw2; exact ih hw2
  | @matchN p b n r m r' _ ih =>
    simp only [computeOU] at h
    obtain ⟨s, hw, hr⟩ := Res.bind_eq_ok.1 h
    obtain ⟨s2, hw2, hr⟩ := Res.bind_eq_ok.1 hr
    have e2 := Mon.mid hd ((visitEs_mon _ _ _ hw).trans (computeOU_mon _ _ _ _ hw2)) (computeOU_mon _ _ _ _ hr)
    rw [e2] at hr; exact ih hr
  | @rule si ks p b r m r' _ ih =>
    simp only [computeOU] at h
    obtain ⟨s, hw, hr⟩ := Res.bind_eq_ok.1 h
    have e1 := Mon.mid hd ((ruleKids_mon si ks st).trans (visitEs_mon _ _ _ hw)) (computeOU_mon _ _ _ _ hr)
    rw [e1] at hr; exact ih hr
  | func _ ih => exact ih h

end fix

/-- the analysis of the expression has nothing to add -/
def Called (P : Prog) (st : St) (r : Option Nat) (e : Expr) (us : List Use) (os : List Nat) : Prop :=
  doOU P r e us st = .ok (os, st)

/-- the objects of an expression, read off the sets -/
inductive RO (P : Prog) (st : St) : Expr → Nat → Prop
  | rep {lt e o} : RO P st e o → RO P st (.rep lt e) o
  | use {i lt d o} : P.isLocal d = true → o ∈ st.O d → RO P st (.use i lt d) o
  | attrRef {lt a o} : o ∈ st.O a → RO P st (.attrRef lt a) o
  | field {i lt f w o q a o'} : RO P st w o → q ∈ st.U o → q.lhsOf = some a → q.field = some f → o' ∈ st.O a →
      RO P st (.fieldRef i lt f w) o'
  | call {lt g as o} : o ∈ st.O (P.result g) → RO P st (.call lt g as) o
  | prim {lt as a o} : a ∈ as → RO P st a o → RO P st (.prim lt as) o

section fix
variable {P : Prog} {st : St} (hd : st.done = true)
include hd

theorem readUses_fix {f : Nat} {us : List Use} : ∀ (qs : List Use) (acc os : List Nat),
    readUses f us qs acc st = (os, st) → (∀ o ∈ acc, o ∈ os) ∧
      ∀ q ∈ qs, ∀ a, q.lhsOf = some a → q.field = some f → addU a us st = st ∧ ∀ o ∈ st.O a, o ∈ os
  | [], acc, os, hr => by
    simp only [readUses, Prod.mk.injEq] at hr
    obtain ⟨rfl, _⟩ := hr
    exact ⟨fun o h => h, by simp⟩
  | q :: qs, acc, os, hr => by
    rw [readUses] at hr
    cases hl : q.lhsOf with
    | none =>
      rw [hl] at hr
      obtain ⟨h1, h2⟩ := readUses_fix qs acc os hr
      refine ⟨h1, fun q' hq a ha hf => ?_⟩
      rcases List.mem_cons.1 hq with rfl | hq
      · rw [hl] at ha; cases ha
      · exact h2 q' hq a ha hf
    | some a =>
      rw [hl] at hr
      simp only at hr
      split at hr
      · next hf =>
        have m2 := readUses_mon f us qs (union acc ((addU a us st).O a)) (addU a us st)
        rw [hr] at m2
        have e := Mon.mid hd (addU_mon a us st) m2
        rw [e] at hr
        obtain ⟨h1, h2⟩ := readUses_fix qs _ os hr
        refine ⟨fun o ho => h1 o ((mem_union _ _ _).2 (.inl ho)), fun q' hq a' ha hf => ?_⟩
        rcases List.mem_cons.1 hq with rfl | hq
        · rw [hl] at ha
          cases ha
          exact ⟨e, fun o ho => h1 o ((mem_union _ _ _).2 (.inr ho))⟩
        · exact h2 q' hq a' ha hf
      · next hf =>
        obtain ⟨h1, h2⟩ := readUses_fix qs acc os hr
        refine ⟨h1, fun q' hq a' ha hf' => ?_⟩
        rcases List.mem_cons.1 hq with rfl | hq
        · exact absurd hf' hf
        · exact h2 q' hq a' ha hf'

theorem readObjs_fix {f : Nat} {us : List Use} : ∀ (ow acc os : List Nat), readObjs f us ow acc st = (os, st) →
    (∀ o ∈ acc, o ∈ os) ∧ ∀ o ∈ ow, ∀ q ∈ st.U o, ∀ a, q.lhsOf = some a → q.field = some f →
      addU a us st = st ∧ ∀ o ∈ st.O a, o ∈ os
  | [], acc, os, hr => by
    simp only [readObjs, Prod.mk.injEq] at hr
    obtain ⟨rfl, _⟩ := hr
    exact ⟨fun o h => h, by simp⟩
  | o :: ow, acc, os, hr => by
    rw [readObjs] at hr
    have m2 := readObjs_mon f us ow (readUses f us (st.U o) acc st).1 (readUses f us (st.U o) acc st).2
    rw [hr] at m2
    have e := Mon.mid hd (readUses_mon f us (st.U o) acc st) m2
    rw [e] at hr
    obtain ⟨h1, h2⟩ := readObjs_fix ow _ os hr
    obtain ⟨k1, k2⟩ := readUses_fix hd (st.U o) acc _ (Prod.ext rfl e)
    refine ⟨fun x hx => h1 x (k1 x hx), fun o' ho' q hq a ha hf => ?_⟩
    rcases List.mem_cons.1 ho' with rfl | ho'
    · obtain ⟨j1, j2⟩ := k2 q hq a ha hf
      exact ⟨j1, fun x hx => h1 x (j2 x hx)⟩
    · exact h2 o' ho' q hq a ha hf

theorem called_rep {r lt e us os} (h : Called P st r (.rep lt e) us os) : Called P st r e (cut lt us) os := by
  unfold Called at h ⊢
  simpa only [doOU] using h

theorem called_use {r i lt d us os} (h : Called P st r (.use i lt d) us os) (hl : P.isLocal d = true) :
    os = st.O d ∧ noteShared P r ⟨i, some d, none⟩ d st = st ∧ addU d (cut lt us) st = st := by
  unfold Called at h
  simp only [doOU] at h
  rw [if_neg (by simp [hl])] at h
  simp only [Res.ok.injEq, Prod.mk.injEq] at h
  obtain ⟨h1, h2⟩ := h
  have m2 := addU_mon d (cut lt us) (noteShared P r ⟨i, some d, none⟩ d st)
  rw [h2] at m2
  have e := Mon.mid hd (noteShared_mon ..) m2
  rw [h2] at h1
  rw [e] at h2
  exact ⟨h1.symm, e, h2⟩

theorem called_attr {r lt a us os} (h : Called P st r (.attrRef lt a) us os) :
    os = st.O a ∧ addU a (cut lt us) st = st := by
  unfold Called at h
  simp only [doOU, Res.ok.injEq, Prod.mk.injEq] at h
  obtain ⟨h1, h2⟩ := h
  rw [h2] at h1
  exact ⟨h1.symm, h2⟩

theorem called_field {r i lt f w us os} (h : Called P st r (.fieldRef i lt f w) us os) :
    ∃ ow, Called P st r w [⟨i, some f, none⟩] ow ∧ ∀ o ∈ ow, ∀ q ∈ st.U o, ∀ a, q.lhsOf = some a → q.field = some f →
      addU a (cut lt us) st = st ∧ ∀ o ∈ st.O a, o ∈ os := by
  unfold Called at h
  simp only [doOU] at h
  obtain ⟨⟨ow, st1⟩, hw, hr⟩ := Res.bind_eq_ok.1 h
  simp only [Res.ok.injEq] at hr
  have m2 := readObjs_mon f (cut lt us) ow [] st1
  rw [hr] at m2
  have e := Mon.mid hd (doOU_mon w _ _ _ _ hw) m2
  rw [e] at hr hw
  exact ⟨ow, hw, (readObjs_fix hd ow [] os hr).2⟩

theorem doActuals_fix {r : Option Nat} : ∀ (fs : List Nat) (as : List Expr), doActuals P r fs as st = .ok st →
    ∀ (k : Nat) (a : Expr), as[k]? = some a → ∃ f os, fs[k]? = some f ∧ Called P st r a (st.U f) os ∧ ∀ o ∈ os, o ∈ st.O f
  | fs, [], hr, k, a, ha => by simp at ha
  | [], _ :: _, hr, k, a, ha => by simp [doActuals] at hr
  | f :: fs, a :: as, hr, k, a', ha => by
    simp only [doActuals] at hr
    obtain ⟨⟨os, st1⟩, hw, hr⟩ := Res.bind_eq_ok.1 hr
    have m1 := doOU_mon a _ _ _ _ hw
    have m2 := addO_mon f os st1
    have m3 := doActuals_mon _ _ _ _ hr
    have e1 := Mon.mid hd m1 (m2.trans m3)
    have e2 := Mon.mid hd (m1.trans m2) m3
    rw [e2] at hr
    cases k with
    | zero =>
      simp only [List.getElem?_cons_zero, Option.some.injEq] at ha
      subst ha
      rw [e1] at hw e2
      exact ⟨f, os, rfl, hw, addO_id e2⟩
    | succ k =>
      obtain ⟨f', os', h1, h2⟩ := doActuals_fix fs as hr k a' (by simpa using ha)
      exact ⟨f', os', by simpa using h1, h2⟩

theorem called_call {r lt g as us os} (h : Called P st r (.call lt g as) us os) :
    os = st.O (P.result g) ∧ noteCall P r g st = st ∧ doActuals P r (P.formals g) as st = .ok st ∧
      addU (P.result g) (cut lt us) st = st := by
  unfold Called at h
  simp only [doOU] at h
  obtain ⟨st1, hw, hr⟩ := Res.bind_eq_ok.1 h
  simp only [Res.ok.injEq, Prod.mk.injEq] at hr
  obtain ⟨h1, h2⟩ := hr
  have m1 := noteCall_mon P r g st
  have m2 := doActuals_mon _ _ _ _ hw
  have m3 := addU_mon (P.result g) (cut lt us) st1
  rw [h2] at m3 h1
  have e1 := Mon.mid hd m1 (m2.trans m3)
  have e2 := Mon.mid hd (m1.trans m2) m3
  rw [e1, e2] at hw
  rw [e2] at h2
  exact ⟨h1.symm, e1, hw, h2⟩

theorem doPrims_fix {r : Option Nat} {us : List Use} : ∀ (as : List Expr) (acc os : List Nat),
    doPrims P r as us acc st = .ok (os, st) → ∀ a ∈ as, ∃ oa, Called P st r a us oa ∧ ∀ o ∈ oa, o ∈ os
  | [], acc, os, hr, a, ha => by cases ha
  | a :: as, acc, os, hr, a', ha => by
    simp only [doPrims] at hr
    obtain ⟨⟨o1, st1⟩, hw, hr⟩ := Res.bind_eq_ok.1 hr
    obtain ⟨m2, sub⟩ := doPrims_mon _ _ _ _ _ _ hr
    have e := Mon.mid hd (doOU_mon a _ _ _ _ hw) m2
    rw [e] at hw hr
    rcases List.mem_cons.1 ha with rfl | ha
    · exact ⟨o1, hw, fun o ho => sub o ((mem_union _ _ _).2 (.inr ho))⟩
    · exact doPrims_fix as _ os hr a' ha

theorem called_prim {r lt as us os} (h : Called P st r (.prim lt as) us os) :
    ∀ a ∈ as, ∃ oa, Called P st r a (cut lt us) oa ∧ ∀ o ∈ oa, o ∈ os := by
  unfold Called at h
  simp only [doOU] at h
  exact doPrims_fix hd as [] os h

theorem ro_sub {e : Expr} {o : Nat} (h : RO P st e o) : ∀ {r us os}, Called P st r e us os → o ∈ os := by
  induction h with
  | rep _ ih => intro r us os hc; exact ih (called_rep hd hc)
  | use hl ho => intro r us os hc; rw [(called_use hd hc hl).1]; exact ho
  | attrRef ho => intro r us os hc; rw [(called_attr hd hc).1]; exact ho
  | field _ hq hl hf ho ih =>
    intro r us os hc
    obtain ⟨ow, h1, h2⟩ := called_field hd hc
    exact (h2 _ (ih h1) _ hq _ hl hf).2 _ ho
  | call ho => intro r us os hc; rw [(called_call hd hc).1]; exact ho
  | prim ha _ ih =>
    intro r us os hc
    obtain ⟨oa, h1, h2⟩ := called_prim hd hc _ ha
    exact h2 _ (ih h1)

theorem called_visit {r e} (h : visitE P r e st = .ok st) : ∃ os, Called P st r e [] os := by
  unfold visitE at h
  obtain ⟨⟨os, s⟩, hw, hr⟩ := Res.bind_eq_ok.1 h
  simp only [Res.ok.injEq] at hr
  rw [hr] at hw
  exact ⟨os, hw⟩

theorem called_visits {r} : ∀ (es : List Expr), visitEs P r es st = .ok st → ∀ e ∈ es, ∃ os, Called P st r e [] os
  | [], h, e, he => by cases he
  | e :: es, h, e', he => by
    simp only [visitEs] at h
    obtain ⟨s, hw, hr⟩ := Res.bind_eq_ok.1 h
    have e1 := Mon.mid hd (visitE_mon hw) (visitEs_mon _ _ _ hr)
    rw [e1] at hw hr
    rcases List.mem_cons.1 he with rfl | he
    · exact called_visit hd hw
    · exact called_visits es hr e' he

end fix

end Aps.Points
