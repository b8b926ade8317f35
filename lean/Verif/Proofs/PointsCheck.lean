import Verif.Proofs.PointsMain
set_option linter.unusedVariables false
/-!
# A check that a program meets the hypotheses of the theorems
-/
namespace Aps.Points
open Aps.Points.Spec

mutual
def okE (P : Prog) : Expr → Bool
  | .const => true
  | .other => true
  | .rep _ e => okE P e
  | .use _ _ _ => true
  | .attrRef _ _ => true
  | .fieldRef _ _ _ w => okE P w
  | .call _ g as => decide (as.length ≤ (P.formals g).length) && decide (P.module ∉ P.formals g) &&
      decide (P.siOf g ≠ P.module) && okEs P as
  | .prim _ as => okEs P as
def okEs (P : Prog) : List Expr → Bool
  | [] => true
  | a :: as => okE P a && okEs P as
end

theorem okEs_mem {P : Prog} : ∀ {as : List Expr} {a : Expr}, okEs P as = true → a ∈ as → okE P a = true
  | [], a, h, ha => by cases ha
  | b :: as, a, h, ha => by
    simp only [okEs, Bool.and_eq_true] at h
    rcases List.mem_cons.1 ha with rfl | ha
    · exact h.1
    · exact okEs_mem h.2 ha

mutual
def okP (P : Prog) : Pat → Bool
  | .other => true
  | .none => true
  | .and _ p q => okP P p && okP P q
  | .var _ d => decide (d ≠ P.module)
  | .call _ ps => okPs P ps
  | .rest _ p => okP P p
  | .cond e => okE P e
def okPs (P : Prog) : List Pat → Bool
  | [] => true
  | p :: ps => okP P p && okPs P ps
end

theorem okPs_mem {P : Prog} : ∀ {as : List Pat} {a : Pat}, okPs P as = true → a ∈ as → okP P a = true
  | [], a, h, ha => by cases ha
  | b :: as, a, h, ha => by
    simp only [okPs, Bool.and_eq_true] at h
    rcases List.mem_cons.1 ha with rfl | ha
    · exact h.1
    · exact okPs_mem h.2 ha

theorem okP_cond {P : Prog} {p : Pat} {e : Expr} (h : HasCond p e) : okP P p = true → okE P e = true := by
  induction h with
  | cond => intro h; simpa only [okP] using h
  | andL _ ih => intro h; simp only [okP, Bool.and_eq_true] at h; exact ih h.1
  | andR _ ih => intro h; simp only [okP, Bool.and_eq_true] at h; exact ih h.2
  | call hp _ ih => intro h; simp only [okP] at h; exact ih (okPs_mem h hp)
  | rest _ ih => intro h; simp only [okP] at h; exact ih h

theorem okP_var {P : Prog} {p : Pat} {v : Nat} {k : Bool} (h : HasVar p v k) : okP P p = true → v ≠ P.module := by
  induction h with
  | var => intro h; simpa only [okP, decide_eq_true_eq] using h
  | andL _ ih => intro h; simp only [okP, Bool.and_eq_true] at h; exact ih h.1
  | andR _ ih => intro h; simp only [okP, Bool.and_eq_true] at h; exact ih h.2
  | call hp _ ih => intro h; simp only [okP] at h; exact ih (okPs_mem h hp)
  | rest _ ih => intro h; simp only [okP] at h; exact ih h

/-- the left-hand side of an assignment -/
def okL (P : Prog) (r : Option Nat) : Expr → Bool
  | .use _ _ x => decide (x ≠ P.module) && (P.isShared x || !P.isSyntax x) && (!P.isShared x || r.isSome)
  | .attrRef _ a => decide (a ≠ P.module)
  | .fieldRef _ _ _ w => okE P w
  | _ => false

def okO (P : Prog) : Option Expr → Bool
  | none => true
  | some e => okE P e

def okN (P : Prog) : Option Nat → Node → Bool
  | _, .skip => true
  | r, .seq a b => okN P r a && okN P r b
  | _, .value d _ i => decide (d ≠ P.module) && okO P i
  | _, .attr _ i => okO P i
  | _, .expr e => okE P e
  | r, .assign d l e => decide (d ≠ P.module) && okL P r l && okE P e
  | r, .ifs c t e => okE P c && okN P r t && okN P r e
  | r, .forIn f s b => decide (f ≠ P.module) && okE P s && okN P r b
  | r, .cases e ms d => okE P e && okN P r ms && okN P r d
  | r, .mtch p b n => okP P p && okN P r b && okN P r n
  | _, .rule si ks p b => decide (P.module ∉ ks) && okP P p && okN P (some si) b
  | _, .func si b => okN P (some si) b

def okProg (P : Prog) : Bool := decide (P.startSi ≠ P.module) && okN P none P.body

theorem ok_occurs {P : Prog} {n m : Node} {r r' : Option Nat} (h : Occurs n r m r') :
    okN P r n = true → okN P r' m = true := by
  induction h with
  | here => exact id
  | seqL _ ih => intro h; simp only [okN, Bool.and_eq_true] at h; exact ih h.1
  | seqR _ ih => intro h; simp only [okN, Bool.and_eq_true] at h; exact ih h.2
  | ifT _ ih => intro h; simp only [okN, Bool.and_eq_true] at h; exact ih h.1.2
  | ifE _ ih => intro h; simp only [okN, Bool.and_eq_true] at h; exact ih h.2
  | loop _ ih => intro h; simp only [okN, Bool.and_eq_true] at h; exact ih h.2
  | caseM _ ih => intro h; simp only [okN, Bool.and_eq_true] at h; exact ih h.1.2
  | caseD _ ih => intro h; simp only [okN, Bool.and_eq_true] at h; exact ih h.2
  | matchB _ ih => intro h; simp only [okN, Bool.and_eq_true] at h; exact ih h.1.2
  | matchN _ ih => intro h; simp only [okN, Bool.and_eq_true] at h; exact ih h.2
  | rule _ ih => intro h; simp only [okN, Bool.and_eq_true] at h; exact ih h.2
  | func _ ih => intro h; simp only [okN] at h; exact ih h

theorem ok_match {P : Prog} {n : Node} {p : Pat} (h : MatchOf n p) {r : Option Nat} : okN P r n = true → okP P p = true := by
  induction h with
  | here => intro h; simp only [okN, Bool.and_eq_true] at h; exact h.1.1
  | next _ ih => intro h; simp only [okN, Bool.and_eq_true] at h; exact ih h.2

section
variable {P : Prog} (hP : okProg P = true)
include hP

theorem ok_at {m : Node} {r : Option Nat} (h : At P m r) : okN P r m = true := by
  simp only [okProg, Bool.and_eq_true] at hP
  exact ok_occurs h hP.2

theorem ok_expr {r : Option Nat} {e : Expr} (h : ExprAt P r e) : okE P e = true := by
  induction h with
  | init h => have h := ok_at hP h; simp only [okN, okO, Bool.and_eq_true] at h; exact h.2
  | dflt h => have h := ok_at hP h; simpa only [okN, okO] using h
  | expr h => have h := ok_at hP h; simpa only [okN] using h
  | rhs h => have h := ok_at hP h; simp only [okN, Bool.and_eq_true] at h; exact h.2
  | lhsObj h => have h := ok_at hP h; simp only [okN, okL, Bool.and_eq_true] at h; exact h.1.2
  | test h => have h := ok_at hP h; simp only [okN, Bool.and_eq_true] at h; exact h.1.1
  | loop h => have h := ok_at hP h; simp only [okN, Bool.and_eq_true] at h; exact h.1.2
  | case h => have h := ok_at hP h; simp only [okN, Bool.and_eq_true] at h; exact h.1.1
  | condM h hc => have h := ok_at hP h; simp only [okN, Bool.and_eq_true] at h; exact okP_cond hc h.1.1
  | condR h hc => have h := ok_at hP h; simp only [okN, Bool.and_eq_true] at h; exact okP_cond hc h.1.2
  | rep _ ih => simpa only [okE] using ih
  | obj _ ih => simpa only [okE] using ih
  | arg _ ha ih => simp only [okE, Bool.and_eq_true] at ih; exact okEs_mem ih.2 ha
  | prim _ ha ih => simp only [okE] at ih; exact okEs_mem ih ha

theorem proper_of_ok : Proper P := by
  constructor
  · intro d l e r h
    have h := ok_at hP h
    simp only [okN, Bool.and_eq_true] at h
    cases l with
    | use i lt x => exact .inl ⟨_, _, _, rfl⟩
    | attrRef lt a => exact .inr (.inl ⟨_, _, rfl⟩)
    | fieldRef i lt f w => exact .inr (.inr ⟨_, _, _, _, rfl⟩)
    | _ => simp [okL] at h
  · intro d i lt x e r h hs
    have h := ok_at hP h
    simp only [okN, okL, Bool.and_eq_true, Bool.or_eq_true, hs] at h
    rcases h.1.2.2 with h | h
    · cases h
    · rintro rfl; cases h
  · intro d i lt x e r h
    have h := ok_at hP h
    simp only [okN, okL, Bool.and_eq_true, Bool.or_eq_true] at h
    rcases h.1.2.1.2 with h | h
    · exact .inr h
    · exact .inl (by simpa using h)
  · intro r lt g as h
    have h := ok_expr hP h
    simp only [okE, Bool.and_eq_true, decide_eq_true_eq] at h
    exact h.1.1.1

theorem alone_of_ok : ∀ x o u, ¬ Edge P x (.decl P.module) o u := by
  intro x o u h
  generalize hm : Loc.decl P.module = y at h
  cases h with
  | use | attrRef | rep | prim | result => cases hm
  | arg he ha hf =>
    cases hm
    have h := ok_expr hP he
    simp only [okE, Bool.and_eq_true, decide_eq_true_eq] at h
    exact h.1.1.2 (List.mem_of_getElem? hf)
  | callee he =>
    have h := ok_expr hP he
    simp only [okE, Bool.and_eq_true, decide_eq_true_eq] at h
    exact h.1.2 (Loc.decl.inj hm).symm
  | init h => have h := ok_at hP h; simp only [okN, Bool.and_eq_true, decide_eq_true_eq] at h; exact h.1 (Loc.decl.inj hm).symm
  | rhs h => have h := ok_at hP h; simp only [okN, Bool.and_eq_true, decide_eq_true_eq] at h; exact h.1.1 (Loc.decl.inj hm).symm
  | lhsUse h _ =>
    have h := ok_at hP h
    simp only [okN, okL, Bool.and_eq_true, decide_eq_true_eq] at h
    exact h.1.2.1.1 (Loc.decl.inj hm).symm
  | lhsAttr h =>
    have h := ok_at hP h
    simp only [okN, okL, Bool.and_eq_true, decide_eq_true_eq] at h
    exact h.1.2 (Loc.decl.inj hm).symm
  | loop h => have h := ok_at hP h; simp only [okN, Bool.and_eq_true, decide_eq_true_eq] at h; exact h.1.1 (Loc.decl.inj hm).symm
  | case h hmt hv =>
    have h := ok_at hP h
    simp only [okN, Bool.and_eq_true] at h
    exact okP_var hv (ok_match hmt h.1.2) (Loc.decl.inj hm).symm
  | child h hk =>
    have h := ok_at hP h
    simp only [okN, Bool.and_eq_true, decide_eq_true_eq] at h
    exact h.1.1 ((Loc.decl.inj hm) ▸ hk)
  | root =>
    simp only [okProg, Bool.and_eq_true, decide_eq_true_eq] at hP
    exact hP.1 (Loc.decl.inj hm).symm
end

end Aps.Points
