import Verif.Proofs.PointsRun
/-! # Object flow: a bound for all declarations of a program; the start state; when a round returns -/
set_option linter.unusedVariables false
namespace Aps.Points
open Spec

theorem mem_le_sum : ∀ (l : List Nat) (x : Nat), x ∈ l → x ≤ l.sum
  | [], x, h => by cases h
  | y :: l, x, h => by
    rw [List.sum_cons]
    rcases List.mem_cons.1 h with rfl | h
    · omega
    · have := mem_le_sum l x h; omega

mutual
def eb (P : Prog) : Expr → Nat
  | .const => 0
  | .other => 0
  | .rep _ e => eb P e
  | .use i _ d => i + d
  | .attrRef _ a => a
  | .fieldRef i _ f w => i + f + eb P w
  | .call _ g as => P.result g + P.siOf g + (P.formals g).sum + ebs P as
  | .prim _ as => ebs P as
def ebs (P : Prog) : List Expr → Nat
  | [] => 0
  | a :: as => eb P a + ebs P as
end

theorem mem_ebs (P : Prog) : ∀ (as : List Expr) (a : Expr), a ∈ as → eb P a ≤ ebs P as
  | [], a, h => by cases h
  | b :: as, a, h => by
    simp only [ebs]
    rcases List.mem_cons.1 h with rfl | h
    · omega
    · have := mem_ebs P as a h; omega

mutual
def pb (P : Prog) : Pat → Nat
  | .other => 0
  | .none => 0
  | .and _ p q => pb P p + pb P q
  | .var _ d => d
  | .call _ ps => pbs P ps
  | .rest _ p => pb P p
  | .cond e => eb P e
def pbs (P : Prog) : List Pat → Nat
  | [] => 0
  | p :: ps => pb P p + pbs P ps
end

theorem mem_pbs (P : Prog) : ∀ (ps : List Pat) (p : Pat), p ∈ ps → pb P p ≤ pbs P ps
  | [], a, h => by cases h
  | b :: as, a, h => by
    simp only [pbs]
    rcases List.mem_cons.1 h with rfl | h
    · omega
    · have := mem_pbs P as a h; omega

def nb (P : Prog) : Node → Nat
  | .skip => 0
  | .seq a b => nb P a + nb P b
  | .value d _ none => d
  | .value d _ (some e) => d + eb P e
  | .attr d none => d
  | .attr d (some e) => d + eb P e
  | .expr e => eb P e
  | .assign d l e => d + eb P l + eb P e
  | .ifs c t e => eb P c + nb P t + nb P e
  | .forIn f s b => f + eb P s + nb P b
  | .cases e ms d => eb P e + nb P ms + nb P d
  | .mtch p b n => pb P p + nb P b + nb P n
  | .rule si ks p b => si + ks.sum + pb P p + nb P b
  | .func si b => si + nb P b

theorem hasVar_le {P : Prog} {p : Pat} {v : Nat} {k : Bool} (h : HasVar p v k) : v ≤ pb P p := by
  induction h with
  | var => simp [pb]
  | andL _ ih => simp only [pb]; omega
  | andR _ ih => simp only [pb]; omega
  | call hp _ ih => simp only [pb]; exact Nat.le_trans ih (mem_pbs P _ _ hp)
  | rest _ ih => simpa only [pb] using ih

theorem hasCond_le {P : Prog} {p : Pat} {e : Expr} (h : HasCond p e) : eb P e ≤ pb P p := by
  induction h with
  | cond => simp [pb]
  | andL _ ih => simp only [pb]; omega
  | andR _ ih => simp only [pb]; omega
  | call hp _ ih => simp only [pb]; exact Nat.le_trans ih (mem_pbs P _ _ hp)
  | rest _ ih => simpa only [pb] using ih

theorem matchOf_le {P : Prog} {n : Node} {p : Pat} (h : MatchOf n p) : pb P p ≤ nb P n := by
  induction h with
  | here => simp only [nb]; omega
  | next _ ih => simp only [nb]; omega

theorem occurs_le {P : Prog} {n m : Node} {r r' : Option Nat} (h : Occurs n r m r') :
    nb P m ≤ nb P n ∧ ∀ s, r' = some s → r = some s ∨ s ≤ nb P n := by
  induction h with
  | here n r => exact ⟨Nat.le_refl _, fun s h => .inl h⟩
  | seqL _ ih | seqR _ ih | ifT _ ih | ifE _ ih | loop _ ih | caseM _ ih | caseD _ ih | matchB _ ih | matchN _ ih =>
    obtain ⟨h1, h2⟩ := ih
    simp only [nb]
    refine ⟨by omega, fun s hs => ?_⟩
    rcases h2 s hs with h | h
    · exact .inl h
    · exact .inr (by omega)
  | rule _ ih | func _ ih =>
    obtain ⟨h1, h2⟩ := ih
    simp only [nb]
    refine ⟨by omega, fun s hs => ?_⟩
    rcases h2 s hs with h | h
    · cases h; exact .inr (by omega)
    · exact .inr (by omega)

theorem at_le {P : Prog} {m : Node} {r : Option Nat} (h : At P m r) :
    nb P m ≤ nb P P.body ∧ ∀ s, r = some s → s ≤ nb P P.body := by
  obtain ⟨h1, h2⟩ := occurs_le (P := P) h
  refine ⟨h1, fun s hs => ?_⟩
  rcases h2 s hs with h | h
  · cases h
  · exact h

theorem exprAt_le {P : Prog} {e : Expr} {r : Option Nat} (h : ExprAt P r e) :
    eb P e ≤ nb P P.body ∧ ∀ s, r = some s → s ≤ nb P P.body := by
  induction h with
  | init h | dflt h | expr h | rhs h | lhsObj h | test h | loop h | case h =>
    obtain ⟨h1, h2⟩ := at_le h
    simp only [nb, eb] at h1
    exact ⟨by omega, h2⟩
  | condM h hc =>
    obtain ⟨h1, h2⟩ := at_le h
    have := hasCond_le (P := P) hc
    simp only [nb] at h1
    exact ⟨by omega, h2⟩
  | condR h hc =>
    obtain ⟨h1, h2⟩ := at_le h
    have := hasCond_le (P := P) hc
    simp only [nb] at h1
    exact ⟨by omega, fun s hs => by cases hs; omega⟩
  | rep _ ih | obj _ ih =>
    simp only [eb] at ih
    exact ⟨by omega, ih.2⟩
  | arg _ ha ih | prim _ ha ih =>
    simp only [eb] at ih
    have := mem_ebs P _ _ ha
    exact ⟨by omega, ih.2⟩

def bound (P : Prog) : Nat := nb P P.body + P.module + P.startSi + 1

theorem bd (P : Prog) : Bd P (bound P) := by
  unfold bound
  constructor
  · intro r i lt d h; have := (exprAt_le h).1; simp only [eb] at this; omega
  · intro r lt d h; have := (exprAt_le h).1; simp only [eb] at this; omega
  · intro r i lt f w h; have := (exprAt_le h).1; simp only [eb] at this; omega
  · intro r lt g as h
    have := (exprAt_le h).1
    simp only [eb] at this
    refine ⟨by omega, by omega, fun f hf => ?_⟩
    have := mem_le_sum _ _ hf
    omega
  · intro r e h; have := (exprAt_le h).2 r rfl; omega
  · intro r d k i h
    have := (at_le h).1
    cases i <;> simp only [nb] at this <;> omega
  · intro r d l e h; have := (at_le h).1; simp only [nb] at this; omega
  · intro r d l e h; have := (at_le h).2 r rfl; omega
  · intro r d i lt x e h; have := (at_le h).1; simp only [nb, eb] at this; omega
  · intro r d lt x e h; have := (at_le h).1; simp only [nb, eb] at this; omega
  · intro r d i lt f w e h; have := (at_le h).1; simp only [nb, eb] at this; omega
  · intro r f s b h; have := (at_le h).1; simp only [nb] at this; omega
  · intro r e ms d p v k h hm hv
    have := (at_le h).1
    have := matchOf_le (P := P) hm
    have := hasVar_le (P := P) hv
    simp only [nb] at *; omega
  · intro r si ks p b h; have := (at_le h).1; simp only [nb] at this; omega
  · intro r si ks p b k h hk
    have := (at_le h).1
    have := mem_le_sum _ _ hk
    simp only [nb] at *; omega
  · omega
  · omega

/-! ### the start -/

theorem mem_objs {n : Node} : ∀ {d : Nat}, d ∈ n.objs ↔ ∀ r, ∃ init r', Occurs n r (.value d true init) r' := by
  intro d
  constructor
  · intro h r
    induction n generalizing r with
    | value d' k i =>
      cases k with
      | false => simp [Node.objs] at h
      | true =>
        simp only [Node.objs, List.mem_singleton] at h
        subst h
        exact ⟨i, r, .here _ _⟩
    | seq a b iha ihb =>
      rcases List.mem_append.1 h with h | h
      · obtain ⟨i, r', h⟩ := iha h r; exact ⟨i, r', .seqL h⟩
      · obtain ⟨i, r', h⟩ := ihb h r; exact ⟨i, r', .seqR h⟩
    | ifs c a b iha ihb =>
      rcases List.mem_append.1 h with h | h
      · obtain ⟨i, r', h⟩ := iha h r; exact ⟨i, r', .ifT h⟩
      · obtain ⟨i, r', h⟩ := ihb h r; exact ⟨i, r', .ifE h⟩
    | forIn f s b ihb => obtain ⟨i, r', h⟩ := ihb h r; exact ⟨i, r', .loop h⟩
    | cases c a b iha ihb =>
      rcases List.mem_append.1 h with h | h
      · obtain ⟨i, r', h⟩ := iha h r; exact ⟨i, r', .caseM h⟩
      · obtain ⟨i, r', h⟩ := ihb h r; exact ⟨i, r', .caseD h⟩
    | mtch c a b iha ihb =>
      rcases List.mem_append.1 h with h | h
      · obtain ⟨i, r', h⟩ := iha h r; exact ⟨i, r', .matchB h⟩
      · obtain ⟨i, r', h⟩ := ihb h r; exact ⟨i, r', .matchN h⟩
    | rule si ks p b ihb => obtain ⟨i, r', h⟩ := ihb h (some si); exact ⟨i, r', .rule h⟩
    | func si b ihb => obtain ⟨i, r', h⟩ := ihb h (some si); exact ⟨i, r', .func h⟩
    | _ => cases h
  · intro h0
    obtain ⟨i, r', h⟩ := h0 none
    clear h0
    generalize (none : Option Nat) = r0 at h
    generalize hm : Node.value d true i = m at h
    induction h with
    | here => subst hm; simp [Node.objs]
    | seqL _ ih | ifT _ ih | caseM _ ih | matchB _ ih => exact List.mem_append.2 (.inl (ih hm))
    | seqR _ ih | ifE _ ih | caseD _ ih | matchN _ ih => exact List.mem_append.2 (.inr (ih hm))
    | loop _ ih | rule _ ih | func _ ih => exact ih hm

theorem addO_O (d : Nat) (os : List Nat) (st : St) :
    (addO d os st).O = fun x => if x = d then union (st.O d) os else st.O x := by
  unfold addO
  by_cases e : union (st.O d) os = st.O d
  · simp only [if_pos e]
    funext x
    by_cases hx : x = d
    · rw [if_pos hx, e, hx]
    · rw [if_neg hx]
  · simp only [if_neg e]

theorem addO_U (d : Nat) (os : List Nat) (st : St) : (addO d os st).U = st.U := by
  unfold addO
  by_cases e : union (st.O d) os = st.O d
  · simp only [if_pos e]
  · simp only [if_neg e]

theorem start_ok (P : Prog) : Ok P (bound P) (start P) := by
  have hB := bd P
  have hU : (start P).U = fun _ => [] := by unfold start; rw [addO_U, addO_U]
  have obj : ∀ d, d ∈ P.body.objs → Obj P d := fun d h => by
    obtain ⟨i, r, h⟩ := mem_objs.1 h none
    exact .inr ⟨i, r, h⟩
  have base : ∀ d o, o ∈ (if d ∈ P.body.objs then [d] else []) ↔ d ∈ P.body.objs ∧ o = d := by
    intro d o
    by_cases h : d ∈ P.body.objs <;> simp [h]
  have bnd : ∀ d, (if d ∈ P.body.objs then [d] else []).Nodup := by
    intro d; split <;> simp
  have hmem : ∀ d o, o ∈ (start P).O d ↔ (d ∈ P.body.objs ∧ o = d) ∨ (o = P.module ∧ (d = P.module ∨ d = P.startSi)) := by
    intro d o
    unfold start
    rw [addO_O, addO_O]
    simp only
    by_cases h1 : d = P.startSi
    · rw [if_pos h1, mem_union]
      by_cases h2 : P.startSi = P.module
      · rw [if_pos h2, mem_union, base]
        have : d = P.module := h1.trans h2
        subst this
        simp only [List.mem_singleton]
        tauto
      · rw [if_neg h2, base, ← h1]
        simp only [List.mem_singleton]
        tauto
    · rw [if_neg h1]
      by_cases h2 : d = P.module
      · rw [if_pos h2, mem_union, base, ← h2]
        simp only [List.mem_singleton]
        tauto
      · rw [if_neg h2, base]
        tauto
  have holds : ∀ d, ∀ o ∈ (start P).O d, Holds P d o := by
    intro d o h
    rcases (hmem d o).1 h with ⟨h, rfl⟩ | ⟨rfl, rfl | rfl⟩
    · exact ⟨obj o h, .refl _ _⟩
    · exact ⟨.inl rfl, .refl _ _⟩
    · exact ⟨.inl rfl, .step (.refl _ _) .root rfl⟩
  refine ⟨?_, ?_, ?_, ?_, holds, ?_, ?_, ?_⟩
  · intro d
    unfold start
    rw [addO_O, addO_O]
    simp only
    split
    · refine union_nodup ?_ (by simp)
      split
      · exact union_nodup (bnd _) (by simp)
      · exact bnd _
    · split
      · exact union_nodup (bnd _) (by simp)
      · exact bnd _
  · intro d; rw [hU]; exact List.nodup_nil
  · intro d hd
    rw [List.eq_nil_iff_forall_not_mem]
    intro o ho
    rcases (hmem d o).1 ho with ⟨h, rfl⟩ | ⟨rfl, rfl | rfl⟩
    · have := hB.obj (obj o h); omega
    · have := hB.module; omega
    · have := hB.startSi; omega
  · intro d hd; rw [hU]
  · intro d u hu; rw [hU] at hu; cases hu
  · intro o ho
    rw [hmem]
    rcases ho with rfl | ⟨i, r, h⟩
    · exact .inr ⟨rfl, .inl rfl⟩
    · refine .inl ⟨mem_objs.2 fun r' => ?_, rfl⟩
      have key : ∀ {n r m r'}, Occurs n r m r' → ∀ s, ∃ s', Occurs n s m s' := by
        intro n r m r' h
        induction h with
        | here n r => intro s; exact ⟨s, .here _ _⟩
        | seqL _ ih => intro s; obtain ⟨s', h⟩ := ih s; exact ⟨s', .seqL h⟩
        | seqR _ ih => intro s; obtain ⟨s', h⟩ := ih s; exact ⟨s', .seqR h⟩
        | ifT _ ih => intro s; obtain ⟨s', h⟩ := ih s; exact ⟨s', .ifT h⟩
        | ifE _ ih => intro s; obtain ⟨s', h⟩ := ih s; exact ⟨s', .ifE h⟩
        | loop _ ih => intro s; obtain ⟨s', h⟩ := ih s; exact ⟨s', .loop h⟩
        | caseM _ ih => intro s; obtain ⟨s', h⟩ := ih s; exact ⟨s', .caseM h⟩
        | caseD _ ih => intro s; obtain ⟨s', h⟩ := ih s; exact ⟨s', .caseD h⟩
        | matchB _ ih => intro s; obtain ⟨s', h⟩ := ih s; exact ⟨s', .matchB h⟩
        | matchN _ ih => intro s; obtain ⟨s', h⟩ := ih s; exact ⟨s', .matchN h⟩
        | rule h _ => intro s; exact ⟨_, .rule h⟩
        | func h _ => intro s; exact ⟨_, .func h⟩
      obtain ⟨s', h'⟩ := key h r'
      exact ⟨i, s', h'⟩
  · rw [hmem]; exact .inr ⟨rfl, .inr rfl⟩

/-! ### a round of a proper program returns -/

mutual
theorem doOU_total {P : Prog} (hp : Proper P) {r : Option Nat} : ∀ (e : Expr) (us : List Use) (st : St),
    ExprAt P r e → ∃ x, doOU P r e us st = .ok x
  | .const, us, st, he => by simp only [doOU]; exact ⟨_, rfl⟩
  | .other, us, st, he => by simp only [doOU]; exact ⟨_, rfl⟩
  | .rep lt e, us, st, he => by simp only [doOU]; exact doOU_total hp e _ st he.rep
  | .use i lt d, us, st, he => by
    simp only [doOU]
    split
    · exact ⟨_, rfl⟩
    · exact ⟨_, rfl⟩
  | .attrRef lt a, us, st, he => by simp only [doOU]; exact ⟨_, rfl⟩
  | .fieldRef i lt f w, us, st, he => by
    obtain ⟨x, hx⟩ := doOU_total hp w [⟨i, some f, none⟩] st he.obj
    simp only [doOU, hx, Res.ok_bind]
    exact ⟨_, rfl⟩
  | .call lt g as, us, st, he => by
    obtain ⟨x, hx⟩ := doActuals_total hp (P.formals g) as (noteCall P r g st) (fun a ha => he.arg ha) (hp.actuals he)
    simp only [doOU, hx, Res.ok_bind]
    exact ⟨_, rfl⟩
  | .prim lt as, us, st, he => by
    simp only [doOU]
    exact doPrims_total hp as _ _ st (fun a ha => he.prim ha)
theorem doActuals_total {P : Prog} (hp : Proper P) {r : Option Nat} : ∀ (fs : List Nat) (as : List Expr) (st : St),
    (∀ a ∈ as, ExprAt P r a) → as.length ≤ fs.length → ∃ x, doActuals P r fs as st = .ok x
  | fs, [], st, he, hl => by simp only [doActuals]; exact ⟨_, rfl⟩
  | [], _ :: _, st, he, hl => by simp at hl
  | f :: fs, a :: as, st, he, hl => by
    obtain ⟨x, hx⟩ := doOU_total hp a (st.U f) st (he a (List.mem_cons_self ..))
    simp only [doActuals, hx, Res.ok_bind]
    exact doActuals_total hp fs as _ (fun a ha => he a (List.mem_cons_of_mem _ ha)) (by simpa using hl)
theorem doPrims_total {P : Prog} (hp : Proper P) {r : Option Nat} : ∀ (as : List Expr) (us : List Use) (acc : List Nat)
    (st : St), (∀ a ∈ as, ExprAt P r a) → ∃ x, doPrims P r as us acc st = .ok x
  | [], us, acc, st, he => by simp only [doPrims]; exact ⟨_, rfl⟩
  | a :: as, us, acc, st, he => by
    obtain ⟨x, hx⟩ := doOU_total hp a us st (he a (List.mem_cons_self ..))
    simp only [doPrims, hx, Res.ok_bind]
    exact doPrims_total hp as us _ _ (fun a ha => he a (List.mem_cons_of_mem _ ha))
end

theorem visitE_total {P : Prog} (hp : Proper P) {r : Option Nat} {e : Expr} (st : St) (he : ExprAt P r e) :
    ∃ x, visitE P r e st = .ok x := by
  obtain ⟨x, hx⟩ := doOU_total hp e [] st he
  unfold visitE
  rw [hx]
  exact ⟨_, rfl⟩

theorem visitEs_total {P : Prog} (hp : Proper P) {r : Option Nat} : ∀ (es : List Expr) (st : St),
    (∀ e ∈ es, ExprAt P r e) → ∃ x, visitEs P r es st = .ok x
  | [], st, he => ⟨_, rfl⟩
  | e :: es, st, he => by
    obtain ⟨x, hx⟩ := visitE_total hp st (he e (List.mem_cons_self ..))
    simp only [visitEs, hx, Res.ok_bind]
    exact visitEs_total hp es x (fun e h => he e (List.mem_cons_of_mem _ h))

theorem casePats_total {P : Prog} (hp : Proper P) {r : Option Nat} {e : Expr} {os : List Nat} (he : ExprAt P r e) :
    ∀ (m : Node) (st : St), ∃ x, casePats P r e os m st = .ok x := by
  intro m
  induction m with
  | mtch p b n _ ih =>
    intro st
    obtain ⟨x, hx⟩ := doOU_total hp e (doUOp p os st).1 (doUOp p os st).2 he
    simp only [casePats, hx, Res.ok_bind]
    exact ih _
  | _ => intro st; exact ⟨_, rfl⟩

theorem doUO_total {P : Prog} (hp : Proper P) {r : Option Nat} {d : Nat} {l e : Expr} (st : St) (os : List Nat)
    (ha : At P (.assign d l e) r) : ∃ x, doUO P r d os st l = .ok x := by
  rcases hp.lhs ha with ⟨i, lt, x, rfl⟩ | ⟨lt, a, rfl⟩ | ⟨i, lt, f, w, rfl⟩
  · simp only [doUO]
    split
    · exact ⟨_, rfl⟩
    · split
      · next hs =>
        cases r with
        | none => exact absurd rfl (hp.shared ha hs)
        | some r => exact ⟨_, rfl⟩
      · next hs =>
        rcases hp.syntactic ha with h | h
        · rw [if_neg (by simp [h])]; exact ⟨_, rfl⟩
        · exact absurd h hs
  · exact ⟨_, rfl⟩
  · obtain ⟨y, hy⟩ := doOU_total hp w [⟨i, some f, some d⟩] st (.lhsObj ha)
    simp only [doUO, hy, Res.ok_bind]
    exact ⟨_, rfl⟩

theorem computeOU_total {P : Prog} (hp : Proper P) : ∀ (n : Node) (r : Option Nat) (st : St), At P n r →
    ∃ x, computeOU P r n st = .ok x := by
  intro n
  induction n with
  | skip => intro r st ha; exact ⟨_, rfl⟩
  | seq a b iha ihb =>
    intro r st ha
    obtain ⟨s, hs⟩ := iha r st (occurs_trans ha (.seqL (.here _ _)))
    simp only [computeOU, hs, Res.ok_bind]
    exact ihb r s (occurs_trans ha (.seqR (.here _ _)))
  | value d k init =>
    intro r st ha
    cases init with
    | none => exact ⟨_, rfl⟩
    | some e =>
      obtain ⟨s, hs⟩ := doOU_total hp e (st.U d) st (.init ha)
      simp only [computeOU, hs, Res.ok_bind]
      exact visitE_total hp _ (.init ha)
  | attr d init =>
    intro r st ha
    cases init with
    | none => exact ⟨_, rfl⟩
    | some e => exact visitE_total hp _ (.dflt ha)
  | expr e => intro r st ha; exact visitE_total hp _ (.expr ha)
  | assign d l e =>
    intro r st ha
    obtain ⟨s, hs⟩ := doOU_total hp e (st.U d) st (.rhs ha)
    obtain ⟨t, ht⟩ := doUO_total hp (addO d s.1 s.2) ((addO d s.1 s.2).O d) ha
    simp only [computeOU, hs, Res.ok_bind, ht]
    exact ⟨_, rfl⟩
  | ifs c t e iht ihe =>
    intro r st ha
    obtain ⟨s, hs⟩ := visitE_total hp st (.test ha)
    obtain ⟨s2, hs2⟩ := iht r s (occurs_trans ha (.ifT (.here _ _)))
    simp only [computeOU, hs, Res.ok_bind, hs2]
    exact ihe r s2 (occurs_trans ha (.ifE (.here _ _)))
  | forIn f q b ihb =>
    intro r st ha
    obtain ⟨s, hs⟩ := doOU_total hp q [] st (.loop ha)
    obtain ⟨s2, hs2⟩ := doOU_total hp q ((addO f s.1 s.2).U f) (addO f s.1 s.2) (.loop ha)
    obtain ⟨s3, hs3⟩ := visitE_total hp s2.2 (.loop ha)
    simp only [computeOU, hs, Res.ok_bind, hs2, hs3]
    exact ihb r s3 (occurs_trans ha (.loop (.here _ _)))
  | cases e ms d ihm ihd =>
    intro r st ha
    obtain ⟨s, hs⟩ := doOU_total hp e [] st (.case ha)
    obtain ⟨s2, hs2⟩ := casePats_total hp (os := s.1) (.case ha) ms s.2
    obtain ⟨s3, hs3⟩ := visitE_total hp s2 (.case ha)
    obtain ⟨s4, hs4⟩ := ihm r s3 (occurs_trans ha (.caseM (.here _ _)))
    simp only [computeOU, hs, Res.ok_bind, hs2, hs3, hs4]
    exact ihd r s4 (occurs_trans ha (.caseD (.here _ _)))
  | mtch p b n ihb ihn =>
    intro r st ha
    obtain ⟨s, hs⟩ := visitEs_total hp p.conds st (fun e he => .condM ha ((mem_conds p e).1 he))
    obtain ⟨s2, hs2⟩ := ihb r s (occurs_trans ha (.matchB (.here _ _)))
    simp only [computeOU, hs, Res.ok_bind, hs2]
    exact ihn r s2 (occurs_trans ha (.matchN (.here _ _)))
  | rule si ks p b ihb =>
    intro r st ha
    obtain ⟨s, hs⟩ := visitEs_total hp p.conds (ruleKids si ks st) (fun e he => .condR ha ((mem_conds p e).1 he))
    simp only [computeOU, hs, Res.ok_bind]
    exact ihb (some si) s (occurs_trans ha (.rule (.here _ _)))
  | func si b ihb => intro r st ha; exact ihb (some si) st (occurs_trans ha (.func (.here _ _)))

theorem pass_total {P : Prog} (hp : Proper P) (st : St) : ∃ x, pass P st = .ok x := by
  obtain ⟨s, hs⟩ := computeOU_total hp P.body none { st with done := true } (.here _ _)
  unfold pass
  rw [hs]
  exact ⟨_, rfl⟩

end Aps.Points
