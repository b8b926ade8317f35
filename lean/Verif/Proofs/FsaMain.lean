import Verif.Proofs.FsaCount
set_option linter.unusedVariables false
/-!
# The automaton contains the fibers
-/
namespace Aps.Fsa
open Aps.Points (Prog Expr Pat Use Called RO)
open Aps.Points.Spec Aps.Fsa.Spec
open Aps.Dfa (Lab Edge addNode)
open Aps.Dfa.Spec (Acc)

theorem flow_reaches {P : Prog} {x y : Loc} (h : Reaches P x y) (b : Bool) : Flow P b x y := by
  induction h generalizing b with
  | refl => exact .refl _ _
  | step _ e ih => exact .step (ih b) e (by cases b <;> rfl)
  | field _ ho _ _ hu i1 i2 i3 => exact .field (i1 b) ho (i2 true) (i3 false) hu (.inr rfl)

theorem reaches_trans {P : Prog} {x y z : Loc} (h1 : Reaches P x y) (h2 : Reaches P y z) : Reaches P x z := by
  induction h2 with
  | refl => exact h1
  | step _ e ih => exact .step (ih h1) e
  | field _ ho h3 h4 hu i1 i2 i3 => exact .field (i1 h1) ho h3 h4 hu

/-! ## the sets do not change any more -/

theorem addU_nil (d : Nat) (st : Points.St) : Points.addU d [] st = st := by
  unfold Points.addU Points.union
  by_cases h : st.U d = [] <;> simp [h]

theorem readUses_nil {f : Nat} : ∀ (qs : List Use) (acc : List Nat) (st : Points.St), (Points.readUses f [] qs acc st).2 = st
  | [], acc, st => rfl
  | q :: qs, acc, st => by
    rw [Points.readUses]
    cases q.lhsOf with
    | none => exact readUses_nil qs acc st
    | some a =>
      simp only
      split
      · rw [addU_nil]; exact readUses_nil qs _ st
      · exact readUses_nil qs acc st

theorem readObjs_nil {f : Nat} : ∀ (os acc : List Nat) (st : Points.St), (Points.readObjs f [] os acc st).2 = st
  | [], acc, st => rfl
  | o :: os, acc, st => by
    rw [Points.readObjs, readUses_nil]
    exact readObjs_nil os _ st

theorem cut_nil {α : Type} (lt : Bool) : Points.cut lt ([] : List α) = [] := by cases lt <;> rfl

mutual
/-- The calls while the automaton is built change no set. -/
theorem called_nil {P : Prog} {st : Points.St} (hd : st.done = true) {r : Option Nat} : ∀ (e : Expr) (us : List Use) (os : List Nat),
    Called P st r e us os → ∃ os', Called P st r e [] os'
  | .const, us, os, h => ⟨[], by unfold Called; simp only [Points.doOU]⟩
  | .other, us, os, h => ⟨[], by unfold Called; simp only [Points.doOU]⟩
  | .rep lt e, us, os, h => by
    obtain ⟨os', h'⟩ := called_nil hd e _ _ (Points.called_rep hd h)
    refine ⟨os', ?_⟩
    unfold Called at h' ⊢
    simp only [Points.doOU, cut_nil]
    exact h'
  | .use i lt d, us, os, h => by
    unfold Called
    simp only [Points.doOU]
    by_cases hl : P.isLocal d = false
    · rw [if_pos hl]; exact ⟨_, rfl⟩
    · rw [if_neg hl]
      have hl' : P.isLocal d = true := by simpa using hl
      obtain ⟨-, h2, h3⟩ := Points.called_use hd h hl'
      rw [h2, cut_nil, addU_nil]
      exact ⟨_, rfl⟩
  | .attrRef lt a, us, os, h => by
    unfold Called
    simp only [Points.doOU, cut_nil, addU_nil]
    exact ⟨_, rfl⟩
  | .fieldRef i lt f w, us, os, h => by
    obtain ⟨ow, h1, -⟩ := Points.called_field hd h
    unfold Called at h1 ⊢
    simp only [Points.doOU, h1, Res.ok_bind, cut_nil]
    refine ⟨(Points.readObjs f [] ow [] st).1, ?_⟩
    rw [Res.ok.injEq]
    exact Prod.ext rfl (readObjs_nil _ _ _)
  | .call lt g as, us, os, h => by
    obtain ⟨-, h2, h3, -⟩ := Points.called_call hd h
    unfold Called
    simp only [Points.doOU, h2, h3, Res.ok_bind, cut_nil, addU_nil]
    exact ⟨_, rfl⟩
  | .prim lt as, us, os, h => by
    unfold Called at h ⊢
    simp only [Points.doOU] at h ⊢
    rw [cut_nil]
    exact calleds_nil hd as _ _ os h []
theorem calleds_nil {P : Prog} {st : Points.St} (hd : st.done = true) {r : Option Nat} : ∀ (as : List Expr) (us : List Use)
    (acc os : List Nat), Points.doPrims P r as us acc st = .ok (os, st) → ∀ acc', ∃ os', Points.doPrims P r as [] acc' st = .ok (os', st)
  | [], us, acc, os, h, acc' => ⟨acc', by simp only [Points.doPrims]⟩
  | a :: as, us, acc, os, h, acc' => by
    simp only [Points.doPrims] at h
    obtain ⟨⟨o1, st1⟩, hw, hr⟩ := Res.bind_eq_ok.1 h
    have e := Points.Mon.mid hd (Points.doOU_mon a _ _ _ _ hw) (Points.doPrims_mon _ _ _ _ _ _ hr).1
    rw [e] at hw hr
    obtain ⟨o2, h2⟩ := called_nil hd a us o1 hw
    unfold Called at h2
    obtain ⟨o3, h3⟩ := calleds_nil hd as us _ os hr (Points.union acc' o2)
    refine ⟨o3, ?_⟩
    simp only [Points.doPrims, h2, Res.ok_bind]
    exact h3
end

/-! ## patterns -/

mutual
theorem linkPat_var {C : Env} : ∀ (p : Pat) (v : Nat) (k : Bool), HasVar p v k → C.num.decl v ≠ 0 → C.num.decl v + 1 ∈ linkPat C p
  | .other, v, k, h, hv => by cases h
  | .none, v, k, h, hv => by cases h
  | .cond _, v, k, h, hv => by cases h
  | .and lt p q, v, k, h, hv => by
    simp only [linkPat, mem_nunion]
    cases h with
    | andL h => exact .inl (linkPat_var p v _ h hv)
    | andR h => exact .inr (linkPat_var q v _ h hv)
  | .var lt d, v, k, h, hv => by
    cases h
    simp only [linkPat, if_neg hv]
    rw [setOf_ge (by omega)]
    exact List.mem_cons_self ..
  | .rest lt p, v, k, h, hv => by
    cases h with
    | rest h => simp only [linkPat]; exact linkPat_var p v _ h hv
  | .call lt ps, v, k, h, hv => by
    cases h with
    | call hp h => simp only [linkPat]; exact linkPats_var ps _ hp v _ h hv []
theorem linkPats_var {C : Env} : ∀ (ps : List Pat) (p : Pat), p ∈ ps → ∀ (v : Nat) (k : Bool), HasVar p v k → C.num.decl v ≠ 0 →
    ∀ acc, C.num.decl v + 1 ∈ linkPats C ps acc
  | [], p, hp, v, k, h, hv, acc => by cases hp
  | q :: ps, p, hp, v, k, h, hv, acc => by
    simp only [linkPats]
    rcases List.mem_cons.1 hp with e | hp
    · exact linkPats_acc ps _ _ (mem_nunion.2 (.inr (linkPat_var q v k (e ▸ h) hv)))
    · exact linkPats_var ps p hp v k h hv _
theorem linkPats_acc {C : Env} : ∀ (ps : List Pat) (acc : List Nat) (n : Nat), n ∈ acc → n ∈ linkPats C ps acc
  | [], acc, n, h => by simpa only [linkPats] using h
  | q :: ps, acc, n, h => by
    simp only [linkPats]
    exact linkPats_acc ps _ n (mem_nunion.2 (.inl h))
end

/-- everything about one run -/
structure Setup (C : Env) (items : List Item) (E : List Edge) (B : Nat) : Prop where
  hd : C.st.done = true
  hp : Points.pass C.P C.st = .ok C.st
  hok : Points.Ok C.P B C.st
  alone : Alone C.P
  num : C.num = count C.st items Num.zero
  made : Made C E none C.P.body
  decl : ∀ x ∈ declEdges C items, x ∈ E
  module : ∀ x ∈ moduleEdges C, x ∈ E
  plain : PlainTargets C.P
  listed : Listed C.P C.fieldsOf items

section main
variable {C : Env} {items : List Item} {E : List Edge} {B : Nat} (S : Setup C items E B)
include S

theorem Setup.numOk : NumOk C.num := by rw [S.num]; exact (count_ok items numOk_zero).1

theorem Setup.at {m : Points.Node} {r : Option Nat} (h : At C.P m r) : Made C E r m := made_occurs h S.made

theorem Setup.used {d : Nat} {z : Loc} {u : Use} (h : Reaches C.P (.decl d) z) (hu : UseAt C.P z u) : u ∈ C.st.U d :=
  Points.used_fix S.hd S.hp S.hok S.alone ⟨z, flow_reaches h false, hu⟩

theorem Setup.holds {d o : Nat} (ho : Obj C.P o) (h : Reaches C.P (.decl o) (.decl d)) : o ∈ C.st.O d :=
  Points.holds_fix S.hd S.hp S.hok S.alone ⟨ho, flow_reaches h true⟩

theorem Setup.ro {e : Expr} {o : Nat} (ho : Obj C.P o) (h : Reaches C.P (.decl o) (.expr e)) : RO C.P C.st e o :=
  (Points.flow_fix S.hd S.hp S.hok S.alone (flow_reaches h true)).1 rfl o (S.hok.own o ho)

theorem Setup.idO {d o : Nat} (h : o ∈ C.st.O d) : C.num.decl d ≠ 0 := by
  obtain ⟨k, hk⟩ := S.listed.decls (.inl ⟨o, S.hok.holds d o h⟩)
  rw [S.num]
  exact (count_ok items numOk_zero).2.2.2.1 d k hk (.inl fun e => by rw [e] at h; cases h)

theorem Setup.idU {d : Nat} {u : Use} (h : u ∈ C.st.U d) : C.num.decl d ≠ 0 := by
  obtain ⟨k, hk⟩ := S.listed.decls (.inr ⟨u, S.hok.used d u h⟩)
  rw [S.num]
  exact (count_ok items numOk_zero).2.2.2.1 d k hk (.inr (.inl fun e => by rw [e] at h; cases h))

theorem Setup.idF {d : Nat} (h : .decl d true ∈ items) : C.num.decl d ≠ 0 := by
  rw [S.num]
  exact (count_ok items numOk_zero).2.2.2.1 d true h (.inr (.inr rfl))

theorem Setup.idE {i : Nat} (h : .use i ∈ items) : C.num.expr i ≠ 0 := by
  rw [S.num]
  exact (count_ok items numOk_zero).2.2.2.2.2 i h

omit S in
theorem declEdges_mem : ∀ (its : List Item) (d : Nat) (k : Bool), .decl d k ∈ its →
    (∀ o ∈ C.st.O d, ⟨C.num.decl d, C.num.decl o, none⟩ ∈ declEdges C its) ∧
      ∀ u ∈ C.st.U d, ⟨C.num.decl d + 1, C.num.expr u.id + 1, none⟩ ∈ declEdges C its
  | [], d, k, h => by cases h
  | .use i :: its, d, k, h => by
    rcases List.mem_cons.1 h with e | h
    · cases e
    · simp only [declEdges]; exact declEdges_mem its d k h
  | .decl d' k' :: its, d, k, h => by
    simp only [declEdges]
    rcases List.mem_cons.1 h with e | h
    · cases e
      exact ⟨fun o ho => List.mem_append_left _ (List.mem_append_left _ (List.mem_map.2 ⟨o, ho, rfl⟩)),
        fun u hu => List.mem_append_left _ (List.mem_append_right _ (List.mem_map.2 ⟨u, hu, rfl⟩))⟩
    · have := declEdges_mem its d k h
      exact ⟨fun o ho => List.mem_append_right _ (this.1 o ho), fun u hu => List.mem_append_right _ (this.2 u hu)⟩

theorem Setup.edgeO {d o : Nat} (h : o ∈ C.st.O d) : ⟨C.num.decl d, C.num.decl o, none⟩ ∈ E := by
  obtain ⟨k, hk⟩ := S.listed.decls (.inl ⟨o, S.hok.holds d o h⟩)
  exact S.decl _ ((declEdges_mem items d k hk).1 o h)

theorem Setup.edgeU {d : Nat} {u : Use} (h : u ∈ C.st.U d) : ⟨C.num.decl d + 1, C.num.expr u.id + 1, none⟩ ∈ E := by
  obtain ⟨k, hk⟩ := S.listed.decls (.inr ⟨u, S.hok.used d u h⟩)
  exact S.decl _ ((declEdges_mem items d k hk).2 u h)

theorem Setup.edgeObj {o : Nat} {u : Use} (ho : Obj C.P o) (h : u ∈ C.st.U o) : ⟨C.num.decl o, C.num.expr u.id, none⟩ ∈ E := by
  rcases ho with rfl | ⟨init, r, ha⟩
  · exact S.module _ (List.mem_map.2 ⟨u, h, rfl⟩)
  · exact (made_value (S.at ha)).1 rfl _ (List.mem_append_right _ (List.mem_map.2 ⟨u, h, rfl⟩))

theorem Setup.final {d : Nat} : ∃ n ∈ setOf (C.num.decl d + 1), n ∈ omegaOf C.num := by
  by_cases h : C.num.decl d = 0
  · refine ⟨3, by simp [h, setOf, dfltNode], (mem_omegaOf S.numOk).2 (.inr (.inl rfl))⟩
  · refine ⟨C.num.decl d + 1, ?_, (mem_omegaOf S.numOk).2 (.inr (.inr ⟨d, h, .inr rfl⟩))⟩
    rw [setOf_ge (by omega)]; exact List.mem_cons_self ..

theorem Setup.final0 {d : Nat} : ∃ n ∈ setOf (C.num.decl d), n ∈ omegaOf C.num := by
  by_cases h : C.num.decl d = 0
  · refine ⟨2, by simp [h, setOf, dfltNode], (mem_omegaOf S.numOk).2 (.inl rfl)⟩
  · refine ⟨C.num.decl d, ?_, (mem_omegaOf S.numOk).2 (.inr (.inr ⟨d, h, .inl rfl⟩))⟩
    rcases S.numOk.decl d with e | e
    · exact absurd e h
    · rw [setOf_ge (by omega)]; exact List.mem_cons_self ..

theorem Setup.dflt : dfltNode ∈ omegaOf C.num := (mem_omegaOf S.numOk).2 (.inl rfl)

omit S in
theorem linkLhs_own {a i lt x ns M E'} {r : Option Nat} (hx : OwnVar C.P r x)
    (h : linkLhs C r a (.use i lt x) ns = .ok (M, E')) : M = setOf (C.num.decl x + 1) := by
  simp only [linkLhs] at h
  rw [if_neg] at h
  · cases h; rfl
  · rintro ⟨h1, h2, h3⟩
    rw [hx h1 h2] at h3
    cases h3

/-- every expression that is evaluated is linked, but for the objects of assigned fields -/
theorem Setup.exprAt {r : Option Nat} {e : Expr} (h : ExprAt C.P r e) :
    (∃ ns, Link C E r e ns) ∨ (∃ j l x, e = .use j l x ∧ OwnVar C.P r x) ∨ ∃ l b, e = .attrRef l b := by
  induction h with
  | init h => exact .inl ⟨_, (made_value (S.at h)).2.2.1 _ rfl⟩
  | dflt h => exact .inl ⟨_, made_attr (S.at h)⟩
  | expr h => exact .inl ⟨_, made_expr (S.at h)⟩
  | rhs h =>
    obtain ⟨M, E1, N, E2, L, E3, h1, h2, h3, h4, h5⟩ := made_assign (S.at h)
    exact .inl ⟨M, N, E2, h2, h4⟩
  | lhsObj h => exact .inr (S.plain _ _ _ _ _ _ _ h)
  | test h => exact .inl ⟨_, made_if (S.at h)⟩
  | loop h => exact .inl ⟨_, (made_for (S.at h)).1⟩
  | case h => exact .inl ⟨_, (made_case (S.at h)).1⟩
  | condM h hc => exact .inl ⟨_, made_match (S.at h) _ ((Points.mem_conds _ _).2 hc)⟩
  | condR h hc => exact .inl ⟨_, made_rule (S.at h) _ ((Points.mem_conds _ _).2 hc)⟩
  | rep h ih =>
    rcases ih with ⟨ns, h⟩ | ⟨_, _, _, e, _⟩ | ⟨_, _, e⟩
    · exact .inl ⟨_, link_rep h⟩
    · cases e
    · cases e
  | obj h ih =>
    rcases ih with ⟨ns, h⟩ | ⟨_, _, _, e, _⟩ | ⟨_, _, e⟩
    · exact .inl ⟨_, (link_field h).1⟩
    · cases e
    · cases e
  | arg h ha ih =>
    rcases ih with ⟨ns, h⟩ | ⟨_, _, _, e, _⟩ | ⟨_, _, e⟩
    · obtain ⟨k, hk⟩ := List.mem_iff_getElem?.1 ha
      obtain ⟨f, -, h⟩ := link_call h hk
      exact .inl ⟨_, h⟩
    · cases e
    · cases e
  | prim h ha ih =>
    rcases ih with ⟨ns, h⟩ | ⟨_, _, _, e, _⟩ | ⟨_, _, e⟩
    · exact .inl ⟨_, link_prim h ha⟩
    · cases e
    · cases e

theorem Setup.kept {r : Option Nat} {e : Expr} (h : Kept C.P r e) :
    ∃ ns n, Link C E r e ns ∧ n ∈ ns ∧ n ∈ omegaOf C.num := by
  have D := S.dflt
  have one : dfltNode ∈ [dfltNode] := List.mem_cons_self ..
  induction h with
  | init h => exact ⟨_, _, (made_value (S.at h)).2.2.1 _ rfl, one, D⟩
  | dflt h => exact ⟨_, _, made_attr (S.at h), one, D⟩
  | expr h => exact ⟨_, _, made_expr (S.at h), one, D⟩
  | @rhs a i lt x e r h hx =>
    obtain ⟨M, E1, N, E2, L, E3, h1, h2, h3, h4, h5⟩ := made_assign (S.at h)
    rw [linkLhs_own hx h1] at h2
    obtain ⟨n, h6, h7⟩ := S.final (d := x)
    exact ⟨_, n, ⟨N, E2, h2, h4⟩, h6, h7⟩
  | @rhsAttr a lt b e r h =>
    obtain ⟨M, E1, N, E2, L, E3, h1, h2, h3, h4, h5⟩ := made_assign (S.at h)
    simp only [linkLhs, Res.ok.injEq, Prod.mk.injEq] at h1
    rw [← h1.1] at h2
    obtain ⟨n, h6, h7⟩ := S.final (d := b)
    exact ⟨_, n, ⟨N, E2, h2, h4⟩, h6, h7⟩
  | test h => exact ⟨_, _, made_if (S.at h), one, D⟩
  | loop h => exact ⟨_, _, (made_for (S.at h)).1, one, D⟩
  | case h => exact ⟨_, _, (made_case (S.at h)).1, one, D⟩
  | condM h hc => exact ⟨_, _, made_match (S.at h) _ ((Points.mem_conds _ _).2 hc), one, D⟩
  | condR h hc => exact ⟨_, _, made_rule (S.at h) _ ((Points.mem_conds _ _).2 hc), one, D⟩
  | arg h ha =>
    rcases S.exprAt h with ⟨ns, h⟩ | ⟨_, _, _, e, _⟩ | ⟨_, _, e⟩
    · obtain ⟨k, hk⟩ := List.mem_iff_getElem?.1 ha
      obtain ⟨f, -, h⟩ := link_call h hk
      obtain ⟨n, h6, h7⟩ := S.final (d := f)
      exact ⟨_, n, h, h6, h7⟩
    · cases e
    · cases e
  | @rep lt e r h ih =>
    obtain ⟨ns, n, h1, h2, h3⟩ := ih
    cases lt with
    | true => exact ⟨ns, n, link_rep h1, h2, h3⟩
    | false => exact ⟨_, _, link_rep h1, one, D⟩
  | @prim lt as a r h ha ih =>
    obtain ⟨ns, n, h1, h2, h3⟩ := ih
    cases lt with
    | true => exact ⟨ns, n, link_prim h1 ha, h2, h3⟩
    | false => exact ⟨_, _, link_prim h1 ha, one, D⟩
  | repFlat h =>
    rcases S.exprAt h with ⟨ns, h⟩ | ⟨_, _, _, e, _⟩ | ⟨_, _, e⟩
    · exact ⟨_, _, link_rep h, one, D⟩
    · cases e
    · cases e
  | primFlat h ha =>
    rcases S.exprAt h with ⟨ns, h⟩ | ⟨_, _, _, e, _⟩ | ⟨_, _, e⟩
    · exact ⟨_, _, link_prim h ha, one, D⟩
    · cases e
    · cases e

theorem Setup.goes {r : Option Nat} {e : Expr} {d : Nat} (h : Goes C.P r e d) (hd : C.num.decl d ≠ 0) :
    ∃ ns, Link C E r e ns ∧ C.num.decl d + 1 ∈ ns := by
  have one : C.num.decl d + 1 ∈ setOf (C.num.decl d + 1) := by rw [setOf_ge (by omega)]; exact List.mem_cons_self ..
  induction h with
  | init h => exact ⟨_, (made_value (S.at h)).2.2.2 rfl _ rfl, one⟩
  | @rhs a i x e r h hl hx =>
    obtain ⟨M, E1, N, E2, L, E3, h1, h2, h3, h4, h5⟩ := made_assign (S.at h)
    rw [linkLhs_own hx h1] at h2
    exact ⟨_, ⟨N, E2, h2, h4⟩, one⟩
  | @rhsAttr a b e r h =>
    obtain ⟨M, E1, N, E2, L, E3, h1, h2, h3, h4, h5⟩ := made_assign (S.at h)
    simp only [linkLhs, Res.ok.injEq, Prod.mk.injEq] at h1
    rw [← h1.1] at h2
    exact ⟨_, ⟨N, E2, h2, h4⟩, one⟩
  | @loop f s b r h =>
    refine ⟨_, (made_for (S.at h)).2, ?_⟩
    unfold formalNodes
    rw [if_pos (by omega)]
    exact one
  | case h hm hv => exact ⟨_, (made_case (S.at h)).2 _ hm, linkPat_var _ _ _ hv hd⟩
  | @arg lt g as a r f i h ha hf =>
    rcases S.exprAt h with ⟨ns, h⟩ | ⟨_, _, _, e, _⟩ | ⟨_, _, e⟩
    · obtain ⟨f', hf', h⟩ := link_call h ha
      rw [hf] at hf'
      cases hf'
      exact ⟨_, h, one⟩
    · cases e
    · cases e
  | rep _ ih =>
    obtain ⟨ns, h1, h2⟩ := ih hd one
    exact ⟨ns, link_rep h1, h2⟩
  | prim _ ha ih =>
    obtain ⟨ns, h1, h2⟩ := ih hd one
    exact ⟨ns, link_prim h1 ha, h2⟩

/-! ## the value of an expression -/

omit S in
theorem linkPrims_acc {r : Option Nat} : ∀ (as : List Expr) (ns acc N : List Nat) (E' : List Edge),
    linkPrims C r as ns acc = .ok (N, E') → ∀ n ∈ acc, n ∈ N
  | [], ns, acc, N, E', h, n, hn => by simp only [linkPrims] at h; cases h; exact hn
  | a :: as, ns, acc, N, E', h, n, hn => by
    simp only [linkPrims] at h
    obtain ⟨⟨N1, E1⟩, h1, h⟩ := Res.bind_eq_ok.1 h
    obtain ⟨⟨N2, E2⟩, h2, h⟩ := Res.bind_eq_ok.1 h
    cases h
    exact linkPrims_acc as ns _ _ _ h2 n (mem_nunion.2 (.inl hn))

omit S in
theorem linkPrims_mem {r : Option Nat} : ∀ (as : List Expr) (ns acc N : List Nat) (E' : List Edge),
    linkPrims C r as ns acc = .ok (N, E') → ∀ a ∈ as, ∃ Na Ea, linkRhs C r a ns = .ok (Na, Ea) ∧ ∀ n ∈ Na, n ∈ N
  | [], ns, acc, N, E', h, a, ha => by cases ha
  | b :: as, ns, acc, N, E', h, a, ha => by
    simp only [linkPrims] at h
    obtain ⟨⟨N1, E1⟩, h1, h⟩ := Res.bind_eq_ok.1 h
    obtain ⟨⟨N2, E2⟩, h2, h⟩ := Res.bind_eq_ok.1 h
    cases h
    rcases List.mem_cons.1 ha with rfl | ha
    · exact ⟨N1, E1, h1, fun n hn => linkPrims_acc as ns _ _ _ h2 n (mem_nunion.2 (.inr hn))⟩
    · exact linkPrims_mem as ns _ _ _ h2 a ha

theorem Setup.covers {e : Expr} {o : Nat} (h : RO C.P C.st e o) : ∀ {r us os ns N E'}, Called C.P C.st r e us os →
    linkRhs C r e ns = .ok (N, E') → ∃ n ∈ N, n = C.num.decl o ∨ ⟨n, C.num.decl o, none⟩ ∈ E := by
  have two : ∀ {d}, o ∈ C.st.O d → ∃ n ∈ setOf (C.num.decl d), n = C.num.decl o ∨ ⟨n, C.num.decl o, none⟩ ∈ E := by
    intro d hd
    rcases S.numOk.decl d with e | e
    · exact absurd e (S.idO hd)
    · rw [setOf_ge (by omega)]
      exact ⟨_, List.mem_cons_self .., .inr (S.edgeO hd)⟩
  induction h with
  | rep _ ih =>
    intro r us os ns N E' hc hl
    simp only [linkRhs] at hl
    exact ih two (Points.called_rep S.hd hc) hl
  | @use i lt d o hl ho =>
    intro r us os ns N E' hc h
    simp only [linkRhs, if_pos hl] at h
    split at h
    · obtain ⟨⟨os2, st2⟩, h4, h⟩ := Res.bind_eq_ok.1 h
      cases h
      obtain ⟨os', hc'⟩ := called_nil S.hd _ _ _ hc
      have := Points.ro_sub S.hd (.use hl ho) hc'
      unfold Called at hc'
      rw [hc'] at h4
      cases h4
      exact ⟨_, mem_osetNodes.2 ⟨o, this, rfl⟩, .inl rfl⟩
    · cases h
      exact two ho
  | attrRef ho =>
    intro r us os ns N E' hc h
    simp only [linkRhs] at h
    cases h
    exact two ho
  | @field i lt f w o q a o' h1 hq hl hf ho ih =>
    intro r us os ns N E' hc h
    simp only [linkRhs] at h
    obtain ⟨x, h3, h⟩ := Res.bind_eq_ok.1 h
    obtain ⟨⟨os2, st2⟩, h4, h⟩ := Res.bind_eq_ok.1 h
    cases h
    obtain ⟨os', hc'⟩ := called_nil S.hd _ _ _ hc
    have := Points.ro_sub S.hd (.field h1 hq hl hf ho) hc'
    unfold Called at hc'
    rw [hc'] at h4
    cases h4
    exact ⟨_, mem_osetNodes.2 ⟨o', this, rfl⟩, .inl rfl⟩
  | call ho =>
    intro r us os ns N E' hc h
    simp only [linkRhs] at h
    obtain ⟨x, h3, h⟩ := Res.bind_eq_ok.1 h
    cases h
    exact two ho
  | prim ha _ ih =>
    intro r us os ns N E' hc h
    simp only [linkRhs] at h
    obtain ⟨oa, h1, -⟩ := Points.called_prim S.hd hc _ ha
    obtain ⟨Na, Ea, h2, h3⟩ := linkPrims_mem _ _ _ _ _ h _ ha
    obtain ⟨n, hn, h4⟩ := ih two h1 h2
    exact ⟨n, h3 n hn, h4⟩

theorem Setup.solid {r : Option Nat} {e : Expr} (h : Solid C.P r e) : ∀ {ns N E'}, linkRhs C r e ns = .ok (N, E') →
    ∃ n ∈ N, n ∈ omegaOf C.num := by
  induction h with
  | const =>
    intro ns N E' h
    simp only [linkRhs] at h
    cases h
    exact ⟨_, List.mem_cons_self .., S.dflt⟩
  | far hl =>
    intro ns N E' h
    simp only [linkRhs, hl, Bool.false_eq_true, if_false] at h
    cases h
    exact ⟨_, List.mem_cons_self .., S.dflt⟩
  | @var i lt d hx =>
    intro ns N E' h
    simp only [linkRhs] at h
    split at h
    · rename_i hl
      rw [if_neg] at h
      · cases h; exact S.final0
      · rintro ⟨h2, h3⟩
        rw [hx hl h2] at h3
        cases h3
    · cases h
      exact ⟨_, List.mem_cons_self .., S.dflt⟩
  | attr =>
    intro ns N E' h
    simp only [linkRhs] at h
    cases h
    exact S.final0
  | call =>
    intro ns N E' h
    simp only [linkRhs] at h
    obtain ⟨x, h3, h⟩ := Res.bind_eq_ok.1 h
    cases h
    exact S.final0
  | rep _ ih =>
    intro ns N E' h
    simp only [linkRhs] at h
    exact ih h
  | prim ha _ ih =>
    intro ns N E' h
    simp only [linkRhs] at h
    obtain ⟨Na, Ea, h2, h3⟩ := linkPrims_mem _ _ _ _ _ h _ ha
    obtain ⟨n, hn, h4⟩ := ih h2
    exact ⟨n, h3 n hn, h4⟩

/-! ## reads and writes -/

omit S in
theorem readAt_useAt {P : Prog} {r y i f lt e} (h : ReadAt P r y i f lt e) : UseAt P y ⟨i, some f, none⟩ := by
  cases h with
  | field h => exact .read h
  | shared h h1 h2 => exact .readShared h h1 h2

omit S in
theorem writeAt_useAt {P : Prog} {r y i f lt a e} (h : WriteAt P r y i f lt a e) : UseAt P y ⟨i, some f, some a⟩ := by
  cases h with
  | field h => exact .write h
  | shared h h1 h2 => exact .writeShared h h1 h2

omit S in
theorem read_edges {r y i f lt e ns n} (h : ReadAt C.P r y i f lt e) (hl : Link C E r e ns) (hn : n ∈ cutN lt ns) :
    ⟨C.num.expr i + 1, n, some ⟨f, false⟩⟩ ∈ E ∧ ⟨C.num.expr i, n, some ⟨f, true⟩⟩ ∈ E := by
  cases h with
  | field h => exact (link_field hl).2 n hn
  | shared h h1 h2 => exact link_shared hl h1 h2 rfl n hn

theorem Setup.readLink {r y i f lt e} (h : ReadAt C.P r y i f lt e) : ∃ ns, Link C E r e ns := by
  cases h with
  | field h =>
    rcases S.exprAt h with h | ⟨_, _, _, e, _⟩ | ⟨_, _, e⟩
    · exact h
    · cases e
    · cases e
  | shared h h1 h2 =>
    rcases S.exprAt h with h | ⟨_, _, _, e, hx⟩ | ⟨_, _, e⟩
    · exact h
    · cases e; exact absurd (hx h1 h2) (by simp)
    · cases e

theorem Setup.writeLink {r y i f lt a e} (h : WriteAt C.P r y i f lt a e) : (∃ os, Called C.P C.st r e (C.st.U a) os) ∧
    ∃ M N E2, linkRhs C r e M = .ok (N, E2) ∧ ∀ n ∈ cutN lt N,
      ⟨C.num.expr i + 1, n, some ⟨f, true⟩⟩ ∈ E ∧ ⟨C.num.expr i, n, some ⟨f, false⟩⟩ ∈ E := by
  cases h with
  | @field r a i lt f w e h =>
    refine ⟨?_, ?_⟩
    · obtain ⟨⟨os, h, -⟩, -⟩ := Points.assign_fix S.hd (Points.at_fix S.hd S.hp h)
      exact ⟨os, h⟩
    · obtain ⟨M, E1, N, E2, L, E3, h1, h2, h3, h4, h5⟩ := made_assign (S.at h)
      refine ⟨M, N, E2, h2, fun n hn => ?_⟩
      simp only [linkLhs] at h3
      obtain ⟨y, h6, h3⟩ := Res.bind_eq_ok.1 h3
      obtain ⟨x, h7, h3⟩ := Res.bind_eq_ok.1 h3
      cases h3
      have := mem_refEdges (q := C.num.expr i) (l := ⟨f, true⟩) hn
      exact ⟨h5 _ (List.mem_append_left _ this.1), h5 _ (List.mem_append_left _ this.2)⟩
  | @shared r _ _ _ _ _ h hl hs =>
    refine ⟨?_, ?_⟩
    · obtain ⟨⟨os, h, -⟩, -⟩ := Points.assign_fix S.hd (Points.at_fix S.hd S.hp h)
      exact ⟨os, h⟩
    · obtain ⟨M, E1, N, E2, L, E3, h1, h2, h3, h4, h5⟩ := made_assign (S.at h)
      refine ⟨M, N, E2, h2, fun n hn => ?_⟩
      simp only [linkLhs, if_pos (show C.P.isLocal f = true ∧ C.P.isShared f = true ∧ (some r).isSome = true from ⟨hl, hs, rfl⟩)] at h3
      obtain ⟨y, h7, h3⟩ := Res.bind_eq_ok.1 h3
      cases h3
      have := mem_refEdges (q := C.num.expr i) (l := ⟨f, true⟩) hn
      exact ⟨h5 _ this.1, h5 _ this.2⟩

end main

/-! ## acceptance -/

mutual
theorem after_acc {C : Env} {items : List Item} {E : List Edge} {B : Nat} (S : Setup C items E B) :
    ∀ {r lt e w}, After C.P C.fieldsOf r lt e w → ∀ {y i f}, ReadAt C.P r y i f lt e →
      ∃ n, ⟨C.num.expr i + 1, n, some ⟨f, false⟩⟩ ∈ E ∧ ⟨C.num.expr i, n, some ⟨f, true⟩⟩ ∈ E ∧ Acc E (omegaOf C.num) n w
  | r, lt, e, _, .kept h, y, i, f, hr => by
    cases lt with
    | false =>
      obtain ⟨ns, hl⟩ := S.readLink hr
      obtain ⟨h1, h2⟩ := read_edges hr hl (List.mem_cons_self ..)
      exact ⟨_, h1, h2, .fin S.dflt⟩
    | true =>
      rcases h with h | h
      · cases h
      · obtain ⟨ns, n, hl, hn, ho⟩ := S.kept h
        obtain ⟨h1, h2⟩ := read_edges hr hl hn
        exact ⟨n, h1, h2, .fin ho⟩
  | r, _, e, w, .goes (d := d) hg hz hd, y, i, f, hr => by
    obtain ⟨u, hu, ha⟩ := dem_acc S hd
    have hm := S.used hz hu
    obtain ⟨ns, hl, hn⟩ := S.goes hg (S.idU hm)
    obtain ⟨h1, h2⟩ := read_edges hr hl hn
    exact ⟨_, h1, h2, .eps (S.edgeU hm) ha⟩
  | r, _, e, _, .look (i := j) (g := g) hw he h, y, i, f, hr => by
    obtain ⟨n, h1, h2, h3⟩ := after_acc S h (.field he)
    obtain ⟨ns, hl⟩ := S.readLink (.field he)
    have hj := S.idE (S.listed.reads (.field he)).1
    have hl2 := link_within hw (link_field hl).1
    obtain ⟨h4, h5⟩ := read_edges (n := C.num.expr j + 1) hr hl2 (by
      rw [setOf_ge (by omega)]; exact List.mem_cons_self ..)
    exact ⟨_, h4, h5, .step h1 h3⟩
theorem given_acc {C : Env} {items : List Item} {E : List Edge} {B : Nat} (S : Setup C items E B) :
    ∀ {r lt e w}, Given C.P C.fieldsOf r lt e w → ∀ {y i f a}, WriteAt C.P r y i f lt a e →
      ∃ n, ⟨C.num.expr i + 1, n, some ⟨f, true⟩⟩ ∈ E ∧ ⟨C.num.expr i, n, some ⟨f, false⟩⟩ ∈ E ∧ Acc E (omegaOf C.num) n w
  | r, _, e, _, .flat, y, i, f, a, hr => by
    obtain ⟨-, M, N, E2, h1, h2⟩ := S.writeLink hr
    obtain ⟨h3, h4⟩ := h2 dfltNode (List.mem_cons_self ..)
    exact ⟨_, h3, h4, .fin S.dflt⟩
  | r, lt, e, _, .solid h, y, i, f, a, hr => by
    obtain ⟨-, M, N, E2, h1, h2⟩ := S.writeLink hr
    cases lt with
    | false =>
      obtain ⟨h3, h4⟩ := h2 dfltNode (List.mem_cons_self ..)
      exact ⟨_, h3, h4, .fin S.dflt⟩
    | true =>
      obtain ⟨n, hn, ho⟩ := S.solid h h1
      obtain ⟨h3, h4⟩ := h2 n hn
      exact ⟨_, h3, h4, .fin ho⟩
  | r, lt, e, _, .some (o := o) ho h, y, i, f, a, hr => by
    obtain ⟨⟨os, hc⟩, M, N, E2, h1, h2⟩ := S.writeLink hr
    cases lt with
    | false =>
      obtain ⟨h3, h4⟩ := h2 dfltNode (List.mem_cons_self ..)
      exact ⟨_, h3, h4, .fin S.dflt⟩
    | true =>
      obtain ⟨n, hn, hq⟩ := S.covers (S.ro ho h) hc h1
      obtain ⟨h3, h4⟩ := h2 n hn
      have hf : C.num.decl o ∈ omegaOf C.num :=
        (mem_omegaOf S.numOk).2 (.inr (.inr ⟨o, S.idO (S.hok.own o ho), .inl rfl⟩))
      rcases hq with rfl | hq
      · exact ⟨_, h3, h4, .fin hf⟩
      · exact ⟨_, h3, h4, .eps hq (.fin hf)⟩
  | r, _, e, w, .obj (o := o) ho h hh, y, i, f, a, hr => by
    obtain ⟨⟨os, hc⟩, M, N, E2, h1, h2⟩ := S.writeLink hr
    obtain ⟨n, hn, hq⟩ := S.covers (S.ro ho h) hc h1
    obtain ⟨h3, h4⟩ := h2 n hn
    have := has_acc S hh ho
    rcases hq with rfl | hq
    · exact ⟨_, h3, h4, this⟩
    · exact ⟨_, h3, h4, .eps hq this⟩
theorem dem_acc {C : Env} {items : List Item} {E : List Edge} {B : Nat} (S : Setup C items E B) :
    ∀ {y w}, Dem C.P C.fieldsOf y w → ∃ u, UseAt C.P y u ∧ Acc E (omegaOf C.num) (C.num.expr u.id + 1) w
  | y, _, .read hr h => by
    obtain ⟨n, h1, -, h3⟩ := after_acc S h hr
    exact ⟨_, readAt_useAt hr, .step h1 h3⟩
  | y, _, .write hr h => by
    obtain ⟨n, h1, -, h3⟩ := given_acc S h hr
    exact ⟨_, writeAt_useAt hr, .step h1 h3⟩
theorem has_acc {C : Env} {items : List Item} {E : List Edge} {B : Nat} (S : Setup C items E B) :
    ∀ {o w}, Has C.P C.fieldsOf o w → Obj C.P o → Acc E (omegaOf C.num) (C.num.decl o) w
  | o, _, .field (f := f) ha hf, ho => by
    have := (made_value (S.at ha)).1 rfl _ (List.mem_append_left _ (List.mem_map.2 ⟨f, hf, rfl⟩))
    exact .step this (.fin ((mem_omegaOf S.numOk).2 (.inr (.inr ⟨f, S.idF (S.listed.fields ha hf), .inl rfl⟩))))
  | o, _, .write hy hr h, ho => by
    obtain ⟨n, -, h2, h3⟩ := given_acc S h hr
    exact .eps (S.edgeObj ho (S.used hy (writeAt_useAt hr))) (.step h2 h3)
  | o, _, .read hy hr h, ho => by
    obtain ⟨n, -, h2, h3⟩ := after_acc S h hr
    exact .eps (S.edgeObj ho (S.used hy (readAt_useAt hr))) (.step h2 h3)
  | _, _, .global (v := v) (b := b) ha hs, ho => by
    have h := (made_value (S.at ha)).2.1
    simp only [sharedEdges, if_pos hs, List.mem_cons, List.not_mem_nil, or_false] at h
    cases b with
    | false =>
      exact .step (h _ (.inl rfl)) (.fin ((mem_omegaOf S.numOk).2 (.inr (.inr ⟨v, S.idF (S.listed.shared ha hs), .inl rfl⟩))))
    | true => exact .step (h _ (.inr (.inr rfl))) (.fin S.dflt)
  | _, _, .globalObj (v := v) ha hs ho hv hh, _ => by
    have h := (made_value (S.at ha)).2.1
    simp only [sharedEdges, if_pos hs, List.mem_cons, List.not_mem_nil, or_false] at h
    have := has_acc S hh ho
    exact .step (h _ (.inl rfl)) (.eps (S.edgeO (S.holds ho hv)) this)
end

theorem wants_acc {C : Env} {items : List Item} {E : List Edge} {B : Nat} (S : Setup C items E B) {x : Nat} {w : List Lab}
    (h : Wants C.P C.fieldsOf x w) : Acc E (omegaOf C.num) (C.num.decl x + 1) w := by
  cases h with
  | place hz hd =>
    obtain ⟨u, hu, ha⟩ := dem_acc S hd
    exact .eps (S.edgeU (S.used hz hu)) ha
  | global ha hs =>
    have h := (made_value (S.at ha)).2.1
    simp only [sharedEdges, if_pos hs, List.mem_cons, List.not_mem_nil, or_false] at h
    exact .step (h _ (.inr (.inl rfl)))
      (.fin ((mem_omegaOf S.numOk).2 (.inr (.inr ⟨_, S.idF (S.listed.shared ha hs), .inl rfl⟩))))
  | globalObj ha hs ho hv hh =>
    have h := (made_value (S.at ha)).2.1
    simp only [sharedEdges, if_pos hs, List.mem_cons, List.not_mem_nil, or_false] at h
    exact .step (h _ (.inr (.inl rfl))) (.eps (S.edgeO (S.holds ho hv)) (has_acc S hh ho))

theorem fiber_acc {C : Env} {items : List Item} {E : List Edge} {B : Nat} (S : Setup C items E B) {x : Nat} {w : List Lab}
    (h : Fiber C.P C.fieldsOf x w) :
    Acc E (omegaOf C.num) (C.num.decl x) w ∧ Acc E (omegaOf C.num) (C.num.decl x + 1) w := by
  obtain ⟨h1, o, ho, hr, hh⟩ := h
  exact ⟨.eps (S.edgeO (S.holds ho hr)) (has_acc S hh ho), wants_acc S h1⟩

end Aps.Fsa
