import Verif.Proofs.FsaRange
import Verif.Proofs.PointsCheck
set_option linter.unusedVariables false
/-!
# Deciding the hypotheses of the theorems for a given program
-/
namespace Aps.Fsa
open Aps.Points (Prog Expr Pat Use)
open Aps.Points.Spec Aps.Fsa.Spec

mutual
def subs : Expr → List Expr
  | .const => [.const]
  | .other => [.other]
  | .rep lt e => .rep lt e :: subs e
  | .use i lt d => [.use i lt d]
  | .attrRef lt a => [.attrRef lt a]
  | .fieldRef i lt f w => .fieldRef i lt f w :: subs w
  | .call lt g as => .call lt g as :: subsL as
  | .prim lt as => .prim lt as :: subsL as
def subsL : List Expr → List Expr
  | [] => []
  | a :: as => subs a ++ subsL as
end

theorem subs_self (e : Expr) : e ∈ subs e := by cases e <;> simp [subs]

theorem mem_subsL {x a : Expr} : ∀ {as : List Expr}, a ∈ as → x ∈ subs a → x ∈ subsL as
  | b :: as, h, hx => by
    simp only [subsL, List.mem_append]
    rcases List.mem_cons.1 h with rfl | h
    · exact .inl hx
    · exact .inr (mem_subsL h hx)

theorem subsL_mem {x : Expr} : ∀ {as : List Expr}, x ∈ subsL as → ∃ a ∈ as, x ∈ subs a
  | [], h => by simp [subsL] at h
  | b :: as, h => by
    simp only [subsL, List.mem_append] at h
    rcases h with h | h
    · exact ⟨b, List.mem_cons_self .., h⟩
    · obtain ⟨a, h1, h2⟩ := subsL_mem h
      exact ⟨a, List.mem_cons_of_mem _ h1, h2⟩

/-- a part of an expression -/
inductive Part : Expr → Expr → Prop
  | rep {lt e} : Part e (.rep lt e)
  | obj {i lt f w} : Part w (.fieldRef i lt f w)
  | arg {lt g as a} : a ∈ as → Part a (.call lt g as)
  | prim {lt as a} : a ∈ as → Part a (.prim lt as)

mutual
theorem part_subs {x y : Expr} (h : Part x y) : ∀ (e : Expr), y ∈ subs e → x ∈ subs e
  | .const, hy => by simp only [subs, List.mem_singleton] at hy; subst hy; cases h
  | .other, hy => by simp only [subs, List.mem_singleton] at hy; subst hy; cases h
  | .use _ _ _, hy => by simp only [subs, List.mem_singleton] at hy; subst hy; cases h
  | .attrRef _ _, hy => by simp only [subs, List.mem_singleton] at hy; subst hy; cases h
  | .rep lt e, hy => by
    simp only [subs, List.mem_cons] at hy ⊢
    rcases hy with hy | hy
    · rw [hy] at h; cases h; exact .inr (subs_self _)
    · exact .inr (part_subs h e hy)
  | .fieldRef i lt f w, hy => by
    simp only [subs, List.mem_cons] at hy ⊢
    rcases hy with hy | hy
    · rw [hy] at h; cases h; exact .inr (subs_self _)
    · exact .inr (part_subs h w hy)
  | .call lt g as, hy => by
    simp only [subs, List.mem_cons] at hy ⊢
    rcases hy with hy | hy
    · rw [hy] at h
      cases h with
      | arg ha => exact .inr (mem_subsL ha (subs_self _))
    · exact .inr (part_subsL h as hy)
  | .prim lt as, hy => by
    simp only [subs, List.mem_cons] at hy ⊢
    rcases hy with hy | hy
    · rw [hy] at h
      cases h with
      | prim ha => exact .inr (mem_subsL ha (subs_self _))
    · exact .inr (part_subsL h as hy)
theorem part_subsL {x y : Expr} (h : Part x y) : ∀ (es : List Expr), y ∈ subsL es → x ∈ subsL es
  | [], hy => by simp [subsL] at hy
  | e :: es, hy => by
    simp only [subsL, List.mem_append] at hy ⊢
    rcases hy with hy | hy
    · exact .inl (part_subs h e hy)
    · exact .inr (part_subsL h es hy)
end

/-- the nodes with their responsible node -/
def nodesOf : Option Nat → Points.Node → List (Option Nat × Points.Node)
  | r, .skip => [(r, .skip)]
  | r, .seq a b => (r, .seq a b) :: (nodesOf r a ++ nodesOf r b)
  | r, .value d k i => [(r, .value d k i)]
  | r, .attr d i => [(r, .attr d i)]
  | r, .expr e => [(r, .expr e)]
  | r, .assign d l e => [(r, .assign d l e)]
  | r, .ifs c t e => (r, .ifs c t e) :: (nodesOf r t ++ nodesOf r e)
  | r, .forIn f s b => (r, .forIn f s b) :: nodesOf r b
  | r, .cases e ms d => (r, .cases e ms d) :: (nodesOf r ms ++ nodesOf r d)
  | r, .mtch p b n => (r, .mtch p b n) :: (nodesOf r b ++ nodesOf r n)
  | r, .rule si ks p b => (r, .rule si ks p b) :: nodesOf (some si) b
  | r, .func si b => (r, .func si b) :: nodesOf (some si) b

theorem occurs_nodes {n m : Points.Node} {r r' : Option Nat} (h : Occurs n r m r') : (r', m) ∈ nodesOf r n := by
  induction h with
  | here n r => cases n <;> simp [nodesOf]
  | _ => simp_all [nodesOf]

/-- the expressions that a node evaluates itself -/
def own : Option Nat × Points.Node → List (Option Nat × Expr)
  | (r, .value _ _ (some e)) => [(r, e)]
  | (r, .attr _ (some e)) => [(r, e)]
  | (r, .expr e) => [(r, e)]
  | (r, .assign _ (.fieldRef _ _ _ w) e) => [(r, w), (r, e)]
  | (r, .assign _ _ e) => [(r, e)]
  | (r, .ifs c _ _) => [(r, c)]
  | (r, .forIn _ s _) => [(r, s)]
  | (r, .cases e _ _) => [(r, e)]
  | (r, .mtch p _ _) => p.conds.map fun e => (r, e)
  | (_, .rule si _ p _) => p.conds.map fun e => (some si, e)
  | _ => []

def exprsOf (P : Prog) : List (Option Nat × Expr) :=
  ((nodesOf none P.body).flatMap own).flatMap fun x => (subs x.2).map fun e => (x.1, e)

theorem at_nodes {P : Prog} {m : Points.Node} {r : Option Nat} (h : At P m r) : (r, m) ∈ nodesOf none P.body := occurs_nodes h

theorem own_exprs {P : Prog} {m : Points.Node} {r s : Option Nat} {e : Expr} (h : At P m r) (he : (s, e) ∈ own (r, m)) :
    (s, e) ∈ exprsOf P :=
  List.mem_flatMap.2 ⟨(s, e), List.mem_flatMap.2 ⟨_, at_nodes h, he⟩, List.mem_map.2 ⟨e, subs_self e, rfl⟩⟩

theorem part_exprs {P : Prog} {r : Option Nat} {x y : Expr} (h : (r, y) ∈ exprsOf P) (hp : Part x y) : (r, x) ∈ exprsOf P := by
  obtain ⟨⟨s, e⟩, h1, h2⟩ := List.mem_flatMap.1 h
  obtain ⟨z, h3, h4⟩ := List.mem_map.1 h2
  cases h4
  exact List.mem_flatMap.2 ⟨_, h1, List.mem_map.2 ⟨x, part_subs hp e h3, rfl⟩⟩

theorem expr_exprs {P : Prog} {r : Option Nat} {e : Expr} (h : ExprAt P r e) : (r, e) ∈ exprsOf P := by
  induction h with
  | init h => exact own_exprs h (by simp [own])
  | dflt h => exact own_exprs h (by simp [own])
  | expr h => exact own_exprs h (by simp [own])
  | @rhs d l e r h => exact own_exprs h (by cases l <;> simp [own])
  | lhsObj h => exact own_exprs h (by simp [own])
  | test h => exact own_exprs h (by simp [own])
  | loop h => exact own_exprs h (by simp [own])
  | case h => exact own_exprs h (by simp [own])
  | condM h hc => exact own_exprs h (by simp only [own]; exact List.mem_map.2 ⟨_, (Points.mem_conds _ _).2 hc, rfl⟩)
  | condR h hc => exact own_exprs h (by simp only [own]; exact List.mem_map.2 ⟨_, (Points.mem_conds _ _).2 hc, rfl⟩)
  | rep _ ih => exact part_exprs ih .rep
  | obj _ ih => exact part_exprs ih .obj
  | arg _ ha ih => exact part_exprs ih (.arg ha)
  | prim _ ha ih => exact part_exprs ih (.prim ha)

def isOwn (P : Prog) (r : Option Nat) (x : Nat) : Bool := !(P.isLocal x && P.isShared x && r.isSome)

theorem isOwn_own {P : Prog} {r : Option Nat} {x : Nat} (h : isOwn P r x = true) : OwnVar P r x := by
  intro h1 h2
  cases r with
  | none => rfl
  | some r => simp [isOwn, h1, h2] at h

/-- the object of an assigned field -/
def plainObj (P : Prog) : Option Nat × Points.Node → Bool
  | (r, .assign _ (.fieldRef _ _ _ w) _) => match w with
    | .use _ _ x => isOwn P r x
    | .attrRef _ _ => true
    | _ => false
  | _ => true

theorem plain_of_ok {P : Prog} (h : (nodesOf none P.body).all (plainObj P) = true) : PlainTargets P := by
  intro a i lt f w e r ha
  have := List.all_eq_true.1 h _ (at_nodes ha)
  simp only [plainObj] at this
  cases w with
  | use j l x => exact .inl ⟨j, l, x, rfl, isOwn_own this⟩
  | attrRef l b => exact .inr ⟨l, b, rfl⟩
  | _ => cases this

def readFields (P : Prog) : List Nat := (exprsOf P).filterMap fun x => match x.2 with | .fieldRef _ _ f _ => some f | _ => none
def writtenFields (P : Prog) : List Nat :=
  (nodesOf none P.body).filterMap fun x => match x.2 with | .assign _ (.fieldRef _ _ f _) _ => some f | _ => none
def usedVars (P : Prog) : List Nat := (exprsOf P).filterMap fun x => match x.2 with | .use _ _ d => some d | _ => none
def declVars (P : Prog) : List Nat := (nodesOf none P.body).filterMap fun x => match x.2 with | .value d _ _ => some d | _ => none

theorem apart_of_ok {P : Prog} (h1 : ∀ f ∈ readFields P, f ∉ usedVars P ∧ f ∉ declVars P)
    (h2 : ∀ f ∈ writtenFields P, f ∉ usedVars P) : Apart P where
  read h h' := (h1 _ (List.mem_filterMap.2 ⟨_, expr_exprs h, rfl⟩)).1 (List.mem_filterMap.2 ⟨_, expr_exprs h', rfl⟩)
  write h h' := h2 _ (List.mem_filterMap.2 ⟨_, at_nodes h, rfl⟩) (List.mem_filterMap.2 ⟨_, expr_exprs h', rfl⟩)
  value h h' := (h1 _ (List.mem_filterMap.2 ⟨_, expr_exprs h, rfl⟩)).2 (List.mem_filterMap.2 ⟨_, at_nodes h', rfl⟩)

/-- what must be listed for an expression -/
def readOk (P : Prog) (items : List Item) : Option Nat × Expr → Bool
  | (_, .fieldRef i _ f _) => decide (.use i ∈ items) && decide (.decl f true ∈ items)
  | (r, .use i _ d) => isOwn P r d || (decide (.use i ∈ items) && decide (.decl d true ∈ items))
  | _ => true

def nodeOk (P : Prog) (fo : Nat → List Nat) (items : List Item) : Option Nat × Points.Node → Bool
  | (_, .assign _ (.fieldRef i _ f _) _) => decide (.use i ∈ items) && decide (.decl f true ∈ items)
  | (r, .assign _ (.use i _ d) _) => isOwn P r d || (decide (.use i ∈ items) && decide (.decl d true ∈ items))
  | (_, .value d _ _) => (fo d).all (fun f => decide (.decl f true ∈ items)) && (!P.isShared d || decide (.decl d true ∈ items))
  | _ => true

def declOk (st : Points.St) (items : List Item) (d : Nat) : Bool :=
  (decide (st.O d = []) && decide (st.U d = [])) || decide (.decl d true ∈ items) || decide (.decl d false ∈ items)

theorem isOwn_some {P : Prog} {r d : Nat} (h1 : P.isLocal d = true) (h2 : P.isShared d = true) : isOwn P (some r) d = false := by
  simp [isOwn, h1, h2]

theorem listed_of_ok {P : Prog} {fo : Nat → List Nat} {items : List Item} {st : Points.St} {n : Nat} (ha : Alone P)
    (h : Points.analyze P n = .ok st) (h1 : (List.range (Points.bound P)).all (declOk st items) = true)
    (h2 : (exprsOf P).all (readOk P items) = true) (h3 : (nodesOf none P.body).all (nodeOk P fo items) = true) :
    Listed P fo items where
  decls := by
    intro d hd
    obtain ⟨hok, hdn, hp⟩ := Points.loop_fix (Points.bd P) n (Points.start P) st (Points.start_ok P) h
    have hne : ¬ (st.O d = [] ∧ st.U d = []) := by
      rintro ⟨e1, e2⟩
      rcases hd with ⟨o, ho⟩ | ⟨u, hu⟩
      · have := Points.holds_fix hdn hp hok ha ho
        rw [e1] at this; cases this
      · have := Points.used_fix hdn hp hok ha hu
        rw [e2] at this; cases this
    have hlt : d < Points.bound P := by
      by_contra hge
      exact hne ⟨hok.supO d (Nat.le_of_not_lt hge), hok.supU d (Nat.le_of_not_lt hge)⟩
    have := List.all_eq_true.1 h1 d (List.mem_range.2 hlt)
    simp only [declOk, Bool.or_eq_true, Bool.and_eq_true, decide_eq_true_eq] at this
    rcases this with (h | h) | h
    · exact absurd h hne
    · exact ⟨_, h⟩
    · exact ⟨_, h⟩
  fields := by
    intro o f init r h hf
    have := List.all_eq_true.1 h3 _ (at_nodes h)
    simp only [nodeOk, Bool.and_eq_true] at this
    simpa using List.all_eq_true.1 this.1 f hf
  reads := by
    intro r y i f lt e h
    cases h with
    | field h =>
      have := List.all_eq_true.1 h2 _ (expr_exprs h)
      simpa [readOk] using this
    | shared h a b =>
      have := List.all_eq_true.1 h2 _ (expr_exprs h)
      simp only [readOk, isOwn_some a b] at this
      simpa using this
  writes := by
    intro r y i f lt a e h
    cases h with
    | field h =>
      have := List.all_eq_true.1 h3 _ (at_nodes h)
      simpa [nodeOk] using this
    | shared h a b =>
      have := List.all_eq_true.1 h3 _ (at_nodes h)
      simp only [nodeOk, isOwn_some a b] at this
      simpa using this
  shared := by
    intro v k init r h hs
    have := List.all_eq_true.1 h3 _ (at_nodes h)
    simp only [nodeOk, hs, Bool.and_eq_true] at this
    simpa using this.2

end Aps.Fsa
