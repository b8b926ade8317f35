import Verif.Proofs.Rule
/-!
# C98: parents, and the parts of a rule

`setTnodeParent`: what the binder does first with a program.  `matchLhsDecl`, `matchConstructorUse`, `rhsDecls`: how the
analysis takes a rule `match ?x : T = c(?a, …, ?z)` apart.
-/
namespace Aps.Props
open Aps.Ast Aps.Rule

/-! An example: `match ?x = c(?y,?z) begin end` in a program. -/

def ruVar (a : Nat) (n : Char) : Val :=
  .node a (opNum .pattern_var) 1 [.node (a + 1) (opNum .normal_formal) 1
    [.node (a + 2) (opNum .def) 1 [.sym [n], .bool true, .bool false], .node (a + 3) (opNum .no_type) 1 []]]

def ruUse : Val := .node 30 (opNum .use) 1 [.sym ['c']]

def ruSeq : Val := .node 31 (opNum .append_PatternActuals) 1 [
  .node 32 (opNum .append_PatternActuals) 1 [.node 33 (opNum .nil_PatternActuals) 1 [],
    .node 34 (opNum .list_PatternActuals) 1 [ruVar 50 'y']],
  .node 35 (opNum .list_PatternActuals) 1 [ruVar 60 'z']]

def ruFun : Val := .node 36 (opNum .pattern_use) 1 [ruUse]
def ruCall : Val := .node 37 (opNum .pattern_call) 1 [ruFun, ruSeq]
def ruPat : Val := .node 38 (opNum .and_pattern) 1 [ruVar 40 'x', ruCall]
def ruBody : Val := .node 39 (opNum .block) 1 [.node 29 (opNum .nil_Declarations) 1 []]
def ruMatch : Val := .node 28 (opNum .matcher) 1 [ruPat, ruBody]

def ruProg : Val := .node 20 (opNum .program) 1 [.str ['p'], .node 21 (opNum .list_Units) 1 [
  .node 22 (opNum .decl_unit) 1 [.node 23 (opNum .top_level_match) 1 [ruMatch]]]]

theorem ruVar_conforms (a : Nat) (n : Char) : Conforms (.ph .Pattern) (ruVar a n) :=
  conforms_node.2 ⟨.pattern_var, rfl, rfl, .cons (conforms_node.2 ⟨.normal_formal, rfl, rfl,
    .cons (conforms_node.2 ⟨.def, rfl, rfl, .cons trivial (.cons trivial (.cons trivial .nil))⟩)
      (.cons (conforms_node.2 ⟨.no_type, rfl, rfl, .nil⟩) .nil)⟩) .nil⟩

theorem ruMatch_conforms : Conforms (.ph .Match) ruMatch :=
  conforms_node.2 ⟨.matcher, rfl, rfl, .cons (conforms_node.2 ⟨.and_pattern, rfl, rfl, .cons (ruVar_conforms _ _)
    (.cons (conforms_node.2 ⟨.pattern_call, rfl, rfl,
      .cons (conforms_node.2 ⟨.pattern_use, rfl, rfl, .cons (conforms_node.2 ⟨.use, rfl, rfl, .cons trivial .nil⟩) .nil⟩)
      (.cons (conforms_node.2 ⟨.append_PatternActuals, rfl, rfl,
        .cons (conforms_node.2 ⟨.append_PatternActuals, rfl, rfl,
          .cons (conforms_node.2 ⟨.nil_PatternActuals, rfl, rfl, .nil⟩)
          (.cons (conforms_node.2 ⟨.list_PatternActuals, rfl, rfl, .cons (ruVar_conforms _ _) .nil⟩) .nil)⟩)
        (.cons (conforms_node.2 ⟨.list_PatternActuals, rfl, rfl, .cons (ruVar_conforms _ _) .nil⟩) .nil)⟩) .nil)⟩) .nil)⟩)
    (.cons (conforms_node.2 ⟨.block, rfl, rfl, .cons (conforms_node.2 ⟨.nil_Declarations, rfl, rfl, .nil⟩) .nil⟩) .nil)⟩

theorem ruProg_conforms : Conforms (.ph .Program) ruProg :=
  conforms_node.2 ⟨.program, rfl, rfl, .cons trivial (.cons (conforms_node.2 ⟨.list_Units, rfl, rfl,
    .cons (conforms_node.2 ⟨.decl_unit, rfl, rfl, .cons (conforms_node.2 ⟨.top_level_match, rfl, rfl,
      .cons ruMatch_conforms .nil⟩) .nil⟩) .nil⟩) .nil)⟩

theorem ruProg_distinct : ((nodes ruProg).map addrOf).Nodup := by decide +kernel

/-- **C98.** After the parents of a program are set, the parent of every node is the node it is a child of, that of
the program is NULL, and no other field has changed; for every program, in a tree without sharing. -/
theorem C98_parents {t : Val} (hc : Conforms (.ph .Program) t) (hd : ((nodes t).map addrOf).Nodup) :
    ∃ N, ∀ fuel, N ≤ fuel → ∀ s, ∃ s', setTnodeParent fuel s t = .ok s' ∧ ParentOk s' t ∧
      ∀ a, some a ∉ (nodes t).map addrOf → s' a = s a :=
  setTnodeParent_ok hc hd

example : Conforms (.ph .Program) ruProg ∧ ((nodes ruProg).map addrOf).Nodup ∧ 20 < (nodes ruProg).length :=
  ⟨ruProg_conforms, ruProg_distinct, by decide +kernel⟩

/-- **C98, refuted for shared nodes.** If a node is a child of two nodes, its parent is the last of them. -/
theorem C98_shared_refuted : ∃ t s', Conforms (.ph .Program) t ∧ setTnodeParent 9 (fun _ => none) t = .ok s' ∧
    ¬ ParentOk s' t := by
  let u : Val := .node 3 (opNum .no_unit) 1 []
  let l1 : Val := .node 4 (opNum .list_Units) 1 [u]
  let l2 : Val := .node 5 (opNum .list_Units) 1 [u]
  let ap : Val := .node 2 (opNum .append_Units) 1 [l1, l2]
  let t : Val := .node 1 (opNum .program) 1 [.str ['p'], ap]
  have hu : Conforms (.ph .Unit) u := conforms_node.2 ⟨.no_unit, rfl, rfl, .nil⟩
  refine ⟨t, _, conforms_node.2 ⟨.program, rfl, rfl, .cons trivial (.cons (conforms_node.2 ⟨.append_Units, rfl, rfl,
    .cons (conforms_node.2 ⟨.list_Units, rfl, rfl, .cons hu .nil⟩) (.cons (conforms_node.2 ⟨.list_Units, rfl, rfl,
      .cons hu .nil⟩) .nil)⟩) .nil)⟩, by with_unfolding_all rfl, ?_⟩
  intro h
  have := h.2 l1 (by simp [t, ap, l1, nodes, nodesAll]) u (by simp [l1, kidsOf]) 3 rfl
  simp [l1, u] at this

/-- **C98.** A rule is taken apart into its parts: the variable before `=`, the name of the constructor, and the
variables in its arguments, in order, however the sequence of the arguments is put together. -/
theorem C98_rule {I : Info} {t m : Val} (hI : Prepared I t) (hm : m ∈ nodes t) (hc : Conforms (.ph .Match) m)
    {lhs : Option Val} {u : Val} {ds : List Val} (h : IsRule m lhs u ds) :
    matchLhsDecl m = .ok lhs ∧ matchConstructorUse m = .ok u ∧
      ∃ N, ∀ fuel, N ≤ fuel → rhsDecls I fuel m = .ok ds :=
  rule_parts hI hm hc h

/-- **C98.** Only rules of this form are taken apart: if no error is reported, the match is a rule, with these parts. -/
theorem C98_refused {I : Info} {t m : Val} (hI : Prepared I t) (hm : m ∈ nodes t) (hc : Conforms (.ph .Match) m)
    {lhs : Option Val} {u : Val} {ds : List Val} {fuel : Nat} (h1 : matchLhsDecl m = .ok lhs)
    (h2 : matchConstructorUse m = .ok u) (h3 : rhsDecls I fuel m = .ok ds) : IsRule m lhs u ds :=
  rule_only hI hm hc h1 h2 h3

/-- **C98.** The constructor of a rule is the declaration that its name is bound to, if that is a constructor;
otherwise an error is reported. -/
theorem C98_constructor {I : Info} {t m : Val} (hI : Prepared I t) (hm : m ∈ nodes t) (hc : Conforms (.ph .Match) m)
    {lhs : Option Val} {u : Val} {ds : List Val} (h : IsRule m lhs u ds) {a : Nat} (ha : addrOf u = some a)
    (hb : ∀ d, I.useDecl a = some d → Conforms (.ph .Declaration) d) (d : Val) :
    (matchConstructorDecl I m = .ok d ↔ I.useDecl a = some d ∧ ∃ kids, Node .constructor_decl kids d) ∧
    (matchConstructorDecl I m = .stop ∨ ∃ d, matchConstructorDecl I m = .ok d) :=
  rule_constructor (rule_parts hI hm hc h).2.1 ha hb d

/-- The `next` fields of the example. -/
def ruNext (a : Nat) : Option Val := if a = 50 then some (ruVar 60 'z') else none

theorem ruRule : IsRule ruMatch (some (kidsOf (ruVar 40 'x'))[0]) ruUse
    [(kidsOf (ruVar 50 'y'))[0], (kidsOf (ruVar 60 'z'))[0]] :=
  ⟨ruPat, ruBody, ruCall, ruFun, ruSeq, [ruVar 50 'y', ruVar 60 'z'], ⟨_, _, rfl⟩, ⟨_, _, rfl⟩, ⟨_, _, rfl⟩,
    .append (xs := [ruVar 50 'y']) ⟨_, _, rfl⟩ (.append (xs := []) ⟨_, _, rfl⟩ (.nil ⟨_, _, rfl⟩) (.list ⟨_, _, rfl⟩))
      (.list ⟨_, _, rfl⟩),
    .cons ⟨_, _, rfl⟩ (.cons ⟨_, _, rfl⟩ .nil), .inr ⟨_, _, rfl, ⟨_, _, rfl⟩, ⟨_, _, rfl⟩⟩⟩

theorem ruCalls : (nodes ruProg).filter (fun v => match v with
    | .node _ op _ _ => op == opNum .pattern_call
    | _ => false) = [ruCall] := by with_unfolding_all rfl

/-- The example is met: the rule is prepared, is in the program, and has two variables on the right. -/
example : ∃ I, Prepared I ruProg ∧ ruMatch ∈ nodes ruProg ∧ Conforms (.ph .Match) ruMatch ∧
    matchLhsDecl ruMatch = .ok (some (kidsOf (ruVar 40 'x'))[0]) ∧ ∃ fuel ds, rhsDecls I fuel ruMatch = .ok ds ∧ ds.length = 2 := by
  obtain ⟨N, hN⟩ := C98_parents ruProg_conforms ruProg_distinct
  obtain ⟨s, -, hs, -⟩ := hN N (Nat.le_refl _) (fun _ => none)
  have hP : Prepared ⟨s, ruNext, fun _ => none⟩ ruProg := by
    refine ⟨hs, fun call hcall f seq vars h1 h2 => ?_⟩
    have : call ∈ [ruCall] := by
      rw [← ruCalls]
      refine List.mem_filter.2 ⟨hcall, ?_⟩
      obtain ⟨a, l, rfl⟩ := h1; exact beq_self_eq_true _
    simp only [List.mem_singleton] at this
    subst this
    have e := (h1.inj (d := .pattern_call) (l := [ruFun, ruSeq]) ⟨_, _, rfl⟩).2
    simp only [List.cons.injEq, and_true] at e
    obtain ⟨rfl, rfl⟩ := e
    have hs : SeqOf ruSeq [ruVar 50 'y', ruVar 60 'z'] :=
      .append (xs := [ruVar 50 'y']) ⟨_, _, rfl⟩ (.append (xs := []) ⟨_, _, rfl⟩ (.nil ⟨_, _, rfl⟩) (.list ⟨_, _, rfl⟩))
        (.list ⟨_, _, rfl⟩)
    rw [← seq_kinds hs h2]
    exact ⟨rfl, rfl⟩
  have hm : ruMatch ∈ nodes ruProg := by
    simp [ruProg, nodes, nodesAll, ruMatch]
  have h := C98_rule hP hm ruMatch_conforms ruRule
  obtain ⟨M, hM⟩ := h.2.2
  exact ⟨_, hP, hm, ruMatch_conforms, h.1, M, _, hM M (Nat.le_refl _), rfl⟩

end Aps.Props
