import Verif.Proofs.PointsMain
import Verif.Model.Fsa
import Verif.Spec.Fsa
import Verif.Spec.Dfa
set_option linter.unusedVariables false
/-!
# The automaton contains the fibers: linking of expressions
-/
namespace Aps.Fsa
open Aps.Points (Prog Expr Pat Use)
open Aps.Points.Spec Aps.Fsa.Spec
open Aps.Dfa (Lab Edge addNode)
open Aps.Dfa.Spec (Acc)

/-! ## sets of nodes -/

theorem mem_addNode {ns : List Nat} {n m : Nat} : m ∈ addNode ns n ↔ m = n ∨ m ∈ ns := by
  unfold addNode
  split
  · rename_i h
    constructor
    · exact .inr
    · rintro (rfl | h')
      · exact List.mem_of_mem_head? h
      · exact h'
  · simp

theorem mem_nunion {b : List Nat} : ∀ {a : List Nat} {m : Nat}, m ∈ nunion a b ↔ m ∈ a ∨ m ∈ b := by
  unfold nunion
  induction b with
  | nil => intro a m; simp
  | cons x xs ih =>
    intro a m
    rw [List.foldl_cons, ih]
    split
    · rename_i h
      constructor
      · rintro (h' | h'); exacts [.inl h', .inr (.tail _ h')]
      · rintro (h' | h')
        · exact .inl h'
        · rcases List.mem_cons.1 h' with rfl | h'
          · exact .inl h
          · exact .inr h'
    · simp only [List.mem_cons]; tauto

theorem mem_foldNodes {α : Type} (f : α → Nat) {l : List α} : ∀ {ns : List Nat} {m : Nat},
    m ∈ l.foldl (fun ns o => addNode ns (f o)) ns ↔ m ∈ ns ∨ ∃ o ∈ l, m = f o := by
  induction l with
  | nil => intro ns m; simp
  | cons x xs ih =>
    intro ns m
    rw [List.foldl_cons, ih, mem_addNode]
    simp only [List.mem_cons, exists_eq_or_imp]
    tauto

theorem mem_osetNodes {C : Env} {os : List Nat} {m : Nat} : m ∈ osetNodes C os ↔ ∃ o ∈ os, m = C.num.decl o := by
  unfold osetNodes
  rw [mem_foldNodes]; simp

theorem setOf_ge {n : Nat} (h : 2 ≤ n) : setOf n = [n] := by
  unfold setOf
  rw [if_neg (by omega), if_neg (by omega)]

theorem mem_refEdges {q : Nat} {l : Lab} : ∀ {ns : List Nat} {n : Nat}, n ∈ ns →
    ⟨q + 1, n, some l⟩ ∈ refEdges q l ns ∧ ⟨q, n, some { l with rev := !l.rev }⟩ ∈ refEdges q l ns
  | m :: ns, n, h => by
    rcases List.mem_cons.1 h with rfl | h
    · simp [refEdges]
    · have := mem_refEdges (q := q) (l := l) h
      exact ⟨.tail _ (.tail _ this.1), .tail _ (.tail _ this.2)⟩

/-! ## the calls of `link_expr_rhs` -/

/-- `linkRhs` was called for the expression with these nodes, and its edges are among `E`. -/
def Link (C : Env) (E : List Edge) (r : Option Nat) (e : Expr) (ns : List Nat) : Prop :=
  ∃ N E', linkRhs C r e ns = .ok (N, E') ∧ ∀ x ∈ E', x ∈ E

section link
variable {C : Env} {E : List Edge} {r : Option Nat}

theorem linkE_link {e : Expr} {ns : List Nat} {es : List Edge} (h : linkE C r e ns = .ok es) (hs : ∀ x ∈ es, x ∈ E) :
    Link C E r e ns := by
  unfold linkE at h
  obtain ⟨⟨N, E'⟩, hx, h⟩ := Res.bind_eq_ok.1 h
  cases h
  exact ⟨N, E', hx, hs⟩

theorem link_rep {lt e ns} (h : Link C E r (.rep lt e) ns) : Link C E r e (cutN lt ns) := by
  obtain ⟨N, E', h1, h2⟩ := h
  simp only [linkRhs] at h1
  exact ⟨N, E', h1, h2⟩

theorem linkPrims_link : ∀ (as : List Expr) (ns acc N : List Nat) (E' : List Edge),
    linkPrims C r as ns acc = .ok (N, E') → (∀ x ∈ E', x ∈ E) → ∀ a ∈ as, Link C E r a ns
  | [], ns, acc, N, E', h, hs, a, ha => by cases ha
  | b :: as, ns, acc, N, E', h, hs, a, ha => by
    simp only [linkPrims] at h
    obtain ⟨⟨N1, E1⟩, h1, h⟩ := Res.bind_eq_ok.1 h
    obtain ⟨⟨N2, E2⟩, h2, h⟩ := Res.bind_eq_ok.1 h
    cases h
    rcases List.mem_cons.1 ha with rfl | ha
    · exact ⟨N1, E1, h1, fun x hx => hs x (List.mem_append_left _ hx)⟩
    · exact linkPrims_link as ns _ _ E2 h2 (fun x hx => hs x (List.mem_append_right _ hx)) a ha

theorem link_prim {lt as ns a} (h : Link C E r (.prim lt as) ns) (ha : a ∈ as) : Link C E r a (cutN lt ns) := by
  obtain ⟨N, E', h1, h2⟩ := h
  simp only [linkRhs] at h1
  exact linkPrims_link as _ _ _ _ h1 h2 a ha

theorem linkActuals_link : ∀ (fs : List Nat) (as : List Expr) (E' : List Edge),
    linkActuals C r fs as = .ok E' → (∀ x ∈ E', x ∈ E) → ∀ (k : Nat) (a : Expr), as[k]? = some a →
      ∃ f, fs[k]? = some f ∧ Link C E r a (setOf (C.num.decl f + 1))
  | _, [], E', h, hs, k, a, ha => by simp at ha
  | [], _ :: _, E', h, hs, k, a, ha => by simp [linkActuals] at h
  | f :: fs, b :: as, E', h, hs, k, a, ha => by
    simp only [linkActuals] at h
    obtain ⟨⟨N1, E1⟩, h1, h⟩ := Res.bind_eq_ok.1 h
    obtain ⟨E2, h2, h⟩ := Res.bind_eq_ok.1 h
    cases h
    cases k with
    | zero =>
      simp only [List.getElem?_cons_zero, Option.some.injEq] at ha
      subst ha
      exact ⟨f, rfl, N1, E1, h1, fun x hx => hs x (List.mem_append_left _ hx)⟩
    | succ k =>
      simp only [List.getElem?_cons_succ] at ha ⊢
      exact linkActuals_link fs as E2 h2 (fun x hx => hs x (List.mem_append_right _ hx)) k a ha

theorem link_call {lt g as ns a} {k : Nat} (h : Link C E r (.call lt g as) ns) (ha : as[k]? = some a) :
    ∃ f, (C.P.formals g)[k]? = some f ∧ Link C E r a (setOf (C.num.decl f + 1)) := by
  obtain ⟨N, E', h1, h2⟩ := h
  simp only [linkRhs] at h1
  obtain ⟨es, h3, h1⟩ := Res.bind_eq_ok.1 h1
  cases h1
  exact linkActuals_link _ as _ h3 h2 k a ha

theorem link_field {i lt f w ns} (h : Link C E r (.fieldRef i lt f w) ns) :
    Link C E r w (setOf (C.num.expr i + 1)) ∧ ∀ n ∈ cutN lt ns,
      ⟨C.num.expr i + 1, n, some ⟨f, false⟩⟩ ∈ E ∧ ⟨C.num.expr i, n, some ⟨f, true⟩⟩ ∈ E := by
  obtain ⟨N, E', h1, h2⟩ := h
  simp only [linkRhs] at h1
  obtain ⟨⟨N1, E1⟩, h3, h1⟩ := Res.bind_eq_ok.1 h1
  obtain ⟨x, h4, h1⟩ := Res.bind_eq_ok.1 h1
  cases h1
  refine ⟨⟨N1, E1, h3, fun x hx => h2 x (List.mem_append_right _ hx)⟩, fun n hn => ?_⟩
  have := mem_refEdges (q := C.num.expr i) (l := ⟨f, false⟩) hn
  exact ⟨h2 _ (List.mem_append_left _ this.1), h2 _ (List.mem_append_left _ this.2)⟩

theorem link_shared {i lt d ns} (h : Link C E r (.use i lt d) ns) (hl : C.P.isLocal d = true)
    (hs : C.P.isShared d = true) (hr : r.isSome = true) : ∀ n ∈ cutN lt ns,
      ⟨C.num.expr i + 1, n, some ⟨d, false⟩⟩ ∈ E ∧ ⟨C.num.expr i, n, some ⟨d, true⟩⟩ ∈ E := by
  obtain ⟨N, E', h1, h2⟩ := h
  simp only [linkRhs, if_pos hl, if_pos (show C.P.isShared d = true ∧ r.isSome = true from ⟨hs, hr⟩)] at h1
  obtain ⟨x, h4, h1⟩ := Res.bind_eq_ok.1 h1
  cases h1
  intro n hn
  have := mem_refEdges (q := C.num.expr i) (l := ⟨d, false⟩) hn
  exact ⟨h2 _ this.1, h2 _ this.2⟩

theorem link_within {e e2 : Expr} (hw : Within e e2) {ns : List Nat} (h : Link C E r e2 ns) : Link C E r e ns := by
  induction hw with
  | refl => exact h
  | rep _ ih => exact ih (link_rep h)
  | prim _ ha ih => exact ih (link_prim h ha)

end link

/-! ## the calls of `build_FSA` -/

/-- `buildNode` was called for the node, and its edges are among `E`. -/
def Made (C : Env) (E : List Edge) (r : Option Nat) (n : Points.Node) : Prop :=
  ∃ es, buildNode C r n = .ok es ∧ ∀ x ∈ es, x ∈ E

theorem made_occurs {C : Env} {E : List Edge} {n m : Points.Node} {r r' : Option Nat} (ho : Occurs n r m r') :
    Made C E r n → Made C E r' m := by
  induction ho with
  | here => exact id
  | seqL _ ih =>
    rintro ⟨es, h, hs⟩
    simp only [buildNode] at h
    obtain ⟨x, hx, h⟩ := Res.bind_eq_ok.1 h
    obtain ⟨y, hy, h⟩ := Res.bind_eq_ok.1 h
    cases h
    exact ih ⟨x, hx, fun e he => hs e (by simp [he])⟩
  | seqR _ ih =>
    rintro ⟨es, h, hs⟩
    simp only [buildNode] at h
    obtain ⟨x, hx, h⟩ := Res.bind_eq_ok.1 h
    obtain ⟨y, hy, h⟩ := Res.bind_eq_ok.1 h
    cases h
    exact ih ⟨y, hy, fun e he => hs e (by simp [he])⟩
  | ifT _ ih =>
    rintro ⟨es, h, hs⟩
    simp only [buildNode] at h
    obtain ⟨x, hx, h⟩ := Res.bind_eq_ok.1 h
    obtain ⟨y, hy, h⟩ := Res.bind_eq_ok.1 h
    obtain ⟨z, hz, h⟩ := Res.bind_eq_ok.1 h
    cases h
    exact ih ⟨y, hy, fun e he => hs e (by simp [he])⟩
  | ifE _ ih =>
    rintro ⟨es, h, hs⟩
    simp only [buildNode] at h
    obtain ⟨x, hx, h⟩ := Res.bind_eq_ok.1 h
    obtain ⟨y, hy, h⟩ := Res.bind_eq_ok.1 h
    obtain ⟨z, hz, h⟩ := Res.bind_eq_ok.1 h
    cases h
    exact ih ⟨z, hz, fun e he => hs e (by simp [he])⟩
  | loop _ ih =>
    rintro ⟨es, h, hs⟩
    simp only [buildNode] at h
    obtain ⟨x, hx, h⟩ := Res.bind_eq_ok.1 h
    obtain ⟨y, hy, h⟩ := Res.bind_eq_ok.1 h
    obtain ⟨z, hz, h⟩ := Res.bind_eq_ok.1 h
    cases h
    exact ih ⟨z, hz, fun e he => hs e (by simp [he])⟩
  | caseM _ ih =>
    rintro ⟨es, h, hs⟩
    simp only [buildNode] at h
    obtain ⟨x, hx, h⟩ := Res.bind_eq_ok.1 h
    obtain ⟨m, hm, h⟩ := Res.bind_eq_ok.1 h
    obtain ⟨y, hy, h⟩ := Res.bind_eq_ok.1 h
    obtain ⟨z, hz, h⟩ := Res.bind_eq_ok.1 h
    obtain ⟨w, hw, h⟩ := Res.bind_eq_ok.1 h
    cases h
    exact ih ⟨z, hz, fun e he => hs e (by simp [he])⟩
  | caseD _ ih =>
    rintro ⟨es, h, hs⟩
    simp only [buildNode] at h
    obtain ⟨x, hx, h⟩ := Res.bind_eq_ok.1 h
    obtain ⟨m, hm, h⟩ := Res.bind_eq_ok.1 h
    obtain ⟨y, hy, h⟩ := Res.bind_eq_ok.1 h
    obtain ⟨z, hz, h⟩ := Res.bind_eq_ok.1 h
    obtain ⟨w, hw, h⟩ := Res.bind_eq_ok.1 h
    cases h
    exact ih ⟨w, hw, fun e he => hs e (by simp [he])⟩
  | matchB _ ih =>
    rintro ⟨es, h, hs⟩
    simp only [buildNode] at h
    obtain ⟨x, hx, h⟩ := Res.bind_eq_ok.1 h
    obtain ⟨y, hy, h⟩ := Res.bind_eq_ok.1 h
    obtain ⟨z, hz, h⟩ := Res.bind_eq_ok.1 h
    cases h
    exact ih ⟨y, hy, fun e he => hs e (by simp [he])⟩
  | matchN _ ih =>
    rintro ⟨es, h, hs⟩
    simp only [buildNode] at h
    obtain ⟨x, hx, h⟩ := Res.bind_eq_ok.1 h
    obtain ⟨y, hy, h⟩ := Res.bind_eq_ok.1 h
    obtain ⟨z, hz, h⟩ := Res.bind_eq_ok.1 h
    cases h
    exact ih ⟨z, hz, fun e he => hs e (by simp [he])⟩
  | rule _ ih =>
    rintro ⟨es, h, hs⟩
    simp only [buildNode] at h
    obtain ⟨x, hx, h⟩ := Res.bind_eq_ok.1 h
    obtain ⟨y, hy, h⟩ := Res.bind_eq_ok.1 h
    cases h
    exact ih ⟨y, hy, fun e he => hs e (by simp [he])⟩
  | func _ ih =>
    rintro ⟨es, h, hs⟩
    simp only [buildNode] at h
    exact ih ⟨es, h, hs⟩

section made
variable {C : Env} {E : List Edge} {r : Option Nat}

theorem linkEs_link : ∀ (es : List Expr) (E' : List Edge), linkEs C r es = .ok E' → (∀ x ∈ E', x ∈ E) →
    ∀ e ∈ es, Link C E r e [dfltNode]
  | [], E', h, hs, e, he => by cases he
  | b :: es, E', h, hs, e, he => by
    simp only [linkEs] at h
    obtain ⟨x, hx, h⟩ := Res.bind_eq_ok.1 h
    obtain ⟨y, hy, h⟩ := Res.bind_eq_ok.1 h
    cases h
    rcases List.mem_cons.1 he with rfl | he
    · exact linkE_link hx fun e he => hs e (by simp [he])
    · exact linkEs_link es y hy (fun e he => hs e (by simp [he])) e he

theorem made_value {d k init} (h : Made C E r (.value d k init)) :
    (k = true → ∀ x ∈ objEdges C d, x ∈ E) ∧ (∀ x ∈ sharedEdges C d, x ∈ E) ∧
      (∀ e, init = some e → Link C E r e [dfltNode]) ∧
      (k = false → ∀ e, init = some e → Link C E r e (setOf (C.num.decl d + 1))) := by
  obtain ⟨es, h, hs⟩ := h
  simp only [buildNode] at h
  obtain ⟨x, hx, h⟩ := Res.bind_eq_ok.1 h
  obtain ⟨y, hy, h⟩ := Res.bind_eq_ok.1 h
  cases h
  refine ⟨fun hk e he => ?_, fun e he => hs e (by simp [he]), fun e he => ?_, fun hk e he => ?_⟩
  · subst hk
    simp only [valueEdges, if_true, Res.ok.injEq] at hx
    subst hx
    exact hs e (by simp [he])
  · subst he
    exact linkE_link hy fun e he => hs e (by simp [he])
  · subst he hk
    simp only [valueEdges, Bool.false_eq_true, if_false, initEdges] at hx
    exact linkE_link hx fun e he => hs e (by simp [he])

theorem made_attr {d e} (h : Made C E r (.attr d (some e))) : Link C E r e [dfltNode] := by
  obtain ⟨es, h, hs⟩ := h
  simp only [buildNode, linkO] at h
  exact linkE_link h hs

theorem made_expr {e} (h : Made C E r (.expr e)) : Link C E r e [dfltNode] := by
  obtain ⟨es, h, hs⟩ := h
  simp only [buildNode] at h
  exact linkE_link h hs

theorem made_if {c t e} (h : Made C E r (.ifs c t e)) : Link C E r c [dfltNode] := by
  obtain ⟨es, h, hs⟩ := h
  simp only [buildNode] at h
  obtain ⟨x, hx, h⟩ := Res.bind_eq_ok.1 h
  obtain ⟨y, hy, h⟩ := Res.bind_eq_ok.1 h
  obtain ⟨z, hz, h⟩ := Res.bind_eq_ok.1 h
  cases h
  exact linkE_link hx fun e he => hs e (by simp [he])

theorem made_for {f s b} (h : Made C E r (.forIn f s b)) : Link C E r s [dfltNode] ∧ Link C E r s (formalNodes C f) := by
  obtain ⟨es, h, hs⟩ := h
  simp only [buildNode] at h
  obtain ⟨x, hx, h⟩ := Res.bind_eq_ok.1 h
  obtain ⟨y, hy, h⟩ := Res.bind_eq_ok.1 h
  obtain ⟨z, hz, h⟩ := Res.bind_eq_ok.1 h
  cases h
  exact ⟨linkE_link hy fun e he => hs e (by simp [he]), linkE_link hx fun e he => hs e (by simp [he])⟩

theorem linkMatches_link {e : Expr} {p : Pat} {m : Points.Node} (hm : MatchOf m p) : ∀ {E' : List Edge},
    linkMatches C r e m = .ok E' → (∀ x ∈ E', x ∈ E) → Link C E r e (linkPat C p) := by
  induction hm with
  | here p b n =>
    intro E' h hs
    simp only [linkMatches] at h
    obtain ⟨x, hx, h⟩ := Res.bind_eq_ok.1 h
    obtain ⟨y, hy, h⟩ := Res.bind_eq_ok.1 h
    cases h
    exact linkE_link hx fun e he => hs e (by simp [he])
  | next _ ih =>
    intro E' h hs
    simp only [linkMatches] at h
    obtain ⟨x, hx, h⟩ := Res.bind_eq_ok.1 h
    obtain ⟨y, hy, h⟩ := Res.bind_eq_ok.1 h
    cases h
    exact ih hy fun e he => hs e (by simp [he])

theorem made_case {e ms d} (h : Made C E r (.cases e ms d)) :
    Link C E r e [dfltNode] ∧ ∀ p, MatchOf ms p → Link C E r e (linkPat C p) := by
  obtain ⟨es, h, hs⟩ := h
  simp only [buildNode] at h
  obtain ⟨x, hx, h⟩ := Res.bind_eq_ok.1 h
  obtain ⟨m, hm, h⟩ := Res.bind_eq_ok.1 h
  obtain ⟨y, hy, h⟩ := Res.bind_eq_ok.1 h
  obtain ⟨z, hz, h⟩ := Res.bind_eq_ok.1 h
  obtain ⟨w, hw, h⟩ := Res.bind_eq_ok.1 h
  cases h
  exact ⟨linkE_link hy fun e he => hs e (by simp [he]),
    fun p hp => linkMatches_link hp hm fun e he => hs e (by simp [he])⟩

theorem made_match {p b n} (h : Made C E r (.mtch p b n)) : ∀ e ∈ p.conds, Link C E r e [dfltNode] := by
  obtain ⟨es, h, hs⟩ := h
  simp only [buildNode] at h
  obtain ⟨x, hx, h⟩ := Res.bind_eq_ok.1 h
  obtain ⟨y, hy, h⟩ := Res.bind_eq_ok.1 h
  obtain ⟨z, hz, h⟩ := Res.bind_eq_ok.1 h
  cases h
  exact linkEs_link _ _ hx fun e he => hs e (by simp [he])

theorem made_rule {si ks p b} (h : Made C E r (.rule si ks p b)) : ∀ e ∈ p.conds, Link C E (some si) e [dfltNode] := by
  obtain ⟨es, h, hs⟩ := h
  simp only [buildNode] at h
  obtain ⟨x, hx, h⟩ := Res.bind_eq_ok.1 h
  obtain ⟨y, hy, h⟩ := Res.bind_eq_ok.1 h
  cases h
  exact linkEs_link _ _ hx fun e he => hs e (by simp [he])

theorem made_assign {a l e} (h : Made C E r (.assign a l e)) : ∃ M E1 N E2 L E3,
    linkLhs C r a l [] = .ok (M, E1) ∧ linkRhs C r e M = .ok (N, E2) ∧ linkLhs C r a l N = .ok (L, E3) ∧
      (∀ x ∈ E2, x ∈ E) ∧ ∀ x ∈ E3, x ∈ E := by
  obtain ⟨es, h, hs⟩ := h
  simp only [buildNode] at h
  obtain ⟨⟨M, E1⟩, hx, h⟩ := Res.bind_eq_ok.1 h
  obtain ⟨⟨N, E2⟩, hy, h⟩ := Res.bind_eq_ok.1 h
  obtain ⟨⟨L, E3⟩, hz, h⟩ := Res.bind_eq_ok.1 h
  cases h
  exact ⟨M, E1, N, E2, L, E3, hx, hy, hz, fun e he => hs e (by simp [he]), fun e he => hs e (by simp [he])⟩

end made

end Aps.Fsa
