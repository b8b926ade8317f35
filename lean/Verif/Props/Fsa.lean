import Verif.Proofs.FsaOver
import Verif.Proofs.FsaCheck
import Verif.Props.Points
import Verif.Props.Dfa
set_option linter.unusedVariables false
/-!
# C64: the fibers of the declarations of a module

From the program to the fiber sets: the object and use sets, the numbers, the automaton and the tree together.
-/
namespace Aps.Props
open Aps.Points (Prog Expr Use)
open Aps.Points.Spec Aps.Fsa Aps.Fsa.Spec
open Aps.Dfa (Lab Edge fiberSet)
open Aps.Dfa.Spec (Acc isForward Word InRange Over)

/-- **C64.** For every program there are limits (of the table and of the rounds) from which on the fibers are found, if there
are at most 898 declarations and uses. -/
theorem C64_ends (P : Prog) (fo : Nat → List Nat) (items : List Item) (hp : Proper P) (hL : Listed P fo items)
    (hn : items.length ≤ 898) :
    ∃ K, ∀ max fuel, K ≤ max → K + max ≤ fuel → ∃ r, fiberModule P fo items fuel max = .ok r := by
  obtain ⟨n, st, h⟩ := C50_terminates P hp
  obtain ⟨hok, hd, hps⟩ := Points.loop_fix (Points.bd P) n (Points.start P) st (Points.start_ok P) h
  have Q : Pre ⟨P, st, count st items Num.zero, fo⟩ items _ := ⟨hd, hps, Points.bd P, hok, hp, rfl, hL⟩
  obtain ⟨E, hE, hg⟩ := buildFsa_fine Q
  have hc := (count_ok (st := st) items numOk_zero).2.2.1
  have hr : InRange E := by
    intro e he
    have := hg e he
    simp only [GoodE, InN, Num.zero] at this hc
    omega
  obtain ⟨K, hK⟩ := C63_enough E hr (omegaOf (count st items Num.zero)) _ (count_ok (st := st) items numOk_zero).1.fields
  refine ⟨K + n + E.length + 2, fun max fuel h1 h2 => ?_⟩
  obtain ⟨D, hD⟩ := hK max fuel (by omega) (by omega)
  obtain ⟨k, rfl⟩ : ∃ k, fuel = n + k := ⟨fuel - n, by omega⟩
  have ha : Points.analyze P (n + k) = .ok st := loop_mono n h
  unfold fiberModule
  simp only [ha, hE, hD, Res.ok_bind]
  exact ⟨_, rfl⟩

/-- **C64.** The numbers: whatever is a field or a shared variable, holds an object or is used has a number, and so has every
use; no two have the same; a number is even, so that the dual node is nobody else's; and there are not more than two nodes
for each item. -/
theorem C64_numbered (st : Points.St) (items : List Item) (N : Num) (hN : N = count st items Num.zero) :
    (∀ d k, .decl d k ∈ items → st.O d ≠ [] ∨ st.U d ≠ [] ∨ k = true → N.decl d ≠ 0) ∧ (∀ i, .use i ∈ items → N.expr i ≠ 0) ∧
      (∀ d d', N.decl d ≠ 0 → N.decl d = N.decl d' → d = d') ∧ (∀ i i', N.expr i ≠ 0 → N.expr i = N.expr i' → i = i') ∧
      (∀ d i, N.decl d ≠ 0 → N.decl d ≠ N.expr i) ∧
      (∀ d, N.decl d ≠ 0 → N.decl d % 2 = 0 ∧ 4 ≤ N.decl d ∧ N.decl d + 1 < 4 + 2 * items.length) ∧
      ∀ i, N.expr i ≠ 0 → N.expr i % 2 = 0 ∧ 4 ≤ N.expr i ∧ N.expr i + 1 < 4 + 2 * items.length := by
  subst hN
  obtain ⟨h1, -, h3, h4, h5, h6⟩ := count_ok (st := st) items numOk_zero
  refine ⟨h4, h6, h1.declInj, h1.exprInj, h1.apart, fun d hd => ?_, fun i hi => ?_⟩
  · rcases h1.decl d with e | e
    · exact absurd e hd
    · have : Num.zero.next = 4 := rfl
      omega
  · rcases h1.expr i with e | e
    · exact absurd e hi
    · have : Num.zero.next = 4 := rfl
      omega

/-- **C64.** No fiber is missed: for every word that is a fiber of some declaration there is one fiber in the tree that is in
the fiber set, of its direction, of every declaration that has the word as a fiber. Missing for the full property: the
places from which nothing is taken (`C64_chain_refuted`, `C64_copy_refuted`), into which nothing is put
(`C64_empty_refuted`), and the assignments to fields of what is in a shared variable (`C64_shared_refuted`). -/
theorem C64_no_fiber_missed_partial (P : Prog) (fo : Nat → List Nat) (items : List Item) (fuel max : Nat) (st : Points.St) (N : Num)
    (E : List Edge) (D : Dfa.St) (h : fiberModule P fo items fuel max = .ok (st, N, E, D)) (hp : Proper P) (hA : Alone P)
    (hT : PlainTargets P) (hX : Apart P) (hL : Listed P fo items) (l : Lab) (w : List Lab) (x : Nat) (hx : Fiber P fo x (l :: w)) :
    ∃ (i : Nat) (n : Dfa.Node), D.nodes[i]? = some n ∧ (∀ q, q ∈ n.ns ↔ Acc E (omegaOf N) q (l :: w)) ∧
      ∀ y, Fiber P fo y (l :: w) → i ∈ fiberSet D (N.decl y) (isForward (l :: w)) := by
  obtain ⟨B, S, hB, hD⟩ := setup_of h hA hT hL
  have hrun := h
  unfold fiberModule at hrun
  clear h
  have hover : Over N.fields (l :: w) := by
    obtain ⟨-, o, -, -, hh⟩ := hx
    intro m hm
    have := has_over hL hh m hm
    have hnum := S.num
    simp only at hnum
    rw [hnum]
    exact (count_ok items numOk_zero).2.2.2.2.1 _ this
  have hlive := S.live hX hx
  have even : ∀ y, N.decl y % 2 = 0 := fun y => by
    have hk : NumOk N := S.numOk
    rcases hk.decl y with e | e <;> omega
  obtain ⟨i, n, hi, hn, hns⟩ : ∃ (i : Nat) (n : Dfa.Node), i ∈ fiberSet D (N.decl x) (isForward (l :: w)) ∧ D.nodes[i]? = some n ∧
      ∀ p, p ∈ n.ns ↔ Acc E (omegaOf N) p (l :: w) := by
    obtain ⟨a1, a2⟩ := fiber_acc S hx
    rcases C63_has_fiber E (omegaOf N) N.fields max fuel D hD (N.decl x) (even x) l w hlive.2 hover a1 a2 with h | ⟨h, -⟩
    · exact h
    · exfalso
      have h2 : Acc E (omegaOf N) 2 (l :: w) := (h 2).2 (.fin S.dflt)
      have Q : Pre ⟨P, st, N, fo⟩ items B := ⟨S.hd, S.hp, hB, S.hok, hp, S.num, hL⟩
      obtain ⟨E', hE, hg⟩ := buildFsa_fine Q
      have hEE : E' = E := by
        obtain ⟨st', h1, h⟩ := Res.bind_eq_ok.1 hrun
        obtain ⟨E1, h2, h⟩ := Res.bind_eq_ok.1 h
        obtain ⟨D', h3, h⟩ := Res.bind_eq_ok.1 h
        cases h
        exact Res.ok.inj (hE.symm.trans h2)
      subst hEE
      cases h2 with
      | eps he _ => have := (hg _ he).1; simp at this
      | step he _ => have := (hg _ he).1; simp at this
  refine ⟨i, n, hn, hns, fun y hy => ?_⟩
  obtain ⟨b1, b2⟩ := fiber_acc S hy
  rw [Dfa.fiberSet_mem] at hi ⊢
  obtain ⟨n', e1, e2, e3, e4, e5⟩ := hi
  rw [hn] at e2; cases e2
  exact ⟨n, e1, hn, (hns _).2 b1, (hns _).2 b2, e5⟩

/-! ### a concrete module

Two objects 2 and 5 with the fields 3 and 4; `2.3 := 5; 5.4 := const; 7 : T := 2.3; 6 := 7.4`. -/

def c64prog (top rule : Points.Node) (sh : List Nat) : Prog where
  isLocal := fun _ => true
  isShared := fun d => d ∈ sh
  isSyntax := fun _ => false
  formals := fun _ => []
  result := fun _ => 0
  siOf := fun _ => 0
  module := 0
  startSi := 1
  body := .seq top (.rule 1 [] .none rule)

def c64obj (d : Nat) : Points.Node := .value d true (some (.prim true []))
def c64fo : Nat → List Nat := fun d => if d = 2 ∨ d = 5 then [3, 4] else []
def c64items : List Item := [.decl 0 false, .decl 1 false, .decl 3 true, .decl 4 true, .decl 6 false, .decl 2 false, .decl 5 false,
  .decl 7 false, .decl 10 true, .use 12, .use 13, .use 14, .use 15, .use 16, .use 17, .use 18, .decl 20 false, .decl 21 false,
  .decl 22 false]

def c64rule : Points.Node := .seq (c64obj 2) (.seq (c64obj 5)
  (.seq (.assign 20 (.fieldRef 12 true 3 (.use 13 true 2)) (.use 14 true 5))
  (.seq (.assign 21 (.fieldRef 15 false 4 (.use 16 true 5)) .const)
  (.seq (.value 7 false (some (.fieldRef 18 true 3 (.use 19 true 2))))
   (.assign 22 (.attrRef false 6) (.fieldRef 17 false 4 (.use 11 true 7)))))))

/-- all hypotheses but for `PlainTargets`, and a test of the result, evaluated -/
def c64check (P : Prog) (ok : Num → Dfa.St → Bool) : Bool :=
  Points.okProg P && decide (∀ f ∈ readFields P, f ∉ usedVars P ∧ f ∉ declVars P) && decide (∀ f ∈ writtenFields P, f ∉ usedVars P) &&
    (exprsOf P).all (readOk P c64items) && (nodesOf none P.body).all (nodeOk P c64fo c64items) &&
    match Points.analyze P 100 with
    | .ok st => (List.range (Points.bound P)).all (declOk st c64items) &&
      match fiberModule P c64fo c64items 100 50 with
      | .ok (_, N, _, D) => ok N D
      | _ => false
    | _ => false

theorem c64_checked {P : Prog} {ok : Num → Dfa.St → Bool} (h : c64check P ok = true) :
    Proper P ∧ Alone P ∧ Apart P ∧ Listed P c64fo c64items ∧ ∃ st N E D, fiberModule P c64fo c64items 100 50 = .ok (st, N, E, D) ∧ ok N D = true := by
  simp only [c64check, Bool.and_eq_true, decide_eq_true_eq] at h
  obtain ⟨⟨⟨⟨⟨h1, h2⟩, h3⟩, h4⟩, h5⟩, h6⟩ := h
  cases ha : Points.analyze P 100 with
  | ok st =>
    rw [ha] at h6
    simp only [Bool.and_eq_true] at h6
    refine ⟨Points.proper_of_ok h1, Points.alone_of_ok h1, apart_of_ok h2 h3, listed_of_ok (Points.alone_of_ok h1) ha h6.1 h4 h5, ?_⟩
    cases hm : fiberModule P c64fo c64items 100 50 with
    | ok r =>
      obtain ⟨st, N, E, D⟩ := r
      have := h6.2
      rw [hm] at this
      exact ⟨st, N, E, D, rfl, this⟩
    | _ => have := h6.2; rw [hm] at this; cases this
  | _ => rw [ha] at h6; cases h6

/-- the hypotheses are met, and the object 2 has the fiber 3·4 -/
example : let P := c64prog .skip c64rule []
    Proper P ∧ Alone P ∧ Apart P ∧ Listed P c64fo c64items ∧ PlainTargets P ∧ c64items.length ≤ 898 ∧
      (∃ r, fiberModule P c64fo c64items 100 50 = .ok r) ∧ Fiber P c64fo 2 [⟨3, false⟩, ⟨4, false⟩] := by
  intro P
  obtain ⟨h1, h2, h3, h4, st, N, E, D, h5, -⟩ := c64_checked (P := P) (ok := fun _ _ => true) (by decide +kernel)
  refine ⟨h1, h2, h3, h4, plain_of_ok (by decide +kernel), by decide, ⟨_, h5⟩, ?_, 2, ?_, .refl _, ?_⟩
  · refine .place (z := .expr (.use 19 true 2)) (.step (.refl _) (.use rfl)) (.read (.field (i := 18) (lt := true) (r := some 1) (.init (d := 7) (k := false)
      (.seqR (.rule (.seqR (.seqR (.seqR (.seqR (.seqL (.here _ _)))))))))) (.goes (d := 7) (z := .expr (.use 11 true 7))
      (.init (.seqR (.rule (.seqR (.seqR (.seqR (.seqR (.seqL (.here _ _))))))))) (.step (.refl _) (.use rfl))
      (.read (.field (i := 17) (lt := false) (r := some 1) (.rhs (d := 22) (.seqR (.rule (.seqR (.seqR (.seqR (.seqR (.seqR (.here _ _)))))))))) (.kept (.inl rfl)))))
  · exact .inr ⟨_, some 1, .seqR (.rule (.seqL (.here _ _)))⟩
  · exact .write (y := .expr (.use 13 true 2)) (.step (.refl _) (.use rfl))
      (.field (r := some 1) (i := 12) (a := 20) (e := .use 14 true 5) (.seqR (.rule (.seqR (.seqR (.seqL (.here _ _)))))))
      (.obj (o := 5) (.inr ⟨_, some 1, .seqR (.rule (.seqR (.seqL (.here _ _))))⟩) (.step (.refl _) (.use rfl))
        (.field (f := 4) (r := some 1) (.seqR (.rule (.seqR (.seqL (.here _ _))))) (by decide)))

/-! ### fibers that are missed -/

/-- no fiber of the declaration has the one field (in this direction) as its word -/
def c64lacks (x : Nat) (l : Lab) (N : Num) (D : Dfa.St) : Bool :=
  (fiberSet D (N.decl x) (!l.rev)).all fun i =>
    match D.nodes[i]? with
    | some n => decide (n.field ≠ some l) || decide (n.shorter ≠ some 0)
    | none => true

theorem c64_lacks {x : Nat} {l : Lab} {N : Num} {D : Dfa.St} (h : c64lacks x l N D = true) :
    ∀ i ∈ fiberSet D (N.decl x) (!l.rev), ¬ Word D.nodes i [l] := by
  intro i hi hw
  have := List.all_eq_true.1 h i hi
  cases hw with
  | cons hn hf hs hw =>
    cases hw
    rw [hn] at this
    simp [hf, hs] at this

/-- **C64, refuted for a field that is only looked into.** `2.3 := 5; 5.4 := const; 6 := 2.3.4`: the field 3 is read and
assigned through 2, and 2 has neither the fiber for reading nor the one for assigning it: `link_expr_rhs` gives the node of
the outer field reference, not the default node, as the place the value goes to, and nodes of expressions do not accept. So
the value of the field does not count as needed, only the field of its value. -/
theorem C64_chain_refuted : ∃ (P : Prog) (fo : Nat → List Nat) (items : List Item) (x f : Nat), Proper P ∧ Alone P ∧ PlainTargets P ∧
    Apart P ∧ Listed P fo items ∧ ReadThrough P fo x f ∧ WrittenThrough P x f ∧
    ∃ st N E D, fiberModule P fo items 100 50 = .ok (st, N, E, D) ∧
      (∀ i ∈ fiberSet D (N.decl x) true, ¬ Word D.nodes i [⟨f, false⟩]) ∧ ∀ i ∈ fiberSet D (N.decl x) false, ¬ Word D.nodes i [⟨f, true⟩] := by
  let P := c64prog .skip (.seq (c64obj 2) (.seq (c64obj 5) (.seq (.assign 20 (.fieldRef 12 true 3 (.use 13 true 2)) (.use 14 true 5))
    (.seq (.assign 21 (.fieldRef 15 false 4 (.use 16 true 5)) .const)
     (.assign 22 (.attrRef false 6) (.fieldRef 17 false 4 (.fieldRef 18 true 3 (.use 19 true 2)))))))) []
  obtain ⟨h1, h2, h3, h4, st, N, E, D, h5, h6⟩ := c64_checked (P := P)
    (ok := fun N D => c64lacks 2 ⟨3, false⟩ N D && c64lacks 2 ⟨3, true⟩ N D) (by decide +kernel)
  simp only [Bool.and_eq_true] at h6
  have hobj : Obj P 2 := .inr ⟨_, some 1, .seqR (.rule (.seqL (.here _ _)))⟩
  have hread : ReadAt P (some 1) (.expr (.use 19 true 2)) 18 3 true (.fieldRef 18 true 3 (.use 19 true 2)) :=
    .field (.obj (.rhs (d := 22) (.seqR (.rule (.seqR (.seqR (.seqR (.seqR (.here _ _)))))))))
  have hwrite : WriteAt P (some 1) (.expr (.use 13 true 2)) 12 3 true 20 (.use 14 true 5) :=
    .field (.seqR (.rule (.seqR (.seqR (.seqL (.here _ _))))))
  have r1 : Reaches P (.decl 2) (.expr (.use 19 true 2)) := .step (.refl _) (.use rfl)
  have r2 : Reaches P (.decl 2) (.expr (.use 13 true 2)) := .step (.refl _) (.use rfl)
  exact ⟨P, c64fo, c64items, 2, 3, h1, h2, plain_of_ok (by decide +kernel), h3, h4,
    ⟨⟨_, _, _, _, _, r1, hread⟩, 2, hobj, .refl _, .inl ⟨_, _, _, _, _, _, r2, hwrite⟩⟩,
    ⟨⟨_, _, _, _, _, _, r2, hwrite⟩, 2, _, _, _, _, _, hobj, .refl _, r1, hread⟩, st, N, E, D, h5, c64_lacks h6.1, c64_lacks h6.2⟩

/-- **C64, refuted for a field that is copied to a field.** `2.3 := 5.4; 5.4 := 7; 6 := 2.3`: the field 4 is read and
assigned through 5, and 5 has no fiber for it: the place an assigned field takes its value to is no node at all. -/
theorem C64_copy_refuted : ∃ (P : Prog) (fo : Nat → List Nat) (items : List Item) (x f : Nat), Proper P ∧ Alone P ∧ PlainTargets P ∧
    Apart P ∧ Listed P fo items ∧ ReadThrough P fo x f ∧ WrittenThrough P x f ∧
    ∃ st N E D, fiberModule P fo items 100 50 = .ok (st, N, E, D) ∧
      (∀ i ∈ fiberSet D (N.decl x) true, ¬ Word D.nodes i [⟨f, false⟩]) ∧ ∀ i ∈ fiberSet D (N.decl x) false, ¬ Word D.nodes i [⟨f, true⟩] := by
  let P := c64prog .skip (.seq (c64obj 2) (.seq (c64obj 5) (.seq (c64obj 7)
    (.seq (.assign 20 (.fieldRef 12 true 3 (.use 13 true 2)) (.fieldRef 14 true 4 (.use 15 true 5)))
    (.seq (.assign 21 (.fieldRef 16 true 4 (.use 17 true 5)) (.use 11 true 7))
     (.assign 22 (.attrRef true 6) (.fieldRef 18 true 3 (.use 19 true 2)))))))) []
  obtain ⟨h1, h2, h3, h4, st, N, E, D, h5, h6⟩ := c64_checked (P := P)
    (ok := fun N D => c64lacks 5 ⟨4, false⟩ N D && c64lacks 5 ⟨4, true⟩ N D) (by decide +kernel)
  simp only [Bool.and_eq_true] at h6
  have hobj : Obj P 5 := .inr ⟨_, some 1, .seqR (.rule (.seqR (.seqL (.here _ _))))⟩
  have hread : ReadAt P (some 1) (.expr (.use 15 true 5)) 14 4 true (.fieldRef 14 true 4 (.use 15 true 5)) :=
    .field (.rhs (d := 20) (.seqR (.rule (.seqR (.seqR (.seqR (.seqL (.here _ _))))))))
  have hwrite : WriteAt P (some 1) (.expr (.use 17 true 5)) 16 4 true 21 (.use 11 true 7) :=
    .field (.seqR (.rule (.seqR (.seqR (.seqR (.seqR (.seqL (.here _ _))))))))
  have r1 : Reaches P (.decl 5) (.expr (.use 15 true 5)) := .step (.refl _) (.use rfl)
  have r2 : Reaches P (.decl 5) (.expr (.use 17 true 5)) := .step (.refl _) (.use rfl)
  exact ⟨P, c64fo, c64items, 5, 4, h1, h2, plain_of_ok (by decide +kernel), h3, h4,
    ⟨⟨_, _, _, _, _, r1, hread⟩, 5, hobj, .refl _, .inl ⟨_, _, _, _, _, _, r2, hwrite⟩⟩,
    ⟨⟨_, _, _, _, _, _, r2, hwrite⟩, 5, _, _, _, _, _, hobj, .refl _, r1, hread⟩, st, N, E, D, h5, c64_lacks h6.1, c64_lacks h6.2⟩

/-- **C64, refuted for a field that is assigned nothing.** `2.3 := {}; 6 := 2.3`: an empty collection has no nodes, so there is
no fiber for the assignment. -/
theorem C64_empty_refuted : ∃ (P : Prog) (fo : Nat → List Nat) (items : List Item) (x f : Nat), Proper P ∧ Alone P ∧ PlainTargets P ∧
    Apart P ∧ Listed P fo items ∧ WrittenThrough P x f ∧
    ∃ st N E D, fiberModule P fo items 100 50 = .ok (st, N, E, D) ∧ ∀ i ∈ fiberSet D (N.decl x) false, ¬ Word D.nodes i [⟨f, true⟩] := by
  let P := c64prog .skip (.seq (c64obj 2) (.seq (.assign 20 (.fieldRef 12 true 3 (.use 13 true 2)) (.prim true []))
     (.assign 22 (.attrRef true 6) (.fieldRef 18 true 3 (.use 19 true 2))))) []
  obtain ⟨h1, h2, h3, h4, st, N, E, D, h5, h6⟩ := c64_checked (P := P) (ok := fun N D => c64lacks 2 ⟨3, true⟩ N D) (by decide +kernel)
  have hobj : Obj P 2 := .inr ⟨_, some 1, .seqR (.rule (.seqL (.here _ _)))⟩
  have hread : ReadAt P (some 1) (.expr (.use 19 true 2)) 18 3 true (.fieldRef 18 true 3 (.use 19 true 2)) :=
    .field (.rhs (d := 22) (.seqR (.rule (.seqR (.seqR (.here _ _))))))
  have hwrite : WriteAt P (some 1) (.expr (.use 13 true 2)) 12 3 true 20 (.prim true []) :=
    .field (.seqR (.rule (.seqR (.seqL (.here _ _)))))
  exact ⟨P, c64fo, c64items, 2, 3, h1, h2, plain_of_ok (by decide +kernel), h3, h4,
    ⟨⟨_, _, _, _, _, _, .step (.refl _) (.use rfl), hwrite⟩, 2, _, _, _, _, _, hobj, .refl _, .step (.refl _) (.use rfl), hread⟩,
    st, N, E, D, h5, c64_lacks h6⟩

/-- **C64, refuted for an assignment to a field of what is in a shared variable.** The shared variable 10 holds the object 2,
and in a rule `10.3 := const`: the variable is read in the rule, and the shared information of the rule has no fiber for it:
`link_expr_lhs` links the object of an assigned field as if it was assigned, not read. -/
theorem C64_shared_refuted : ∃ (P : Prog) (fo : Nat → List Nat) (items : List Item) (x f : Nat), Proper P ∧ Alone P ∧ Apart P ∧
    Listed P fo items ∧ ReadThrough P fo x f ∧
    ∃ st N E D, fiberModule P fo items 100 50 = .ok (st, N, E, D) ∧ ∀ i ∈ fiberSet D (N.decl x) true, ¬ Word D.nodes i [⟨f, false⟩] := by
  let P := c64prog (.seq (c64obj 2) (.value 10 false (some (.use 14 true 2)))) (.assign 20 (.fieldRef 12 false 3 (.use 13 true 10)) .const) [10]
  obtain ⟨h1, h2, h3, h4, st, N, E, D, h5, h6⟩ := c64_checked (P := P) (ok := fun N D => c64lacks 1 ⟨10, false⟩ N D) (by decide +kernel)
  have hread : ReadAt P (some 1) (.decl 1) 13 10 true (.use 13 true 10) :=
    .shared (.lhsObj (d := 20) (.seqR (.rule (.here _ _)))) rfl (by decide)
  exact ⟨P, c64fo, c64items, 1, 10, h1, h2, h3, h4, ⟨⟨_, _, _, _, _, .refl _, hread⟩, 0, .inl rfl, .step (.refl _) .root,
    .inr (.inr ⟨_, _, none, rfl, by decide, .seqL (.seqR (.here _ _))⟩)⟩, st, N, E, D, h5, c64_lacks h6⟩

end Aps.Props
