import Verif.Proofs.SourceMain
import Verif.Props.Pipeline
set_option linter.unusedVariables false
/-!
# C66: from equations to evaluators

The whole way of a grammar: the dependency graphs are made from the equations, closed, put into phases and total orders, the
visit procedures are printed, and run on a tree.
-/
namespace Aps.Props
open Aps Aps.Dnc Aps.Oag Aps.Static

variable {V : Type}

/-- the grammar with the graphs made from its equations -/
def sourceGrammar (phyla : List Phylum) (prods : List (Static.Prod V)) (gs : List Aug) : Grammar V :=
  ⟨phyla, prods, gs, prods.map (·.conds)⟩

theorem filled_rule {phyla : List Phylum} {prods : List (Static.Prod V)} (h : SourceOk phyla prods) {G : Grammar V} (hG : G.prods = prods)
    (scheds : List (Nat × List Int)) (ts : List Cto) : ∀ P ∈ G.filled scheds ts, CasesApart P := by
  intro P' hP' σ pre r post _ inst e pat t f hi hr
  exfalso
  obtain ⟨x, hx⟩ := List.getElem?_of_mem hP'
  have hlt := (List.getElem?_eq_some_iff.1 hx).1
  simp only [Grammar.filled, List.length_zipWith, hG] at hlt
  have hP := List.getElem?_eq_getElem (show x < prods.length by omega)
  have ht := List.getElem?_eq_getElem (show x < ts.length by omega)
  simp only [Grammar.filled, List.getElem?_zipWith, hG, hP, ht] at hx
  cases hx
  simp only [Prod.fill, List.getElem?_map] at hi
  obtain ⟨inst', hi', rfl⟩ := Option.map_eq_some_iff.1 hi
  obtain ⟨reads, fn, e⟩ := (h.rules _ (List.mem_of_getElem? hP)).ifs r inst' _ hi' hr
  cases e

/-- C66. Every grammar in source form: the dependency graphs of its productions are made; they are closed in finitely many
steps; if no instance is found to depend on itself, the phases and total orders are found in finitely many steps; and if
then no cycle is found and every visit synthesises something, the visit procedures printed evaluate every tree.

Partial: the conditionals are if statements; locals are declared outside of them (`C62_local_refuted`); there are no objects,
fibers and functions; and every visit has to synthesise something (`C60_inherited_only_refuted`). -/
theorem C66_evaluates_partial {phyla : List Phylum} {prods : List (Static.Prod V)} (h : SourceOk phyla prods) :
    ∃ gs, prods.mapM (fun P => P.graph phyla) = .ok gs ∧
      ∃ F s1, (∀ f ≥ F, dncClose f (sourceGrammar phyla prods gs).state = .ok s1) ∧ (stateCycle s1 = 0 →
        ∃ F' s' scheds ts, (∀ f ≥ F', computeOag f (phyla.map (·.dirs)) (prods.map (·.conds)) s1 = .ok (s', scheds, ts)) ∧
          (stateCycle s' = 0 → Productive scheds →
            Evaluates (phylaOf phyla scheds) ((sourceGrammar phyla prods gs).filled scheds ts))) := by
  obtain ⟨gs, h1, h2⟩ := source_ok h
  refine ⟨gs, h1, ?_⟩
  obtain ⟨F, s1, e1, h3⟩ := C65_evaluates_partial h2
  refine ⟨F, s1, e1, fun hc => ?_⟩
  obtain ⟨F', s', scheds, ts, e2, h4⟩ := h3 hc
  exact ⟨F', s', scheds, ts, e2, fun hc' hp => h4 hc' hp (filled_rule h rfl scheds ts)⟩

/-! ### An example: `S ::= T` with a conditional, `T ::=` with a local; `T` is visited twice -/

def c66phyla : List Phylum :=
  [⟨[10, 11], [.inward, .outward], fun x => x == 10, 0⟩,
   ⟨[20, 21, 22, 23], [.inward, .outward, .inward, .outward], fun x => x == 20, 0⟩]

def c66then : Block Nat := .assign 5 ⟨[4], fun vs => vs.sum⟩ .nil
def c66else : Block Nat := .assign 5 ⟨[], fun _ => 7⟩ .nil

def c66P0 : Static.Prod Nat where
  insts := [⟨false, none, 0, some ⟨.ifs [4] (fun vs => vs.sum > 6), c66then, some c66else⟩, false, .unknown, 0⟩,
    stInst true none 0 true (.node true) 10, stInst true none 0 false (.node false) 11,
    stInst false (some 0) 0 false (.node true) 20, stInst false (some 0) 0 true (.node false) 21,
    stInst false (some 0) 0 false (.node false) 22, stInst false (some 0) 0 true (.node false) 23]
  defaults := List.replicate 7 none
  body := .cond 0 c66then c66else (.assign 2 ⟨[6], fun vs => vs.sum⟩ .nil)
  cto := .nil
  lhsPhy := 0
  kidPhy := [some 1]

def c66P1 : Static.Prod Nat where
  insts := [stInst true none 0 true (.node true) 20, stInst true none 0 false (.node false) 21,
    stInst true none 0 true (.node false) 22, stInst true none 0 false (.node false) 23,
    stInst false none 0 false (.loc false) 0]
  defaults := List.replicate 5 none
  body := .decl 4 (.assign 4 ⟨[2], fun vs => vs.sum + 3⟩ (.assign 1 ⟨[], fun _ => 5⟩ (.assign 3 ⟨[4], fun vs => vs.sum⟩ .nil)))
  cto := .nil
  lhsPhy := 1
  kidPhy := []

def c66prods : List (Static.Prod Nat) := [c66P0, c66P1]

theorem c66P0_declared : Declared c66P0 := by
  refine ⟨rfl, ?_, ?_, ?_, ?_, ?_, ?_, ?_⟩
  · refine stIdx (n := 7) rfl fun i hi inst h => ?_
    interval_cases i <;> (simp [c66P0, stInst] at h; subst h; simp)
  · refine stIdx (n := 7) rfl fun i hi inst h => ?_
    interval_cases i <;> (simp [c66P0, stInst] at h; subst h; simp)
  · intro i j a b hi hj
    revert j b
    revert i a
    refine stIdx (n := 7) rfl fun i hi a ha => ?_
    refine stIdx (n := 7) rfl fun j hj b hb => ?_
    interval_cases i <;> (simp [c66P0, stInst] at ha; subst ha) <;> interval_cases j <;> (simp [c66P0, stInst] at hb; subst hb; simp)
  · intro r t f h
    have h' : Block.Has (.cond 0 c66then c66else (.assign 2 ⟨[6], fun vs => vs.sum⟩ .nil)) r t f := h
    cases h' with
    | here => exact ⟨_, _, rfl, rfl, rfl, .inl rfl⟩
    | rest h => cases h with | assign h => cases h
    | inTrue h => cases h with | assign h => cases h
    | inFalse h => cases h with | assign h => cases h
  · intro σ q h
    cases hσ : σ 0 <;> simp [c66P0, Block.active, c66then, c66else, hσ] at h <;> rcases h with rfl | rfl <;> decide
  · intro σ
    cases hσ : σ 0 <;> simp [c66P0, Block.active, c66then, c66else, hσ]
  · rintro σ i ⟨inst, hi, h⟩
    revert h
    revert i inst
    refine stIdx (n := 7) rfl fun i hi inst h => ?_
    interval_cases i <;> (simp [c66P0, stInst] at h; subst h; cases hσ : σ 0 <;> simp [c66P0, Prod.rhs, Block.active, c66then, c66else, hσ])

theorem c66P0_arranged : Arranged c66phyla c66P0 1 (fun _ => 3) := by
  refine ⟨?_, ?_, ?_, ?_, ?_⟩
  · refine stIdx (n := 7) rfl fun i hi inst h => ?_
    interval_cases i <;> (simp [c66P0, stInst] at h; subst h; intro hh; first | cases hh | skip)
    · exact ⟨rfl, _, 0, rfl, rfl, rfl, rfl, by simp⟩
    · exact ⟨rfl, _, 1, rfl, rfl, rfl, rfl, by simp⟩
  · intro i inst c h
    revert i inst
    refine stIdx (n := 7) rfl fun i hi inst h => ?_
    interval_cases i <;> (simp [c66P0, stInst] at h; subst h; intro hh; first | cases hh | skip)
    · exact ⟨_, _, 0, rfl, rfl, rfl, rfl, rfl, by simp⟩
    · exact ⟨_, _, 1, rfl, rfl, rfl, rfl, rfl, by simp⟩
    · exact ⟨_, _, 2, rfl, rfl, rfl, rfl, rfl, by simp⟩
    · exact ⟨_, _, 3, rfl, rfl, rfl, rfl, rfl, by simp⟩
  · intro q a hq ha
    cases hq
    simp at ha
    interval_cases a <;> exact ⟨_, rfl, rfl⟩
  · intro c k q a hk hq ha
    match c with
    | 0 =>
      cases hk; cases hq
      simp at ha
      interval_cases a <;> exact ⟨_, rfl, rfl⟩
    | c + 1 => simp [c66P0] at hk
  · intro i hi
    interval_cases i
    exact ⟨_, rfl, rfl⟩

theorem c66P0_sound : c66P0.Sound c66phyla := by
  refine ⟨c66P0_declared, ⟨_, _, c66P0_arranged⟩, ⟨_, rfl⟩, ?_, by decide, by decide, ?_, ?_, ?_, ?_, ?_, ?_, ?_⟩
  · intro c k h
    match c with
    | 0 => cases h; exact ⟨_, rfl⟩
    | c + 1 => simp [c66P0] at h
  · refine stIdx (n := 7) rfl fun i hi inst h => ?_
    interval_cases i <;> (simp [c66P0, stInst] at h; subst h; simp [c66P0, Block.rules, c66then, c66else])
  · intro i inst
    revert i inst
    intro i inst rule h
    revert h
    revert i inst
    refine stIdx (n := 7) rfl fun i hi inst h => ?_
    interval_cases i <;> (simp [c66P0, stInst] at h; subst h; simp)
    rintro rfl
    exact ⟨_, _, rfl⟩
  · intro i inst rule h
    revert h
    revert i inst
    refine stIdx (n := 7) rfl fun i hi inst h => ?_
    interval_cases i <;> (simp [c66P0, stInst] at h; subst h; simp)
    rintro rfl
    simp only [Test.reads, List.mem_singleton, forall_eq]
    exact ⟨_, rfl, rfl, .inl rfl⟩
  · intro q hq
    simp [c66P0, Block.assigns, c66then, c66else] at hq
    rcases hq with rfl | rfl | rfl
    · exact ⟨⟨_, rfl, rfl, .inl rfl⟩, by simp; exact ⟨_, rfl, rfl, .inl rfl⟩⟩
    · exact ⟨⟨_, rfl, rfl, .inl rfl⟩, by simp⟩
    · exact ⟨⟨_, rfl, rfl, .inl rfl⟩, by simp; exact ⟨_, rfl, rfl, .inl rfl⟩⟩
  · intro i e h
    exfalso
    simp only [c66P0, List.getElem?_replicate] at h
    split at h <;> simp at h
  · intro i
    constructor
    · intro h; simp [c66P0, Block.decls, c66then, c66else] at h
    · rintro ⟨inst, h, hr⟩
      exfalso
      revert hr
      revert h
      revert i inst
      refine stIdx (n := 7) rfl fun i hi inst h => ?_
      interval_cases i <;> (simp [c66P0, stInst] at h; subst h; simp)
  · intro r t f h
    have h' : Block.Has (.cond 0 c66then c66else (.assign 2 ⟨[6], fun vs => vs.sum⟩ .nil)) r t f := h
    cases h' with
    | here => exact ⟨rfl, rfl⟩
    | rest h => cases h with | assign h => cases h
    | inTrue h => cases h with | assign h => cases h
    | inFalse h => cases h with | assign h => cases h

theorem c66P1_declared : Declared c66P1 := by
  refine ⟨rfl, ?_, ?_, ?_, ?_, ?_, ?_, ?_⟩
  · refine stIdx (n := 5) rfl fun i hi inst h => ?_
    interval_cases i <;> (simp [c66P1, stInst] at h; subst h; simp)
  · refine stIdx (n := 5) rfl fun i hi inst h => ?_
    interval_cases i <;> (simp [c66P1, stInst] at h; subst h; simp)
  · intro i j a b hi hj
    revert j b
    revert i a
    refine stIdx (n := 5) rfl fun i hi a ha => ?_
    refine stIdx (n := 5) rfl fun j hj b hb => ?_
    interval_cases i <;> (simp [c66P1, stInst] at ha; subst ha) <;> interval_cases j <;> (simp [c66P1, stInst] at hb; subst hb; simp)
  · intro r t f h
    have h' : Block.Has (.decl 4 (.assign 4 _ (.assign 1 _ (.assign 3 _ .nil)))) r t f := h
    cases h' with | decl h => cases h with | assign h => cases h with | assign h => cases h with | assign h => cases h
  · intro σ q h
    simp [c66P1, Block.active] at h
    rcases h with rfl | rfl | rfl <;> decide
  · intro σ
    simp [c66P1, Block.active]
  · rintro σ i ⟨inst, hi, h⟩
    revert h
    revert i inst
    refine stIdx (n := 5) rfl fun i hi inst h => ?_
    interval_cases i <;> (simp [c66P1, stInst] at h; subst h; simp [c66P1, Prod.rhs, Block.active])

theorem c66P1_arranged : Arranged c66phyla c66P1 0 (fun _ => 0) := by
  refine ⟨?_, ?_, ?_, ?_, ?_⟩
  · refine stIdx (n := 5) rfl fun i hi inst h => ?_
    interval_cases i <;> (simp [c66P1, stInst] at h; subst h; intro hh; first | cases hh | skip)
    · exact ⟨rfl, _, 0, rfl, rfl, rfl, rfl, by simp⟩
    · exact ⟨rfl, _, 1, rfl, rfl, rfl, rfl, by simp⟩
    · exact ⟨rfl, _, 2, rfl, rfl, rfl, rfl, by simp⟩
    · exact ⟨rfl, _, 3, rfl, rfl, rfl, rfl, by simp⟩
  · intro i inst c h
    revert i inst
    refine stIdx (n := 5) rfl fun i hi inst h => ?_
    interval_cases i <;> (simp [c66P1, stInst] at h; subst h; simp [c66P1])
  · intro q a hq ha
    cases hq
    simp at ha
    interval_cases a <;> exact ⟨_, rfl, rfl⟩
  · intro c k q a hk
    simp [c66P1] at hk
  · intro i hi
    omega

theorem c66P1_sound : c66P1.Sound c66phyla := by
  refine ⟨c66P1_declared, ⟨_, _, c66P1_arranged⟩, ⟨_, rfl⟩, ?_, by decide, by decide, ?_, ?_, ?_, ?_, ?_, ?_, ?_⟩
  · intro c k h
    simp [c66P1] at h
  · refine stIdx (n := 5) rfl fun i hi inst h => ?_
    interval_cases i <;> (simp [c66P1, stInst] at h; subst h; simp [c66P1, Block.rules])
  · intro i inst rule h
    revert h
    revert i inst
    refine stIdx (n := 5) rfl fun i hi inst h => ?_
    interval_cases i <;> (simp [c66P1, stInst] at h; subst h; simp)
  · intro i inst rule h
    revert h
    revert i inst
    refine stIdx (n := 5) rfl fun i hi inst h => ?_
    interval_cases i <;> (simp [c66P1, stInst] at h; subst h; simp)
  · intro q hq
    simp [c66P1, Block.assigns] at hq
    rcases hq with rfl | rfl | rfl
    · exact ⟨⟨_, rfl, rfl, .inr rfl⟩, by simp; exact ⟨_, rfl, rfl, .inl rfl⟩⟩
    · exact ⟨⟨_, rfl, rfl, .inl rfl⟩, by simp⟩
    · exact ⟨⟨_, rfl, rfl, .inl rfl⟩, by simp; exact ⟨_, rfl, rfl, .inr rfl⟩⟩
  · intro i e h
    exfalso
    simp only [c66P1, List.getElem?_replicate] at h
    split at h <;> simp at h
  · intro i
    constructor
    · intro h
      simp [c66P1, Block.decls] at h
      subst h
      exact ⟨_, rfl, rfl, rfl, rfl⟩
    · rintro ⟨inst, h, hr⟩
      revert hr
      revert h
      revert i inst
      refine stIdx (n := 5) rfl fun i hi inst h => ?_
      interval_cases i <;> (simp [c66P1, stInst] at h; subst h; simp [c66P1, Block.decls])
  · intro r t f h
    have h' : Block.Has (.decl 4 (.assign 4 _ (.assign 1 _ (.assign 3 _ .nil)))) r t f := h
    cases h' with | decl h => cases h with | assign h => cases h with | assign h => cases h with | assign h => cases h

theorem c66ok : SourceOk c66phyla c66prods := by
  refine ⟨by decide, ?_⟩
  intro P hP
  simp only [c66prods, List.mem_cons, List.not_mem_nil, or_false] at hP
  rcases hP with rfl | rfl
  · exact c66P0_sound
  · exact c66P1_sound

/-- the analysis of a grammar ends, without cycles, with the given phases and total orders -/
def Analysed (phyla : List Phylum) (prods : List (Static.Prod V)) (gs : List Aug) (scheds : List (Nat × List Int)) (ts : List Cto) : Prop :=
  ∃ s1 s', prods.mapM (fun P => P.graph phyla) = .ok gs ∧ dncClose 100 (sourceGrammar phyla prods gs).state = .ok s1 ∧ stateCycle s1 = 0 ∧
    computeOag 100 (phyla.map (·.dirs)) (prods.map (·.conds)) s1 = .ok (s', scheds, ts) ∧ stateCycle s' = 0

/-- the same, as a test -/
def analysedCheck (phyla : List Phylum) (prods : List (Static.Prod V)) (scheds : List (Nat × List Int)) (ts : List Cto) : Bool :=
  match prods.mapM (fun P => P.graph phyla) with
  | .ok gs =>
    match dncClose 100 (sourceGrammar phyla prods gs).state with
    | .ok s1 =>
      match computeOag 100 (phyla.map (·.dirs)) (prods.map (·.conds)) s1 with
      | .ok (s', scheds', ts') => decide (stateCycle s1 = 0) && decide (stateCycle s' = 0) && decide (scheds' = scheds) && decide (ts' = ts)
      | _ => false
    | _ => false
  | _ => false

theorem analysed_of_check {phyla : List Phylum} {prods : List (Static.Prod V)} {scheds : List (Nat × List Int)} {ts : List Cto}
    (h : analysedCheck phyla prods scheds ts = true) : ∃ gs, Analysed phyla prods gs scheds ts := by
  unfold analysedCheck at h
  split at h
  · rename_i gs e1
    split at h
    · rename_i s1 e2
      split at h
      · rename_i s' scheds' ts' e3
        simp only [Bool.and_eq_true, decide_eq_true_eq] at h
        obtain ⟨⟨⟨h1, h2⟩, rfl⟩, rfl⟩ := h
        exact ⟨gs, s1, s', e1, e2, h1, e3, h2⟩
      · cases h
    · cases h
  · cases h

def c66scheds : List (Nat × List Int) := [(0, [-1, 1]), (1, [-1, 1, -2, 2])]
def c66ctos : List Cto := [.node 1 (.node 3 (.node 4 (.ifs 0 (.node 5 (.node 6 (.node 2 .nil))) (.node 5 (.node 6 (.node 2 .nil)))))),
  .node 0 (.node 1 (.node 2 (.node 4 (.node 3 .nil))))]
def c66tree : Static.Tree := .node 0 [.node 1 []]

/-- The hypotheses of `C66_evaluates_partial` (and those of `C65_evaluates_partial`) are met by the example; `T` is visited
twice, and the root gets 7 + 3. -/
example : SourceOk c66phyla c66prods ∧ ∃ gs, Analysed c66phyla c66prods gs c66scheds c66ctos ∧ Productive c66scheds ∧
    (sourceGrammar c66phyla c66prods gs).Ok ∧ ∃ codes st,
      ((sourceGrammar c66phyla c66prods gs).filled c66scheds c66ctos).mapM (fun P => dumpVisits P 30) = .ok codes ∧
      visitAll ((sourceGrammar c66phyla c66prods gs).filled c66scheds c66ctos) codes 4 0 c66tree [1] [] = .ok st ∧
      Static.get st ([], .attr 11) = some 10 := by
  obtain ⟨gs, h⟩ := analysed_of_check (show analysedCheck c66phyla c66prods c66scheds c66ctos = true by decide +kernel)
  obtain ⟨gs', h1, h2⟩ := source_ok c66ok
  obtain ⟨s1, s', e1, _⟩ := id h
  rw [h1] at e1
  cases e1
  refine ⟨c66ok, _, h, ?_, h2, _, _, rfl, rfl, rfl⟩
  intro q hq s hs k h1 h2
  simp only [c66scheds, List.mem_cons, List.not_mem_nil, or_false] at hq
  rcases hq with rfl | rfl <;> simp only [List.mem_cons, List.not_mem_nil, or_false] at hs
  · have : k = 1 := by rcases hs with rfl | rfl <;> simp at h2 <;> omega
    subst this; simp
  · have : k = 1 ∨ k = 2 := by rcases hs with rfl | rfl | rfl | rfl <;> simp at h2 <;> omega
    rcases this with rfl | rfl <;> simp

/-! ### A phylum without synthesised attributes -/

def c66phyla' : List Phylum :=
  [⟨[10, 11], [.inward, .outward], fun x => x == 10, 0⟩, ⟨[20, 21], [.inward, .inward], fun x => x == 20, 0⟩]

def c66R0 : Static.Prod Nat where
  insts := [stInst true none 0 true (.node true) 10, stInst true none 0 false (.node false) 11,
    stInst false (some 0) 0 false (.node true) 20, stInst false (some 0) 0 false (.node false) 21]
  defaults := List.replicate 4 none
  body := .assign 3 ⟨[], fun _ => 4⟩ (.assign 1 ⟨[], fun _ => 9⟩ .nil)
  cto := .nil
  lhsPhy := 0
  kidPhy := [some 1]

def c66R1 : Static.Prod Nat where
  insts := [stInst true none 0 true (.node true) 20, stInst true none 0 true (.node false) 21,
    stInst false none 0 false (.loc false) 0]
  defaults := List.replicate 3 none
  body := .decl 2 (.assign 2 ⟨[1], fun vs => vs.sum⟩ .nil)
  cto := .nil
  lhsPhy := 1
  kidPhy := []

def c66prods' : List (Static.Prod Nat) := [c66R0, c66R1]

theorem c66R0_declared : Declared c66R0 := by
  refine ⟨rfl, ?_, ?_, ?_, ?_, ?_, ?_, ?_⟩
  · refine stIdx (n := 4) rfl fun i hi inst h => ?_
    interval_cases i <;> (simp [c66R0, stInst] at h; subst h; simp)
  · refine stIdx (n := 4) rfl fun i hi inst h => ?_
    interval_cases i <;> (simp [c66R0, stInst] at h; subst h; simp)
  · intro i j a b hi hj
    revert j b
    revert i a
    refine stIdx (n := 4) rfl fun i hi a ha => ?_
    refine stIdx (n := 4) rfl fun j hj b hb => ?_
    interval_cases i <;> (simp [c66R0, stInst] at ha; subst ha) <;> interval_cases j <;> (simp [c66R0, stInst] at hb; subst hb; simp)
  · intro r t f h
    have h' : Block.Has (.assign 3 _ (.assign 1 _ .nil)) r t f := h
    cases h' with | assign h => cases h with | assign h => cases h
  · intro σ q h
    simp [c66R0, Block.active] at h
    rcases h with rfl | rfl <;> decide
  · intro σ
    simp [c66R0, Block.active]
  · rintro σ i ⟨inst, hi, h⟩
    revert h
    revert i inst
    refine stIdx (n := 4) rfl fun i hi inst h => ?_
    interval_cases i <;> (simp [c66R0, stInst] at h; subst h; simp [c66R0, Prod.rhs, Block.active])

theorem c66R0_arranged : Arranged c66phyla' c66R0 0 (fun _ => 2) := by
  refine ⟨?_, ?_, ?_, ?_, ?_⟩
  · refine stIdx (n := 4) rfl fun i hi inst h => ?_
    interval_cases i <;> (simp [c66R0, stInst] at h; subst h; intro hh; first | cases hh | skip)
    · exact ⟨rfl, _, 0, rfl, rfl, rfl, rfl, by simp⟩
    · exact ⟨rfl, _, 1, rfl, rfl, rfl, rfl, by simp⟩
  · intro i inst c h
    revert i inst
    refine stIdx (n := 4) rfl fun i hi inst h => ?_
    interval_cases i <;> (simp [c66R0, stInst] at h; subst h; intro hh; first | cases hh | skip)
    · exact ⟨_, _, 0, rfl, rfl, rfl, rfl, rfl, by simp⟩
    · exact ⟨_, _, 1, rfl, rfl, rfl, rfl, rfl, by simp⟩
  · intro q a hq ha
    cases hq
    simp at ha
    interval_cases a <;> exact ⟨_, rfl, rfl⟩
  · intro c k q a hk hq ha
    match c with
    | 0 =>
      cases hk; cases hq
      simp at ha
      interval_cases a <;> exact ⟨_, rfl, rfl⟩
    | c + 1 => simp [c66R0] at hk
  · intro i hi
    omega

theorem c66R0_sound : c66R0.Sound c66phyla' := by
  refine ⟨c66R0_declared, ⟨_, _, c66R0_arranged⟩, ⟨_, rfl⟩, ?_, by decide, by decide, ?_, ?_, ?_, ?_, ?_, ?_, ?_⟩
  · intro c k h
    match c with
    | 0 => cases h; exact ⟨_, rfl⟩
    | c + 1 => simp [c66R0] at h
  · refine stIdx (n := 4) rfl fun i hi inst h => ?_
    interval_cases i <;> (simp [c66R0, stInst] at h; subst h; simp [c66R0, Block.rules])
  · intro i inst rule h
    revert h
    revert i inst
    refine stIdx (n := 4) rfl fun i hi inst h => ?_
    interval_cases i <;> (simp [c66R0, stInst] at h; subst h; simp)
  · intro i inst rule h
    revert h
    revert i inst
    refine stIdx (n := 4) rfl fun i hi inst h => ?_
    interval_cases i <;> (simp [c66R0, stInst] at h; subst h; simp)
  · intro q hq
    simp [c66R0, Block.assigns] at hq
    rcases hq with rfl | rfl
    · exact ⟨⟨_, rfl, rfl, .inl rfl⟩, by simp⟩
    · exact ⟨⟨_, rfl, rfl, .inl rfl⟩, by simp⟩
  · intro i e h
    exfalso
    simp only [c66R0, List.getElem?_replicate] at h
    split at h <;> simp at h
  · intro i
    constructor
    · intro h; simp [c66R0, Block.decls] at h
    · rintro ⟨inst, h, hr⟩
      exfalso
      revert hr
      revert h
      revert i inst
      refine stIdx (n := 4) rfl fun i hi inst h => ?_
      interval_cases i <;> (simp [c66R0, stInst] at h; subst h; simp)
  · intro r t f h
    have h' : Block.Has (.assign 3 _ (.assign 1 _ .nil)) r t f := h
    cases h' with | assign h => cases h with | assign h => cases h

theorem c66R1_declared : Declared c66R1 := by
  refine ⟨rfl, ?_, ?_, ?_, ?_, ?_, ?_, ?_⟩
  · refine stIdx (n := 3) rfl fun i hi inst h => ?_
    interval_cases i <;> (simp [c66R1, stInst] at h; subst h; simp)
  · refine stIdx (n := 3) rfl fun i hi inst h => ?_
    interval_cases i <;> (simp [c66R1, stInst] at h; subst h; simp)
  · intro i j a b hi hj
    revert j b
    revert i a
    refine stIdx (n := 3) rfl fun i hi a ha => ?_
    refine stIdx (n := 3) rfl fun j hj b hb => ?_
    interval_cases i <;> (simp [c66R1, stInst] at ha; subst ha) <;> interval_cases j <;> (simp [c66R1, stInst] at hb; subst hb; simp)
  · intro r t f h
    have h' : Block.Has (.decl 2 (.assign 2 _ .nil)) r t f := h
    cases h' with | decl h => cases h with | assign h => cases h
  · intro σ q h
    simp [c66R1, Block.active] at h
    subst h; decide
  · intro σ
    simp [c66R1, Block.active]
  · rintro σ i ⟨inst, hi, h⟩
    revert h
    revert i inst
    refine stIdx (n := 3) rfl fun i hi inst h => ?_
    interval_cases i <;> (simp [c66R1, stInst] at h; subst h; simp [c66R1, Prod.rhs, Block.active])

theorem c66R1_arranged : Arranged c66phyla' c66R1 0 (fun _ => 0) := by
  refine ⟨?_, ?_, ?_, ?_, ?_⟩
  · refine stIdx (n := 3) rfl fun i hi inst h => ?_
    interval_cases i <;> (simp [c66R1, stInst] at h; subst h; intro hh; first | cases hh | skip)
    · exact ⟨rfl, _, 0, rfl, rfl, rfl, rfl, by simp⟩
    · exact ⟨rfl, _, 1, rfl, rfl, rfl, rfl, by simp⟩
  · intro i inst c h
    revert i inst
    refine stIdx (n := 3) rfl fun i hi inst h => ?_
    interval_cases i <;> (simp [c66R1, stInst] at h; subst h; simp [c66R1])
  · intro q a hq ha
    cases hq
    simp at ha
    interval_cases a <;> exact ⟨_, rfl, rfl⟩
  · intro c k q a hk
    simp [c66R1] at hk
  · intro i hi
    omega

theorem c66R1_sound : c66R1.Sound c66phyla' := by
  refine ⟨c66R1_declared, ⟨_, _, c66R1_arranged⟩, ⟨_, rfl⟩, ?_, by decide, by decide, ?_, ?_, ?_, ?_, ?_, ?_, ?_⟩
  · intro c k h
    simp [c66R1] at h
  · refine stIdx (n := 3) rfl fun i hi inst h => ?_
    interval_cases i <;> (simp [c66R1, stInst] at h; subst h; simp [c66R1, Block.rules])
  · intro i inst rule h
    revert h
    revert i inst
    refine stIdx (n := 3) rfl fun i hi inst h => ?_
    interval_cases i <;> (simp [c66R1, stInst] at h; subst h; simp)
  · intro i inst rule h
    revert h
    revert i inst
    refine stIdx (n := 3) rfl fun i hi inst h => ?_
    interval_cases i <;> (simp [c66R1, stInst] at h; subst h; simp)
  · intro q hq
    simp [c66R1, Block.assigns] at hq
    subst hq
    exact ⟨⟨_, rfl, rfl, .inr rfl⟩, by simp; exact ⟨_, rfl, rfl, .inl rfl⟩⟩
  · intro i e h
    exfalso
    simp only [c66R1, List.getElem?_replicate] at h
    split at h <;> simp at h
  · intro i
    constructor
    · intro h
      simp [c66R1, Block.decls] at h
      subst h
      exact ⟨_, rfl, rfl, rfl, rfl⟩
    · rintro ⟨inst, h, hr⟩
      revert hr
      revert h
      revert i inst
      refine stIdx (n := 3) rfl fun i hi inst h => ?_
      interval_cases i <;> (simp [c66R1, stInst] at h; subst h; simp [c66R1, Block.decls])
  · intro r t f h
    have h' : Block.Has (.decl 2 (.assign 2 _ .nil)) r t f := h
    cases h' with | decl h => cases h with | assign h => cases h

theorem c66ok' : SourceOk c66phyla' c66prods' := by
  refine ⟨by decide, ?_⟩
  intro P hP
  simp only [c66prods', List.mem_cons, List.not_mem_nil, or_false] at hP
  rcases hP with rfl | rfl
  · exact c66R0_sound
  · exact c66R1_sound

/-- Without the requirement that every visit synthesises something the claim fails: the grammar is analysed without a cycle
found, the evaluator runs to the end without complaint, but what it leaves does not satisfy the equations: the child is never
visited. -/
theorem C66_inherited_only_refuted : ∃ (phyla : List Phylum) (prods : List (Static.Prod Nat)) (gs : List Aug) (scheds : List (Nat × List Int))
    (ts : List Cto) (t : Static.Tree) (codes : List (List (Code Nat))) (st : Store Nat), SourceOk phyla prods ∧ Analysed phyla prods gs scheds ts ∧
    HasTy prods t (some 0) ∧ (∀ P ∈ prods, some 0 ∉ P.kidPhy) ∧
    ((sourceGrammar phyla prods gs).filled scheds ts).mapM (fun P => dumpVisits P 30) = .ok codes ∧
    visitAll ((sourceGrammar phyla prods gs).filled scheds ts) codes 4 0 t [1] [] = .ok st ∧
    ¬ Solves ((sourceGrammar phyla prods gs).filled scheds ts) t (Static.get st) := by
  obtain ⟨gs, h⟩ := analysed_of_check (show analysedCheck c66phyla' c66prods' [(0, [-1, 1]), (1, [-1, -1])]
    [.node 0 (.node 1 (.node 2 (.node 3 .nil))), .node 0 (.node 1 (.node 2 .nil))] = true by decide +kernel)
  refine ⟨c66phyla', c66prods', gs, _, _, c66tree, _, _, c66ok', h, ?_, by decide, rfl, rfl, ?_⟩
  · refine .node (P := c66R0) rfl rfl ?_
    intro c k o hk ho
    rcases c with _ | c
    · cases hk; cases ho
      refine .node (P := c66R1) rfl rfl ?_
      intro c k o hk ho
      cases hk
    · cases hk
  · intro h
    obtain ⟨P, hP, σ, _, hval⟩ := h [0] 1 [] (.kid .root rfl)
    cases hP
    obtain ⟨e, v, _, _, hv⟩ := hval 2 ⟨_, rfl, .inr (.inr ⟨rfl, rfl, by simp [c66R1, Prod.fill, Block.locals]⟩)⟩
    cases hv

end Aps.Props
