import Verif.Proofs.Util
/-!
# C99: functions for families of constructors; loops over sequences

`run fuel f v`: a function of parse/aps-util.c called on a node.  `patternField f`: the constructors that the pattern of
the grammar matches which the function stands for, with the position of the field.
-/
namespace Aps.Props
open Aps.Ast Aps.Util

/-- **C99.** On a declaration that the pattern matches, the function returns the field of the pattern; on any other
declaration it stops with an error. -/
theorem C99_field (f : Fn) (v : Val) (h : Conforms (.ph .Declaration) v) :
    ∃ c a line kids, v = .node a (opNum c) line kids ∧ c.phylum = .Declaration ∧ ∀ fuel,
      (∀ i, (c, i) ∈ patternField f → ∃ x, kids[i]? = some x ∧ run (fuel + 2) f v = .ok x) ∧
      ((∀ i, (c, i) ∉ patternField f) → run (fuel + 2) f v = .stop) := by
  obtain ⟨c, a, line, kids, rfl, hp, hf⟩ := conforms_ph h
  refine ⟨c, a, line, kids, rfl, hp, fun fuel => ?_⟩
  have hr := run_eq f c hp a line kids hf.length_eq fuel
  constructor
  · intro i hi
    have : find c (patternField f) = some i := find_of_mem f hi
    exact hr.1 i this
  · intro hn
    refine hr.2 ?_
    cases hx : find c (patternField f) with
    | none => rfl
    | some i => exact absurd (find_mem hx) (hn i)

/-- **C99.** The same for `some_use`: the name used, if the node is a plain use of a name; otherwise an error, whatever
the phylum of the node. -/
theorem C99_use (p : Phylum) (v : Val) (h : Conforms (.ph p) v) :
    ∃ c a line kids, v = .node a (opNum c) line kids ∧
      (∀ i, (c, i) ∈ usePattern → ∃ x, kids[i]? = some x ∧ someUse v = .ok x) ∧
      ((∀ i, (c, i) ∉ usePattern) → someUse v = .stop) := by
  obtain ⟨c, a, line, kids, rfl, hp, hf⟩ := conforms_ph h
  refine ⟨c, a, line, kids, rfl, ?_⟩
  have hr := someUse_eq c a line kids hf.length_eq
  constructor
  · intro i hi
    have key : ∀ x ∈ usePattern, find x.1 usePattern = some x.2 := by decide +kernel
    exact hr.1 i (key _ hi)
  · intro hn
    refine hr.2 ?_
    cases hx : find c usePattern with
    | none => rfl
    | some i => exact absurd (find_mem hx) (hn i)

/-- **C99.** `FOR_SEQUENCE` runs the body once for each element of the sequence, from first to last, however the
sequence is put together, and whatever the body does; for every type of sequences. -/
theorem C99_for {σ : Type} (T : SeqType) (hT : T ∈ seqTypes) (body : σ → Val → Res σ) (seq : Val)
    (h : Conforms (.ph T.ph) seq) :
    ∃ N, ∀ fuel, N ≤ fuel → ∀ s, forSequence T body fuel seq s = each body (elems T.ph seq) s := by
  obtain ⟨e, hO⟩ := seqTypes_ok T hT
  obtain ⟨N, hN⟩ := loop_step hO body seq h
  refine ⟨N + 1, fun fuel hf s => ?_⟩
  obtain ⟨m, rfl⟩ : ∃ m, fuel = N + (m + 1) := ⟨fuel - N - 1, by omega⟩
  rw [forSequence, hN]
  cases each body (elems T.ph seq) s <;> rfl

/-! An example: the sequence `((a, ()), b)` of types, and a declaration of a value. -/

def utTy (a : Nat) : Val := .node a (opNum .no_type) 1 []

def utSeq : Val := .node 1 (opNum .append_Types) 1 [.node 2 (opNum .append_Types) 1 [
  .node 3 (opNum .list_Types) 1 [utTy 4], .node 5 (opNum .nil_Types) 1 []], .node 6 (opNum .list_Types) 1 [utTy 7]]

theorem utTy_conforms (a : Nat) : Conforms (.ph .Type) (utTy a) := conforms_node.2 ⟨.no_type, rfl, rfl, .nil⟩

example : Conforms (.ph .Types) utSeq ∧ elems .Types utSeq = [utTy 4, utTy 7] ∧ (seqTypes[3]).ph = .Types :=
  ⟨conforms_node.2 ⟨.append_Types, rfl, rfl, .cons (conforms_node.2 ⟨.append_Types, rfl, rfl,
    .cons (conforms_node.2 ⟨.list_Types, rfl, rfl, .cons (utTy_conforms _) .nil⟩)
      (.cons (conforms_node.2 ⟨.nil_Types, rfl, rfl, .nil⟩) .nil)⟩)
    (.cons (conforms_node.2 ⟨.list_Types, rfl, rfl, .cons (utTy_conforms _) .nil⟩) .nil)⟩,
    by with_unfolding_all rfl, rfl⟩

def utDecl : Val := .node 8 (opNum .type_renaming) 1 [.node 9 (opNum .def) 1 [.sym ['a'], .bool true, .bool false], utTy 10]

example : Conforms (.ph .Declaration) utDecl ∧ (.type_renaming, 1) ∈ patternField .renaming_old ∧
    run 2 .renaming_old utDecl = .ok (utTy 10) ∧ run 2 .assign_lhs utDecl = .stop ∧
    run 2 .declaration_def utDecl = .ok (.node 9 (opNum .def) 1 [.sym ['a'], .bool true, .bool false]) :=
  ⟨conforms_node.2 ⟨.type_renaming, rfl, rfl, .cons (conforms_node.2 ⟨.def, rfl, rfl,
    .cons trivial (.cons trivial (.cons trivial .nil))⟩) (.cons (utTy_conforms _) .nil)⟩,
    by decide, by with_unfolding_all rfl, by with_unfolding_all rfl, by with_unfolding_all rfl⟩

end Aps.Props
