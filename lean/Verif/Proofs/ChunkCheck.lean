import Verif.Proofs.ChunkOk
/-! Checking the conditions of the theorems for a given input (used in examples). -/
set_option linter.unusedVariables false
namespace Aps.Chunk
open Aps.Dnc Aps.Oag

/-- dependence, from the chunk graph -/
def reachB (I : Input) (C : CG) (x y : Part) : Bool :=
  (parts I).contains x && (parts I).contains y && C.dep ((parts I).idxOf x) ((parts I).idxOf y) != 0

theorem reachB_iff {I : Input} (hw : Wf I) {C : CG} (hr : Rep I C) {x y : Part} : reachB I C x y = true ↔ Reach I x y := by
  unfold reachB
  simp only [Bool.and_eq_true, List.contains_iff_mem, bne_iff_ne]
  constructor
  · rintro ⟨⟨h1, h2⟩, h3⟩
    refine (hr.dep _ _ x y ?_ ?_).1 h3
    · rw [List.getElem?_eq_getElem (List.idxOf_lt_length_of_mem h1), List.getElem_idxOf]
    · rw [List.getElem?_eq_getElem (List.idxOf_lt_length_of_mem h2), List.getElem_idxOf]
  · intro h
    obtain ⟨h1, h2⟩ := reach_has hw h
    rw [← mem_parts] at h1 h2
    refine ⟨⟨h1, h2⟩, (hr.dep _ _ x y ?_ ?_).2 h⟩
    · rw [List.getElem?_eq_getElem (List.idxOf_lt_length_of_mem h1), List.getElem_idxOf]
    · rw [List.getElem?_eq_getElem (List.idxOf_lt_length_of_mem h2), List.getElem_idxOf]

/-- direct dependence, from the chunk graph -/
def directB (I : Input) (C : CG) (x y : Part) : Bool :=
  (parts I).contains x && (parts I).contains y && C.direct ((parts I).idxOf x) ((parts I).idxOf y)

theorem directB_iff {I : Input} (hw : Wf I) {C : CG} (hr : Rep I C) {x y : Part} : directB I C x y = true ↔ Direct I x y := by
  unfold directB
  simp only [Bool.and_eq_true, List.contains_iff_mem]
  constructor
  · rintro ⟨⟨h1, h2⟩, h3⟩
    refine (hr.dir _ _ x y ?_ ?_).1 h3
    · rw [List.getElem?_eq_getElem (List.idxOf_lt_length_of_mem h1), List.getElem_idxOf]
    · rw [List.getElem?_eq_getElem (List.idxOf_lt_length_of_mem h2), List.getElem_idxOf]
  · intro h
    obtain ⟨h1, h2⟩ := reach_has hw (.single (direct_step h))
    rw [← mem_parts] at h1 h2
    refine ⟨⟨h1, h2⟩, (hr.dir _ _ x y ?_ ?_).2 h⟩
    · rw [List.getElem?_eq_getElem (List.idxOf_lt_length_of_mem h1), List.getElem_idxOf]
    · rw [List.getElem?_eq_getElem (List.idxOf_lt_length_of_mem h2), List.getElem_idxOf]

/-- `a` certainly before `b` -/
def mustB (I : Input) (C : CG) (a b : Part) : Bool := reachB I C a b && !reachB I C b a

/-- `Ordered` -/
def orderedB (I : Input) (C : CG) : Bool :=
  (List.range (I.parent.maxPhase + 1)).all fun q => (List.range q).all fun p => !reachB I C (.left q) (.right p)

/-- in the cycle of the end of a phase, which nothing waits for directly -/
def cycB (I : Input) (C : CG) (q : Nat) (a : Part) : Bool :=
  reachB I C (.right q) a && reachB I C a (.right q) && ((parts I).all fun z => !directB I C (.right q) z) &&
  (parts I).all fun z => match z with
    | .visit ch r => !(reachB I C (.right q) z && reachB I C z (.right q)) ||
        (match I.children[ch]? with | some (some info) => info.circ r | _ => true)
    | _ => true

theorem cycB_spec {I : Input} (hw : Wf I) {C : CG} (hr : Rep I C) {q : Nat} {a : Part} (h : cycB I C q a = true) :
    Reach I (.right q) a ∧ Reach I a (.right q) ∧ ¬ Relation.TransGen (Direct I) (.right q) a ∧
      (I.parent.circ q = false ∨ ∀ ch r info, Reach I (.right q) (.visit ch r) → Reach I (.visit ch r) (.right q) →
        I.children[ch]? = some (some info) → info.circ r = true) := by
  unfold cycB at h
  rw [Bool.and_eq_true, Bool.and_eq_true, Bool.and_eq_true] at h
  obtain ⟨⟨⟨h1, h2⟩, h3⟩, h4⟩ := h
  refine ⟨(reachB_iff hw hr).1 h1, (reachB_iff hw hr).1 h2, ?_, .inr ?_⟩
  · clear h1 h2
    intro ht
    have : ∃ z, Direct I (.right q) z := by
      induction ht with
      | single h => exact ⟨_, h⟩
      | tail _ _ ih => exact ih
    obtain ⟨z, hz⟩ := this
    have := List.all_eq_true.1 h3 z (mem_parts.2 (reach_has hw (.single (direct_step hz))).2)
    rw [(directB_iff hw hr).2 hz] at this
    cases this
  · intro ch r info g1 g2 g3
    have := List.all_eq_true.1 h4 _ (mem_parts.2 (reach_has hw g1).2)
    simp only at this
    rw [(reachB_iff hw hr).2 g1, (reachB_iff hw hr).2 g2, g3] at this
    simpa using this

/-- `Early` -/
def earlyB (I : Input) (C : CG) (a : Part) (p : Nat) : Bool :=
  (List.range p).any fun q => decide (1 ≤ q) && (a == .left q || a == .right q || mustB I C a (.right q) || cycB I C q a)

/-- `Entry` -/
def entryB (I : Input) (C : CG) : Bool :=
  (List.range (I.parent.maxPhase + 1)).all fun p => (parts I).all fun a =>
    !(mustB I C a (.left p) || directB I C a (.left p)) ||
      earlyB I C a p

/-- `Sound` -/
def soundB (I : Input) (C : CG) : Bool :=
  (List.range (I.parent.maxPhase + 1)).all fun p => p == 0 || !I.parent.circ p ||
    (reachB I C (.right p) (.left p) && (parts I).all fun z => match z with
      | .visit ch r => !(reachB I C (.left p) z && reachB I C z (.left p)) ||
          (match I.children[ch]? with | some (some info) => info.circ r | _ => true)
      | _ => true)

/-- the checks say what they should -/
theorem checks {I : Input} (hw : Wf I) {C : CG} (h : collect I = .ok C) :
    (orderedB I C = true → Ordered I) ∧ (entryB I C = true → Entry I) ∧ (soundB I C = true → Sound I) ∧
    (∀ a b, mustB I C a b = true → Must I a b) ∧ (∀ a p, earlyB I C a p = true → Early I a p) := by
  have hr := collect_rep hw h
  have hmust : ∀ a b, mustB I C a b = true → Must I a b := by
    intro a b hm
    unfold mustB at hm
    simp only [Bool.and_eq_true, Bool.not_eq_true'] at hm
    refine .inl ⟨(reachB_iff hw hr).1 hm.1, fun h' => ?_⟩
    rw [(reachB_iff hw hr).2 h'] at hm
    cases hm.2
  have hearly : ∀ a p, earlyB I C a p = true → Early I a p := by
    intro a p this
    unfold earlyB at this
    simp only [List.any_eq_true, List.mem_range, Bool.and_eq_true, Bool.or_eq_true,
      decide_eq_true_eq, beq_iff_eq] at this
    obtain ⟨q, hq, hq1, h3⟩ := this
    refine ⟨q, hq1, hq, ?_⟩
    rcases h3 with ((h3 | h3) | h3) | h3
    · exact .inl h3
    · exact .inr (.inl h3)
    · exact .inr (.inr (.inl (hmust _ _ h3)))
    · exact .inr (.inr (.inr (.inl (cycB_spec hw hr h3))))
  refine ⟨?_, ?_, ?_, hmust, hearly⟩
  · intro ho p q h1 h2 h3 hreach
    unfold orderedB at ho
    have := List.all_eq_true.1 (List.all_eq_true.1 ho q (List.mem_range.2 (by omega))) p (List.mem_range.2 h2)
    rw [(reachB_iff hw hr).2 hreach] at this
    cases this
  · intro he p h1 h2 a ha hm
    unfold entryB at he
    have := List.all_eq_true.1 (List.all_eq_true.1 he p (List.mem_range.2 (by omega))) a (mem_parts.2 ha)
    have hb : (mustB I C a (.left p) || directB I C a (.left p)) = true := by
      rcases hm with ⟨h3, h4⟩ | ⟨h3, h4⟩
      · unfold mustB
        rw [(reachB_iff hw hr).2 h3]
        cases hc : reachB I C (.left p) a with
        | false => rfl
        | true => exact absurd ((reachB_iff hw hr).1 hc) h4
      · rw [(directB_iff hw hr).2 h3, Bool.or_true]
    rw [hb] at this
    exact hearly a p (by simpa using this)
  · intro hs p h1 h2
    unfold soundB at hs
    have := List.all_eq_true.1 hs p (List.mem_range.2 (by omega))
    rw [Bool.or_eq_true, Bool.or_eq_true, Bool.and_eq_true] at this
    rcases this with (this | this) | ⟨h3, h4⟩
    · simp only [beq_iff_eq] at this; omega
    · exact .inl (by simpa using this)
    · refine .inr ⟨(reachB_iff hw hr).1 h3, ?_⟩
      intro ch r info g1 g2 g3
      have := List.all_eq_true.1 h4 _ (mem_parts.2 (reach_has hw g1).2)
      simp only at this
      rw [(reachB_iff hw hr).2 g1, (reachB_iff hw hr).2 g2, g3] at this
      simpa using this

/-- `Wf` -/
def wfB (I : Input) : Bool :=
  decide (I.kinds.length = I.n * I.n) &&
  ((List.range I.n).all fun i => (I.group i == (0, 0) || ((I.group i).1 != 0 && decide (-1 ≤ (I.group i).2))) &&
    (parts I).contains (I.part i)) &&
  I.insts.all fun x => match x.rule with | some r => decide (r < 32) | none => true

theorem wfB_spec {I : Input} (h : wfB I = true) : Wf I := by
  unfold wfB at h
  rw [Bool.and_eq_true, Bool.and_eq_true] at h
  obtain ⟨⟨h1, h2⟩, h3⟩ := h
  have h2' : ∀ i, i < I.n → _ := fun i hi => List.all_eq_true.1 h2 i (List.mem_range.2 hi)
  refine ⟨by simpa using h1, ?_, ?_, ?_⟩
  · intro i hi
    have := h2' i hi
    simp only [Bool.and_eq_true, Bool.or_eq_true, beq_iff_eq, bne_iff_ne, decide_eq_true_eq] at this
    exact this.1
  · intro i hi
    have := h2' i hi
    rw [Bool.and_eq_true] at this
    exact mem_parts.1 (by simpa using this.2)
  · intro i r hr
    unfold Input.rule at hr
    split at hr
    · rename_i x hx
      have := List.all_eq_true.1 h3 x (List.mem_of_getElem? hx)
      rw [hr] at this
      simpa using this
    · cases hr

end Aps.Chunk
