import Verif.Proofs.ChunkCheck
import Verif.Spec.SccPlan
/-! Checking the conditions of the theorems for a given input (used in examples). -/
set_option linter.unusedVariables false
namespace Aps.SccGen
open Aps.Dnc
open Aps.Chunk hiding Run Step Tree

/-- `InPhase` -/
def inPhaseB (I : Input) (C : CG) (q : Nat) (a : Part) : Bool :=
  decide (1 ≤ q) && decide (q ≤ I.parent.maxPhase) && I.parent.circ q && reachB I C (.left q) a && reachB I C a (.left q)

/-- `Circular` -/
def circularB (I : Input) : Part → Bool
  | .left q => I.parent.circ q
  | .right q => I.parent.circ q
  | .visit ch p => match I.children[ch]? with
    | some (some info) => info.circ p
    | _ => false
  | .loc i => I.kind i i != 0

/-- `Fills` -/
def fillsB (I : Input) : Part → Bool
  | .visit _ _ => true
  | a => (List.range I.n).any fun i => I.part i == a

/-- neither end of a phase -/
def middleB : Part → Bool
  | .left _ => false
  | .right _ => false
  | _ => true

/-- `Calm` -/
def calmB (I : Input) (C : CG) : Bool :=
  (I.insts.all fun x => x.cond == ⟨0, 0⟩ && x.rule == none) &&
  ((parts I).all fun a => (parts I).all fun b => a == b || !reachB I C a b || !reachB I C b a ||
    (List.range (I.parent.maxPhase + 1)).any fun q => inPhaseB I C q a) &&
  ((List.range (I.parent.maxPhase + 1)).all fun q => (parts I).all fun y => !inPhaseB I C q y || !directB I C (.right q) y) &&
  ((parts I).all fun a => (parts I).all fun b => match a, b with
    | .visit ch p, .visit ch' p' => !(ch == ch' && decide (p < p')) || !reachB I C b a
    | _, _ => true) &&
  (I.parent.circ 1 || (parts I).all fun y => !circularB I y || !middleB y ||
    (parts I).any fun a => fillsB I a && (a == .left 1 || mustB I C a y)) &&
  (parts I).all fun a => earlyB I C a (I.parent.maxPhase + 1) || (List.range (I.parent.maxPhase + 1)).any fun q => inPhaseB I C q a

theorem calm_spec {I : Input} (hw : Wf I) {C : CG} (hC : collect I = .ok C) (h : calmB I C = true) : Calm I := by
  have hr := collect_rep hw hC
  obtain ⟨_, _, _, hmust, hearly⟩ := checks hw hC
  have hph : ∀ q a, inPhaseB I C q a = true ↔ InPhase I q a := by
    intro q a
    unfold inPhaseB
    simp only [Bool.and_eq_true, decide_eq_true_eq, reachB_iff hw hr]
    exact ⟨fun ⟨⟨⟨⟨h1, h2⟩, h3⟩, h4⟩, h5⟩ => ⟨⟨h1, h2⟩, h3, h4, h5⟩, fun ⟨⟨h1, h2⟩, h3, h4, h5⟩ => ⟨⟨⟨⟨h1, h2⟩, h3⟩, h4⟩, h5⟩⟩
  unfold calmB at h
  simp only [Bool.and_eq_true] at h
  obtain ⟨⟨⟨⟨⟨h1, h2⟩, h3⟩, h4⟩, h5⟩, h6⟩ := h
  have hlift : ∀ a b, Relation.TransGen (Direct I) a b → Reach I a b := fun a b h =>
    Relation.TransGen.lift id (fun _ _ h => direct_step h) _ _ h
  refine ⟨?_, ?_, ?_, ?_, ?_, ?_⟩
  · intro x hx
    have := List.all_eq_true.1 h1 x hx
    simpa using this
  · intro a b hab h h'
    have ha := hlift _ _ h
    have hb := hlift _ _ h'
    have := List.all_eq_true.1 (List.all_eq_true.1 h2 a (mem_parts.2 (reach_has hw ha).1)) b (mem_parts.2 (reach_has hw ha).2)
    rw [(reachB_iff hw hr).2 ha, (reachB_iff hw hr).2 hb] at this
    simp only [Bool.or_eq_true, beq_iff_eq, Bool.not_true, Bool.false_eq_true, or_false, hab, false_or] at this
    obtain ⟨q, _, hq⟩ := List.any_eq_true.1 this
    exact ⟨q, (hph q a).1 hq⟩
  · intro q y hy hd
    have := List.all_eq_true.1 (List.all_eq_true.1 h3 q (List.mem_range.2 (by have := hy.range; omega))) y
      (mem_parts.2 (reach_has hw hy.fwd).2)
    rw [(hph q y).2 hy, (directB_iff hw hr).2 hd] at this
    cases this
  · intro ch p p' hlt hreach
    have := List.all_eq_true.1 (List.all_eq_true.1 h4 _ (mem_parts.2 (reach_has hw hreach).2)) _ (mem_parts.2 (reach_has hw hreach).1)
    simp only [(reachB_iff hw hr).2 hreach] at this
    simp only [beq_self_eq_true, Bool.true_and, Bool.not_true, Bool.or_false, Bool.not_eq_true', decide_eq_false_iff_not] at this
    exact this hlt
  · rcases Bool.or_eq_true _ _ |>.mp h5 with h5 | h5
    · exact .inl h5
    · refine .inr fun y hy hcirc hn => ?_
      have := List.all_eq_true.1 h5 y (mem_parts.2 hy)
      have hc : circularB I y = true := by
        cases y with
        | left q => exact hcirc
        | right q => exact hcirc
        | visit ch p =>
          obtain ⟨info, g1, g2⟩ := hcirc
          simp only [circularB, g1]
          exact g2
        | loc i => simpa [circularB, Circular] using hcirc
      have hm : middleB y = true := by
        cases y with
        | left q => exact absurd rfl (hn q).1
        | right q => exact absurd rfl (hn q).2
        | _ => rfl
      rw [hc, hm] at this
      simp only [Bool.not_true, Bool.or_self, Bool.false_or] at this
      obtain ⟨a, ha, h'⟩ := List.any_eq_true.1 this
      rw [Bool.and_eq_true, Bool.or_eq_true, beq_iff_eq] at h'
      refine ⟨a, ?_, h'.2.imp id (hmust _ _)⟩
      have hf := h'.1
      cases a with
      | visit ch p => exact .inl ⟨ch, p, rfl⟩
      | _ =>
        right
        simp only [fillsB, List.any_eq_true, List.mem_range, beq_iff_eq] at hf
        obtain ⟨i, hi, he⟩ := hf
        exact ⟨i, hi, he⟩
  · intro a ha
    have := List.all_eq_true.1 h6 a (mem_parts.2 ha)
    rcases Bool.or_eq_true _ _ |>.mp this with h | h
    · exact .inl (hearly _ _ h)
    · obtain ⟨q, _, hq⟩ := List.any_eq_true.1 h
      exact .inr ⟨q, (hph q a).1 hq⟩

end Aps.SccGen
