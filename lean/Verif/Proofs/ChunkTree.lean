import Verif.Proofs.ChunkEv
/-! The nodes of a schedule without conditionals: visits and chunks. -/
set_option linter.unusedVariables false
namespace Aps.Chunk
open Aps.Dnc Aps.Oag

/-- there are no conditionals -/
def Plain (I : Input) : Prop := ∀ i, I.cond i = ⟨0, 0⟩ ∧ I.rule i = none

/-- the nodes have the number of the visit, and the chunk of what they do -/
def Tagged (I : Input) : Nat → Tree → Prop
  | _, .nil => True
  | q, .inst i v k next => v = q ∧ (parts I)[k]? = some (I.part i) ∧ Tagged I q next
  | _, .ifs _ _ _ _ _ => False
  | q, .mark ph ch v k next => v = q ∧ (parts I)[k]? = some (I.evPart (markEv ph ch)) ∧ -1 ≤ ch ∧ 0 < ph ∧
      if ch = -1 then Tagged I (q + 1) next else Tagged I q next

/-- the group belongs to the part -/
def GroupOf (g : Int × Int) : Part → Prop
  | .left p => g = (-(p : Int), -1)
  | .right p => g = ((p : Int), -1)
  | .visit ch p => g = (-(p : Int), (ch : Int)) ∨ g = ((p : Int), (ch : Int))
  | .loc _ => False

theorem part_of_group {I : Input} (hw : Wf I) {x : Part} (hx : I.Has x) {g : Int × Int} (hg : GroupOf g x) {i : Nat} (hi : i < I.n)
    (h : I.group i = g) : I.part i = x := by
  cases x with
  | left p => exact (part_left hx.1).2 (h.trans hg)
  | right p => exact (part_right hx.1 (hw.group i hi)).2 (h.trans hg)
  | visit ch p =>
    obtain ⟨info, h1, h2, h3⟩ := hx
    exact (part_visit h2 (hw.group i hi)).2 (hg.imp (h.trans ·) (h.trans ·))
  | loc j => exact hg.elim

section
variable {I : Input} (hw : Wf I) (hp : Plain I) {C : CG} (hr : Rep I C)
include hw hp hr

theorem tagged_sched : ∀ (f : Nat),
    (∀ st ph t, visitStart I C f ⟨0, 0⟩ st ph = .ok t → Tagged I ph t) ∧
    (∀ ci k st g ph t x, groupEnd I C f ci k ⟨0, 0⟩ st g ph = .ok t → (g ≠ (0, 0) → (parts I)[k]? = some x ∧ GroupOf g x) → Tagged I ph t) ∧
    (∀ ci k st g ph t x, groupSched I C f ci k ⟨0, 0⟩ st g ph = .ok t → (parts I)[k]? = some x ∧ GroupOf g x → Tagged I ph t) ∧
    (∀ ci k i st ph t, localSched I C f ci k [i] ⟨0, 0⟩ st ph = .ok t → (parts I)[k]? = some (.loc i) → Tagged I ph t) ∧
    (∀ ci k st ph t, chunkRun I C f ci k ⟨0, 0⟩ st ph = .ok t → Tagged I ph t) ∧
    (∀ ci st ph t, chunkSched I C f ci ⟨0, 0⟩ st ph = .ok t → Tagged I ph t) ∧
    (∀ prev st ph t, compSched I C f prev ⟨0, 0⟩ st ph = .ok t → Tagged I ph t) := by
  have himp : impossible ⟨0, 0⟩ = false := by decide
  have hign : ∀ i, ignored ⟨0, 0⟩ (I.cond i) = false := by
    intro i; rw [(hp i).1]; decide
  intro f
  induction f with
  | zero =>
    refine ⟨?_, ?_, ?_, ?_, ?_, ?_, ?_⟩
    · intro st ph t h; simp [visitStart] at h
    · intro ci k st g ph t x h; simp [groupEnd] at h
    · intro ci k st g ph t x h; simp [groupSched] at h
    · intro ci k i st ph t h; simp [localSched] at h
    · intro ci k st ph t h; simp [chunkRun] at h
    · intro ci st ph t h; simp [chunkSched] at h
    · intro ci st ph t h; simp [compSched] at h
  | succ f ih =>
    obtain ⟨ih1, ih2, ih3, ih4, ih5, ih6, ih7⟩ := ih
    refine ⟨?_, ?_, ?_, ?_, ?_, ?_, ?_⟩
    · intro st ph t h
      rw [visitStart] at h
      split at h
      · cases h; trivial
      · split at h
        · cases h
        · rename_i k hk
          split at h
          · cases h
          · exact ih3 _ _ _ _ _ _ _ h ⟨find_left hw hr hk, rfl⟩
    · intro ci k st g ph t x h hg
      rw [groupEnd] at h
      split at h
      · rename_i hc
        simp only [Bool.and_eq_true, decide_eq_true_eq, bne_iff_ne, ne_eq] at hc
        rw [Res.bind_eq_ok] at h
        obtain ⟨t0, h1, h2⟩ := h
        rw [Res.pure_eq] at h2
        cases h2
        obtain ⟨hx, hgx⟩ := hg (by rintro rfl; simp at hc)
        have hh : I.Has x := mem_parts.1 (List.mem_of_getElem? hx)
        cases x with
        | left p => simp only [GroupOf] at hgx; subst hgx; simp at hc
        | right p => simp only [GroupOf] at hgx; subst hgx; simp at hc
        | loc i => exact hgx.elim
        | visit ch p =>
          obtain ⟨info, h3, h4, h5⟩ := hh
          have hge : g = (-(p : Int), (ch : Int)) := by
            rcases hgx with h6 | h6
            · exact h6
            · rw [h6] at hc
              have := hc.1
              simp only at this
              omega
          subst hge
          refine ⟨rfl, ?_, by simp only; omega, by simp only; omega, ?_⟩
          · rw [hx]
            simp only [Int.neg_neg, markEv]
            rw [if_neg (by omega)]
            simp [Input.evPart]
          · simp only
            rw [if_neg (by omega)]
            refine ih3 _ _ _ _ _ _ _ h1 ⟨hx, .inr ?_⟩
            simp
      · rename_i hc0
        split at h
        · rename_i hc
          simp only [Bool.and_eq_true, decide_eq_true_eq, beq_iff_eq] at hc
          rw [Res.bind_eq_ok] at h
          obtain ⟨t0, h1, h2⟩ := h
          rw [Res.pure_eq] at h2
          cases h2
          obtain ⟨hx, hgx⟩ := hg (by rintro rfl; simp at hc)
          have hh : I.Has x := mem_parts.1 (List.mem_of_getElem? hx)
          cases x with
          | left p => simp only [GroupOf] at hgx; subst hgx; simp at hc; omega
          | visit ch p => rcases hgx with rfl | rfl <;> simp at hc <;> omega
          | loc i => exact hgx.elim
          | right p =>
            simp only [GroupOf] at hgx
            subst hgx
            refine ⟨rfl, ?_, by simp, hc.1, ?_⟩
            · rw [hx]
              simp [markEv, Input.evPart]
            · rw [if_pos rfl]
              exact ih1 _ _ _ h1
        · exact ih6 _ _ _ _ h
    · intro ci k st g ph t x h hg
      rw [groupSched, himp] at h
      simp only [Bool.false_eq_true, if_false] at h
      cases hf : firstOf I st (List.range I.n) g with
      | none =>
        rw [hf] at h
        exact ih2 _ _ _ _ _ _ x h (fun _ => hg)
      | some i =>
        rw [hf] at h
        simp only at h
        split at h
        · cases h
        · split at h
          · cases h
          · rw [hign] at h
            simp only [Bool.false_eq_true, if_false] at h
            rw [Res.bind_eq_ok] at h
            obtain ⟨t0, h1, h2⟩ := h
            rw [Res.pure_eq] at h2
            cases h2
            obtain ⟨g1, g2, _, _⟩ := firstOf_some List.nodup_range hf []
            have hh : I.Has x := mem_parts.1 (List.mem_of_getElem? hg.1)
            exact ⟨rfl, by rw [hg.1, part_of_group hw hh hg.2 (List.mem_range.1 g1) g2], ih3 _ _ _ _ _ _ _ h1 hg⟩
    · intro ci k i st ph t h hx
      rw [localSched, himp] at h
      simp only [Bool.false_eq_true, if_false] at h
      cases hf : firstOf I st [i] (0, 0) with
      | none =>
        rw [hf] at h
        exact ih2 _ _ _ _ _ _ (.loc i) h (fun h => absurd rfl h)
      | some j =>
        rw [hf] at h
        simp only at h
        obtain ⟨g1, g2, _, _⟩ := firstOf_some (by simp) hf []
        simp only [List.mem_singleton] at g1
        subst g1
        split at h
        · cases h
        · rw [hign, (hp j).2] at h
          simp only [Bool.false_eq_true, if_false] at h
          rw [Res.bind_eq_ok] at h
          obtain ⟨t0, h1, h2⟩ := h
          rw [Res.pure_eq] at h2
          cases h2
          exact ⟨rfl, by rw [hx, part_loc.2 ⟨rfl, g2⟩], ih4 _ _ _ _ _ _ h1 hx⟩
    · intro ci k st ph t h
      rw [chunkRun] at h
      rw [hr.chunks, List.getElem?_map] at h
      cases hx : (parts I)[k]? with
      | none => rw [hx] at h; cases h
      | some x =>
        rw [hx] at h
        cases x with
        | left p => exact ih3 _ _ _ _ _ _ _ h ⟨hx, rfl⟩
        | right p => exact ih3 _ _ _ _ _ _ _ h ⟨hx, rfl⟩
        | visit ch p => exact ih3 _ _ _ _ _ _ _ h ⟨hx, .inl rfl⟩
        | loc i => exact ih4 _ _ _ _ _ _ h hx
    · intro ci st ph t h
      rw [chunkSched] at h
      split at h
      · cases h
      · split at h
        · exact ih5 _ _ _ _ _ h
        · exact ih7 _ _ _ _ h
    · intro prev st ph t h
      rw [compSched] at h
      split at h
      · cases h
      · exact ih6 _ _ _ _ h

end

theorem tagged_schedule {I : Input} (hw : Wf I) (hp : Plain I) {fuel : Nat} {t : Tree} (h : schedule fuel I = .ok t) : Tagged I 1 t := by
  unfold schedule at h
  rw [Res.bind_eq_ok] at h
  obtain ⟨C, hc, h⟩ := h
  rw [Res.bind_eq_ok] at h
  obtain ⟨t', ht, h⟩ := h
  by_cases hn : t' = .nil
  · rw [if_pos hn] at h; cases h
  · rw [if_neg hn, Res.pure_eq] at h
    cases h
    exact (tagged_sched hw hp (collect_rep hw hc) fuel).1 _ _ _ ht

end Aps.Chunk
