import Verif.Proofs.ChunkEv
/-! The scheduler succeeds. -/
set_option linter.unusedVariables false
namespace Aps.Chunk
open Aps.Dnc Aps.Oag

/-- succeeds with enough fuel -/
def Ok (g : Nat → Res Tree) : Prop := ∃ F, ∀ f, F ≤ f → ∃ t, g f = .ok t

theorem Ok.step {g h : Nat → Res Tree} (hg : Ok g) (hh : ∀ f t, g f = .ok t → ∃ t', h (f + 1) = .ok t') : Ok h := by
  obtain ⟨F, hF⟩ := hg
  refine ⟨F + 1, fun f hf => ?_⟩
  obtain ⟨f', rfl⟩ : ∃ f', f = f' + 1 := ⟨f - 1, by omega⟩
  obtain ⟨t, ht⟩ := hF f' (by omega)
  exact hh f' t ht

theorem Ok.step2 {g g' h : Nat → Res Tree} (hg : Ok g) (hg' : Ok g')
    (hh : ∀ f t t', g f = .ok t → g' f = .ok t' → ∃ t', h (f + 1) = .ok t') : Ok h := by
  obtain ⟨F, hF⟩ := hg
  obtain ⟨F', hF'⟩ := hg'
  refine ⟨max F F' + 1, fun f hf => ?_⟩
  obtain ⟨f', rfl⟩ : ∃ f', f = f' + 1 := ⟨f - 1, by omega⟩
  obtain ⟨t, ht⟩ := hF f' (by omega)
  obtain ⟨t', ht'⟩ := hF' f' (by omega)
  exact hh f' t t' ht ht'

section
variable {I : Input} (hw : Wf I) {C : CG} (hr : Rep I C)
include hw hr

theorem find_left_some {ph : Nat} (h1 : 1 ≤ ph) (h2 : ph ≤ I.parent.maxPhase) : ∃ k, C.find .halfLeft ph (-1) = some k := by
  cases h : C.find .halfLeft ph (-1) with
  | some k => exact ⟨k, rfl⟩
  | none =>
    exfalso
    unfold CG.find at h
    rw [List.findIdx?_eq_none_iff] at h
    have hm : Part.left ph ∈ parts I := mem_parts.2 ⟨h1, h2⟩
    have := h (mkChunk I (.left ph)) (by rw [hr.chunks]; exact List.mem_map_of_mem hm)
    simp [mkChunk] at this

theorem comp_at {k : Nat} (hk : k < (parts I).length) : ∃ (ci : Nat) (c : List Nat), C.comps[ci]? = some c ∧ k ∈ c := by
  have haf : k ∈ C.comps.flatten := (hr.cover k).2 (by rw [hr.m]; exact hk)
  obtain ⟨c, hc, hkc⟩ := List.mem_flatten.1 haf
  obtain ⟨ci, hci⟩ := List.getElem?_of_mem hc
  exact ⟨ci, c, hci, hkc⟩

theorem compOf_some {k : Nat} (hk : k < (parts I).length) : ∃ ci, C.compOf k = some ci := by
  obtain ⟨ci, c, h1, h2⟩ := comp_at hw hr hk
  cases h : C.compOf k with
  | some ci => exact ⟨ci, rfl⟩
  | none =>
    exfalso
    unfold CG.compOf at h
    rw [List.findIdx?_eq_none_iff] at h
    have := h c (List.mem_of_getElem? h1)
    simp [h2] at this

/-- an impossible branch -/
theorem start_impossible {c : Cond} (hc : impossible c = true) : ∀ (d ph : Nat) (st : St), I.parent.maxPhase + 1 - ph = d → 1 ≤ ph →
    Ok fun f => visitStart I C f c st ph := by
  intro d
  induction d with
  | zero =>
    intro ph st hd hp
    refine ⟨1, fun f hf => ?_⟩
    obtain ⟨f', rfl⟩ : ∃ f', f = f' + 1 := ⟨f - 1, by omega⟩
    simp only [visitStart]
    rw [if_pos (by omega)]
    exact ⟨_, rfl⟩
  | succ d ih =>
    intro ph st hd hp
    have h3 := ih (ph + 1) st (by omega) (by omega)
    obtain ⟨k, hk⟩ := find_left_some hw hr (ph := ph) hp (by omega)
    obtain ⟨ci, hci⟩ := compOf_some hw hr (lt_of_getElem? (find_left hw hr hk))
    have h2 : Ok fun f => visitEnd I C f k c st ph := h3.step fun f t h => by
      simp only [visitEnd, h]
      exact ⟨_, rfl⟩
    have h1 : Ok fun f => groupSched I C f ci k c st (-(ph : Int), -1) ph := h2.step fun f t h => by
      simp only [groupSched]
      rw [if_pos hc, h]
      exact ⟨_, rfl⟩
    exact h1.step fun f t h => by
      simp only [visitStart]
      rw [if_neg (by omega), hk]
      simp only
      rw [hci]
      exact ⟨t, h⟩

theorem end_impossible {c : Cond} (hc : impossible c = true) {ph k : Nat} (hp : 1 ≤ ph) (st : St) :
    Ok fun f => visitEnd I C f k c st ph :=
  (start_impossible hw hr hc _ (ph + 1) st rfl (by omega)).step fun f t h => by
    simp only [visitEnd, h]
    exact ⟨_, rfl⟩

theorem group_ok {ci k ph : Nat} {c : Cond} {g : Int × Int} (hp : 1 ≤ ph) (hg : g ≠ (0, 0))
    (hk : ∀ i, i < I.n → I.group i = g → C.chunkOf i = some k) : ∀ (d : Nat) (st : St),
    (todo I st (List.range I.n) g).length = d →
    (∀ st' : St, (∀ i, i ∈ st'.done ↔ (i < I.n ∧ I.group i = g) ∨ i ∈ st.done) → (∀ a, a ∈ st'.cdone ↔ a = k ∨ a ∈ st.cdone) →
      Ok fun f => groupEnd I C f ci k c st' g ph) →
    Ok fun f => groupSched I C f ci k c st g ph := by
  by_cases hc : impossible c = true
  · intro d st _ _
    exact (end_impossible hw hr hc hp st).step fun f t h => by
      simp only [groupSched]
      rw [if_pos hc, h]
      exact ⟨_, rfl⟩
  · intro d
    induction d with
    | zero =>
      intro st hd hend
      have hf : firstOf I st (List.range I.n) g = none := by
        cases hf : firstOf I st (List.range I.n) g with
        | none => rfl
        | some i =>
          obtain ⟨_, _, _, h4⟩ := firstOf_some List.nodup_range hf []
          rw [h4] at hd
          simp at hd
      obtain ⟨_, h2⟩ := firstOf_none hf
      refine (hend ⟨st.done, k :: st.cdone⟩ ?_ ?_).step fun f t h => ?_
      · intro i
        refine ⟨.inr, ?_⟩
        rintro (⟨h3, h4⟩ | h3)
        · exact h2 i (List.mem_range.2 h3) h4
        · exact h3
      · intro a; simp
      · simp only [groupSched]
        rw [if_neg hc, hf]
        exact ⟨t, h⟩
    | succ d ih =>
      intro st hd hend
      cases hf : firstOf I st (List.range I.n) g with
      | none =>
        obtain ⟨h1, _⟩ := firstOf_none hf
        rw [h1] at hd
        simp at hd
      | some i =>
        obtain ⟨h1, h2, h3, h4⟩ := firstOf_some List.nodup_range hf (k :: st.cdone)
        have hin := List.mem_range.1 h1
        rw [h4] at hd
        simp only [List.length_cons, Nat.add_right_cancel_iff] at hd
        have := ih ⟨i :: st.done, k :: st.cdone⟩ hd (by
          intro st' h5 h6
          refine hend st' ?_ ?_
          · intro j
            rw [h5]
            simp only [List.mem_cons]
            constructor
            · rintro (h | rfl | h)
              · exact .inl h
              · exact .inl ⟨hin, h2⟩
              · exact .inr h
            · rintro (h | h)
              · exact .inl h
              · exact .inr (.inr h)
          · intro a
            rw [h6]
            simp only [List.mem_cons]
            tauto)
        refine this.step fun f t h => ?_
        simp only [groupSched]
        rw [if_neg hc, hf]
        simp only
        rw [hk i hin h2, h2]
        simp only
        have hg0 : (g == ((0, 0) : Int × Int)) = false := by simpa using hg
        rw [hg0]
        simp only [Bool.false_eq_true, if_false]
        by_cases hig : ignored c (I.cond i) = true
        · rw [if_pos hig]; exact ⟨t, h⟩
        · rw [if_neg hig, h]; exact ⟨_, rfl⟩

/-- running a part is fine if what follows is -/
theorem left_ok {st : St} {cd : List Part} (hrel : Rel I st cd) {c : Cond}
    {ci k ph p : Nat} (hph : 1 ≤ ph) (hy : (parts I)[k]? = some (.left p))
    (h : ∀ st', Rel I st' (.left p :: cd) → Ok fun f => chunkSched I C f ci c st' ph) :
    Ok fun f => groupSched I C f ci k c st (-(p : Int), -1) ph := by
  have hk : I.Has (.left p) := mem_parts.1 (List.mem_of_getElem? hy)
  have hp : 1 ≤ p := hk.1
  refine group_ok hw hr hph (by simp) (fun i hi hg => chunkOf_at hw hr hy hi ((part_left hp).2 hg)) _ st rfl ?_
  intro st' h4 h5
  refine (h st' (hrel.add hy (fun i hi => ?_) h5)).step fun f t ht => ?_
  · rw [h4, part_left hp]
    exact or_congr_left ⟨And.right, fun h => ⟨hi, h⟩⟩
  · have e1 : (decide ((-(p : Int), (-1 : Int)).1 < 0) && (-(p : Int), (-1 : Int)).2 != -1) = false := by simp
    have e2 : (decide (0 < (-(p : Int), (-1 : Int)).1) && (-(p : Int), (-1 : Int)).2 == -1) = false := by
      have : ¬ (0 : Int) < -(p : Int) := by omega
      simp
    simp only [groupEnd]
    rw [e1, e2]
    exact ⟨t, ht⟩

theorem right_ok {st : St} {cd : List Part} (hrel : Rel I st cd) {c : Cond}
    {ci k ph p : Nat} (hph : 1 ≤ ph) (hy : (parts I)[k]? = some (.right p))
    (h : ∀ st', Rel I st' (.right p :: cd) → Ok fun f => visitStart I C f c st' (ph + 1)) :
    Ok fun f => groupSched I C f ci k c st ((p : Int), -1) ph := by
  have hk : I.Has (.right p) := mem_parts.1 (List.mem_of_getElem? hy)
  have hp : 1 ≤ p := hk.1
  refine group_ok hw hr hph (by simp) (fun i hi hg => chunkOf_at hw hr hy hi ((part_right hp (hw.group i hi)).2 hg)) _ st rfl ?_
  intro st' h4 h5
  refine (h st' (hrel.add hy (fun i hi => ?_) h5)).step fun f t ht => ?_
  · rw [h4, part_right hp (hw.group i hi)]
    exact or_congr_left ⟨And.right, fun h => ⟨hi, h⟩⟩
  · have e1 : (decide (((p : Int), (-1 : Int)).1 < 0) && ((p : Int), (-1 : Int)).2 != -1) = false := by simp
    have e2 : (decide (0 < ((p : Int), (-1 : Int)).1) && ((p : Int), (-1 : Int)).2 == -1) = true := by
      have : (0 : Int) < (p : Int) := by omega
      simp [this]
      omega
    simp only [groupEnd]
    rw [e1, e2, ht]
    exact ⟨_, rfl⟩

theorem visit_ok {st : St} {cd : List Part} (hrel : Rel I st cd) {c : Cond}
    {ci k ph ch p : Nat} (hph : 1 ≤ ph) (hy : (parts I)[k]? = some (.visit ch p))
    (h : ∀ st', Rel I st' (.visit ch p :: cd) → Ok fun f => chunkSched I C f ci c st' ph) :
    Ok fun f => groupSched I C f ci k c st (-(p : Int), (ch : Int)) ph := by
  have hk : I.Has (.visit ch p) := mem_parts.1 (List.mem_of_getElem? hy)
  have hp : 1 ≤ p := by obtain ⟨_, _, h, _⟩ := hk; exact h
  have hp0 : p ≠ 0 := by omega
  refine group_ok hw hr hph (by simp [hp0])
    (fun i hi hg => chunkOf_at hw hr hy hi ((part_visit hp (hw.group i hi)).2 (.inl hg))) _ st rfl ?_
  intro st' h4 h5
  have h2 : Ok fun f => groupSched I C f ci k c st' ((p : Int), (ch : Int)) ph := by
    refine group_ok hw hr hph (by simp [hp0])
      (fun i hi hg => chunkOf_at hw hr hy hi ((part_visit hp (hw.group i hi)).2 (.inr hg))) _ st' rfl ?_
    intro st2 g4 g5
    refine (h st2 (hrel.add hy (fun i hi => ?_) (fun a => ?_))).step fun f t ht => ?_
    · rw [g4, h4, part_visit hp (hw.group i hi)]
      tauto
    · rw [g5, h5]; tauto
    · have e2 : (decide (((p : Int), (ch : Int)).1 < 0) && ((p : Int), (ch : Int)).2 != -1) = false := by simp
      have e3 : (decide (0 < ((p : Int), (ch : Int)).1) && ((p : Int), (ch : Int)).2 == -1) = false := by
        have h2 : (ch : Int) ≠ -1 := by omega
        simp [h2]
      simp only [groupEnd]
      rw [e2, e3]
      exact ⟨t, ht⟩
  refine h2.step fun f t ht => ?_
  have e1 : (decide ((-(p : Int), (ch : Int)).1 < 0) && (-(p : Int), (ch : Int)).2 != -1) = true := by
    have : -(p : Int) < 0 := by omega
    have h2 : (ch : Int) ≠ -1 := by omega
    simp [h2]
    omega
  simp only [groupEnd]
  rw [e1]
  simp only [if_true]
  rw [Int.neg_neg, ht]
  exact ⟨_, rfl⟩

theorem local_done_ok {ci k i ph : Nat} (hph : 1 ≤ ph) {c : Cond} {st : St} (hi : i ∈ st.done)
    (h : Ok fun f => chunkSched I C f ci c st ph) : Ok fun f => localSched I C f ci k [i] c st ph := by
  by_cases hc : impossible c = true
  · exact (end_impossible hw hr hc hph st).step fun f t h => by
      simp only [localSched]
      rw [if_pos hc, h]
      exact ⟨_, rfl⟩
  · have hf : firstOf I st [i] (0, 0) = none := by
      unfold firstOf
      rw [List.find?_eq_none]
      intro x hx
      simp only [List.mem_singleton] at hx
      subst hx
      simp [hi]
    have h1 : Ok fun f => groupEnd I C f ci k c st (0, 0) ph := h.step fun f t ht => by
      simp only [groupEnd, Int.lt_irrefl, decide_false, Bool.false_and, Bool.false_eq_true, if_false]
      exact ⟨t, ht⟩
    exact h1.step fun f t ht => by
      simp only [localSched]
      rw [if_neg hc, hf]
      exact ⟨t, ht⟩

theorem local_ok {st : St} {cd : List Part} (hrel : Rel I st cd) {c : Cond}
    {ci k ph i : Nat} (hph : 1 ≤ ph) (hy : (parts I)[k]? = some (.loc i)) (hn : .loc i ∉ cd)
    (h : ∀ c' st', Rel I st' (.loc i :: cd) → Ok fun f => chunkSched I C f ci c' st' ph) :
    Ok fun f => localSched I C f ci k [i] c st ph := by
  by_cases hc : impossible c = true
  · exact (end_impossible hw hr hc hph st).step fun f t h => by
      simp only [localSched]
      rw [if_pos hc, h]
      exact ⟨_, rfl⟩
  have hk : I.Has (.loc i) := mem_parts.1 (List.mem_of_getElem? hy)
  obtain ⟨hin, hg⟩ := hk
  have hpart : I.part i = .loc i := part_loc.2 ⟨rfl, hg⟩
  have hnd : i ∉ st.done := fun h' => hn (hpart ▸ (hrel.inst i hin).1 h')
  have hrel' : Rel I ⟨i :: st.done, k :: st.cdone⟩ (.loc i :: cd) := hrel.add hy (fun j hj => by
    simp only [List.mem_cons]
    rw [part_loc]
    constructor
    · rintro (rfl | h)
      · exact .inl ⟨rfl, hg⟩
      · exact .inr h
    · rintro (⟨rfl, _⟩ | h)
      · exact .inl rfl
      · exact .inr h) (fun a => by simp)
  have next : ∀ c', Ok fun f => localSched I C f ci k [i] c' ⟨i :: st.done, k :: st.cdone⟩ ph := fun c' =>
    local_done_ok hw hr hph (by simp) (h c' _ hrel')
  have hf : firstOf I st [i] (0, 0) = some i := by
    unfold firstOf
    rw [List.find?_cons_of_pos (by simp [hnd, hg])]
  refine (next c).step2 (g' := fun f => match I.rule i with
    | some r => match localSched I C f ci k [i] ⟨c.pos ||| cmask r, c.neg⟩ ⟨i :: st.done, k :: st.cdone⟩ ph,
        localSched I C f ci k [i] ⟨(c.pos ||| cmask r) &&& ~~~cmask r, c.neg ||| cmask r⟩ ⟨i :: st.done, k :: st.cdone⟩ ph with
      | .ok _, .ok _ => .ok .nil
      | _, _ => .nofuel
    | none => .ok .nil) ?_ ?_
  · cases hr : I.rule i with
    | none => exact ⟨0, fun f _ => ⟨_, rfl⟩⟩
    | some r =>
      obtain ⟨F, hF⟩ := next ⟨c.pos ||| cmask r, c.neg⟩
      obtain ⟨F', hF'⟩ := next ⟨(c.pos ||| cmask r) &&& ~~~cmask r, c.neg ||| cmask r⟩
      refine ⟨max F F', fun f hf => ?_⟩
      obtain ⟨t, ht⟩ := hF f (by omega)
      obtain ⟨t', ht'⟩ := hF' f (by omega)
      simp only [ht, ht']
      exact ⟨_, rfl⟩
  · intro f t t' ht ht'
    simp only [localSched]
    rw [if_neg hc, hf]
    simp only
    rw [chunkOf_at hw hr hy hin hpart]
    simp only
    by_cases hig : ignored c (I.cond i) = true
    · rw [if_pos hig]; exact ⟨t, ht⟩
    · rw [if_neg hig]
      cases hru : I.rule i with
      | none => simp only [ht]; exact ⟨_, rfl⟩
      | some r =>
        rw [hru] at ht'
        simp only at ht' ⊢
        split at ht'
        · rename_i a b h1 h2
          rw [h1, h2]
          exact ⟨_, rfl⟩
        · cases ht'

/-- the number of parts to do -/
def left (I : Input) (cd : List Part) : Nat := ((parts I).filter fun x => !cd.contains x).length

omit hw hr in
theorem left_lt {cd : List Part} {y : Part} (hy : I.Has y) (hn : y ∉ cd) : left I (y :: cd) < left I cd := by
  unfold left
  rw [← List.countP_eq_length_filter, ← List.countP_eq_length_filter]
  have hm : y ∈ parts I := mem_parts.2 hy
  have key : ∀ l : List Part, l.countP (fun x => !(y :: cd).contains x) ≤ l.countP (fun x => !cd.contains x) ∧
      (y ∈ l → l.countP (fun x => !(y :: cd).contains x) < l.countP (fun x => !cd.contains x)) := by
    intro l
    induction l with
    | nil => simp
    | cons a l ih =>
      rw [List.countP_cons, List.countP_cons]
      by_cases hay : a = y
      · subst hay
        have : (!cd.contains a) = true := by simpa using hn
        rw [if_pos this, if_neg (by simp)]
        exact ⟨by omega, fun _ => by omega⟩
      · have e : (!(y :: cd).contains a) = (!cd.contains a) := by
          rw [List.contains_cons]
          have : (a == y) = false := by simpa using hay
          rw [this, Bool.false_or]
        rw [e]
        refine ⟨by omega, fun h => ?_⟩
        have := ih.2 ((List.mem_cons.1 h).resolve_left (fun e => hay e.symm))
        omega
  exact (key _).2 hm

theorem sched_ok (ho : Ordered I)
    (hent : ∀ p, 1 ≤ p → p ≤ I.parent.maxPhase → ∀ a, I.Has a → Must I a (.left p) → Early I a p) (hsd : Sound I) :
    ∀ (u : Nat),
    (∀ c st ph cd, left I cd = u → Rel I st cd → Inv I cd ph → .left ph ∉ cd → Ok fun f => visitStart I C f c st ph) ∧
    (∀ ci c st ph cd comp k x, left I cd = u → Rel I st cd → InvC I x cd ph → C.comps[ci]? = some comp → k ∈ comp →
      (parts I)[k]? = some x → (I.parent.circ ph = true → Same I (.left ph) x) → Ok fun f => chunkSched I C f ci c st ph) := by
  intro u
  induction u using Nat.strong_induction_on with
  | _ u ih =>
    refine ⟨?_, ?_⟩
    · intro c st ph cd hu hrel hi hn
      by_cases hm : I.parent.maxPhase < ph
      · refine ⟨1, fun f hf => ?_⟩
        obtain ⟨f', rfl⟩ : ∃ f', f = f' + 1 := ⟨f - 1, by omega⟩
        simp only [visitStart]
        rw [if_pos hm]
        exact ⟨_, rfl⟩
      · have hhas : I.Has (.left ph) := ⟨hi.pos, by omega⟩
        obtain ⟨k, hk⟩ := find_left_some hw hr (ph := ph) hi.pos (by omega)
        have hy := find_left hw hr hk
        obtain ⟨ci, hci⟩ := compOf_some hw hr (lt_of_getElem? hy)
        obtain ⟨comp, hcomp, hkc⟩ := compOf_at hw hr hci
        have hi' := hi.begin hw ho (by omega) hn (hent _ hi.pos (by omega))
        have := left_ok hw hr hrel (c := c) (ci := ci) hi.pos hy fun st' hrel' =>
          (ih _ (hu ▸ left_lt hhas hn)).2 ci c st' ph _ comp k _ rfl hrel' hi' hcomp hkc hy (fun _ => .inl rfl)
        exact this.step fun f t ht => by
          simp only [visitStart]
          rw [if_neg hm, hk]
          simp only
          rw [hci]
          exact ⟨t, ht⟩
    · have main : ∀ ci c st ph cd comp k x, left I cd = u → Rel I st cd → InvC I x cd ph → C.comps[ci]? = some comp → k ∈ comp →
          (parts I)[k]? = some x → (I.parent.circ ph = true → Same I (.left ph) x) → (∃ z, Same I x z ∧ Avail I ph cd z) →
          Ok fun f => chunkSched I C f ci c st ph := by
        intro ci c st ph cd comp k x hu hrel hi hcomp hkc hx hcx ⟨z, hz, haz⟩
        have hcm := List.mem_of_getElem? hcomp
        rcases pickMax_spec (C.chunkRank I st comp ph) comp with ⟨hpn, hz0⟩ | ⟨b, hpb, hb, hpos, hmx⟩
        · exfalso
          obtain ⟨a, ha⟩ := List.getElem?_of_mem (mem_parts.2 haz.1)
          have hac := (same_at hw hr hcm hkc hx ha).2 hz
          exact (chunkRank_at hw hr hrel hcm hac ha).2 haz (hz0 a hac)
        · obtain ⟨y, hy⟩ := part_of hw hr hcm hb
          have hav := (chunkRank_at hw hr hrel hcm hb hy (ph := ph)).1 (by omega)
          have hsy := (same_at hw hr hcm hkc hx hy).1 hb
          have hlt := hu ▸ left_lt hav.1 hav.2.1
          have hrun : Ok fun f => chunkRun I C f ci b c st ph := by
            cases y with
            | left p =>
              have hi' := hi.pick hw ho hsy hav (by simp)
              refine (left_ok hw hr hrel (c := c) (ci := ci) hi.pos hy fun st' hrel' =>
                (ih _ hlt).2 ci c st' ph _ comp k x rfl hrel' hi' hcomp hkc hx hcx).step fun f t ht => ?_
              simp only [chunkRun]
              rw [chunk_at hw hr hy]
              exact ⟨t, ht⟩
            | right p =>
              obtain rfl := hi.right_eq hw ho hsy hav
              obtain ⟨h1, h2⟩ := hi.pickRight hw ho hsy hav (only_right hw hr hrel hcm hkc hx hb hy hpos hmx)
              refine (right_ok hw hr hrel (c := c) (ci := ci) hi.pos hy fun st' hrel' =>
                (ih _ hlt).1 c st' (p + 1) _ rfl hrel' h1 h2).step fun f t ht => ?_
              simp only [chunkRun]
              rw [chunk_at hw hr hy]
              exact ⟨t, ht⟩
            | visit ch p =>
              have hi' := hi.pick hw ho hsy hav (by simp)
              refine (visit_ok hw hr hrel (c := c) (ci := ci) hi.pos hy fun st' hrel' =>
                (ih _ hlt).2 ci c st' ph _ comp k x rfl hrel' hi' hcomp hkc hx hcx).step fun f t ht => ?_
              simp only [chunkRun]
              rw [chunk_at hw hr hy]
              exact ⟨t, ht⟩
            | loc i =>
              have hi' := hi.pick hw ho hsy hav (by simp)
              refine (local_ok hw hr hrel (c := c) (ci := ci) hi.pos hy hav.2.1 fun c' st' hrel' =>
                (ih _ hlt).2 ci c' st' ph _ comp k x rfl hrel' hi' hcomp hkc hx hcx).step fun f t ht => ?_
              simp only [chunkRun]
              rw [chunk_at hw hr hy]
              exact ⟨t, ht⟩
          exact hrun.step fun f t ht => by
            simp only [chunkSched]
            rw [hcomp]
            simp only
            rw [hpb]
            exact ⟨t, ht⟩
      intro ci c st ph cd comp k x hu hrel hi hcomp hkc hx hcx
      have hcm := List.mem_of_getElem? hcomp
      by_cases hav : ∃ z, Same I x z ∧ Avail I ph cd z
      · exact main ci c st ph cd comp k x hu hrel hi hcomp hkc hx hcx hav
      · have hrn : .right ph ∉ cd := hi.lateRight ph (Nat.le_refl _)
        by_cases hcirc : I.parent.circ ph = true
        · exfalso
          rcases hsd ph hi.pos hi.max with h | ⟨h1, h2⟩
          · rw [h] at hcirc; cases hcirc
          · have hxl := hcx hcirc
            have hlr : Same I (.left ph) (.right ph) := .inr ⟨guide_lr hi.pos hi.max, h1⟩
            refine hav (exists_avail hw hi.hasx (hxl.symm.trans hlr) hrn ?_)
            intro z hz hp
            cases z with
            | visit ch q =>
              obtain ⟨info, h3, _⟩ := (hz.has hw hi.hasx)
              have hs := hxl.trans hz
              have := h2 ch q info (hs.resolve_left (by simp)).1 (hs.resolve_left (by simp)).2 h3
              rw [hp.1 info h3] at this
              cases this
            | _ => exact hp
        · have hcirc' : I.parent.circ ph = false := by simpa using hcirc
          have hnp : ∀ z, ¬ Prevented I ph z := by
            intro z
            cases z <;> simp [Prevented, hcirc']
          have hxd : ∀ z, Same I x z → z ∈ cd := by
            intro z hz
            by_contra hc
            exact hav (exists_avail hw hi.hasx hz hc (fun z _ => hnp z))
          obtain ⟨m, ⟨h1, h2, h3⟩, h4⟩ := exists_minimal (parts I) (Reach I) (fun a b c h h' => h.trans h')
            (fun z => I.Has z ∧ z ∉ cd ∧ (z = .right ph ∨ Reach I z (.right ph))) (fun z hz => mem_parts.2 hz.1)
            (a := .right ph) ⟨⟨hi.pos, hi.max⟩, hrn, .inl rfl⟩
          have hcr : CReady I cd m := by
            refine ⟨h1, ?_, m, .inl rfl, h2⟩
            intro z hz hn
            by_contra hc
            refine hn (h4 z ⟨(reach_has hw hz).1, hc, .inr ?_⟩ hz)
            rcases h3 with rfl | h3
            · exact hz
            · exact hz.trans h3
          obtain ⟨a, ha⟩ := List.getElem?_of_mem (mem_parts.2 h1)
          obtain ⟨cm, l, hl, hal⟩ := comp_at hw hr (lt_of_getElem? ha)
          have hne : ci ≠ cm := by
            rintro rfl
            rw [hcomp] at hl
            cases hl
            exact h2 (hxd m ((same_at hw hr hcm hkc hx ha).1 hal))
          have hrkm := (compRank_at hw hr hrel hl hal ha (prev := ci)).1.2 ⟨hne, hcr⟩
          rcases pickMax_spec (C.compRank st ci) (List.range C.comps.length) with ⟨hpn, hz⟩ | ⟨cj, hpb, hb, hpos, hmax⟩
          · exact absurd (hz cm (List.mem_range.2 (lt_of_getElem? hl))) hrkm
          · have hlt := List.mem_range.1 hb
            have hcj : C.comps[cj]? = some C.comps[cj] := List.getElem?_eq_getElem hlt
            have hcjm := List.mem_of_getElem? hcj
            obtain ⟨b, hbc⟩ : ∃ b, b ∈ C.comps[cj] := by
              rcases hl : C.comps[cj] with _ | ⟨b, l⟩
              · exfalso
                unfold CG.compRank CG.compReady at hpos
                rw [hcj, hl] at hpos
                simp at hpos
              · exact ⟨b, by simp⟩
            obtain ⟨y, hy⟩ := part_of hw hr hcjm hbc
            have hrk := compRank_at hw hr hrel hcj hbc hy (prev := ci)
            obtain ⟨hne', hcr'⟩ := hrk.1.1 (by omega)
            obtain ⟨z, hz, hzn⟩ := hcr'.2.2
            have hi' : InvC I y cd ph := by
              refine hi.switch hw ho (fun z hz ha => hav ⟨z, hz, ha⟩) hcr' ?_
              intro hor w hnw hcw
              obtain ⟨a, ha⟩ := List.getElem?_of_mem (mem_parts.2 hcw.1)
              obtain ⟨l, cw, hl, haw⟩ := comp_at hw hr (lt_of_getElem? ha)
              have hrkw := compRank_at hw hr hrel hl haw ha (prev := ci)
              have hnel : ci ≠ l := by
                rintro rfl
                rw [hcomp] at hl
                cases hl
                exact hnw ((same_at hw hr hcm hkc hx ha).1 haw)
              have h1 := hrkw.1.2 ⟨hnel, hcw⟩
              have h2 := hmax l (List.mem_range.2 (lt_of_getElem? hl))
              have h3 := (hrk.2 (by omega)).2 hor
              exact (hrkw.2 h1).1 (by omega)
            have hsub := main cj c st ph cd _ b y hu hrel hi' hcj hbc hy (fun h => absurd h hcirc)
              (exists_avail hw hcr'.1 hz hzn (fun z _ => hnp z))
            have h2 : Ok fun f => compSched I C f ci c st ph := hsub.step fun f t ht => by
              simp only [compSched]
              rw [hpb]
              exact ⟨t, ht⟩
            have hpn : pickMax (C.chunkRank I st comp ph) comp = none := by
              rcases pickMax_spec (C.chunkRank I st comp ph) comp with ⟨hpn, _⟩ | ⟨b', hpb', hb', hpos', _⟩
              · exact hpn
              · exfalso
                obtain ⟨y', hy'⟩ := part_of hw hr hcm hb'
                exact hav ⟨y', (same_at hw hr hcm hkc hx hy').1 hb', (chunkRank_at hw hr hrel hcm hb' hy' (ph := ph)).1 (by omega)⟩
            exact h2.step fun f t ht => by
              simp only [chunkSched]
              rw [hcomp]
              simp only
              rw [hpn]
              exact ⟨t, ht⟩

end

end Aps.Chunk
