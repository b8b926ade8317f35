import Verif.Proofs.ChunkRun
/-! From the scheduling functions to runs. -/
set_option linter.unusedVariables false
namespace Aps.Chunk
open Aps.Dnc Aps.Oag

/-- what is still to do of a group -/
def todo (I : Input) (st : St) (l : List Nat) (g : Int × Int) : List Nat :=
  l.filter fun i => !st.done.contains i && I.group i == g

theorem find_filter {α : Type} [DecidableEq α] {p : α → Bool} {l : List α} (hnd : l.Nodup) {i : α} (h : l.find? p = some i) :
    l.filter p = i :: l.filter (fun x => p x && x != i) := by
  induction l with
  | nil => simp at h
  | cons x l ih =>
    obtain ⟨hx, hl⟩ := List.nodup_cons.1 hnd
    by_cases hp : p x = true
    · rw [List.find?_cons_of_pos hp] at h
      cases h
      rw [List.filter_cons_of_pos hp]
      congr 1
      rw [List.filter_cons_of_neg (by simp)]
      refine List.filter_congr fun y hy => ?_
      have : y ≠ i := fun e => hx (e ▸ hy)
      simp [this]
    · rw [List.find?_cons_of_neg hp] at h
      rw [List.filter_cons_of_neg hp, ih hl h, List.filter_cons_of_neg (by simp [hp])]

theorem firstOf_some {I : Input} {st : St} {l : List Nat} (hnd : l.Nodup) {g : Int × Int} {i : Nat}
    (h : firstOf I st l g = some i) (cd : List Nat) :
    i ∈ l ∧ I.group i = g ∧ i ∉ st.done ∧ todo I st l g = i :: todo I ⟨i :: st.done, cd⟩ l g := by
  have hp := List.find?_some h
  simp only [Bool.and_eq_true, Bool.not_eq_true', beq_iff_eq] at hp
  refine ⟨List.mem_of_find?_eq_some h, hp.2, by simpa using hp.1, ?_⟩
  unfold todo
  rw [find_filter hnd h]
  congr 1
  refine List.filter_congr fun x hx => ?_
  by_cases hxi : x = i
  · subst hxi
    simp
  · have h1 : (x != i) = true := by simpa using hxi
    have h2 : List.contains (i :: st.done) x = st.done.contains x := by
      rw [List.contains_cons]
      have : (x == i) = false := by simpa using hxi
      rw [this, Bool.false_or]
    rw [h1, h2, Bool.and_true]

theorem firstOf_none {I : Input} {st : St} {l : List Nat} {g : Int × Int} (h : firstOf I st l g = none) :
    todo I st l g = [] ∧ ∀ i ∈ l, I.group i = g → i ∈ st.done := by
  have h' := List.find?_eq_none.1 h
  refine ⟨?_, ?_⟩
  · unfold todo
    rw [List.filter_eq_nil_iff]
    exact h'
  · intro i hi hg
    have := h' i hi
    simpa [hg] using this

theorem emit_cons {I : Input} {c : Cond} {i : Nat} {l : List Nat} :
    emit I c (i :: l) = if ignored c (I.cond i) then emit I c l else .inst i :: emit I c l := by
  unfold emit
  by_cases h : ignored c (I.cond i) = true
  · rw [List.filter_cons_of_neg (by simp [h]), if_pos h]
  · rw [List.filter_cons_of_pos (by simpa using h), if_neg h, List.map_cons]

/-- What `groupSched` does before it goes on with `groupEnd`. -/
theorem groupSched_spec {I : Input} {C : CG} {σ : Nat → Bool} {ci k ph : Nat} {c : Cond} {g : Int × Int}
    (hs : Sat σ c) (hg : g ≠ (0, 0)) (hk : ∀ i, i < I.n → I.group i = g → C.chunkOf i = some k) :
    ∀ (f : Nat) (st : St) (t : Tree), groupSched I C f ci k c st g ph = .ok t →
    ∃ f' st' t', f' < f ∧ groupEnd I C f' ci k c st' g ph = .ok t' ∧
      t.path I.rule σ = emit I c (todo I st (List.range I.n) g) ++ t'.path I.rule σ ∧
      (∀ i, i ∈ st'.done ↔ (i < I.n ∧ I.group i = g) ∨ i ∈ st.done) ∧ (∀ a, a ∈ st'.cdone ↔ a = k ∨ a ∈ st.cdone) := by
  intro f
  induction f with
  | zero => intro st t h; simp [groupSched] at h
  | succ f ih =>
    intro st t h
    rw [groupSched, sat_possible hs] at h
    simp only [Bool.false_eq_true, if_false] at h
    cases hf : firstOf I st (List.range I.n) g with
    | none =>
      rw [hf] at h
      simp only at h
      obtain ⟨h1, h2⟩ := firstOf_none hf
      refine ⟨f, _, t, Nat.lt_succ_self _, h, ?_, ?_, ?_⟩
      · rw [h1]; simp [emit]
      · intro i
        simp only
        refine ⟨.inr, ?_⟩
        rintro (⟨h3, h4⟩ | h3)
        · exact h2 i (List.mem_range.2 h3) h4
        · exact h3
      · intro a; simp
    | some i =>
      rw [hf] at h
      simp only at h
      obtain ⟨h1, h2, h3, h4⟩ := firstOf_some List.nodup_range hf (k :: st.cdone)
      have hin := List.mem_range.1 h1
      rw [hk i hin h2, h2] at h
      simp only at h
      have hg0 : (g == ((0, 0) : Int × Int)) = false := by simpa using hg
      rw [hg0] at h
      simp only [Bool.false_eq_true, if_false] at h
      rw [h4, emit_cons]
      have fin : ∀ t0, groupSched I C f ci k c ⟨i :: st.done, k :: st.cdone⟩ g ph = .ok t0 →
          ∃ f' st' t', f' < f + 1 ∧ groupEnd I C f' ci k c st' g ph = .ok t' ∧
            t0.path I.rule σ = emit I c (todo I ⟨i :: st.done, k :: st.cdone⟩ (List.range I.n) g) ++ t'.path I.rule σ ∧
            (∀ i, i ∈ st'.done ↔ (i < I.n ∧ I.group i = g) ∨ i ∈ st.done) ∧ (∀ a, a ∈ st'.cdone ↔ a = k ∨ a ∈ st.cdone) := by
        intro t0 h0
        obtain ⟨f', st', t', h5, h6, h7, h8, h9⟩ := ih _ t0 h0
        refine ⟨f', st', t', by omega, h6, h7, ?_, ?_⟩
        · intro j
          rw [h8]
          simp only [List.mem_cons]
          constructor
          · rintro (h | rfl | h)
            · exact .inl h
            · exact .inl ⟨hin, h2⟩
            · exact .inr h
          · rintro (h | h)
            · exact .inl h
            · exact .inr (.inr h)
        · intro a
          rw [h9]
          simp only [List.mem_cons]
          tauto
      by_cases hig : ignored c (I.cond i) = true
      · rw [if_pos hig] at h ⊢
        exact fin t h
      · rw [if_neg hig] at h ⊢
        rw [Res.bind_eq_ok] at h
        obtain ⟨t0, h0, h0'⟩ := h
        rw [Res.pure_eq] at h0'
        cases h0'
        obtain ⟨f', st', t', h5, h6, h7, h8⟩ := fin t0 h0
        exact ⟨f', st', t', h5, h6, by simp [Tree.path, h7], h8⟩

section
variable {I : Input} (hw : Wf I) {C : CG} (hr : Rep I C)
include hw hr

theorem chunkOf_at {k : Nat} {x : Part} (hx : (parts I)[k]? = some x) {i : Nat} (hi : i < I.n) (hp : I.part i = x) :
    C.chunkOf i = some k := by
  unfold CG.chunkOf
  have hkl : k < C.chunks.length := by rw [hr.chunks]; simpa using lt_of_getElem? hx
  rw [List.findIdx?_eq_some_iff_getElem]
  have hxx : ∀ a (ha : a < C.chunks.length) z, (parts I)[a]? = some z → C.chunks[a] = mkChunk I z := by
    intro a ha z hz
    have := chunk_at hw hr hz
    rw [List.getElem?_eq_getElem ha] at this
    exact Option.some.inj this
  have hhas : ∀ (a : Nat) z, (parts I)[a]? = some z → I.Has z := fun a z hz => mem_parts.1 (List.mem_of_getElem? hz)
  refine ⟨hkl, ?_, ?_⟩
  · rw [hxx k hkl x hx, List.contains_iff_mem]
    exact (mem_mkChunk hw (hhas k x hx)).2 ⟨hi, hp⟩
  · intro j hj
    obtain ⟨z, hz⟩ : ∃ z, (parts I)[j]? = some z := ⟨_, List.getElem?_eq_getElem (by
      have := lt_of_getElem? hx; omega)⟩
    rw [hxx j _ z hz, List.contains_iff_mem, mem_mkChunk hw (hhas j z hz)]
    rintro ⟨_, h⟩
    have hzx : z = x := by rw [← hp, ← h]
    subst hzx
    have := (List.getElem?_inj (lt_of_getElem? hz) (nodup_parts I)).1 (hz.trans hx.symm)
    omega

theorem find_left {ph k : Nat} (h : C.find .halfLeft ph (-1) = some k) : (parts I)[k]? = some (.left ph) := by
  unfold CG.find at h
  rw [List.findIdx?_eq_some_iff_getElem] at h
  obtain ⟨hk, h1, _⟩ := h
  have hk' : k < (parts I).length := by rw [hr.chunks] at hk; simpa using hk
  have hx : (parts I)[k]? = some (parts I)[k] := List.getElem?_eq_getElem hk'
  have hc := chunk_at hw hr hx
  rw [List.getElem?_eq_getElem hk] at hc
  rw [Option.some.inj hc] at h1
  rw [hx]
  revert h1
  cases (parts I)[k] <;> simp [mkChunk]

theorem compOf_at {k ci : Nat} (h : C.compOf k = some ci) : ∃ c, C.comps[ci]? = some c ∧ k ∈ c := by
  unfold CG.compOf at h
  rw [List.findIdx?_eq_some_iff_getElem] at h
  obtain ⟨hk, h1, _⟩ := h
  exact ⟨_, List.getElem?_eq_getElem hk, by simpa using h1⟩

end

/-- the part of a group -/
theorem part_left {I : Input} {i p : Nat} (hp : 1 ≤ p) : I.part i = .left p ↔ I.group i = (-(p : Int), -1) := by
  unfold Input.part
  simp only [Prod.ext_iff]
  constructor
  · intro h
    split at h
    · cases h
    · split at h
      · split at h
        · have := Part.left.inj h; omega
        · cases h
      · cases h
  · intro h
    rw [if_neg (by omega), if_pos h.2, if_pos (by omega)]
    congr 1
    omega

theorem part_right {I : Input} {i p : Nat} (hp : 1 ≤ p) (hg : I.group i = (0, 0) ∨ ((I.group i).1 ≠ 0 ∧ -1 ≤ (I.group i).2)) :
    I.part i = .right p ↔ I.group i = ((p : Int), -1) := by
  unfold Input.part
  simp only [Prod.ext_iff] at hg ⊢
  constructor
  · intro h
    split at h
    · cases h
    · split at h
      · split at h
        · cases h
        · have := Part.right.inj h; omega
      · cases h
  · intro h
    rw [if_neg (by omega), if_pos h.2, if_neg (by omega)]
    congr 1
    omega

theorem part_visit {I : Input} {i ch p : Nat} (hp : 1 ≤ p) (hg : I.group i = (0, 0) ∨ ((I.group i).1 ≠ 0 ∧ -1 ≤ (I.group i).2)) :
    I.part i = .visit ch p ↔ I.group i = (-(p : Int), (ch : Int)) ∨ I.group i = ((p : Int), (ch : Int)) := by
  unfold Input.part
  simp only [Prod.ext_iff] at hg ⊢
  constructor
  · intro h
    split at h
    · cases h
    · split at h
      · split at h <;> cases h
      · have := Part.visit.inj h; omega
  · intro h
    rw [if_neg (by omega), if_neg (by omega)]
    congr 1 <;> omega

theorem part_loc {I : Input} {i j : Nat} : I.part i = .loc j ↔ i = j ∧ I.group i = (0, 0) := by
  unfold Input.part
  simp only [Prod.ext_iff]
  constructor
  · intro h
    split at h
    · exact ⟨Part.loc.inj h, by assumption⟩
    · split at h
      · split at h <;> cases h
      · cases h
  · rintro ⟨rfl, h⟩
    rw [if_pos h]

theorem todo_members {I : Input} {st : St} {cd : List Part} (hrel : Rel I st cd) {g : Int × Int} {x : Part} (hx : x ∉ cd)
    (hg : ∀ i, i < I.n → I.group i = g → I.part i = x) : todo I st (List.range I.n) g = I.members fun h => h == g := by
  unfold todo Input.members
  refine List.filter_congr fun i hi => ?_
  have hin := List.mem_range.1 hi
  by_cases h : I.group i = g
  · have h1 := hg i hin h
    have : i ∉ st.done := fun h' => hx (h1 ▸ (hrel.inst i hin).1 h')
    simp [this]
  · simp [h]

theorem todo_done {I : Input} {st : St} {g : Int × Int}
    (hg : ∀ i, i < I.n → I.group i = g → i ∈ st.done) : todo I st (List.range I.n) g = [] := by
  unfold todo
  rw [List.filter_eq_nil_iff]
  intro i hi
  have hin := List.mem_range.1 hi
  by_cases h : I.group i = g
  · simp [hg i hin h]
  · simp [h]

theorem Rel.add {I : Input} {st st' : St} {cd : List Part} (hrel : Rel I st cd) {x : Part} {k : Nat}
    (hx : (parts I)[k]? = some x)
    (hd : ∀ i, i < I.n → (i ∈ st'.done ↔ I.part i = x ∨ i ∈ st.done)) (hc : ∀ a, a ∈ st'.cdone ↔ a = k ∨ a ∈ st.cdone) :
    Rel I st' (x :: cd) := by
  constructor
  · intro a y hy
    rw [hc, List.mem_cons, hrel.chunk a y hy]
    refine or_congr_left ?_
    constructor
    · rintro rfl
      rw [hx] at hy
      exact (Option.some.inj hy).symm
    · rintro rfl
      exact (List.getElem?_inj (lt_of_getElem? hy) (nodup_parts I)).1 (hy.trans hx.symm)
  · intro i hi
    rw [hd i hi, List.mem_cons, hrel.inst i hi]

section
variable {I : Input} (hw : Wf I) {C : CG} (hr : Rep I C)
include hw hr

theorem leftSched_spec {σ : Nat → Bool} {c : Cond} (hs : Sat σ c) {st : St} {cd : List Part} (hrel : Rel I st cd)
    {f ci k ph p : Nat} (hy : (parts I)[k]? = some (.left p)) {t : Tree}
    (h : groupSched I C f ci k c st (-(p : Int), -1) ph = .ok t) :
    ∃ f' st' t', f' < f ∧ chunkSched I C f' ci c st' ph = .ok t' ∧
      t.path I.rule σ = (if .left p ∈ cd then [] else evsOf I c (.left p)) ++ t'.path I.rule σ ∧ Rel I st' (.left p :: cd) := by
  have hk : I.Has (.left p) := mem_parts.1 (List.mem_of_getElem? hy)
  have hp : 1 ≤ p := hk.1
  obtain ⟨f', st', t', h1, h2, h3, h4, h5⟩ := groupSched_spec (I := I) (C := C) hs (g := (-(p : Int), -1)) (by
      simp) (fun i hi hg => chunkOf_at hw hr hy hi ((part_left hp).2 hg)) f st t h
  cases f' with
  | zero => simp [groupEnd] at h2
  | succ f' =>
    rw [groupEnd] at h2
    have e1 : (decide ((-(p : Int), (-1 : Int)).1 < 0) && (-(p : Int), (-1 : Int)).2 != -1) = false := by simp
    have e2 : (decide (0 < (-(p : Int), (-1 : Int)).1) && (-(p : Int), (-1 : Int)).2 == -1) = false := by
      have : ¬ (0 : Int) < -(p : Int) := by omega
      simp
    rw [e1, e2] at h2
    simp only [Bool.false_eq_true, if_false] at h2
    refine ⟨f', st', t', by omega, h2, ?_, hrel.add hy (fun i hi => ?_) h5⟩
    · rw [h3]
      congr 1
      split
      · rename_i hx
        rw [todo_done (fun i hi hg => (hrel.inst i hi).2 (by rw [(part_left hp).2 hg]; exact hx))]
        rfl
      · rename_i hx
        rw [todo_members hrel hx (fun i hi hg => (part_left hp).2 hg)]
        rfl
    · rw [h4, part_left hp]
      exact or_congr_left ⟨And.right, fun h => ⟨hi, h⟩⟩

theorem rightSched_spec {σ : Nat → Bool} {c : Cond} (hs : Sat σ c) {st : St} {cd : List Part} (hrel : Rel I st cd)
    {f ci k ph p : Nat} (hy : (parts I)[k]? = some (.right p)) (hn : .right p ∉ cd) {t : Tree}
    (h : groupSched I C f ci k c st ((p : Int), -1) ph = .ok t) :
    ∃ f' st' t', f' < f ∧ visitStart I C f' c st' (ph + 1) = .ok t' ∧
      t.path I.rule σ = evsOf I c (.right p) ++ t'.path I.rule σ ∧ Rel I st' (.right p :: cd) := by
  have hk : I.Has (.right p) := mem_parts.1 (List.mem_of_getElem? hy)
  have hp : 1 ≤ p := hk.1
  obtain ⟨f', st', t', h1, h2, h3, h4, h5⟩ := groupSched_spec (I := I) (C := C) hs (g := ((p : Int), -1)) (by
      simp) (fun i hi hg => chunkOf_at hw hr hy hi ((part_right hp (hw.group i hi)).2 hg)) f st t h
  cases f' with
  | zero => simp [groupEnd] at h2
  | succ f' =>
    rw [groupEnd] at h2
    have e1 : (decide (((p : Int), (-1 : Int)).1 < 0) && ((p : Int), (-1 : Int)).2 != -1) = false := by simp
    have e2 : (decide (0 < ((p : Int), (-1 : Int)).1) && ((p : Int), (-1 : Int)).2 == -1) = true := by
      have : (0 : Int) < (p : Int) := by omega
      simp [this]
      omega
    rw [e1, e2] at h2
    simp only [Bool.false_eq_true, if_false, if_true] at h2
    rw [Res.bind_eq_ok] at h2
    obtain ⟨t0, h6, h7⟩ := h2
    rw [Res.pure_eq] at h7
    cases h7
    refine ⟨f', st', t0, by omega, h6, ?_, hrel.add hy (fun i hi => ?_) h5⟩
    · rw [h3]
      rw [todo_members hrel hn (fun i hi hg => (part_right hp (hw.group i hi)).2 hg)]
      simp [evsOf, Tree.path, markEv]
    · rw [h4, part_right hp (hw.group i hi)]
      exact or_congr_left ⟨And.right, fun h => ⟨hi, h⟩⟩

theorem visitSched_spec {σ : Nat → Bool} {c : Cond} (hs : Sat σ c) {st : St} {cd : List Part} (hrel : Rel I st cd)
    {f ci k ph ch p : Nat} (hy : (parts I)[k]? = some (.visit ch p)) (hn : .visit ch p ∉ cd) {t : Tree}
    (h : groupSched I C f ci k c st (-(p : Int), (ch : Int)) ph = .ok t) :
    ∃ f' st' t', f' < f ∧ chunkSched I C f' ci c st' ph = .ok t' ∧
      t.path I.rule σ = evsOf I c (.visit ch p) ++ t'.path I.rule σ ∧ Rel I st' (.visit ch p :: cd) := by
  have hk : I.Has (.visit ch p) := mem_parts.1 (List.mem_of_getElem? hy)
  have hp : 1 ≤ p := by obtain ⟨_, _, h, _⟩ := hk; exact h
  have hp0 : p ≠ 0 := by omega
  obtain ⟨f', st', t', h1, h2, h3, h4, h5⟩ := groupSched_spec (I := I) (C := C) hs (g := (-(p : Int), (ch : Int))) (by
      simp [hp0]) (fun i hi hg => chunkOf_at hw hr hy hi ((part_visit hp (hw.group i hi)).2 (.inl hg))) f st t h
  cases f' with
  | zero => simp [groupEnd] at h2
  | succ f' =>
    rw [groupEnd] at h2
    have e1 : (decide ((-(p : Int), (ch : Int)).1 < 0) && (-(p : Int), (ch : Int)).2 != -1) = true := by
      have : -(p : Int) < 0 := by omega
      have h2 : (ch : Int) ≠ -1 := by omega
      simp [h2]
      omega
    rw [e1] at h2
    simp only [if_true] at h2
    rw [Res.bind_eq_ok] at h2
    obtain ⟨t0, h6, h7⟩ := h2
    rw [Res.pure_eq] at h7
    cases h7
    rw [Int.neg_neg] at h6
    obtain ⟨f2, st2, t2, g1, g2, g3, g4, g5⟩ := groupSched_spec (I := I) (C := C) hs (g := ((p : Int), (ch : Int))) (by
        simp [hp0]) (fun i hi hg => chunkOf_at hw hr hy hi ((part_visit hp (hw.group i hi)).2 (.inr hg))) f' st' t0 h6
    cases f2 with
    | zero => simp [groupEnd] at g2
    | succ f2 =>
      rw [groupEnd] at g2
      have e2 : (decide (((p : Int), (ch : Int)).1 < 0) && ((p : Int), (ch : Int)).2 != -1) = false := by simp
      have e3 : (decide (0 < ((p : Int), (ch : Int)).1) && ((p : Int), (ch : Int)).2 == -1) = false := by
        have h2 : (ch : Int) ≠ -1 := by omega
        simp [h2]
      rw [e2, e3] at g2
      simp only [Bool.false_eq_true, if_false] at g2
      refine ⟨f2, st2, t2, by omega, g2, ?_, hrel.add hy (fun i hi => ?_) (fun a => ?_)⟩
      · rw [h3]
        rw [todo_members hrel hn (fun i hi hg => (part_visit hp (hw.group i hi)).2 (.inl hg))]
        have e4 : todo I st' (List.range I.n) ((p : Int), (ch : Int)) = I.members fun g => g == ((p : Int), (ch : Int)) := by
          unfold todo Input.members
          refine List.filter_congr fun i hi => ?_
          have hin := List.mem_range.1 hi
          by_cases hg : I.group i = ((p : Int), (ch : Int))
          · have hpt := (part_visit hp (hw.group i hin)).2 (.inr hg)
            have : i ∉ st'.done := by
              rw [h4]
              rintro (⟨_, h'⟩ | h')
              · rw [hg] at h'
                have := congrArg Prod.fst h'
                simp only at this
                omega
              · exact hn (hpt ▸ (hrel.inst i hin).1 h')
            simp [this]
          · simp [hg]
        have e5 : markEv (- -(p : Int)) (ch : Int) = .visit ch p := by
          unfold markEv
          rw [if_neg (by omega)]
          congr 1
          omega
        simp only [evsOf, Tree.path, e5, g3, e4, List.append_assoc, List.cons_append, List.nil_append]
      · rw [g4, h4, part_visit hp (hw.group i hi)]
        tauto
      · rw [g5, h5]; tauto

omit hw hr in
theorem localSched_done {f ci k i ph : Nat} {c : Cond} {σ : Nat → Bool} (hs : Sat σ c) {st : St} {t : Tree}
    (hi : i ∈ st.done) (h : localSched I C f ci k [i] c st ph = .ok t) :
    ∃ f', f' < f ∧ chunkSched I C f' ci c st ph = .ok t := by
  cases f with
  | zero => simp [localSched] at h
  | succ f =>
    rw [localSched, sat_possible hs] at h
    have : firstOf I st [i] (0, 0) = none := by
      unfold firstOf
      rw [List.find?_eq_none]
      intro x hx
      simp only [List.mem_singleton] at hx
      subst hx
      simp [hi]
    rw [this] at h
    simp only [Bool.false_eq_true, if_false] at h
    cases f with
    | zero => simp [groupEnd] at h
    | succ f =>
      rw [groupEnd] at h
      simp only [Int.lt_irrefl, decide_false, Bool.false_and, Bool.false_eq_true, if_false] at h
      exact ⟨f, by omega, h⟩

theorem localSched_spec {σ : Nat → Bool} {c : Cond} (hs : Sat σ c) {st : St} {cd : List Part} (hrel : Rel I st cd)
    {f ci k ph i : Nat} (hy : (parts I)[k]? = some (.loc i)) (hn : .loc i ∉ cd) {t : Tree}
    (h : localSched I C f ci k [i] c st ph = .ok t) :
    ∃ f' st' t', f' < f ∧ chunkSched I C f' ci (upd I σ c (.loc i)) st' ph = .ok t' ∧
      t.path I.rule σ = evsOf I c (.loc i) ++ t'.path I.rule σ ∧ Rel I st' (.loc i :: cd) := by
  have hk : I.Has (.loc i) := mem_parts.1 (List.mem_of_getElem? hy)
  obtain ⟨hin, hg⟩ := hk
  have hpart : I.part i = .loc i := part_loc.2 ⟨rfl, hg⟩
  have hnd : i ∉ st.done := fun h' => hn (hpart ▸ (hrel.inst i hin).1 h')
  have hrel' : Rel I ⟨i :: st.done, k :: st.cdone⟩ (.loc i :: cd) := hrel.add hy (fun j hj => by
    simp only [List.mem_cons]
    rw [part_loc]
    constructor
    · rintro (rfl | h)
      · exact .inl ⟨rfl, hg⟩
      · exact .inr h
    · rintro (⟨rfl, _⟩ | h)
      · exact .inl rfl
      · exact .inr h) (fun a => by simp)
  cases f with
  | zero => simp [localSched] at h
  | succ f =>
    rw [localSched, sat_possible hs] at h
    have hf : firstOf I st [i] (0, 0) = some i := by
      unfold firstOf
      rw [List.find?_cons_of_pos (by simp [hnd, hg])]
    rw [hf] at h
    simp only [Bool.false_eq_true, if_false] at h
    rw [chunkOf_at hw hr hy hin hpart] at h
    simp only at h
    have hsu : Sat σ (upd I σ c (.loc i)) := sat_upd hw hs _
    simp only [evsOf]
    rw [emit_cons]
    by_cases hig : ignored c (I.cond i) = true
    · rw [if_pos hig] at h ⊢
      have hu : upd I σ c (.loc i) = c := by unfold upd; simp only; rw [if_pos hig]
      rw [hu]
      obtain ⟨f', h1, h2⟩ := localSched_done hs (by simp) h
      exact ⟨f', _, t, by omega, h2, by simp [emit], hrel'⟩
    · rw [if_neg hig] at h ⊢
      cases hru : I.rule i with
      | none =>
        rw [hru] at h
        simp only at h
        have hu : upd I σ c (.loc i) = c := by unfold upd; simp only; rw [if_neg hig, hru]
        rw [hu]
        rw [Res.bind_eq_ok] at h
        obtain ⟨t0, h6, h7⟩ := h
        rw [Res.pure_eq] at h7
        cases h7
        obtain ⟨f', h1, h2⟩ := localSched_done hs (by simp) h6
        exact ⟨f', _, t0, by omega, h2, by simp [emit, Tree.path], hrel'⟩
      | some r =>
        rw [hru] at h
        simp only at h
        rw [Res.bind_eq_ok] at h
        obtain ⟨t1, h6, h7⟩ := h
        rw [Res.bind_eq_ok] at h7
        obtain ⟨t2, h8, h9⟩ := h7
        rw [Res.pure_eq] at h9
        cases h9
        by_cases hσ : σ r = true
        · have hu : upd I σ c (.loc i) = ⟨c.pos ||| cmask r, c.neg⟩ := by
            unfold upd; simp only; rw [if_neg hig, hru]; simp only; rw [if_pos hσ]
          rw [hu] at hsu ⊢
          obtain ⟨f', h1, h2⟩ := localSched_done hsu (by simp) h6
          exact ⟨f', _, t1, by omega, h2, by simp [emit, Tree.path, hru, hσ], hrel'⟩
        · have hu : upd I σ c (.loc i) = ⟨(c.pos ||| cmask r) &&& ~~~cmask r, c.neg ||| cmask r⟩ := by
            unfold upd; simp only; rw [if_neg hig, hru]; simp only; rw [if_neg hσ]
          rw [hu] at hsu ⊢
          obtain ⟨f', h1, h2⟩ := localSched_done hsu (by simp) h8
          exact ⟨f', _, t2, by omega, h2, by simp [emit, Tree.path, hru, hσ], hrel'⟩

/-- The path of a schedule is a run. -/
theorem run_of_sched {σ : Nat → Bool} : ∀ (f : Nat),
    (∀ c st ph cd t, visitStart I C f c st ph = .ok t → Rel I st cd → Sat σ c → Run I σ .start c cd ph (t.path I.rule σ)) ∧
    (∀ ci c st ph cd t comp k x, chunkSched I C f ci c st ph = .ok t → Rel I st cd → Sat σ c → C.comps[ci]? = some comp →
      k ∈ comp → (parts I)[k]? = some x → Run I σ (.comp x) c cd ph (t.path I.rule σ)) ∧
    (∀ ci c st ph cd t comp k x, compSched I C f ci c st ph = .ok t → Rel I st cd → Sat σ c → C.comps[ci]? = some comp →
      k ∈ comp → (parts I)[k]? = some x → (∀ z, Same I x z → ¬ Avail I ph cd z) → Run I σ (.comp x) c cd ph (t.path I.rule σ)) := by
  intro f
  induction f using Nat.strong_induction_on with
  | _ f ih =>
    refine ⟨?_, ?_, ?_⟩
    · intro c st ph cd t h hrel hs
      cases f with
      | zero => simp [visitStart] at h
      | succ f =>
        rw [visitStart] at h
        by_cases hm : I.parent.maxPhase < ph
        · rw [if_pos hm] at h
          cases h
          exact .finish hm
        · rw [if_neg hm] at h
          cases hf : C.find .halfLeft ph (-1) with
          | none => rw [hf] at h; cases h
          | some k =>
            rw [hf] at h
            simp only at h
            cases hc : C.compOf k with
            | none => rw [hc] at h; cases h
            | some ci =>
              rw [hc] at h
              simp only at h
              have hy := find_left hw hr hf
              obtain ⟨comp, hcomp, hkc⟩ := compOf_at hw hr hc
              obtain ⟨f', st', t', h1, h2, h3, h4⟩ := leftSched_spec hw hr hs hrel hy h
              rw [h3]
              exact .start (by omega) ((ih f' (by omega)).2.1 ci c st' ph _ t' comp k _ h2 h4 hs hcomp hkc hy)
    · intro ci c st ph cd t comp k x h hrel hs hcomp hkc hx
      have hcm := List.mem_of_getElem? hcomp
      cases f with
      | zero => simp [chunkSched] at h
      | succ f =>
        rw [chunkSched, hcomp] at h
        simp only at h
        rcases pickMax_spec (C.chunkRank I st comp ph) comp with ⟨hpn, hz⟩ | ⟨b, hpb, hb, hpos, hmax⟩
        · rw [hpn] at h
          simp only at h
          refine (ih f (by omega)).2.2 ci c st ph cd t comp k x h hrel hs hcomp hkc hx ?_
          intro z hsz hav
          obtain ⟨a, ha⟩ := List.getElem?_of_mem (mem_parts.2 hav.1)
          have hac := (same_at hw hr hcm hkc hx ha).2 hsz
          exact (chunkRank_at hw hr hrel hcm hac ha).2 hav (hz a hac)
        · rw [hpb] at h
          simp only at h
          obtain ⟨y, hy⟩ := part_of hw hr hcm hb
          have hav := (chunkRank_at hw hr hrel hcm hb hy (ph := ph)).1 (by omega)
          have hsy := (same_at hw hr hcm hkc hx hy).1 hb
          have hny := hav.2.1
          cases f with
          | zero => simp [chunkRun] at h
          | succ f =>
            rw [chunkRun, chunk_at hw hr hy] at h
            cases y with
            | left p =>
              simp only [mkChunk] at h
              obtain ⟨f', st', t', h1, h2, h3, h4⟩ := leftSched_spec hw hr hs hrel hy h
              rw [h3, if_neg hny]
              exact .pick hsy hav (by simp) ((ih f' (by omega)).2.1 ci c st' ph _ t' comp k x h2 h4 hs hcomp hkc hx)
            | right p =>
              simp only [mkChunk] at h
              obtain ⟨f', st', t', h1, h2, h3, h4⟩ := rightSched_spec hw hr hs hrel hy hny h
              rw [h3]
              exact .pickRight hsy hav (only_right hw hr hrel hcm hkc hx hb hy hpos hmax) ((ih f' (by omega)).1 c st' (ph + 1) _ t' h2 h4 hs)
            | visit ch p =>
              simp only [mkChunk] at h
              obtain ⟨f', st', t', h1, h2, h3, h4⟩ := visitSched_spec hw hr hs hrel hy hny h
              rw [h3]
              exact .pick hsy hav (by simp) ((ih f' (by omega)).2.1 ci c st' ph _ t' comp k x h2 h4 hs hcomp hkc hx)
            | loc i =>
              simp only [mkChunk] at h
              obtain ⟨f', st', t', h1, h2, h3, h4⟩ := localSched_spec hw hr hs hrel hy hny h
              rw [h3]
              exact .pick hsy hav (by simp) ((ih f' (by omega)).2.1 ci _ st' ph _ t' comp k x h2 h4 (sat_upd hw hs _) hcomp hkc hx)
    · intro ci c st ph cd t comp k x h hrel hs hcomp hkc hx hno
      have hcm := List.mem_of_getElem? hcomp
      cases f with
      | zero => simp [compSched] at h
      | succ f =>
        rw [compSched] at h
        rcases pickMax_spec (C.compRank st ci) (List.range C.comps.length) with ⟨hpn, hz⟩ | ⟨cj, hpb, hb, hpos, hmax⟩
        · rw [hpn] at h; cases h
        · rw [hpb] at h
          simp only at h
          have hlt := List.mem_range.1 hb
          have hcj : C.comps[cj]? = some C.comps[cj] := List.getElem?_eq_getElem hlt
          have hcjm := List.mem_of_getElem? hcj
          obtain ⟨b, hbc⟩ : ∃ b, b ∈ C.comps[cj] := by
            rcases hl : C.comps[cj] with _ | ⟨b, l⟩
            · exfalso
              unfold CG.compRank CG.compReady at hpos
              rw [hcj, hl] at hpos
              simp at hpos
            · exact ⟨b, by simp⟩
          obtain ⟨y, hy⟩ := part_of hw hr hcjm hbc
          have hrk := compRank_at hw hr hrel hcj hbc hy (prev := ci)
          obtain ⟨hne, hcr⟩ := hrk.1.1 (by omega)
          have uniq : ∀ (i j : Nat) (l l' : List Nat) (a : Nat), C.comps[i]? = some l → C.comps[j]? = some l' → a ∈ l → a ∈ l' → i = j := by
            intro i j l l' a hi hj ha ha'
            have hd := List.pairwise_iff_getElem.1 (List.nodup_flatten.1 hr.nodup).2
            have hil := lt_of_getElem? hi
            have hjl := lt_of_getElem? hj
            rw [List.getElem?_eq_getElem hil] at hi
            rw [List.getElem?_eq_getElem hjl] at hj
            cases hi
            cases hj
            by_contra hij
            rcases Nat.lt_or_gt_of_ne hij with h' | h'
            · exact hd i j hil hjl h' ha ha'
            · exact hd j i hjl hil h' ha' ha
          refine .switch hno ?_ hcr ?_ ((ih f (by omega)).2.1 cj c st ph cd t _ b y h hrel hs hcj hbc hy)
          · intro hsame
            exact hne (uniq ci cj comp _ b hcomp hcj ((same_at hw hr hcm hkc hx hy).2 hsame) hbc)
          · intro hor w hnw hcw
            obtain ⟨a, ha⟩ := List.getElem?_of_mem (mem_parts.2 hcw.1)
            have haf : a ∈ C.comps.flatten := (hr.cover a).2 (by rw [hr.m]; exact lt_of_getElem? ha)
            obtain ⟨cw, hcw', haw⟩ := List.mem_flatten.1 haf
            obtain ⟨l, hl⟩ := List.getElem?_of_mem hcw'
            have hrkw := compRank_at hw hr hrel hl haw ha (prev := ci)
            have hnel : ci ≠ l := by
              rintro rfl
              rw [hcomp] at hl
              cases hl
              exact hnw ((same_at hw hr hcm hkc hx ha).1 haw)
            have h1 := hrkw.1.2 ⟨hnel, hcw⟩
            have h2 := hmax l (List.mem_range.2 (lt_of_getElem? hl))
            have h3 := (hrk.2 (by omega)).2 hor
            exact (hrkw.2 h1).1 (by omega)

end

end Aps.Chunk
