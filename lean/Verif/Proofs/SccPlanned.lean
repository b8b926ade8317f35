import Verif.Proofs.SccLink
/-! The plan of a schedule is a plan for the production: the requirements, one by one. -/
set_option linter.unusedVariables false
namespace Aps.SccGen
open Aps.Static hiding Code dumpVisits implement makeAssignment run readAll visitNode visitEach visitAll condHead
open Aps.Dnc
open Aps.Chunk hiding Run Step Tree

variable {V : Type}

theorem planOf_get {I : Input} : ∀ (L : List (List Part)) (q k : Nat), (planOf I q L)[k]? = (L[k]?).map (visitOf I (q + k)) := by
  intro L
  induction L with
  | nil => intro q k; simp [planOf]
  | cons mid L ih =>
    intro q k
    cases k with
    | zero => rfl
    | succ k =>
      rw [planOf, List.getElem?_cons_succ, ih, List.getElem?_cons_succ, show q + 1 + k = q + (k + 1) by omega]

theorem planOf_length {I : Input} : ∀ (L : List (List Part)) (q : Nat), (planOf I q L).length = L.length := by
  intro L
  induction L with
  | nil => intro q; rfl
  | cons mid L ih => intro q; rw [planOf, List.length_cons, ih, List.length_cons]

theorem mem_runs {I : Input} {q : Nat} {mid : List Part} {r : SccGen.Run} (h : r ∈ (visitOf I q mid).runs) :
    ∃ y ∈ phaseParts q mid, r = runOf I y ∧ r.steps ≠ [] := by
  obtain ⟨h1, h2⟩ := List.mem_filter.1 h
  obtain ⟨y, hy, rfl⟩ := List.mem_map.1 h1
  exact ⟨y, hy, rfl, by simpa using h2⟩

theorem mem_planOf {I : Input} {L : List (List Part)} {q : Nat} {v : Visit} (h : v ∈ planOf I q L) :
    ∃ (k : Nat) (mid : List Part), L[k]? = some mid ∧ v = visitOf I (q + k) mid := by
  obtain ⟨k, hk⟩ := List.getElem?_of_mem h
  rw [planOf_get] at hk
  obtain ⟨mid, h1, h2⟩ := Option.map_eq_some_iff.1 hk
  exact ⟨k, mid, h1, h2.symm⟩

theorem chunks_sub (I : Input) : ∀ (L : List (List Part)) (q : Nat),
    ((planOf I q L).flatMap fun v => v.runs.map (·.chunk)).Sublist ((allParts q L).map (idx I)) := by
  intro L
  induction L with
  | nil => intro q; exact .slnil
  | cons mid L ih =>
    intro q
    rw [planOf, List.flatMap_cons, allParts, List.map_append]
    refine List.Sublist.append ?_ (ih (q + 1))
    have := (List.filter_sublist (p := fun r : SccGen.Run => !r.steps.isEmpty) (l := (phaseParts q mid).map (runOf I))).map (·.chunk)
    rw [List.map_map] at this
    exact this

theorem steps_in_plan {I : Input} {L : List (List Part)} {y : Part} (hy : y ∈ allParts 1 L) {s : SccGen.Step} (hs : s ∈ stepsOf I y) :
    ∃ v ∈ planOf I 1 L, s ∈ v.steps := by
  have : s ∈ (planOf I 1 L).flatMap Visit.steps := by
    rw [planOf_steps]
    exact List.mem_flatMap.2 ⟨y, hy, hs⟩
  exact List.mem_flatMap.1 this

theorem last_chunk {I : Input} : ∀ (L : List (List Part)) (q : Nat), (∀ y ∈ allParts q L, I.Has y) → (allParts q L).Nodup →
    (planOf I q L).Pairwise fun v w => ∀ r ∈ w.runs, r.chunk ≠ v.last := by
  intro L
  induction L with
  | nil => intro q _ _; exact .nil
  | cons mid L ih =>
    intro q hh hn
    rw [allParts] at hn hh
    obtain ⟨h1, h2, h3⟩ := List.nodup_append.1 hn
    refine List.pairwise_cons.2 ⟨?_, ih (q + 1) (fun y hy => hh y (List.mem_append_right _ hy)) h2⟩
    intro w hw r hr he
    obtain ⟨k, m, hk, rfl⟩ := mem_planOf hw
    obtain ⟨y, hy, rfl, _⟩ := mem_runs hr
    have hya : y ∈ allParts (q + 1) L := mem_allParts.2 ⟨k, m, hk, hy⟩
    have hrq : Part.right q ∈ phaseParts q mid := by simp [phaseParts]
    have := idx_inj (hh y (List.mem_append_right _ hya)) (hh _ (List.mem_append_left _ hrq)) he
    exact h3 _ hrq _ hya this.symm

/-! ## Before a step -/

section
variable {I : Input} (hw : Wf I) (hc : Calm I) {L : List (List Part)} {es : List Ev} (hq : Seqd I [] 1 (allParts 1 L) L es)
include hq

theorem phase_unique {a b : Nat} {m m' : List Part} {y : Part} (ha : L[a]? = some m) (hb : L[b]? = some m')
    (h1 : y ∈ phaseParts (a + 1) m) (h2 : y ∈ phaseParts (b + 1) m') : a = b := by
  have key : ∀ {a b : Nat} {m m' : List Part}, L[a]? = some m → L[b]? = some m' → y ∈ phaseParts (a + 1) m → y ∈ phaseParts (b + 1) m' → ¬ a < b := by
    intro a b m m' ha hb h1 h2 hlt
    obtain ⟨pre, post, hL, hlen⟩ := split_at hb
    have hn := hq.ord.nodup
    rw [hL, allParts_split] at hn
    refine (List.nodup_append.1 hn).2.2 y ?_ y (List.mem_append_left _ ?_) rfl
    · refine mem_allParts.2 ⟨a, m, ?_, by rwa [show 1 + a = a + 1 by omega]⟩
      rw [hL, List.getElem?_append_left (by omega)] at ha
      exact ha
    · rwa [show 1 + pre.length = b + 1 by omega]
  have h3 := key ha hb h1 h2
  have h4 := key hb ha h2 h1
  omega

variable {q : Nat} {first : Bool} {v : Visit} {r : SccGen.Run} {before : List SccGen.Step} {s : SccGen.Step} {y : Part}
  (hp : Place I L q first v r before s y)
include hp

omit hq in
theorem place_phase : 1 ≤ q ∧ ∃ mid, L[q - 1]? = some mid ∧ y ∈ phaseParts q mid ∧ v = visitOf I q mid := by
  obtain ⟨Lpre, mid, Lpost, A, B, spre, spost, h1, h2, h3, h4, h5, h6, h7, h8⟩ := hp.pos
  refine ⟨by omega, mid, ?_, by rw [h4]; simp, h3⟩
  rw [h1, show q - 1 = Lpre.length by omega]
  simp

theorem place_has : I.Has y ∧ 1 ≤ q ∧ q ≤ I.parent.maxPhase := by
  obtain ⟨h0, mid, h1, h2, _⟩ := place_phase hp
  refine ⟨(hq.ord.has y (mem_allParts.2 ⟨q - 1, mid, h1, by rwa [show 1 + (q - 1) = q by omega]⟩)).1, h0, ?_⟩
  have h3 := lt_of_getElem? h1
  have h4 := hq.len
  omega

omit hq in
theorem place_steps : r.steps = stepsOf I y ∧ s ∈ stepsOf I y := by
  obtain ⟨Lpre, mid, Lpost, A, B, spre, spost, h1, h2, h3, h4, h5, h6, h7, h8⟩ := hp.pos
  exact ⟨by rw [h5]; rfl, by rw [h6]; simp⟩

theorem must_before {a : Part} (hm : Must I a y) : ∀ s' ∈ stepsOf I a, s' ∈ before := by
  obtain ⟨Lpre, mid, Lpost, A, B, spre, spost, h1, h2, h3, h4, h5, h6, h7, h8⟩ := hp.pos
  rw [h2] at h4
  intro s' hs'
  rw [h7]
  rcases phase_order hq h1 h4 hm with h | h
  · exact List.mem_append_left _ (List.mem_append_left _ (List.mem_flatMap.2 ⟨a, h, hs'⟩))
  · exact List.mem_append_left _ (List.mem_append_right _ (List.mem_flatMap.2 ⟨a, h, hs'⟩))

theorem must_left {p : Nat} (hm : Must I (.left p) y) : p ≤ q := by
  obtain ⟨Lpre, mid, Lpost, A, B, spre, spost, h1, h2, h3, h4, h5, h6, h7, h8⟩ := hp.pos
  rw [h2] at h4
  have hmid : L[Lpre.length]? = some mid := by rw [h1]; simp
  rcases phase_order hq h1 h4 hm with h | h
  · obtain ⟨k, m, hk, hl⟩ := mem_allParts.1 h
    have hk' := lt_of_getElem? hk
    have := left_phase hq (q := k) (mid := m) (by rw [h1, List.getElem?_append_left hk']; exact hk) (by rwa [show 1 + k = k + 1 by omega] at hl)
    omega
  · have := left_phase hq hmid (by rw [h4]; exact List.mem_append_left _ h)
    omega

theorem here_left {p : Nat} (hy : y = .left p) : p = q := by
  obtain ⟨h0, mid, h1, h2, _⟩ := place_phase hp
  subst hy
  have := left_phase hq h1 (by rwa [show q - 1 + 1 = q by omega])
  omega

theorem here_right {p : Nat} (hy : y = .right p) : p = q := by
  obtain ⟨h0, mid, h1, h2, _⟩ := place_phase hp
  subst hy
  have := right_phase hq h1 (by rwa [show q - 1 + 1 = q by omega])
  omega

theorem here_before {s' : SccGen.Step} (hs' : s' ∈ stepsOf I y) (hne : s' ≠ s) (hno : ¬ InPart I s s') : s' ∈ before := by
  obtain ⟨hy, _⟩ := place_has hq hp
  obtain ⟨Lpre, mid, Lpost, A, B, spre, spost, h1, h2, h3, h4, h5, h6, h7, h8⟩ := hp.pos
  rw [h7]
  exact List.mem_append_right _ (before_in hy h6 hs' hne hno)

omit hq in
theorem here_visit {z : Part} (hz : ∃ mid, L[q - 1]? = some mid ∧ z ∈ phaseParts q mid) : ∀ s' ∈ stepsOf I z, s' ∈ v.steps := by
  obtain ⟨h0, mid, h1, h2, h3⟩ := place_phase hp
  obtain ⟨mid', h4, h5⟩ := hz
  rw [h1] at h4
  cases h4
  intro s' hs'
  rw [h3, visitOf_steps]
  exact List.mem_flatMap.2 ⟨z, h5, hs'⟩

include hw hc in
/-- a circular part is not the first thing done -/
theorem not_first (hcirc : Circular I y) (hn : ∀ p, y ≠ .left p ∧ y ≠ .right p) (hpar : I.parent.circ q = false) : first = false := by
  cases hf : first with
  | false => rfl
  | true =>
    exfalso
    subst hf
    obtain ⟨Lpre, mid, Lpost, A, B, spre, spost, h1, h2, h3, h4, h5, h6, h7, h8⟩ := hp.pos
    obtain ⟨hL, hA⟩ := h8 rfl
    subst hL
    have hq1 : q = 1 := by simpa using h2
    subst hq1
    rcases hc.first with h | h
    · rw [h] at hpar; cases hpar
    obtain ⟨a, hfill, ha⟩ := h y (place_has hq hp).1 hcirc hn
    have haA : a ∈ A := by
      rcases ha with rfl | ha
      · cases A with
        | nil =>
          simp only [phaseParts, List.nil_append, List.cons.injEq] at h4
          exact absurd h4.1.symm (hn 1).1
        | cons w A =>
          simp only [phaseParts, List.cons_append, List.cons.injEq] at h4
          rw [h4.1]; simp
      · rcases phase_order hq h1 (by simpa using h4) ha with h' | h'
        · simp [allParts] at h'
        · exact h'
    have hnil : stepsOf I a = [] := List.flatMap_eq_nil_iff.1 hA a haA
    rcases hfill with ⟨ch, p, rfl⟩ | ⟨i, hi, rfl⟩
    · simp [stepsOf] at hnil
    · have := inst_mem hw (calm_plain hc) hi
      rw [hnil] at this
      cases this

end

/-! ## Values -/

theorem available_of {I : Input} {P : SProd V} {q : Nat} {before : List SccGen.Step} {j : Nat} {inst : Inst V} (hw : Wf I) (hp : Plain I)
    (hi : P.base.insts[j]? = some inst) (hj : j < I.n) (hk : Kinded I j inst) (hleft : ∀ p, I.part j = .left p → p ≤ q)
    (hb : (∀ p, I.part j ≠ .left p) → ∀ s' ∈ stepsOf I (I.part j), s' ∈ before) : Available P q before j := by
  refine ⟨inst, hi, ?_⟩
  have hm := inst_mem hw hp hj
  cases hk with
  | left p h1 h2 h3 h4 h5 =>
    have := hleft p h5
    exact .inl ⟨h2, by omega, by omega⟩
  | right p h1 h2 h3 h4 h5 h6 => exact .inr (.inl ⟨h6, hb (by rw [h5]; intro p h; cases h) _ hm⟩)
  | down c p h1 h2 h3 h4 h5 h6 => exact .inr (.inl ⟨h6, hb (by rw [h5]; intro p h; cases h) _ hm⟩)
  | up c p h1 h2 h3 h4 h5 =>
    refine .inr (.inr ⟨c, p, h2, h3, by omega, hb (by rw [h5]; intro p h; cases h) _ ?_⟩)
    rw [h5]
    simp [stepsOf]
  | loc h1 h2 h3 h5 h6 => exact .inr (.inl ⟨h6, hb (by rw [h5]; intro p h; cases h) _ hm⟩)

theorem within_of {I : Input} {P : SProd V} {steps : List SccGen.Step} {j : Nat} {inst : Inst V} (hw : Wf I) (hp : Plain I)
    (hi : P.base.insts[j]? = some inst) (hj : j < I.n) (hk : Kinded I j inst) (hn : ∀ p, I.part j ≠ .left p)
    (hb : ∀ s' ∈ stepsOf I (I.part j), s' ∈ steps) : Within P steps j := by
  refine ⟨inst, hi, ?_⟩
  have hm := inst_mem hw hp hj
  cases hk with
  | left p h1 h2 h3 h4 h5 => exact absurd h5 (hn p)
  | right p h1 h2 h3 h4 h5 h6 => exact .inl ⟨h6, hb _ hm⟩
  | down c p h1 h2 h3 h4 h5 h6 => exact .inl ⟨h6, hb _ hm⟩
  | up c p h1 h2 h3 h4 h5 =>
    refine .inr ⟨c, p, h2, h3, by omega, hb _ ?_⟩
    rw [h5]
    simp [stepsOf]
  | loc h1 h2 h3 h5 h6 => exact .inl ⟨h6, hb _ hm⟩

section
variable {ph : Phyla} {cyc : Nat → Nat → Bool} {A : Attrs V} {P : SProd V} {I : Input} (hph : Phased ph) (hd : Described ph P.base)
  (hl : P.Linked ph cyc A I) (hw : Wf I) (ho : Chunk.Ordered I) (hs : Sound I) (hc : Calm I) {L : List (List Part)} {es : List Ev}
  (hq : Seqd I [] 1 (allParts 1 L) L es)
include hl

/-- the chunk of a part is marked as it should be -/
theorem chunkCirc_of {y : Part} (hy : I.Has y) : P.chunkCirc (idx I y) = (mkChunk I y).circular := by
  obtain ⟨fuel, h⟩ := hl.source.order
  unfold Chunk.schedule at h
  obtain ⟨C, h1, h⟩ := Res.bind_eq_ok.1 h
  unfold collect at h1
  obtain ⟨cs, h2, h1⟩ := Res.bind_eq_ok.1 h1
  have h3 := h2
  unfold collectChunks at h3
  simp only at h3
  split at h3
  · cases h3
  · simp only [chunks_eq, Res.ok.injEq] at h3
    refine hl.source.chunks cs h2 (idx I y) _ ?_
    rw [← h3, List.getElem?_map, parts_idx hy]
    rfl

theorem circular_chunk {y : Part} (hy : I.Has y) : P.chunkCirc (idx I y) = true ↔ Circular I y := by
  rw [chunkCirc_of hl hy]
  cases y with
  | left q => exact Iff.rfl
  | right q => exact Iff.rfl
  | visit c p =>
    obtain ⟨info, h1, h2, h3⟩ := hy
    simp only [mkChunk, Circular, h1]
    constructor
    · intro h; exact ⟨info, rfl, h⟩
    · rintro ⟨info', h4, h5⟩; cases h4; exact h5
  | loc i => simp [mkChunk, Circular]

include hw hc hq in
/-- a circular part, in a visit that is not circular, is repeated -/
theorem looped {q : Nat} {first : Bool} {v : Visit} {r : SccGen.Run} {before : List SccGen.Step} {s : SccGen.Step} {y : Part}
    (hp : Place I L q first v r before s y) (hcirc : Circular I y) (hn : ∀ p, y ≠ .left p ∧ y ≠ .right p) (hpar : P.cyclic q = false) :
    P.Looped q first r := by
  have hpar' := hpar
  rw [hl.source.parent.1] at hpar'
  refine ⟨not_first hw hc hq hp hcirc hn hpar', ?_, hpar⟩
  obtain ⟨hy, _⟩ := place_has hq hp
  obtain ⟨Lpre, mid, Lpost, A, B, spre, spost, h1, h2, h3, h4, h5, h6, h7, h8⟩ := hp.pos
  rw [h5]
  exact (circular_chunk hl hy).2 hcirc

include hph hd hw hc hq

theorem planned_visit {q : Nat} {first : Bool} {v : Visit} {r : SccGen.Run} {before : List SccGen.Step} {c p : Nat}
    (h : Occurs (planOf I 1 L) q first v r before (.visit c p)) : ∃ k, P.base.kidPhy[c]? = some (some k) ∧
    1 ≤ p ∧ p ≤ ph.visits k ∧ (∀ p', 1 ≤ p' → p' < p → .visit c p' ∈ before) ∧
    (∀ (x : Nat) (s : Int), ph.sched k x = some s → s < 0 → -s ≤ p → ph.implicit k x = false →
      ∃ (i : Nat) (inst : Inst V), P.base.insts[i]? = some inst ∧ inst.ch = some c ∧ inst.attr = x ∧ .inst i ∈ before) ∧
    (cyc k p = true ↔ P.cyclic q = true ∨ P.Looped q first r) := by
  obtain ⟨y, hp⟩ := place_of h
  obtain ⟨hy, hq1, hq2⟩ := place_has hq hp
  obtain rfl := visit_of_step hw hy (calm_plain hc) (place_steps hp).2
  obtain ⟨info, hi1, hi2, hi3⟩ := hy
  obtain ⟨k, hk⟩ := hl.kid c info hi1
  obtain ⟨info', hi1', hv, hcy⟩ := hl.kids c k hk
  rw [hi1] at hi1'
  cases hi1'
  have hearly : ∀ p', 1 ≤ p' → p' < p → ∀ s' ∈ stepsOf I (.visit c p'), s' ∈ before := by
    intro p' h1 h2
    refine must_before hq hp (.inl ⟨.single (.inr ⟨⟨info, hi1, h1, by omega⟩, ⟨info, hi1, hi2, hi3⟩, rfl, h2⟩), hc.visits c p' p h2⟩)
  refine ⟨k, hk, hi2, by omega, ?_, ?_, ?_⟩
  · intro p' h1 h2
    exact hearly p' h1 h2 _ (by simp [stepsOf])
  · intro x s hs1 hs2 hs3 hs4
    obtain ⟨i, inst, h1, h2, h3⟩ := hl.kidAttrs c k x s hk hs1
    have hin : i < I.n := by rw [← link_len hl]; exact lt_of_getElem? h1
    refine ⟨i, inst, h1, h2, h3, ?_⟩
    obtain ⟨k', g1, g2, g3, g4⟩ := hd.ch i inst c h1 h2
    rw [hk] at g1
    cases g1
    rw [h3, hs1] at g2
    have hs5 : inst.ph = s := (Option.some.inj g2).symm
    have hm := inst_mem hw (calm_plain hc) hin
    cases kinded hph hd hw hl h1 with
    | left p' k1 k2 k3 k4 k5 => have := (hd.lhs i inst h1 k2).1; rw [h2] at this; cases this
    | right p' k1 k2 k3 k4 k5 k6 => have := (hd.lhs i inst h1 k2).1; rw [h2] at this; cases this
    | up c' p' k1 k2 k3 k4 k5 => omega
    | loc k1 k2 k3 k5 k6 => rw [h2] at k2; cases k2
    | down c' p' k1 k2 k3 k4 k5 k6 =>
      rw [h2] at k2
      cases k2
      rw [k5] at hm
      rcases Nat.lt_trichotomy p' p with hlt | rfl | hgt
      · exact hearly p' k1 hlt _ hm
      · refine here_before hq hp hm (by simp) ?_
        intro h'
        simp only [InPart, k4] at h'
        omega
      · omega
  · constructor
    · intro h1
      cases hcq : P.cyclic q with
      | true => exact .inl rfl
      | false =>
        refine .inr (looped hl hw hc hq hp ⟨info, hi1, by rw [hcy]; exact h1⟩ ?_ hcq)
        intro p'; constructor <;> (intro h; cases h)
    · rintro (h1 | ⟨_, h1, _⟩)
      · rw [hl.source.parent.1] at h1
        obtain ⟨h0, mid, hm1, hm2, _⟩ := place_phase hp
        have hmid : Part.visit c p ∈ mid := by
          simpa [phaseParts] using hm2
        have := (hq.mids (q - 1) mid hm1 _ hmid).2.2
        rw [show 1 + (q - 1) = q by omega] at this
        by_contra hne
        refine this ⟨?_, h1⟩
        intro info'' h''
        rw [hi1] at h''
        cases h''
        rw [hcy]
        simpa using hne
      · obtain ⟨Lpre, mid, Lpost, A, B, spre, spost, g1, g2, g3, g4, g5, g6, g7, g8⟩ := hp.pos
        rw [g5] at h1
        obtain ⟨info'', h2, h3⟩ := (circular_chunk hl (y := .visit c p) ⟨info, hi1, hi2, hi3⟩).1 h1
        rw [hi1] at h2
        cases h2
        rw [← hcy]; exact h3

include ho hs

theorem planned_reads {q : Nat} {first : Bool} {v : Visit} {r : SccGen.Run} {before : List SccGen.Step} {i : Nat} {e : Expr V}
    (h : Occurs (planOf I 1 L) q first v r before (.inst i)) (he : P.rhs i = some e) {j : Nat} (hj : j ∈ e.reads) :
    P.base.Stored j ∧ (Available P q before j ∨ ((keyOf P j).map A.circ = some true ∧
      (P.cyclic q = true ∧ Within P v.steps j ∨ P.Looped q first r ∧ Within P r.steps j))) := by
  obtain ⟨y, hp⟩ := place_of h
  obtain ⟨hy, hq1, hq2⟩ := place_has hq hp
  have hpl := calm_plain hc
  obtain ⟨hst1, hst2⟩ := place_steps hp
  have hpy := part_of_step hw hy hpl hst2
  have hin := lt_of_step hy hst2
  obtain ⟨hstored, hkind⟩ := hl.reads i e j he hj
  refine ⟨hstored, ?_⟩
  obtain ⟨inst, hij, _⟩ := hstored
  have hjn : j < I.n := by rw [← link_len hl]; exact lt_of_getElem? hij
  have hk := kinded hph hd hw hl hij
  have hdir : Direct I (I.part j) (I.part i) := by
    refine ⟨j, i, hjn, hin, rfl, rfl, hkind, fun _ => true, ?_, ?_⟩
    · rw [(hpl j).1]; exact Props.sat_empty _
    · rw [(hpl i).1]; exact Props.sat_empty _
  rw [hpy] at hdir
  -- the same group, earlier
  have hsame : I.part j = y → I.group j = I.group i ∧ j < i → Available P q before j := by
    rintro h1 ⟨h2, h3⟩
    have hb : .inst j ∈ before := by
      refine here_before hq hp ?_ (by simp; omega) ?_
      · rw [← h1]; exact inst_mem hw hpl hjn
      · intro h'; simp only [InPart] at h'; have := h' h2.symm; omega
    refine ⟨inst, hij, ?_⟩
    cases hk with
    | left p h1' h2' h3' h4' h5' =>
      have := here_left hq hp (h1.symm.trans h5')
      exact .inl ⟨h2', by omega, by omega⟩
    | right p h1' h2' h3' h4' h5' h6' => exact .inr (.inl ⟨h6', hb⟩)
    | down c p h1' h2' h3' h4' h5' h6' => exact .inr (.inl ⟨h6', hb⟩)
    | up c p h1' h2' h3' h4' h5' =>
      refine .inr (.inr ⟨c, p, h2', h3', by omega, here_before hq hp ?_ (by simp) ?_⟩)
      · rw [← h1, h5']; simp [stepsOf]
      · intro h'
        simp only [InPart, ← h2, h4'] at h'
        omega
    | loc h1' h2' h3' h5' h6' => exact .inr (.inl ⟨h6', hb⟩)
  by_cases hback : Relation.TransGen (Direct I) y (I.part j)
  · by_cases hzy : I.part j = y
    · -- in the part itself
      by_cases hg : I.group j = I.group i ∧ j < i
      · exact .inl (hsame hzy hg)
      have hcirc : Circular I y := by
        have := (hl.inner i e j he hj (hzy.trans hpy.symm)).resolve_left hg
        rwa [hpy] at this
      have hA : (keyOf P j).map A.circ = some true := by
        refine (hl.circ i e j he hj (by rwa [hpy])).resolve_left ?_
        rintro ⟨_, h1, h2⟩
        exact hg ⟨h1, h2⟩
      cases hyk : y with
      | left p =>
        left
        refine available_of hw hpl hij hjn hk ?_ ?_
        · intro p' h'
          have := here_left hq hp (hzy.symm.trans h')
          omega
        · intro h'; exact absurd (hzy.trans hyk) (h' p)
      | right p =>
        have hpq := here_right hq hp hyk
        right
        refine ⟨hA, .inl ⟨?_, ?_⟩⟩
        · rw [hl.source.parent.1, ← hpq]
          rw [hyk] at hcirc
          exact hcirc
        · refine within_of hw hpl hij hjn hk (by rw [hzy, hyk]; intro p h; cases h) ?_
          rw [hzy]
          obtain ⟨h0, mid, hm1, hm2, _⟩ := place_phase hp
          exact here_visit hp ⟨mid, hm1, hm2⟩
      | visit c p =>
        right
        refine ⟨hA, ?_⟩
        cases hcq : P.cyclic q with
        | true =>
          refine .inl ⟨rfl, within_of hw hpl hij hjn hk (by rw [hzy, hyk]; intro p h; cases h) ?_⟩
          rw [hzy]
          obtain ⟨h0, mid, hm1, hm2, _⟩ := place_phase hp
          exact here_visit hp ⟨mid, hm1, hm2⟩
        | false =>
          refine .inr ⟨looped hl hw hc hq hp hcirc ?_ hcq, within_of hw hpl hij hjn hk (by rw [hzy, hyk]; intro p h; cases h) ?_⟩
          · rw [hyk]; intro p; constructor <;> (intro h; cases h)
          · rw [hzy, hst1]; exact fun _ h => h
      | loc i' =>
        right
        refine ⟨hA, ?_⟩
        cases hcq : P.cyclic q with
        | true =>
          refine .inl ⟨rfl, within_of hw hpl hij hjn hk (by rw [hzy, hyk]; intro p h; cases h) ?_⟩
          rw [hzy]
          obtain ⟨h0, mid, hm1, hm2, _⟩ := place_phase hp
          exact here_visit hp ⟨mid, hm1, hm2⟩
        | false =>
          refine .inr ⟨looped hl hw hc hq hp hcirc ?_ hcq, within_of hw hpl hij hjn hk (by rw [hzy, hyk]; intro p h; cases h) ?_⟩
          · rw [hyk]; intro p; constructor <;> (intro h; cases h)
          · rw [hzy, hst1]; exact fun _ h => h
    · -- in a circular phase
      obtain ⟨q', hq'⟩ := hc.cycles (I.part j) y hzy (.single hdir) hback
      have hr1 : Reach I (I.part j) y := .single (direct_step hdir)
      have hr2 : Reach I y (I.part j) := Relation.TransGen.lift id (fun _ _ h => direct_step h) _ _ hback
      have hqy : InPhase I q' y := ⟨hq'.range, hq'.circ, hq'.fwd.trans hr1, hr2.trans hq'.back⟩
      obtain ⟨m1, hm1, hm2⟩ := in_phase hw ho hs hc hq hqy
      obtain ⟨h0, mid, hm3, hm4, _⟩ := place_phase hp
      have hqq := phase_unique hq hm1 hm3 (by rwa [show q' - 1 + 1 = q' by have := hq'.range; omega])
        (by rwa [show q - 1 + 1 = q by omega])
      obtain rfl : q' = q := by have := hq'.range; omega
      have hz := in_phase hw ho hs hc hq hq'
      by_cases hlft : ∃ p, I.part j = .left p
      · obtain ⟨p, hp'⟩ := hlft
        left
        refine available_of hw hpl hij hjn hk ?_ ?_
        · intro p' h'
          obtain ⟨m, hz1, hz2⟩ := hz
          rw [h'] at hz2
          have := left_phase hq hz1 (by rwa [show q' - 1 + 1 = q' by omega])
          omega
        · intro h'; exact absurd hp' (h' p)
      · right
        refine ⟨?_, .inl ⟨?_, ?_⟩⟩
        · refine (hl.circ i e j he hj (by rwa [hpy])).resolve_left ?_
          rintro ⟨h1, _⟩
          exact hzy (h1.trans hpy)
        · rw [hl.source.parent.1]; exact hq'.circ
        · exact within_of hw hpl hij hjn hk (fun p h' => hlft ⟨p, h'⟩) (here_visit hp hz)
  · left
    have hm : Must I (I.part j) y := .inr ⟨hdir, hback⟩
    refine available_of hw hpl hij hjn hk ?_ (fun _ => must_before hq hp hm)
    intro p h'
    rw [h'] at hm
    exact must_left hq hp hm

/-- The order of the scheduler is a plan for the production. -/
theorem planned_of (horder : P.order = planTree 1 (planOf I 1 L)) : Planned ph cyc A P (planOf I 1 L) := by
  have hpl := calm_plain hc
  have hhas : ∀ y ∈ allParts 1 L, I.Has y := fun y hy => (hq.ord.has y hy).1
  refine ⟨horder, ⟨?_, ?_⟩, ?_, ?_, ?_, ?_, hl.rules, hl.conds, hl.coll, ?_, hl.attrs, hl.locals, ?_, ?_, ?_, hl.defined, ?_, ?_⟩
  · rw [planOf_length, hq.len, ← hl.lhs.1]; omega
  · rw [hl.source.parent.2, hl.lhs.1]
  · intro q; rw [hl.source.parent.1, hl.lhs.2]
  · intro v hv r hr
    obtain ⟨k, mid, _, rfl⟩ := mem_planOf hv
    obtain ⟨y, _, _, h⟩ := mem_runs hr
    exact h
  · refine (chunks_sub I L 1).nodup ?_
    refine List.Nodup.map_on ?_ hq.ord.nodup
    intro x hx y hy h
    exact idx_inj (hhas x hx) (hhas y hy) h
  · exact last_chunk L 1 hhas hq.ord.nodup
  · intro v hv i hi
    obtain ⟨k, mid, hk, rfl⟩ := mem_planOf hv
    rw [visitOf_steps] at hi
    obtain ⟨y, hy, hs'⟩ := List.mem_flatMap.1 hi
    rw [link_len hl]
    exact lt_of_step (hhas y (mem_allParts.2 ⟨k, mid, hk, hy⟩)) hs'
  · intro i inst hi _
    have hin : i < I.n := by rw [← link_len hl]; exact lt_of_getElem? hi
    exact steps_in_plan (all_done hw ho hs hc hq (hw.has i hin)) (inst_mem hw hpl hin)
  · intro i inst q v hi h1 h2 h3 h4
    have hin : i < I.n := by rw [← link_len hl]; exact lt_of_getElem? hi
    have hm := inst_mem hw hpl hin
    rw [planOf_get] at h4
    obtain ⟨mid, h5, rfl⟩ := Option.map_eq_some_iff.1 h4
    rw [show 1 + (q - 1) = q by omega, visitOf_steps]
    refine List.mem_flatMap.2 ⟨.right q, by simp [phaseParts], ?_⟩
    have hg := link_group hl hi
    have hpl' : placeOf inst = ((q : Int), -1) := by unfold placeOf; rw [h1, h2]; rfl
    rwa [(part_right (by omega) (hw.group i hin)).2 (hg.trans hpl')] at hm
  · intro c k p h1 h2 h3
    obtain ⟨info, h4, h5, _⟩ := hl.kids c k h1
    exact steps_in_plan (all_done hw ho hs hc hq (a := .visit c p) ⟨info, h4, h2, by omega⟩) (by simp [stepsOf])
  · intro q first v r before c p h
    exact planned_visit hph hd hl hw hc hq h
  · intro q first v r before i e h he j hj
    exact planned_reads hph hd hl hw ho hs hc hq h he hj

end

/-- With the order the scheduler makes, the production is planned. -/
theorem planned_schedule {ph : Phyla} {cyc : Nat → Nat → Bool} {A : Attrs V} {P : SProd V} {I : Input} (hph : Phased ph)
    (hd : Described ph P.base) (hl : P.Linked ph cyc A I) (hw : Wf I) (ho : Chunk.Ordered I) (he : Entry I) (hs : Sound I) (hc : Calm I) :
    ∃ plan, Planned ph cyc A P plan := by
  obtain ⟨fuel, h⟩ := hl.source.order
  have hpl := calm_plain hc
  have hrun := Props.schedule_run hw h (fun _ => true)
  obtain ⟨L, hq⟩ := run_seq hw ho he hpl hrun rfl (Props.sat_empty _) (inv_begin I)
  refine ⟨planOf I 1 L, planned_of hph hd hl hw ho hs hc hq ?_⟩
  refine tree_plan hw hpl L 1 P.order (fun y hy => (hq.ord.has y hy).1) ?_ (tagged_schedule hw hpl h) hq.evs
  intro mid hmid y hy p
  obtain ⟨k, hk⟩ := List.getElem?_of_mem hmid
  exact (hq.mids k mid hk y hy).2.1 p

end Aps.SccGen
