import Verif.Proofs.ChunkCheck
import Mathlib.Data.List.Perm.Subperm
/-!
# C59 — the static scheduler for circular grammars

A schedule is a tree; a branch assignment `σ` for the conditionals chooses a path. The parts (what the parent hands
down or up in a phase, the visits to children, local attributes), their dependencies and what has to come first
are defined in `Spec/Chunk`.
-/
namespace Aps.Props
open Aps.Dnc Aps.Oag Aps.Chunk

theorem schedule_run {I : Input} (hw : Wf I) {fuel : Nat} {t : Tree} (h : schedule fuel I = .ok t) (σ : Nat → Bool) :
    Run I σ .start ⟨0, 0⟩ [] 1 (t.path I.rule σ) := by
  unfold schedule at h
  rw [Res.bind_eq_ok] at h
  obtain ⟨C, hc, h⟩ := h
  rw [Res.bind_eq_ok] at h
  obtain ⟨t', ht, h⟩ := h
  by_cases hn : t' = .nil
  · rw [if_pos hn] at h; cases h
  · rw [if_neg hn, Res.pure_eq] at h
    cases h
    refine (run_of_sched hw (collect_rep hw hc) fuel).1 _ _ _ _ _ ht ⟨by simp, by simp⟩ ?_
    intro i
    simp

theorem sat_empty (σ : Nat → Bool) : Sat σ ⟨0, 0⟩ := by intro i; simp

/-- C59: along every path, when an instance is computed, a child visited or a visit of the parent ended, every part
that has to come before was done. (The order of the instances inside one part is not covered: see
`C59_instances_refuted`.) -/
theorem C59_order_partial {I : Input} (hw : Wf I) (ho : Ordered I) (he : Entry I) {fuel : Nat} {t : Tree}
    (h : schedule fuel I = .ok t) (σ : Nat → Bool) {pre post : List Ev} {e : Ev} (hp : t.path I.rule σ = pre ++ e :: post)
    {a : Part} (ha : Must I a (I.evPart e)) : Done I σ a pre := by
  have := run_order hw ho he (schedule_run hw h σ) (sat_empty σ) (inv_begin I) pre e post hp a ha
  simpa using this

/-- C59: every part sure to be done by the end of the last phase is done on every path. (Others may be left out: see
`C59_complete_refuted`.) -/
theorem C59_complete_partial {I : Input} (hw : Wf I) (ho : Ordered I) (he : Entry I) {fuel : Nat} {t : Tree}
    (h : schedule fuel I = .ok t) (σ : Nat → Bool) {a : Part} (ha : I.Has a) (hea : Early I a (I.parent.maxPhase + 1)) :
    Done I σ a (t.path I.rule σ) := by
  have := run_complete hw ho he (schedule_run hw h σ) (sat_empty σ) (inv_begin I) a ha hea
  simpa using this

/-- C59: nothing happens twice on a path; the visits of the parent end once each in the order of the phases; the first
visit starts with the parent's inherited attributes. -/
theorem C59_phases {I : Input} (hw : Wf I) (ho : Ordered I) (he : Entry I) {fuel : Nat} {t : Tree}
    (h : schedule fuel I = .ok t) (σ : Nat → Bool) :
    (t.path I.rule σ).Nodup ∧ finishes (t.path I.rule σ) = List.range' 1 I.parent.maxPhase ∧
    (∃ B post, t.path I.rule σ = B.map .inst ++ post ∧ Block I σ (-1, -1) B) := by
  have hr := schedule_run hw h σ
  refine ⟨(run_nodup hw ho he hr (sat_empty σ) (inv_begin I)).1, ?_, ?_⟩
  · simpa using run_finishes hw ho he hr (sat_empty σ) (inv_begin I)
  · simpa using run_begins hw he hr (sat_empty σ) (Nat.le_refl _) (by simp)

/-- C59: a visit to a child is immediately preceded by all its inherited attributes of the phase and immediately followed
by all its synthesised ones. -/
theorem C59_visit {I : Input} (hw : Wf I) (ho : Ordered I) (he : Entry I) {fuel : Nat} {t : Tree}
    (h : schedule fuel I = .ok t) (σ : Nat → Bool) {ch p : Nat} (hv : Ev.visit ch p ∈ t.path I.rule σ) :
    ∃ pre A B post, t.path I.rule σ = pre ++ (A.map .inst ++ .visit ch p :: (B.map .inst ++ post)) ∧
      Block I σ (-(p : Int), (ch : Int)) A ∧ Block I σ ((p : Int), (ch : Int)) B :=
  run_visit hw ho he (schedule_run hw h σ) (sat_empty σ) (inv_begin I) ch p hv

/-- C59: the end of a visit of the parent is immediately preceded by all its synthesised attributes of the phase and
immediately followed by all its inherited ones of the next phase. -/
theorem C59_finish {I : Input} (hw : Wf I) (ho : Ordered I) (he : Entry I) {fuel : Nat} {t : Tree}
    (h : schedule fuel I = .ok t) (σ : Nat → Bool) {p : Nat} (hf : Ev.finish p ∈ t.path I.rule σ) :
    ∃ pre A B post, t.path I.rule σ = pre ++ (A.map .inst ++ .finish p :: (B.map .inst ++ post)) ∧
      Block I σ ((p : Int), -1) A ∧ Block I σ (-((p : Int) + 1), -1) B :=
  run_finish hw ho he (schedule_run hw h σ) (sat_empty σ) (inv_begin I) p hf

/-- C59: what is computed on a path is computed under its condition. -/
theorem C59_guarded {I : Input} (hw : Wf I) (ho : Ordered I) (he : Entry I) (hg : Guarded I) {fuel : Nat} {t : Tree}
    (h : schedule fuel I = .ok t) (σ : Nat → Bool) {i : Nat} (hi : Ev.inst i ∈ t.path I.rule σ) :
    i < I.n ∧ Sat σ (I.cond i) :=
  run_guarded hw ho he hg (schedule_run hw h σ) (sat_empty σ) (inv_begin I) (by intro j r _ h; cases h) i hi

/-- C59: the scheduler finds a schedule, for every fuel large enough, if the phases are sound and there are not more than
ten parts for each instance. -/
theorem C59_succeeds {I : Input} (hw : Wf I) (ho : Ordered I) (he : Entry I) (hs : Sound I) (hm : 1 ≤ I.parent.maxPhase)
    (hl : ∀ l : List Part, l.Nodup → (∀ a ∈ l, I.Has a) → l.length ≤ 10 * I.n) :
    ∃ F, ∀ fuel, F ≤ fuel → ∃ t, schedule fuel I = .ok t := by
  have hlen := hl (parts I) (nodup_parts I) (fun a ha => mem_parts.1 ha)
  have hpos : 0 < (parts I).length := List.length_pos_of_mem (mem_parts.2 (show I.Has (.left 1) from ⟨Nat.le_refl _, hm⟩))
  obtain ⟨C, hC⟩ := collect_ok hw hlen hpos
  have hr := collect_rep hw hC
  obtain ⟨F, hF⟩ := (sched_ok hw hr ho he hs _).1 ⟨0, 0⟩ ⟨[], []⟩ 1 [] rfl ⟨by simp, by simp⟩ (inv_begin I).1 (inv_begin I).2
  refine ⟨F, fun f hf => ?_⟩
  obtain ⟨t, ht⟩ := hF f hf
  refine ⟨t, ?_⟩
  unfold schedule
  simp only at ht
  rw [hC, Res.ok_bind, ht, Res.ok_bind, if_neg]
  · rfl
  · rintro rfl
    have hrun := (run_of_sched hw hr (σ := fun _ => true) f).1 _ _ _ [] _ ht ⟨by simp, by simp⟩ (sat_empty _)
    have := run_finishes hw ho he hrun (sat_empty _) (inv_begin I)
    simp only [Tree.path, finishes, List.filterMap_nil, Nat.add_sub_cancel] at this
    have := congrArg List.length this
    simp at this
    omega

/-! ## Example -/

/-- a condition that always holds -/
def always : Cond := ⟨0, 0⟩

/-- a matrix from its edges -/
def chunkEdges (n : Nat) (es : List (Nat × Nat × Nat)) : List Dep :=
  (List.range (n * n)).map fun x =>
    match es.find? fun e => e.1 * n + e.2.1 == x with
    | some e => BitVec.ofNat 32 e.2.2
    | none => 0

/-- Three phases, the second circular, of a parent and its child of the same phylum: parent's inherited 0, synthesised 1;
in the circular phase 2 and 3; the child's 4, 5 and 6, 7; a conditional 8 and a local attribute 9 in its first branch. -/
def twoLevels : Input :=
  ⟨[⟨-1, -1, always, none⟩, ⟨1, -1, always, none⟩, ⟨-2, -1, always, none⟩, ⟨2, -1, always, none⟩,
    ⟨-1, 0, always, none⟩, ⟨1, 0, always, none⟩, ⟨-2, 0, always, none⟩, ⟨2, 0, always, none⟩,
    ⟨0, 0, always, some 0⟩, ⟨0, 0, ⟨1, 0⟩, none⟩],
   chunkEdges 10 [(0, 4, 31), (4, 5, 23), (5, 8, 31), (8, 9, 31), (9, 1, 31), (5, 1, 31), (0, 1, 23), (3, 2, 3), (2, 6, 31),
     (6, 7, 3), (7, 6, 3), (7, 3, 31), (2, 3, 3)],
   ⟨3, [false, false, true, false]⟩, [some ⟨3, [false, false, true, false]⟩]⟩

/-- the chunk graph of the example -/
def twoLevelsC : CG :=
  ⟨(parts twoLevels).map (mkChunk twoLevels),
   [0, 23, 3, 3, 3, 3, 31, 3, 3, 23, 23, 0, 0, 3, 3, 3, 3, 0, 3, 3, 0, 0, 0, 0, 3, 23, 3, 3, 0, 31, 3, 0, 0, 0, 0, 3, 3,
    3, 3, 0, 3, 3, 0, 0, 0, 0, 0, 0, 0, 3, 0, 0, 0, 0, 0, 0, 0, 0, 0, 0, 0, 0, 0, 0, 0, 0, 0, 31, 3, 3, 3, 3, 23, 3, 3,
    31, 23, 0, 0, 3, 31, 3, 3, 0, 3, 3, 0, 0, 0, 0, 0, 0, 0, 0, 0, 0, 0, 0, 0, 0, 23, 3, 3, 3, 3, 0, 3, 3, 0, 31, 0, 31,
    3, 3, 3, 3, 0, 3, 3, 0, 0],
   [[0], [6], [9], [10], [1], [7, 3, 2], [4], [5], [8]]⟩

theorem twoLevels_wf : Wf twoLevels := wfB_spec (by decide +kernel)

set_option maxRecDepth 1000000 in
theorem twoLevels_collect : collect twoLevels = .ok twoLevelsC := by decide +kernel

set_option maxRecDepth 1000000 in
/-- The example meets the hypotheses of the theorems; there is a schedule with both branches. -/
example : Wf twoLevels ∧ Ordered twoLevels ∧ Entry twoLevels ∧ Sound twoLevels ∧ Guarded twoLevels ∧
    (∃ t, schedule 100 twoLevels = .ok t ∧
      t.path twoLevels.rule (fun _ => true) = [.inst 0, .inst 4, .visit 0 1, .inst 5, .inst 8, .inst 9, .inst 1, .finish 1,
        .inst 2, .inst 6, .visit 0 2, .inst 7, .inst 3, .finish 2, .visit 0 3, .finish 3] ∧
      t.path twoLevels.rule (fun _ => false) = [.inst 0, .inst 4, .visit 0 1, .inst 5, .inst 8, .inst 1, .finish 1,
        .inst 2, .inst 6, .visit 0 2, .inst 7, .inst 3, .finish 2, .visit 0 3, .finish 3]) ∧
    Must twoLevels (.visit 0 1) (.loc 8) ∧ Must twoLevels (.right 1) (.visit 0 2) ∧ Early twoLevels (.visit 0 2) 4 := by
  obtain ⟨h1, h2, h3, h4, h5⟩ := checks twoLevels_wf twoLevels_collect
  refine ⟨twoLevels_wf, h1 (by decide +kernel), h2 (by decide +kernel), h3 (by decide +kernel), ?_, ?_,
    h4 _ _ (by decide +kernel), h4 _ _ (by decide +kernel), h5 _ _ (by decide +kernel)⟩
  · intro i hi k hk
    have hi' : i < 10 := hi
    have : i = 9 ∧ k = 0 := by
      have hc : ∀ i < 10, i ≠ 9 → twoLevels.cond i = ⟨0, 0⟩ := by decide
      by_cases h9 : i = 9
      · subst h9
        have : twoLevels.cond 9 = ⟨1, 0⟩ := by decide
        rw [this] at hk
        simp at hk
        exact ⟨rfl, hk⟩
      · rw [hc i hi' h9] at hk
        simp at hk
    obtain ⟨rfl, rfl⟩ := this
    refine ⟨8, ⟨by decide, by decide⟩, rfl, ?_, h4 _ _ (by decide +kernel)⟩
    have : twoLevels.cond 8 = ⟨0, 0⟩ := by decide
    rw [this]
    intro k
    simp
  · have hd : (match visitStart twoLevels twoLevelsC 100 ⟨0, 0⟩ ⟨[], []⟩ 1 with
      | .ok t => t.path twoLevels.rule (fun _ => true) == [.inst 0, .inst 4, .visit 0 1, .inst 5, .inst 8, .inst 9, .inst 1,
          .finish 1, .inst 2, .inst 6, .visit 0 2, .inst 7, .inst 3, .finish 2, .visit 0 3, .finish 3] &&
          t.path twoLevels.rule (fun _ => false) == [.inst 0, .inst 4, .visit 0 1, .inst 5, .inst 8, .inst 1, .finish 1,
        .inst 2, .inst 6, .visit 0 2, .inst 7, .inst 3, .finish 2, .visit 0 3, .finish 3]
      | _ => false) = true := by decide +kernel
    split at hd
    · rename_i t ht
      rw [Bool.and_eq_true, beq_iff_eq, beq_iff_eq] at hd
      refine ⟨t, ?_, hd⟩
      unfold schedule
      rw [twoLevels_collect, Res.ok_bind, ht, Res.ok_bind, if_neg]
      · rfl
      · rintro rfl
        cases hd.1
    · cases hd

/-! ## What does not hold -/

/-- the path of the first branch -/
def pathOf (I : Input) (fuel : Nat) : Option (List Ev) :=
  match schedule fuel I with
  | .ok t => some (t.path I.rule fun _ => true)
  | _ => none

theorem pathOf_some {I : Input} {fuel : Nat} {l : List Ev} (h : pathOf I fuel = some l) :
    ∃ t, schedule fuel I = .ok t ∧ t.path I.rule (fun _ => true) = l := by
  unfold pathOf at h
  split at h
  · rename_i t ht
    exact ⟨t, ht, Option.some.inj h⟩
  · cases h

/-- A local attribute (1) computed from a synthesised attribute (0) of the parent, used for another (2). -/
def between : Input :=
  ⟨[⟨1, -1, always, none⟩, ⟨0, 0, always, none⟩, ⟨1, -1, always, none⟩], chunkEdges 3 [(0, 1, 31), (1, 2, 31), (0, 2, 23)], ⟨1, []⟩, []⟩

/-- The phase scheduler does give the two synthesised attributes the same phase. -/
example : ∃ st, Phase.scheduleSummaryCircular 2 [.outward, .outward] [0, 23, 0, 0] = .ok st ∧ st.sum.sched = [1, 1] ∧
    st.maxPhase = 1 := by
  have : (match Phase.scheduleSummaryCircular 2 [.outward, .outward] [0, 23, 0, 0] with
    | .ok st => st.sum.sched == [1, 1] && st.maxPhase == 1
    | _ => false) = true := by decide +kernel
  split at this
  · rename_i st h
    rw [Bool.and_eq_true, beq_iff_eq, beq_iff_eq] at this
    exact ⟨st, h, this⟩
  · cases this

/-- Without cycles among the instances, an instance may still be computed before one it depends on directly: a local attribute
that depends on a synthesised attribute of the parent and is used for another one of the same phase comes before both. -/
theorem C59_instances_refuted : ¬ ∀ (I : Input) (fuel : Nat) (t : Tree), Wf I → Ordered I → Entry I → Sound I →
    (∀ i, ¬ Relation.TransGen (fun a b => I.kind a b ≠ 0) i i) → schedule fuel I = .ok t →
    ∀ i j, I.kind i j &&& MAYBE_DIRECT ≠ 0 → I.cond i = ⟨0, 0⟩ → I.cond j = ⟨0, 0⟩ →
    ∀ pre post, t.path I.rule (fun _ => true) = pre ++ .inst j :: post → .inst i ∈ pre := by
  intro h
  have hw : Wf between := wfB_spec (by decide +kernel)
  obtain ⟨C, hC⟩ := collect_ok hw (by decide +kernel) (by decide +kernel)
  have hCe : collect between = .ok ⟨(parts between).map (mkChunk between), [0, 3, 3, 0, 23, 31, 0, 31, 23], [[0], [2, 1]]⟩ := by
    decide +kernel
  rw [hCe] at hC
  cases hC
  obtain ⟨h1, h2, h3, _⟩ := checks hw hCe
  obtain ⟨t, ht, hp⟩ := pathOf_some (I := between) (fuel := 50) (l := [.inst 1, .inst 0, .inst 2, .finish 1]) (by decide +kernel)
  have hacyc : ∀ a b, between.kind a b ≠ 0 → a < b := by
    intro a b hab
    by_cases hn : a * 3 + b < 9
    · have key : ∀ x < 9, ∀ y < 9, between.kind x y ≠ 0 → x < y ∨ 3 ≤ y := by decide +kernel
      by_cases hb : 3 ≤ b
      · exact Nat.lt_of_lt_of_le (by omega) hb
      · rcases key a (by omega) b (by omega) hab with h | h <;> omega
    · exfalso
      apply hab
      unfold Input.kind mget
      rw [List.getElem?_eq_none]
      · rfl
      · have : between.kinds.length = 9 := by decide +kernel
        rw [this]
        show 9 ≤ a * between.n + b
        have : between.n = 3 := rfl
        rw [this]; omega
  have := h between 50 t hw (h1 (by decide +kernel)) (h2 (by decide +kernel)) (h3 (by decide +kernel)) (by
      intro i hi
      have : ∀ a b, Relation.TransGen (fun a b => between.kind a b ≠ 0) a b → a < b := by
        intro a b hab
        induction hab with
        | single h => exact hacyc _ _ h
        | tail _ h ih => exact Nat.lt_trans ih (hacyc _ _ h)
      exact Nat.lt_irrefl _ (this i i hi)) ht 0 1 (by decide) (by decide) (by decide) [] [.inst 0, .inst 2, .finish 1] (by rw [hp]; rfl)
  simp at this

/-- A local attribute that depends on a synthesised attribute of the last phase. -/
def afterLast : Input :=
  ⟨[⟨1, -1, always, none⟩, ⟨0, 0, always, none⟩], chunkEdges 2 [(0, 1, 31)], ⟨1, []⟩, []⟩

/-- Not everything is scheduled: a local attribute that depends on a synthesised attribute of the last phase is silently left
out. -/
theorem C59_complete_refuted : ¬ ∀ (I : Input) (fuel : Nat) (t : Tree), Wf I → Ordered I → Entry I → Sound I →
    schedule fuel I = .ok t → ∀ a, I.Has a → Done I (fun _ => true) a (t.path I.rule fun _ => true) := by
  intro h
  have hw : Wf afterLast := wfB_spec (by decide +kernel)
  have hCe : collect afterLast = .ok ⟨(parts afterLast).map (mkChunk afterLast), [0, 3, 3, 0, 0, 31, 0, 0, 0], [[0], [1], [2]]⟩ := by
    decide +kernel
  obtain ⟨h1, h2, h3, _⟩ := checks hw hCe
  obtain ⟨t, ht, hp⟩ := pathOf_some (I := afterLast) (fuel := 50) (l := [.inst 0, .finish 1]) (by decide +kernel)
  have := (h afterLast 50 t hw (h1 (by decide +kernel)) (h2 (by decide +kernel)) (h3 (by decide +kernel)) ht (.loc 1)
    ⟨by decide, by decide⟩).1 1 (by decide) (by decide) (by intro i; simp [show afterLast.cond 1 = ⟨0, 0⟩ by decide])
  rw [hp] at this
  simp at this

/-- A local attribute (1) that depends on the synthesised attribute of the first phase is needed for a visit in the second,
circular, phase. -/
def tooEarly : Input :=
  ⟨[⟨1, -1, always, none⟩, ⟨0, 0, always, none⟩, ⟨-2, 0, always, none⟩, ⟨2, 0, always, none⟩, ⟨-2, -1, always, none⟩,
    ⟨2, -1, always, none⟩],
   chunkEdges 6 [(0, 1, 31), (1, 2, 31), (4, 2, 31), (2, 3, 3), (3, 5, 31), (5, 4, 3)], ⟨2, [false, false, true]⟩,
   [some ⟨2, [false, false, true]⟩]⟩

set_option maxRecDepth 1000000 in
/-- A phase is entered without a check that what it needs is done: `Entry` is needed for the order. -/
theorem C59_entry_refuted : ¬ ∀ (I : Input) (fuel : Nat) (t : Tree), Wf I → Ordered I → Sound I → schedule fuel I = .ok t →
    ∀ pre e post a, t.path I.rule (fun _ => true) = pre ++ e :: post → Must I a (I.evPart e) →
      Done I (fun _ => true) a pre := by
  intro h
  have hw : Wf tooEarly := wfB_spec (by decide +kernel)
  have hCe : collect tooEarly = .ok ⟨(parts tooEarly).map (mkChunk tooEarly), [0, 3, 3, 3, 0, 3, 3, 0, 0, 3, 23, 0, 23, 31, 0, 0,
      3, 23, 0, 31, 0, 0, 0, 3, 3, 0, 3, 0, 0, 0, 3, 3, 0, 3, 0, 0, 0, 3, 31, 0, 3, 0, 0, 0, 3, 23, 0, 31, 0],
      [[4], [0], [1], [6], [5, 3, 2]]⟩ := by decide +kernel
  obtain ⟨h1, h2, h3, h4, _⟩ := checks hw hCe
  obtain ⟨t, ht, hp⟩ := pathOf_some (I := tooEarly) (fuel := 100) (l := [.visit 0 1, .inst 0, .finish 1, .inst 4, .inst 2,
    .visit 0 2, .inst 3, .inst 5, .finish 2]) (by decide +kernel)
  have := (h tooEarly 100 t hw (h1 (by decide +kernel)) (h3 (by decide +kernel)) ht [.visit 0 1, .inst 0, .finish 1, .inst 4, .inst 2]
    (.visit 0 2) [.inst 3, .inst 5, .finish 2] (.loc 1) (by rw [hp]; rfl) (h4 _ _ (by decide +kernel))).1 1 (by decide) (by decide)
    (by intro i; simp [show tooEarly.cond 1 = ⟨0, 0⟩ by decide])
  simp at this

/-- Two visits, in non-circular phases of the children, that wait for the end of the first phase of the parent; the second
phase of the parent is circular. -/
def stuck : Input := ⟨[⟨1, -1, always, none⟩, ⟨-1, 0, always, none⟩, ⟨-1, 1, always, none⟩, ⟨-2, -1, always, none⟩, ⟨2, -1, always, none⟩], chunkEdges 5 [(0,1,31),(0,2,31)], ⟨2,[false,false,true]⟩, [some ⟨1,[]⟩, some ⟨1,[]⟩]⟩
/-- its chunk graph -/
def stuckC : CG := ⟨(parts stuck).map (mkChunk stuck), [0, 3, 3, 3, 3, 3, 0, 0, 3, 3, 31, 31, 0, 0, 0, 3, 0, 0, 0, 0, 0, 0, 0, 0, 0, 0, 0, 0, 0, 0, 0, 0, 0, 0, 0, 0],
   [[0], [1], [2], [3], [4], [5]]⟩
/-- the state in which it is stuck -/
def stuckSt : St := ⟨[3, 0], [2, 2, 1, 1, 0]⟩
theorem stuck_loop : ∀ f, chunkSched stuck stuckC f 4 ⟨0, 0⟩ stuckSt 2 = .nofuel ∧ compSched stuck stuckC f 4 ⟨0, 0⟩ stuckSt 2 = .nofuel ∧
    chunkSched stuck stuckC f 5 ⟨0, 0⟩ stuckSt 2 = .nofuel ∧ compSched stuck stuckC f 5 ⟨0, 0⟩ stuckSt 2 = .nofuel := by
  intro f
  induction f with
  | zero => simp only [chunkSched, compSched, and_self]
  | succ f ih =>
    obtain ⟨h1, h2, h3, h4⟩ := ih
    have e1 : pickMax (stuckC.chunkRank stuck stuckSt [4] 2) [4] = none := by decide
    have e2 : pickMax (stuckC.chunkRank stuck stuckSt [5] 2) [5] = none := by decide
    have e3 : pickMax (stuckC.compRank stuckSt 4) (List.range stuckC.comps.length) = some 5 := by decide +kernel
    have e4 : pickMax (stuckC.compRank stuckSt 5) (List.range stuckC.comps.length) = some 4 := by decide +kernel
    have c4 : stuckC.comps[4]? = some [4] := rfl
    have c5 : stuckC.comps[5]? = some [5] := rfl
    simp only [chunkSched, compSched, e1, e2, e3, e4, c4, c5, h1, h2, h3, h4, and_self]

theorem stuck_start (f : Nat) : visitStart stuck stuckC f ⟨0, 0⟩ ⟨[], []⟩ 1 = .nofuel := by
  have c0 : stuckC.comps[0]? = some [0] := rfl
  have c1 : stuckC.comps[1]? = some [1] := rfl
  have c2 : stuckC.comps[2]? = some [2] := rfl
  have hi : impossible ⟨0, 0⟩ = false := by decide
  have m1 : ¬ stuck.parent.maxPhase < 1 := by decide
  have m2 : ¬ stuck.parent.maxPhase < 2 := by decide
  have a1 : ∀ f, compSched stuck stuckC f 2 ⟨0, 0⟩ stuckSt 2 = .nofuel := fun f => by
    have e : pickMax (stuckC.compRank stuckSt 2) (List.range stuckC.comps.length) = some 4 := by decide +kernel
    cases f <;> simp only [compSched, e, (stuck_loop _).1]
  have a2 : ∀ f, chunkSched stuck stuckC f 2 ⟨0, 0⟩ stuckSt 2 = .nofuel := fun f => by
    have e : pickMax (stuckC.chunkRank stuck stuckSt [2] 2) [2] = none := by decide +kernel
    cases f <;> simp only [chunkSched, c2, e, a1]
  have a3 : ∀ f, groupEnd stuck stuckC f 2 2 ⟨0, 0⟩ stuckSt (-2, -1) 2 = .nofuel := fun f => by
    cases f with
    | zero => simp only [groupEnd]
    | succ f => simp [groupEnd]; exact a2 f
  have a4 : ∀ f, groupSched stuck stuckC f 2 2 ⟨0, 0⟩ ⟨[3, 0], [2, 1, 1, 0]⟩ (-2, -1) 2 = .nofuel := fun f => by
    have e : firstOf stuck ⟨[3, 0], [2, 1, 1, 0]⟩ (List.range stuck.n) (-2, -1) = none := by decide +kernel
    cases f with
    | zero => simp only [groupSched]
    | succ f => simp only [groupSched, hi, e, Bool.false_eq_true, if_false]; exact a3 f
  have a5 : ∀ f, groupSched stuck stuckC f 2 2 ⟨0, 0⟩ ⟨[0], [1, 1, 0]⟩ (-2, -1) 2 = .nofuel := fun f => by
    have e : firstOf stuck ⟨[0], [1, 1, 0]⟩ (List.range stuck.n) (-2, -1) = some 3 := by decide +kernel
    have e2 : stuckC.chunkOf 3 = some 2 := by decide +kernel
    have e3 : (stuck.group 3 == (0, 0)) = false := by decide
    have e4 : Oag.ignored ⟨0, 0⟩ (stuck.cond 3) = false := by decide
    cases f with
    | zero => simp only [groupSched]
    | succ f => simp only [groupSched, hi, e, e2, e3, e4, Bool.false_eq_true, if_false, a4]; rfl
  have a6 : ∀ f, visitStart stuck stuckC f ⟨0, 0⟩ ⟨[0], [1, 1, 0]⟩ 2 = .nofuel := fun f => by
    have e : stuckC.find .halfLeft 2 (-1) = some 2 := by decide +kernel
    have e2 : stuckC.compOf 2 = some 2 := by decide +kernel
    cases f with
    | zero => simp only [visitStart]
    | succ f => simp only [visitStart, m2, if_false, e, e2]; exact a5 f
  have a7 : ∀ f, groupEnd stuck stuckC f 1 1 ⟨0, 0⟩ ⟨[0], [1, 1, 0]⟩ (1, -1) 1 = .nofuel := fun f => by
    cases f with
    | zero => simp only [groupEnd]
    | succ f =>
      have := a6 f
      simp only [groupEnd]
      rw [if_neg (by decide), if_pos (by decide)]
      simp only [this]
      rfl
  have a8 : ∀ f, groupSched stuck stuckC f 1 1 ⟨0, 0⟩ ⟨[0], [1, 0]⟩ (1, -1) 1 = .nofuel := fun f => by
    have e : firstOf stuck ⟨[0], [1, 0]⟩ (List.range stuck.n) (1, -1) = none := by decide +kernel
    cases f with
    | zero => simp only [groupSched]
    | succ f => simp only [groupSched, hi, e, Bool.false_eq_true, if_false]; exact a7 f
  have a9 : ∀ f, groupSched stuck stuckC f 1 1 ⟨0, 0⟩ ⟨[], [0]⟩ (1, -1) 1 = .nofuel := fun f => by
    have e : firstOf stuck ⟨[], [0]⟩ (List.range stuck.n) (1, -1) = some 0 := by decide +kernel
    have e2 : stuckC.chunkOf 0 = some 1 := by decide +kernel
    have e3 : (stuck.group 0 == (0, 0)) = false := by decide
    have e4 : Oag.ignored ⟨0, 0⟩ (stuck.cond 0) = false := by decide
    cases f with
    | zero => simp only [groupSched]
    | succ f => simp only [groupSched, hi, e, e2, e3, e4, Bool.false_eq_true, if_false, a8]; rfl
  have a10 : ∀ f, chunkRun stuck stuckC f 1 1 ⟨0, 0⟩ ⟨[], [0]⟩ 1 = .nofuel := fun f => by
    have e : stuckC.chunks[1]? = some ⟨.halfRight, 1, -1, false, [0]⟩ := by decide +kernel
    cases f with
    | zero => simp only [chunkRun]
    | succ f => simp only [chunkRun, e]; exact a9 f
  have a11 : ∀ f, chunkSched stuck stuckC f 1 ⟨0, 0⟩ ⟨[], [0]⟩ 1 = .nofuel := fun f => by
    have e : pickMax (stuckC.chunkRank stuck ⟨[], [0]⟩ [1] 1) [1] = some 1 := by decide +kernel
    cases f <;> simp only [chunkSched, c1, e, a10]
  have a12 : ∀ f, compSched stuck stuckC f 0 ⟨0, 0⟩ ⟨[], [0]⟩ 1 = .nofuel := fun f => by
    have e : pickMax (stuckC.compRank ⟨[], [0]⟩ 0) (List.range stuckC.comps.length) = some 1 := by decide +kernel
    cases f <;> simp only [compSched, e, a11]
  have a13 : ∀ f, chunkSched stuck stuckC f 0 ⟨0, 0⟩ ⟨[], [0]⟩ 1 = .nofuel := fun f => by
    have e : pickMax (stuckC.chunkRank stuck ⟨[], [0]⟩ [0] 1) [0] = none := by decide +kernel
    cases f <;> simp only [chunkSched, c0, e, a12]
  have a14 : ∀ f, groupEnd stuck stuckC f 0 0 ⟨0, 0⟩ ⟨[], [0]⟩ (-1, -1) 1 = .nofuel := fun f => by
    cases f with
    | zero => simp only [groupEnd]
    | succ f => simp [groupEnd]; exact a13 f
  have a15 : ∀ f, groupSched stuck stuckC f 0 0 ⟨0, 0⟩ ⟨[], []⟩ (-1, -1) 1 = .nofuel := fun f => by
    have e : firstOf stuck ⟨[], []⟩ (List.range stuck.n) (-1, -1) = none := by decide +kernel
    cases f with
    | zero => simp only [groupSched]
    | succ f => simp only [groupSched, hi, e, Bool.false_eq_true, if_false]; exact a14 f
  have e : stuckC.find .halfLeft 1 (-1) = some 0 := by decide +kernel
  have e2 : stuckC.compOf 0 = some 0 := by decide +kernel
  cases f with
  | zero => simp only [visitStart]
  | succ f => simp only [visitStart, m1, if_false, e, e2]; exact a15 f

set_option maxRecDepth 1000000 in
/-- The scheduler may recurse for ever: two visits in non-circular phases of the children, ready in a circular phase of the
parent, hand over to each other. -/
theorem C59_recursion_refuted : ¬ ∀ (I : Input), Wf I → Ordered I → Entry I → 1 ≤ I.parent.maxPhase →
    (∀ l : List Part, l.Nodup → (∀ a ∈ l, I.Has a) → l.length ≤ 10 * I.n) → ∃ fuel, schedule fuel I ≠ .nofuel := by
  intro h
  have hw : Wf stuck := wfB_spec (by decide +kernel)
  have hCe : collect stuck = .ok stuckC := by decide +kernel
  obtain ⟨h1, h2, _⟩ := checks hw hCe
  obtain ⟨f, hf⟩ := h stuck hw (h1 (by decide +kernel)) (h2 (by decide +kernel)) (by decide) (by
    intro l hl hm
    have : l.length ≤ (parts stuck).length := (List.Nodup.subperm hl fun a ha => mem_parts.2 (hm a ha)).length_le
    exact Nat.le_trans this (by decide +kernel))
  apply hf
  unfold schedule
  rw [hCe, Res.ok_bind, stuck_start]
  rfl

end Aps.Props
