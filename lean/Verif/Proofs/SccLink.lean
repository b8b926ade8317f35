import Verif.Proofs.SccPlan
import Verif.Spec.SccPlan
import Verif.Props.Chunk
/-! The plan of a schedule is a plan for the production. -/
set_option linter.unusedVariables false
namespace Aps.SccGen
open Aps.Static hiding Code dumpVisits implement makeAssignment run readAll visitNode visitEach visitAll condHead
open Aps.Dnc
open Aps.Chunk hiding Run Step Tree

variable {V : Type}

/-! ## Positions -/

theorem planOf_split {I : Input} : ∀ (L : List (List Part)) (q : Nat) (pre post : List Visit) (v : Visit), planOf I q L = pre ++ v :: post →
    ∃ Lpre mid Lpost, L = Lpre ++ mid :: Lpost ∧ pre = planOf I q Lpre ∧ v = visitOf I (q + Lpre.length) mid ∧
      post = planOf I (q + Lpre.length + 1) Lpost ∧ pre.length = Lpre.length := by
  intro L
  induction L with
  | nil => intro q pre post v h; simp [planOf] at h
  | cons mid L ih =>
    intro q pre post v h
    cases pre with
    | nil =>
      simp only [planOf, List.nil_append, List.cons.injEq] at h
      exact ⟨[], mid, L, rfl, rfl, h.1.symm, h.2.symm, rfl⟩
    | cons w pre =>
      simp only [planOf, List.cons_append, List.cons.injEq] at h
      obtain ⟨Lpre, m, Lpost, h1, h2, h3, h4, h5⟩ := ih (q + 1) pre post v h.2
      refine ⟨mid :: Lpre, m, Lpost, by rw [h1]; rfl, ?_, ?_, ?_, ?_⟩
      · rw [planOf, ← h2, h.1]
      · rw [h3]; congr 1; simp; omega
      · rw [h4]; congr 1; simp; omega
      · simp [h5]

theorem filter_split {α β : Type} {f : α → β} {p : β → Bool} : ∀ (S : List α) (a b : List β) (r : β), (S.map f).filter p = a ++ r :: b →
    ∃ A y B, S = A ++ y :: B ∧ r = f y ∧ p (f y) = true ∧ a = (A.map f).filter p ∧ b = (B.map f).filter p := by
  intro S
  induction S with
  | nil => intro a b r h; simp at h
  | cons x S ih =>
    intro a b r h
    rw [List.map_cons] at h
    by_cases hp : p (f x) = true
    · rw [List.filter_cons_of_pos hp] at h
      cases a with
      | nil =>
        simp only [List.nil_append, List.cons.injEq] at h
        exact ⟨[], x, S, rfl, h.1.symm, hp, rfl, h.2.symm⟩
      | cons w a =>
        simp only [List.cons_append, List.cons.injEq] at h
        obtain ⟨A, y, B, h1, h2, h3, h4, h5⟩ := ih a b r h.2
        exact ⟨x :: A, y, B, by rw [h1]; rfl, h2, h3, by rw [List.map_cons, List.filter_cons_of_pos hp, ← h4, h.1], h5⟩
    · rw [List.filter_cons_of_neg hp] at h
      obtain ⟨A, y, B, h1, h2, h3, h4, h5⟩ := ih a b r h
      exact ⟨x :: A, y, B, by rw [h1]; rfl, h2, h3, by rw [List.map_cons, List.filter_cons_of_neg hp, ← h4], h5⟩

theorem steps_filter (I : Input) (S : List Part) :
    ((S.map (runOf I)).filter fun r => !r.steps.isEmpty).flatMap (·.steps) = S.flatMap (stepsOf I) := by
  induction S with
  | nil => rfl
  | cons y S ih =>
    rw [List.map_cons, List.flatMap_cons]
    by_cases h : stepsOf I y = []
    · rw [List.filter_cons_of_neg (by simp [runOf, h]), ih, h, List.nil_append]
    · rw [List.filter_cons_of_pos (by simp [runOf, h]), List.flatMap_cons, ih]; rfl

theorem visitOf_steps (I : Input) (q : Nat) (mid : List Part) : (visitOf I q mid).steps = (phaseParts q mid).flatMap (stepsOf I) :=
  steps_filter I _

theorem planOf_steps (I : Input) : ∀ (L : List (List Part)) (q : Nat),
    (planOf I q L).flatMap Visit.steps = (allParts q L).flatMap (stepsOf I) := by
  intro L
  induction L with
  | nil => intro q; rfl
  | cons mid L ih =>
    intro q
    rw [planOf, allParts, List.flatMap_cons, List.flatMap_append, ih, visitOf_steps]

theorem allParts_split : ∀ (Lpre : List (List Part)) (q : Nat) (mid : List Part) (Lpost : List (List Part)),
    allParts q (Lpre ++ mid :: Lpost) = allParts q Lpre ++ (phaseParts (q + Lpre.length) mid ++ allParts (q + Lpre.length + 1) Lpost) := by
  intro Lpre
  induction Lpre with
  | nil => intro q mid Lpost; rfl
  | cons m Lpre ih =>
    intro q mid Lpost
    rw [List.cons_append, allParts, ih, allParts, List.append_assoc]
    simp only [List.length_cons]
    rw [show q + 1 + Lpre.length = q + (Lpre.length + 1) by omega]

/-- where a step is -/
structure Place (I : Input) (L : List (List Part)) (q : Nat) (first : Bool) (v : Visit) (r : SccGen.Run) (before : List SccGen.Step)
    (s : SccGen.Step) (y : Part) : Prop where
  pos : ∃ Lpre mid Lpost A B spre spost, L = Lpre ++ mid :: Lpost ∧ q = Lpre.length + 1 ∧ v = visitOf I q mid ∧
    phaseParts q mid = A ++ y :: B ∧ r = runOf I y ∧ stepsOf I y = spre ++ s :: spost ∧
    before = (allParts 1 Lpre).flatMap (stepsOf I) ++ A.flatMap (stepsOf I) ++ spre ∧
    (first = true → Lpre = [] ∧ A.flatMap (stepsOf I) = [])

theorem place_of {I : Input} {L : List (List Part)} {q : Nat} {first : Bool} {v : Visit} {r : SccGen.Run} {before : List SccGen.Step}
    {s : SccGen.Step} (h : Occurs (planOf I 1 L) q first v r before s) : ∃ y, Place I L q first v r before s y := by
  obtain ⟨pre, post, rpre, rpost, spre, spost, h1, h2, h3, h4, h5, h6⟩ := h.pos
  obtain ⟨Lpre, mid, Lpost, g1, g2, g3, g4, g5⟩ := planOf_split _ _ _ _ _ h1
  rw [show 1 + Lpre.length = q by omega] at g3
  rw [g3] at h2
  obtain ⟨A, y, B, k1, k2, k3, k4, k5⟩ := filter_split _ _ _ _ h2
  refine ⟨y, ⟨Lpre, mid, Lpost, A, B, spre, spost, g1, by omega, g3, k1, k2, ?_, ?_, ?_⟩⟩
  · rw [k2] at h3; exact h3
  · rw [h5, g2, planOf_steps, k4, steps_filter]
  · intro hf
    obtain ⟨h7, h8⟩ := h6.1 hf
    refine ⟨?_, ?_⟩
    · rw [h7] at g5
      exact List.length_eq_zero_iff.1 g5.symm
    · rw [← steps_filter, ← k4, h8]; rfl

theorem mem_allParts {y : Part} : ∀ {L : List (List Part)} {q : Nat}, y ∈ allParts q L ↔ ∃ (k : Nat) (mid : List Part), L[k]? = some mid ∧ y ∈ phaseParts (q + k) mid := by
  intro L
  induction L with
  | nil => intro q; simp [allParts]
  | cons m L ih =>
    intro q
    rw [allParts, List.mem_append, ih]
    constructor
    · rintro (h | ⟨k, mid, h1, h2⟩)
      · exact ⟨0, m, rfl, h⟩
      · exact ⟨k + 1, mid, h1, by rwa [show q + (k + 1) = q + 1 + k by omega]⟩
    · rintro ⟨k, mid, h1, h2⟩
      cases k with
      | zero =>
        simp only [List.getElem?_cons_zero, Option.some.injEq] at h1
        subst h1
        exact .inl h2
      | succ k => exact .inr ⟨k, mid, h1, by rwa [show q + 1 + k = q + (k + 1) by omega]⟩

theorem split_at {α : Type} {L : List α} {k : Nat} {x : α} (h : L[k]? = some x) : ∃ a b, L = a ++ x :: b ∧ a.length = k := by
  have hk := lt_of_getElem? h
  refine ⟨L.take k, L.drop (k + 1), ?_, by simp; omega⟩
  rw [List.getElem?_eq_getElem hk] at h
  cases h
  rw [List.cons_getElem_drop_succ, List.take_append_drop]

/-! ## Facts about the sequence of parts -/

section
variable {I : Input} (hw : Wf I) (ho : Chunk.Ordered I) (hs : Sound I) (hc : Calm I) {L : List (List Part)} {es : List Ev}
  (hq : Seqd I [] 1 (allParts 1 L) L es)
include hw ho hs hc hq

omit hw ho hs hq in
theorem calm_plain : Plain I := by
  intro i
  unfold Input.cond Input.rule
  cases h : I.insts[i]? with
  | none => exact ⟨rfl, rfl⟩
  | some x => exact hc.plain x (List.mem_of_getElem? h)

omit hw ho hs hc in
theorem left_phase {p q : Nat} {mid : List Part} (hm : L[q]? = some mid) (h : .left p ∈ phaseParts (q + 1) mid) : p = q + 1 := by
  unfold phaseParts at h
  rcases List.mem_cons.1 h with h | h
  · cases h; rfl
  · rcases List.mem_append.1 h with h | h
    · exact absurd rfl ((hq.mids q mid hm _ h).1 p)
    · simp at h

omit hw ho hs hc in
theorem right_phase {p q : Nat} {mid : List Part} (hm : L[q]? = some mid) (h : .right p ∈ phaseParts (q + 1) mid) : p = q + 1 := by
  unfold phaseParts at h
  rcases List.mem_cons.1 h with h | h
  · cases h
  · rcases List.mem_append.1 h with h | h
    · exact absurd rfl ((hq.mids q mid hm _ h).2.1 p)
    · simp at h; exact h

omit ho hq in
theorem settles {q : Nat} (h1 : 1 ≤ q) (h2 : q ≤ I.parent.maxPhase) (h3 : I.parent.circ q = true) : Settles I q := by
  rcases hs q h1 h2 with h | ⟨h4, h5⟩
  · rw [h] at h3; cases h3
  · have hlr := guide_lr (I := I) h1 h2
    refine ⟨?_, ?_⟩
    · intro z hz hp
      cases z with
      | visit ch p =>
        obtain ⟨g1, g2⟩ := hz.resolve_left (by simp)
        obtain ⟨info, hi, _⟩ := (reach_has hw g1).2
        have := h5 ch p info (hlr.trans g1) (g2.trans h4) hi
        rw [hp.1 info hi] at this
        cases this
      | _ => exact hp
    · intro y hd hr
      exact hc.closed q y ⟨⟨h1, h2⟩, h3, hlr.trans (.single (direct_step hd)), hr.trans h4⟩ hd


omit hs hc hw ho in
/-- the order, in phases -/
theorem phase_order {Lpre Lpost : List (List Part)} {mid A B : List Part} {y a : Part} (hL : L = Lpre ++ mid :: Lpost)
    (hA : phaseParts (Lpre.length + 1) mid = A ++ y :: B) (hm : Must I a y) : a ∈ allParts 1 Lpre ∨ a ∈ A := by
  have e : allParts 1 L = (allParts 1 Lpre ++ A) ++ y :: (B ++ allParts (1 + Lpre.length + 1) Lpost) := by
    rw [hL, allParts_split, show 1 + Lpre.length = Lpre.length + 1 by omega, hA]
    simp
  have := (hq.ord.order _ _ _ e a hm).resolve_left (by simp)
  exact List.mem_append.1 this

omit hs hc hw ho in
theorem at_phase {k : Nat} (hk : k < I.parent.maxPhase) : ∃ mid, L[k]? = some mid := by
  have := hq.len
  exact ⟨L[k], List.getElem?_eq_getElem (by omega)⟩

/-- the cycle of a circular phase is done in it -/
theorem in_phase {q : Nat} {a : Part} (h : InPhase I q a) : ∃ mid, L[q - 1]? = some mid ∧ a ∈ phaseParts q mid := by
  obtain ⟨h1, h2⟩ := h.range
  obtain ⟨mid, hm⟩ := at_phase hq (k := q - 1) (by omega)
  refine ⟨mid, hm, ?_⟩
  obtain ⟨Lpre, Lpost, hL, hlen⟩ := split_at hm
  have hlq : Lpre.length + 1 = q := by omega
  have hlr := guide_lr (I := I) h1 h2
  have hrl : Reach I (.right q) (.left q) := by
    rcases hs q h1 h2 with h' | h'
    · rw [h.circ] at h'; cases h'
    · exact h'.1
  have e : allParts 1 L = (allParts 1 Lpre ++ .left q :: mid) ++ .right q :: allParts (1 + Lpre.length + 1) Lpost := by
    rw [hL, allParts_split, show 1 + Lpre.length = q by omega, phaseParts]
    simp
  rcases hq.close _ _ _ e (settles hw hs hc h1 h2 h.circ) a (.inr ⟨hrl.trans h.fwd, h.back.trans hlr⟩) with rfl | h' | h'
  · simp [phaseParts]
  · simp at h'
  rcases List.mem_append.1 h' with h' | h'
  · exfalso
    -- in an earlier phase
    obtain ⟨k, mid', hk, ha⟩ := mem_allParts.1 h'
    have hk' := lt_of_getElem? hk
    have hkL : L[k]? = some mid' := by rw [hL, List.getElem?_append_left hk']; exact hk
    obtain ⟨Lpre', Lpost', hL', hlen'⟩ := split_at hkL
    obtain ⟨A, B, hA⟩ := List.append_of_mem ha
    rw [show 1 + k = Lpre'.length + 1 by omega] at hA
    have hq1 : 1 ≤ q - 1 := by omega
    have hrr : Reach I (.right (q - 1)) (.left q) := by
      have := guide_rl (I := I) hq1 (by omega)
      rwa [show q - 1 + 1 = q by omega] at this
    have hno : ¬ Reach I (.left q) (.right (q - 1)) := ho _ _ hq1 (by omega) h2
    have hmust : Must I (.right (q - 1)) a := .inl ⟨hrr.trans h.fwd, fun h'' => hno (h.fwd.trans h'')⟩
    rcases phase_order hq hL' hA hmust with g | g
    · obtain ⟨k2, mid2, hk2, hr2⟩ := mem_allParts.1 g
      have hk2' := lt_of_getElem? hk2
      have : L[k2]? = some mid2 := by rw [hL', List.getElem?_append_left hk2']; exact hk2
      have := right_phase hq this (by rwa [show 1 + k2 = k2 + 1 by omega] at hr2)
      omega
    · have hr : .right (q - 1) ∈ phaseParts (k + 1) mid' := by
        rw [show k + 1 = Lpre'.length + 1 by omega, hA]; exact List.mem_append_left _ g
      have hk3 := right_phase hq hkL hr
      have hnd : (phaseParts (Lpre'.length + 1) mid').Nodup := by
        have := hq.ord.nodup
        rw [hL', allParts_split, show 1 + Lpre'.length = Lpre'.length + 1 by omega] at this
        exact (List.nodup_append.1 (List.nodup_append.1 this).2.1).1
      have hlast : .right (q - 1) ∈ a :: B := by
        have e2 : (A ++ a :: B).getLast? = some (.right (q - 1)) := by
          rw [← hA, phaseParts]
          rw [show q - 1 = Lpre'.length + 1 by omega]
          rw [← List.cons_append, List.getLast?_append]
          simp
        rw [List.getLast?_append_of_ne_nil _ (by simp)] at e2
        exact List.mem_of_getLast? e2
      rw [hA] at hnd
      exact (List.nodup_append.1 hnd).2.2 _ g _ hlast rfl
  · rw [phaseParts, ← List.cons_append]
    exact List.mem_append_left _ h'

/-- everything is done -/
theorem all_done {a : Part} (h : I.Has a) : a ∈ allParts 1 L := by
  rcases hc.complete a h with h' | ⟨q, h'⟩
  · exact (hq.all a h h').resolve_left (by simp)
  · obtain ⟨mid, h1, h2⟩ := in_phase hw ho hs hc hq h'
    have := h'.range
    exact mem_allParts.2 ⟨q - 1, mid, h1, by rwa [show 1 + (q - 1) = q by omega]⟩

end

/-! ## Steps of a part -/

/-- the order of steps in a part -/
def InPart (I : Input) : SccGen.Step → SccGen.Step → Prop
  | .inst a, .inst b => I.group a = I.group b → a < b
  | .inst a, .visit _ _ => (I.group a).1 < 0
  | .visit _ _, .inst b => 0 < (I.group b).1
  | .visit _ _, .visit _ _ => True

theorem placed_pairwise (I : Input) (g : Int × Int) : (placed I g).Pairwise (InPart I) := by
  unfold placed
  rw [List.pairwise_map]
  refine List.Pairwise.imp ?_ (List.pairwise_lt_range.filter _ : (I.members fun h => h == g).Pairwise (· < ·))
  intro a b h _
  exact h

theorem mem_placed {I : Input} {g : Int × Int} {s : SccGen.Step} : s ∈ placed I g ↔ ∃ i, s = .inst i ∧ i < I.n ∧ I.group i = g := by
  unfold placed
  simp only [List.mem_map, mem_members, beq_iff_eq]
  constructor
  · rintro ⟨i, h, rfl⟩; exact ⟨i, rfl, h⟩
  · rintro ⟨i, rfl, h⟩; exact ⟨i, h, rfl⟩

theorem stepsOf_pairwise {I : Input} {y : Part} (hy : I.Has y) : (stepsOf I y).Pairwise (InPart I) := by
  cases y with
  | left p => exact placed_pairwise _ _
  | right p => exact placed_pairwise _ _
  | loc i => simp [stepsOf]
  | visit ch p =>
    obtain ⟨info, h1, h2, h3⟩ := hy
    unfold stepsOf
    rw [List.pairwise_append]
    refine ⟨placed_pairwise _ _, ?_, ?_⟩
    · rw [List.pairwise_cons]
      refine ⟨?_, placed_pairwise _ _⟩
      intro s hs
      obtain ⟨i, rfl, h4, h5⟩ := mem_placed.1 hs
      show 0 < (I.group i).1
      rw [h5]
      simp only
      omega
    · intro s hs s' hs'
      obtain ⟨i, rfl, h4, h5⟩ := mem_placed.1 hs
      rcases List.mem_cons.1 hs' with rfl | hs'
      · show (I.group i).1 < 0
        rw [h5]
        simp only
        omega
      · obtain ⟨j, rfl, h6, h7⟩ := mem_placed.1 hs'
        intro h
        rw [h5, h7] at h
        have := congrArg _root_.Prod.fst h
        simp only at this
        omega

theorem inst_mem {I : Input} (hw : Wf I) (hp : Plain I) {i : Nat} (hi : i < I.n) : .inst i ∈ stepsOf I (I.part i) := by
  have h := (done_evsOf hw (c := ⟨0, 0⟩) (Props.sat_empty (fun _ => true)) (hw.has i hi)).1 i hi rfl (by rw [(hp i).1]; exact Props.sat_empty _)
  rw [evsOf_plain hp] at h
  rcases List.mem_append.1 h with h | h
  · obtain ⟨s, h1, h2⟩ := List.mem_map.1 h
    cases s with
    | inst j => simp only [stepEv, Ev.inst.injEq] at h2; rwa [h2] at h1
    | visit c p => simp [stepEv] at h2
  · split at h <;> simp at h

theorem part_of_step {I : Input} (hw : Wf I) {y : Part} (hy : I.Has y) (hp : Plain I) {i : Nat} (hs : .inst i ∈ stepsOf I y) :
    I.part i = y := stepPart hw hy hp hs

theorem visit_of_step {I : Input} (hw : Wf I) {y : Part} (hy : I.Has y) (hp : Plain I) {c p : Nat} (hs : .visit c p ∈ stepsOf I y) :
    y = .visit c p := (stepPart hw hy hp hs).symm

theorem lt_of_step {I : Input} {y : Part} (hy : I.Has y) {i : Nat} (hs : .inst i ∈ stepsOf I y) : i < I.n := by
  cases y with
  | left p => obtain ⟨j, h1, h2, _⟩ := mem_placed.1 hs; cases h1; exact h2
  | right p => obtain ⟨j, h1, h2, _⟩ := mem_placed.1 hs; cases h1; exact h2
  | loc j =>
    simp only [stepsOf, List.mem_singleton, SccGen.Step.inst.injEq] at hs
    subst hs
    exact hy.1
  | visit c p =>
    simp only [stepsOf, List.mem_append, List.mem_cons, reduceCtorEq, false_or] at hs
    rcases hs with hs | hs <;> (obtain ⟨j, h1, h2, _⟩ := mem_placed.1 hs; cases h1; exact h2)

/-- what comes before a step in its part -/
theorem before_in {I : Input} {y : Part} (hy : I.Has y) {s s' : SccGen.Step} {spre spost : List SccGen.Step}
    (h : stepsOf I y = spre ++ s :: spost) (hs' : s' ∈ stepsOf I y) (hne : s' ≠ s) (hno : ¬ InPart I s s') : s' ∈ spre := by
  have hp := stepsOf_pairwise hy
  rw [h] at hs' hp
  rcases List.mem_append.1 hs' with h1 | h1
  · exact h1
  · rcases List.mem_cons.1 h1 with h1 | h1
    · exact absurd h1 hne
    · exact absurd ((List.pairwise_cons.1 (List.pairwise_append.1 hp).2.1).1 s' h1) hno

/-! ## Instances and parts -/

inductive Kinded (I : Input) (i : Nat) (inst : Inst V) : Prop
  | left (p : Nat) (h1 : 1 ≤ p) (h2 : inst.lhs = true) (h3 : inst.ph = -(p : Int)) (h4 : I.group i = (-(p : Int), -1)) (h5 : I.part i = .left p)
  | right (p : Nat) (h1 : 1 ≤ p) (h2 : inst.lhs = true) (h3 : inst.ph = (p : Int)) (h4 : I.group i = ((p : Int), -1)) (h5 : I.part i = .right p)
      (h6 : inst.inward = false)
  | down (c p : Nat) (h1 : 1 ≤ p) (h2 : inst.ch = some c) (h3 : inst.ph = -(p : Int)) (h4 : I.group i = (-(p : Int), (c : Int)))
      (h5 : I.part i = .visit c p) (h6 : inst.inward = false)
  | up (c p : Nat) (h1 : 1 ≤ p) (h2 : inst.ch = some c) (h3 : inst.ph = (p : Int)) (h4 : I.group i = ((p : Int), (c : Int)))
      (h5 : I.part i = .visit c p)
  | loc (h1 : inst.lhs = false) (h2 : inst.ch = none) (h3 : I.group i = (0, 0)) (h5 : I.part i = .loc i) (h6 : inst.inward = false)

section
variable {ph : Phyla} {cyc : Nat → Nat → Bool} {A : Attrs V} {P : SProd V} {I : Input} (hph : Phased ph) (hd : Described ph P.base)
  (hw : Wf I) (hl : P.Linked ph cyc A I)
include hph hd hw hl

omit hph hd hw in
theorem link_len : P.base.insts.length = I.n := by
  have := congrArg List.length hl.source.insts
  simpa [Input.n] using this

omit hph hd hw in
theorem link_group {i : Nat} {inst : Inst V} (h : P.base.insts[i]? = some inst) : I.group i = placeOf inst := by
  have e := congrArg (fun l => l[i]?) hl.source.insts
  simp only [List.getElem?_map, h, Option.map_some] at e
  unfold Input.group
  cases hx : I.insts[i]? with
  | none => rw [hx] at e; cases e
  | some x =>
    rw [hx] at e
    simp only [Option.map_some, Option.some.injEq] at e
    rw [e]

theorem kinded {i : Nat} {inst : Inst V} (h : P.base.insts[i]? = some inst) : Kinded I i inst := by
  have hi : i < I.n := by rw [← link_len hl]; exact lt_of_getElem? h
  have hg := link_group hl h
  cases hlh : inst.lhs with
  | true =>
    obtain ⟨h1, h2, h3, h4⟩ := hd.lhs i inst h hlh
    obtain ⟨h5, h6⟩ := hph.range _ _ _ h2
    have hpl : placeOf inst = (inst.ph, -1) := by unfold placeOf; rw [hlh]; rfl
    rw [hpl] at hg
    by_cases hneg : inst.ph < 0
    · have e : inst.ph = -(inst.ph.natAbs : Int) := by omega
      rw [e] at hg
      exact .left inst.ph.natAbs (by omega) hlh e hg ((part_left (by omega)).2 hg)
    · have e : inst.ph = (inst.ph.natAbs : Int) := by omega
      rw [e] at hg
      refine .right inst.ph.natAbs (by omega) hlh e hg ((part_right (by omega) (hw.group i hi)).2 hg) ?_
      cases hin : inst.inward with
      | false => rfl
      | true => exact absurd (h4.1 hin) hneg
  | false =>
    cases hch : inst.ch with
    | none =>
      have hz := hl.zero i inst h hlh hch
      have hpl : placeOf inst = (0, 0) := by unfold placeOf; rw [hlh, hch, hz]; rfl
      rw [hpl] at hg
      exact .loc hlh hch hg (part_loc.2 ⟨rfl, hg⟩) (hd.loc i inst h (hl.rules i inst h) hlh hch).2
    | some c =>
      obtain ⟨k, h1, h2, h3, h4⟩ := hd.ch i inst c h hch
      obtain ⟨h5, h6⟩ := hph.range _ _ _ h2
      have hpl : placeOf inst = (inst.ph, (c : Int)) := by unfold placeOf; rw [hlh, hch]; rfl
      rw [hpl] at hg
      by_cases hneg : inst.ph < 0
      · have e : inst.ph = -(inst.ph.natAbs : Int) := by omega
        rw [e] at hg
        refine .down c inst.ph.natAbs (by omega) hch e hg ((part_visit (by omega) (hw.group i hi)).2 (.inl hg)) ?_
        cases hin : inst.inward with
        | false => rfl
        | true => have := h4.1 hin; omega
      · have e : inst.ph = (inst.ph.natAbs : Int) := by omega
        rw [e] at hg
        exact .up c inst.ph.natAbs (by omega) hch e hg ((part_visit (by omega) (hw.group i hi)).2 (.inr hg))

end

end Aps.SccGen
