import Verif.Proofs.SccPlanned
import Verif.Proofs.SccCheck
import Verif.Props.SccGen
/-!
# C84: from the schedule to the values, with circular attributes
-/
set_option linter.unusedVariables false
set_option linter.unusedTactic false
set_option linter.unreachableTactic false
set_option linter.unusedSimpArgs false
set_option linter.unnecessarySeqFocus false
namespace Aps.Props
open Aps Aps.SccGen
open Aps.Static hiding Code dumpVisits implement makeAssignment run readAll visitNode visitEach visitAll condHead
open Aps.Chunk (Input Part)

section
variable {V : Type} [DecidableEq V] {ph : Phyla} {cyc : Nat → Nat → Bool} {A : Attrs V} {prods : List (SProd V)} {inputs : Nat → Input}
  {codes : List (List (Code V))} {t : Static.Tree} {sp h : Nat}

/-- The orders of the scheduler are plans for the productions: what is needed is done before, or it is repeated. -/
theorem C84_planned_partial (hs : Schedulable ph cyc A prods inputs) : ∃ plans, Grammar ph cyc A prods plans := by
  have : ∀ p : Nat, ∃ plan, ∀ P, prods[p]? = some P → Planned ph cyc A P plan := by
    intro p
    cases hp : prods[p]? with
    | none => exact ⟨[], fun P h => by cases h⟩
    | some P =>
      obtain ⟨h1, h2, h3, h4, h5⟩ := hs.wf p P hp
      obtain ⟨plan, h⟩ := planned_schedule hs.phased (hs.described p P hp) (hs.linked p P hp) h1 h2 h3 h4 h5
      exact ⟨plan, fun Q hQ => by cases hQ; exact h⟩
  obtain ⟨plans, hplans⟩ := Classical.axiomOfChoice this
  exact ⟨plans, hs.phased, hs.described, fun p P hP => hplans p P hP⟩

/-- A schedulable grammar is printed; whatever was printed, the evaluation of a tree ends, from some number of allowed
rounds on always; then all equations hold, and the values are below those of every other solution. -/
theorem C84_evaluates_partial (hs : Schedulable ph cyc A prods inputs)
    (hsp : ∀ P ∈ bases prods, some sp ∉ P.kidPhy) (ht : HasTy (bases prods) t (some sp))
    (hroot : ∀ (x : Nat) (s : Int), ph.sched sp x = some s → s < 0 → ph.implicit sp x = true) (hh : t.height ≤ h)
    {R : Key → V → V → Prop} (ho : SccGen.Ordered A R prods) (hb : Bounded A R) :
    (∀ P ∈ prods, ∃ cs, Printed P cs) ∧
    ∀ codes : List (List (Code V)), (∀ (p : Nat) (P : SProd V), prods[p]? = some P → ∃ cs, codes[p]? = some cs ∧ Printed P cs) →
      ∃ N, ∀ n, N ≤ n → ∃ st', visitAll A n h prods codes (cyc sp) sp t (List.range' 1 (ph.visits sp)) ⟨fun _ => none, false⟩ = .ok st' ∧
        Solves (bases prods) t st'.val ∧
        ∀ val, Solves (bases prods) t val → ∀ s v, st'.val s = some v → ∃ w, val s = some w ∧ R s.2 v w := by
  obtain ⟨plans, hg⟩ := C84_planned_partial hs
  refine ⟨?_, fun codes hcodes => ?_⟩
  · intro P hP
    obtain ⟨p, hp⟩ := List.getElem?_of_mem hP
    exact C82_printed (hg.described p P hp) (hg.planned p P hp)
  · obtain ⟨N, hN⟩ := C82_terminates_partial hg hcodes hsp ht hroot hh ho hb
    refine ⟨N, fun n hn => ?_⟩
    obtain ⟨st', hrun⟩ := hN n hn
    exact ⟨st', hrun, C82_solves_partial hg hcodes hsp ht hroot hh hrun,
      fun val hv => C82_least_partial hg hcodes hsp ht hroot hh ho hrun hv⟩

end

/-! ## The grammar of C82, scheduled

`S → X`, `X → X`, `X → ` with their dependencies; the orders are those of the scheduler. -/

def skI0 : Input := ⟨[⟨1, -1, always, none⟩, ⟨-1, 0, always, none⟩, ⟨1, 0, always, none⟩, ⟨0, 0, always, none⟩],
  chunkEdges 4 [(3, 1, 31), (2, 1, 31), (2, 0, 31), (1, 2, 23), (1, 1, 23), (2, 2, 23), (3, 2, 23), (3, 0, 23), (1, 0, 23)],
  ⟨1, [false, false]⟩, [some ⟨1, [false, true]⟩]⟩

def skI1 : Input := ⟨[⟨-1, -1, always, none⟩, ⟨1, -1, always, none⟩, ⟨-1, 0, always, none⟩, ⟨1, 0, always, none⟩],
  chunkEdges 4 [(0, 2, 31), (3, 1, 31), (2, 3, 23), (1, 0, 23)], ⟨1, [false, true]⟩, [some ⟨1, [false, true]⟩]⟩

def skI2 : Input := ⟨[⟨-1, -1, always, none⟩, ⟨1, -1, always, none⟩], chunkEdges 2 [(0, 1, 31), (1, 0, 23)], ⟨1, [false, true]⟩, []⟩

def skC0 : Chunk.CG := ⟨(Chunk.parts skI0).map (Chunk.mkChunk skI0), [0, 3, 0, 0, 0, 0, 0, 0, 0, 31, 31, 0, 0, 23, 31, 0], [[3], [2], [0], [1]]⟩

def skC1 : Chunk.CG := ⟨(Chunk.parts skI1).map (Chunk.mkChunk skI1), [23, 23, 31, 23, 23, 23, 23, 31, 23], [[0, 2, 1]]⟩

def skC2 : Chunk.CG := ⟨(Chunk.parts skI2).map (Chunk.mkChunk skI2), [23, 31, 23, 23], [[0, 1]]⟩

theorem skC0_eq : Chunk.collect skI0 = .ok skC0 := by decide +kernel
theorem skC1_eq : Chunk.collect skI1 = .ok skC1 := by decide +kernel
theorem skC2_eq : Chunk.collect skI2 = .ok skC2 := by decide +kernel

theorem sk0_wf : Chunk.Wf skI0 ∧ Chunk.Ordered skI0 ∧ Chunk.Entry skI0 ∧ Chunk.Sound skI0 ∧ Calm skI0 := by
  have hw : Chunk.Wf skI0 := Chunk.wfB_spec (by decide +kernel)
  obtain ⟨h1, h2, h3, _⟩ := Chunk.checks hw skC0_eq
  exact ⟨hw, h1 (by decide +kernel), h2 (by decide +kernel), h3 (by decide +kernel), calm_spec hw skC0_eq (by decide +kernel)⟩

theorem sk1_wf : Chunk.Wf skI1 ∧ Chunk.Ordered skI1 ∧ Chunk.Entry skI1 ∧ Chunk.Sound skI1 ∧ Calm skI1 := by
  have hw : Chunk.Wf skI1 := Chunk.wfB_spec (by decide +kernel)
  obtain ⟨h1, h2, h3, _⟩ := Chunk.checks hw skC1_eq
  exact ⟨hw, h1 (by decide +kernel), h2 (by decide +kernel), h3 (by decide +kernel), calm_spec hw skC1_eq (by decide +kernel)⟩

theorem sk2_wf : Chunk.Wf skI2 ∧ Chunk.Ordered skI2 ∧ Chunk.Entry skI2 ∧ Chunk.Sound skI2 ∧ Calm skI2 := by
  have hw : Chunk.Wf skI2 := Chunk.wfB_spec (by decide +kernel)
  obtain ⟨h1, h2, h3, _⟩ := Chunk.checks hw skC2_eq
  exact ⟨hw, h1 (by decide +kernel), h2 (by decide +kernel), h3 (by decide +kernel), calm_spec hw skC2_eq (by decide +kernel)⟩

/-- the order of the scheduler for `S → X` -/
def skPlan0 : List Visit := [⟨[⟨3, [.inst 3]⟩, ⟨2, [.inst 1, .visit 0 1, .inst 2]⟩, ⟨1, [.inst 0]⟩], 1⟩]

def skP0 : SProd (_root_.Fin 4) := { sgP0 with order := planTree 1 skPlan0, chunkCirc := fun k => k == 2 }

def skProds : List (SProd (_root_.Fin 4)) := [skP0, sgP1, sgP2]

def skInputs : Nat → Input
  | 0 => skI0
  | 1 => skI1
  | _ => skI2

/-- the order is the one the scheduler makes -/
def skSame (I : Input) (t : Chunk.Tree) : Bool := match Chunk.schedule 50 I with
  | .ok u => u == t
  | _ => false

theorem skSame_spec {I : Input} {t : Chunk.Tree} (h : skSame I t = true) : ∃ fuel, Chunk.schedule fuel I = .ok t := by
  unfold skSame at h
  split at h
  · rename_i u hu
    exact ⟨50, by rw [hu, beq_iff_eq.1 h]⟩
  · cases h

theorem skChunks {I : Input} {P : SProd (_root_.Fin 4)} (h : ∀ (k : Nat) (c : Chunk.Chunk),
      ((Chunk.parts I).map (Chunk.mkChunk I))[k]? = some c → P.chunkCirc k = c.circular) :
    ∀ cs, Chunk.collectChunks I = .ok cs → ∀ (k : Nat) (c : Chunk.Chunk), cs[k]? = some c → P.chunkCirc k = c.circular := by
  intro cs h' k c hk
  unfold Chunk.collectChunks at h'
  simp only at h'
  split at h'
  · cases h'
  · rw [Chunk.chunks_eq] at h'
    cases h'
    exact h k c hk

/-- the flags are those of the second phylum -/
theorem skCirc (q : Nat) : (⟨1, [false, true]⟩ : Chunk.PhInfo).circ q = sgCyc 1 q := by
  match q with
  | 0 => rfl
  | 1 => rfl
  | q + 2 => simp [Chunk.PhInfo.circ, Oag.bget, sgCyc]

theorem skCirc0 (q : Nat) : (⟨1, [false, false]⟩ : Chunk.PhInfo).circ q = sgCyc 0 q := by
  match q with
  | 0 => rfl
  | 1 => rfl
  | q + 2 => simp [Chunk.PhInfo.circ, Oag.bget, sgCyc]

theorem skReads0 {i : Nat} {e : Expr (_root_.Fin 4)} {j : Nat} (h : skP0.rhs i = some e) (hj : j ∈ e.reads) :
    (i = 1 ∧ j = 2) ∨ (i = 1 ∧ j = 3) ∨ (i = 0 ∧ j = 2) := by
  match i, h with
  | 0, h => cases h; simp at hj; simp [hj]
  | 1, h => cases h; simp at hj; simpa using hj
  | 2, h => cases h
  | 3, h => cases h; simp at hj
  | i + 4, h => simp [SProd.rhs, Prod.rhs, Block.active, skP0, sgP0] at h

theorem skReads1 {i : Nat} {e : Expr (_root_.Fin 4)} {j : Nat} (h : sgP1.rhs i = some e) (hj : j ∈ e.reads) :
    (i = 1 ∧ j = 3) ∨ (i = 2 ∧ j = 0) := by
  match i, h with
  | 0, h => cases h
  | 1, h => cases h; simp at hj; simp [hj]
  | 2, h => cases h; simp at hj; simp [hj]
  | 3, h => cases h
  | i + 4, h => simp [SProd.rhs, Prod.rhs, Block.active, sgP1] at h

theorem skReads2 {i : Nat} {e : Expr (_root_.Fin 4)} {j : Nat} (h : sgP2.rhs i = some e) (hj : j ∈ e.reads) :
    i = 1 ∧ j = 0 := by
  match i, h with
  | 0, h => cases h
  | 1, h => cases h; simp at hj; simp [hj]
  | i + 2, h => simp [SProd.rhs, Prod.rhs, Block.active, sgP2] at h

theorem skP0_linked : skP0.Linked sgPhyla sgCyc sgA skI0 := by
  refine ⟨⟨skSame_spec (by decide +kernel), skChunks ?_, ⟨fun q => (skCirc0 q).symm, rfl⟩, rfl, ?_⟩, ⟨rfl, fun q => skCirc0 q⟩, ?_, ?_, ?_,
    fun i => by simp [skP0, sgP0], fun i => rfl, ?_, ?_, ?_, ?_, ?_, ?_, ?_, ?_⟩
  · intro k c h
    match k, h with
    | 0, h => cases h; rfl
    | 1, h => cases h; rfl
    | 2, h => cases h; rfl
    | 3, h => cases h; rfl
  · intro i e j h hj
    rcases skReads0 h hj with ⟨rfl, rfl⟩ | ⟨rfl, rfl⟩ | ⟨rfl, rfl⟩ <;> decide
  · intro c k h
    match c, h with
    | 0, h => cases h; exact ⟨_, rfl, rfl, skCirc⟩
  · intro c info h
    match c, h with
    | 0, h => exact ⟨1, rfl⟩
  · refine sgIdx (n := 4) rfl fun i hi inst h => ?_
    interval_cases i <;> (simp [skP0, sgP0, sgInst] at h; subst h; rfl)
  · intro x s h
    simp only [sgPhyla, skP0, sgP0] at h
    split at h <;> first | exact ⟨0, _, rfl, rfl, rfl⟩ | exact ⟨1, _, rfl, rfl, rfl⟩ | (exfalso; omega) | (cases h)
  · intro c k x s h h'
    match c, h with
    | 0, h =>
      cases h
      simp only [sgPhyla] at h'
      split at h' <;> first | exact ⟨1, _, rfl, rfl, rfl⟩ | exact ⟨2, _, rfl, rfl, rfl⟩ | (exfalso; omega) | (cases h')
  · intro σ
    refine sgIdx (n := 4) rfl fun i hi inst h => ?_
    interval_cases i <;> (simp [skP0, sgP0, sgInst] at h; subst h; simp [skP0, sgP0, Block.locals])
  · refine sgIdx (n := 4) rfl fun i hi inst h => ?_
    interval_cases i <;> (simp [skP0, sgP0, sgInst] at h; subst h; simp)
  · refine sgIdx (n := 4) rfl fun i hi inst h => ?_
    interval_cases i <;> (simp [skP0, sgP0, sgInst] at h; subst h; simp [skP0, sgP0, SProd.rhs, Prod.rhs, Block.active])
  · intro i e j h hj
    rcases skReads0 h hj with ⟨rfl, rfl⟩ | ⟨rfl, rfl⟩ | ⟨rfl, rfl⟩
    · exact ⟨⟨_, rfl, rfl, .inl rfl⟩, by decide⟩
    · exact ⟨⟨_, rfl, rfl, .inr rfl⟩, by decide⟩
    · exact ⟨⟨_, rfl, rfl, .inl rfl⟩, by decide⟩
  · intro i e j h hj hp
    rcases skReads0 h hj with ⟨rfl, rfl⟩ | ⟨rfl, rfl⟩ | ⟨rfl, rfl⟩
    · exact .inr ⟨_, rfl, rfl⟩
    · exact absurd hp (by decide)
    · exact absurd hp (by decide)
  · intro i e j h hj hp
    rcases skReads0 h hj with ⟨rfl, rfl⟩ | ⟨rfl, rfl⟩ | ⟨rfl, rfl⟩
    · exact .inr rfl
    · exfalso
      have hr := Chunk.collect_rep sk0_wf.1 skC0_eq
      have := (Chunk.reachB_iff sk0_wf.1 hr).2 (Relation.TransGen.lift id (fun _ _ h => Chunk.direct_step h) _ _ hp)
      revert this
      decide +kernel
    · exact .inr rfl

theorem skP1_linked : sgP1.Linked sgPhyla sgCyc sgA skI1 := by
  refine ⟨⟨skSame_spec (by decide +kernel), skChunks ?_, ⟨fun q => (skCirc q).symm, rfl⟩, rfl, ?_⟩, ⟨rfl, fun q => skCirc q⟩, ?_, ?_, ?_,
    fun i => by simp [sgP1], fun i => rfl, ?_, ?_, ?_, ?_, ?_, ?_, ?_, ?_⟩
  · intro k c h
    match k, h with
    | 0, h => cases h; rfl
    | 1, h => cases h; rfl
    | 2, h => cases h; rfl
  · intro i e j h hj
    rcases skReads1 h hj with ⟨rfl, rfl⟩ | ⟨rfl, rfl⟩ <;> decide
  · intro c k h
    match c, h with
    | 0, h => cases h; exact ⟨_, rfl, rfl, skCirc⟩
  · intro c info h
    match c, h with
    | 0, h => exact ⟨1, rfl⟩
  · refine sgIdx (n := 4) rfl fun i hi inst h => ?_
    interval_cases i <;> (simp [sgP1, sgInst] at h; subst h; rfl)
  · intro x s h
    simp only [sgPhyla, sgP1] at h
    split at h <;> first | exact ⟨0, _, rfl, rfl, rfl⟩ | exact ⟨1, _, rfl, rfl, rfl⟩ | (exfalso; omega) | (cases h)
  · intro c k x s h h'
    match c, h with
    | 0, h =>
      cases h
      simp only [sgPhyla] at h'
      split at h' <;> first | exact ⟨2, _, rfl, rfl, rfl⟩ | exact ⟨3, _, rfl, rfl, rfl⟩ | (exfalso; omega) | (cases h')
  · intro σ
    refine sgIdx (n := 4) rfl fun i hi inst h => ?_
    interval_cases i <;> (simp [sgP1, sgInst] at h; subst h; simp [sgP1, Block.locals])
  · refine sgIdx (n := 4) rfl fun i hi inst h => ?_
    interval_cases i <;> (simp [sgP1, sgInst] at h; subst h; simp)
  · refine sgIdx (n := 4) rfl fun i hi inst h => ?_
    interval_cases i <;> (simp [sgP1, sgInst] at h; subst h; simp [sgP1, SProd.rhs, Prod.rhs, Block.active])
  · intro i e j h hj
    rcases skReads1 h hj with ⟨rfl, rfl⟩ | ⟨rfl, rfl⟩
    · exact ⟨⟨_, rfl, rfl, .inl rfl⟩, by decide⟩
    · exact ⟨⟨_, rfl, rfl, .inl rfl⟩, by decide⟩
  · intro i e j h hj hp
    rcases skReads1 h hj with ⟨rfl, rfl⟩ | ⟨rfl, rfl⟩
    · exact absurd hp (by decide)
    · exact absurd hp (by decide)
  · intro i e j h hj hp
    rcases skReads1 h hj with ⟨rfl, rfl⟩ | ⟨rfl, rfl⟩
    · exact .inr rfl
    · exact .inr rfl

theorem skP2_linked : sgP2.Linked sgPhyla sgCyc sgA skI2 := by
  refine ⟨⟨skSame_spec (by decide +kernel), skChunks ?_, ⟨fun q => (skCirc q).symm, rfl⟩, rfl, ?_⟩, ⟨rfl, fun q => skCirc q⟩, ?_, ?_, ?_,
    fun i => by simp [sgP2], fun i => rfl, ?_, ?_, ?_, ?_, ?_, ?_, ?_, ?_⟩
  · intro k c h
    match k, h with
    | 0, h => cases h; rfl
    | 1, h => cases h; rfl
  · intro i e j h hj
    obtain ⟨rfl, rfl⟩ := skReads2 h hj
    decide
  · intro c k h; simp [sgP2] at h
  · intro c info h; simp [skI2] at h
  · refine sgIdx (n := 2) rfl fun i hi inst h => ?_
    interval_cases i <;> (simp [sgP2, sgInst] at h; subst h; rfl)
  · intro x s h
    simp only [sgPhyla, sgP2] at h
    split at h <;> first | exact ⟨0, _, rfl, rfl, rfl⟩ | exact ⟨1, _, rfl, rfl, rfl⟩ | (exfalso; omega) | (cases h)
  · intro c k x s h h'; simp [sgP2] at h
  · intro σ
    refine sgIdx (n := 2) rfl fun i hi inst h => ?_
    interval_cases i <;> (simp [sgP2, sgInst] at h; subst h; simp [sgP2, Block.locals])
  · refine sgIdx (n := 2) rfl fun i hi inst h => ?_
    interval_cases i <;> (simp [sgP2, sgInst] at h; subst h; simp)
  · refine sgIdx (n := 2) rfl fun i hi inst h => ?_
    interval_cases i <;> (simp [sgP2, sgInst] at h; subst h; simp [sgP2, SProd.rhs, Prod.rhs, Block.active])
  · intro i e j h hj
    obtain ⟨rfl, rfl⟩ := skReads2 h hj
    exact ⟨⟨_, rfl, rfl, .inl rfl⟩, by decide⟩
  · intro i e j h hj hp
    obtain ⟨rfl, rfl⟩ := skReads2 h hj
    exact absurd hp (by decide)
  · intro i e j h hj hp
    obtain ⟨rfl, rfl⟩ := skReads2 h hj
    exact .inr rfl

theorem skSchedulable : Schedulable sgPhyla sgCyc sgA skProds skInputs := by
  refine ⟨sgPhased, ?_, ?_, ?_⟩
  · intro p P h
    match p, h with
    | 0, h => cases h; exact sgP0_described
    | 1, h => cases h; exact sgP1_described
    | 2, h => cases h; exact sgP2_described
  · intro p P h
    match p, h with
    | 0, h => exact sk0_wf
    | 1, h => exact sk1_wf
    | 2, h => exact sk2_wf
  · intro p P h
    match p, h with
    | 0, h => cases h; exact skP0_linked
    | 1, h => cases h; exact skP1_linked
    | 2, h => cases h; exact skP2_linked

theorem skOrdered : SccGen.Ordered sgA sgR skProds := by
  refine ⟨sgOrdered.refl, sgOrdered.trans, sgOrdered.bot, ?_⟩
  intro P hP i e he
  simp only [skProds, List.mem_cons, List.not_mem_nil, or_false] at hP
  rcases hP with rfl | rfl | rfl
  · exact sgOrdered.mono sgP0 (by simp [sgProds]) i e he
  · exact sgOrdered.mono sgP1 (by simp [sgProds]) i e he
  · exact sgOrdered.mono sgP2 (by simp [sgProds]) i e he

/-- The hypotheses of `C84_planned_partial` and `C84_evaluates_partial` hold for a grammar with a circular visit. -/
example : Schedulable sgPhyla sgCyc sgA skProds skInputs ∧ SccGen.Ordered sgA sgR skProds ∧ Bounded sgA sgR ∧
    (∀ P ∈ bases skProds, some 0 ∉ P.kidPhy) ∧ HasTy (bases skProds) sgTree (some 0) ∧ sgTree.height ≤ 3 ∧
    (∀ (x : Nat) (s : Int), sgPhyla.sched 0 x = some s → s < 0 → sgPhyla.implicit 0 x = true) :=
  ⟨skSchedulable, skOrdered, sgBounded, by decide, sgTyped, by simp [sgTree, Static.Tree.height], sgRoot⟩

end Aps.Props
