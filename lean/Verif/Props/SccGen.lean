import Verif.Proofs.SccEval
import Verif.Proofs.SccOk
import Mathlib.Tactic.IntervalCases
/-!
# C81–C83: circular attributes in the static evaluators
-/
set_option linter.unusedVariables false
set_option linter.unusedSectionVars false
set_option linter.unusedTactic false
set_option linter.unreachableTactic false
set_option linter.unusedSimpArgs false
set_option linter.unnecessarySeqFocus false
namespace Aps.Props
open Aps Aps.SccGen
open Aps.Static hiding Code dumpVisits implement makeAssignment run readAll visitNode visitEach visitAll condHead

/-! ## C83: the text -/

theorem writes_code {V : Type} {b : Bool} {w : Writer V} (h : Writes b ⟨[], []⟩ w) :
    ∃ c : Code V, Lev b c ∧ w.out ++ w.queue.map Tok.loopStart = c.render := by
  obtain ⟨c, hc, rfl⟩ := h
  exact ⟨c, hc, by simp⟩

/-- the procedures are printed one by one -/
theorem dumpVisits_ok {V : Type} {scala loops : Bool} {P : SProd V} {tss : List (List (Tok V))} (h : dumpVisits scala loops P = .ok tss) :
    ∃ asg, makeAssignment P P.base.body (List.replicate P.base.insts.length ⟨false, []⟩) = .ok asg ∧
      ∀ (q : Nat) (ts : List (Tok V)), tss[q]? = some ts → ∃ w, implement scala P (q + 1) P.order asg ⟨0, 0⟩ none loops none ⟨[], []⟩ = .ok w ∧
        ts = w.out ++ w.queue.map .loopStart := by
  unfold dumpVisits at h
  obtain ⟨asg, ha, h⟩ := Res.bind_eq_ok.1 h
  refine ⟨asg, ha, ?_⟩
  have key : ∀ (l : List Nat) {tss : List (List (Tok V))}, (l.mapM fun q => do
      let w ← implement scala P (q + 1) P.order asg ⟨0, 0⟩ none loops none ⟨[], []⟩
      return w.out ++ w.queue.map Tok.loopStart) = .ok tss → ∀ (q : Nat) (ts : List (Tok V)), tss[q]? = some ts → ∃ q', l[q]? = some q' ∧
      ∃ w, implement scala P (q' + 1) P.order asg ⟨0, 0⟩ none loops none ⟨[], []⟩ = .ok w ∧ ts = w.out ++ w.queue.map .loopStart := by
    intro l
    induction l with
    | nil =>
      intro tss h q ts hq
      simp only [List.mapM_nil, Res.pure_eq, Res.ok.injEq] at h
      subst h
      cases hq
    | cons x l ih =>
      intro tss h q ts hq
      rw [List.mapM_cons] at h
      obtain ⟨t, h₁, h⟩ := Res.bind_eq_ok.1 h
      obtain ⟨ts', h₂, h⟩ := Res.bind_eq_ok.1 h
      simp only [Res.pure_eq, Res.ok.injEq] at h
      subst h
      cases q with
      | zero =>
        simp only [List.getElem?_cons_zero, Option.some.injEq] at hq
        subst hq
        obtain ⟨w, hw, h₁⟩ := Res.bind_eq_ok.1 h₁
        simp only [Res.pure_eq, Res.ok.injEq] at h₁
        exact ⟨x, rfl, w, hw, h₁.symm⟩
      | succ q =>
        rw [List.getElem?_cons_succ] at hq
        exact ih h₂ q ts hq
  intro q ts hq
  obtain ⟨q', hq', hw⟩ := key _ h q ts hq
  have : q' = q := by
    obtain ⟨h₁, h₂⟩ := List.getElem?_eq_some_iff.1 hq'
    simpa using h₂.symm
  subst this
  exact hw

theorem list_of_code {V : Type} {Q : Nat → Code V → Prop} (tss : List (List (Tok V)))
    (h : ∀ (q : Nat) (ts : List (Tok V)), tss[q]? = some ts → ∃ c, Q q c ∧ ts = Code.render c) :
    ∃ codes : List (Code V), tss = codes.map Code.render ∧ ∀ (q : Nat) (c : Code V), codes[q]? = some c → Q q c := by
  induction tss generalizing Q with
  | nil => exact ⟨[], rfl, fun q c h => by cases h⟩
  | cons ts tss ih =>
    obtain ⟨c, hc, hr⟩ := h 0 ts rfl
    obtain ⟨cs, h₁, h₂⟩ := ih (Q := fun q => Q (q + 1)) (fun q ts hq => h (q + 1) ts hq)
    refine ⟨c :: cs, by rw [h₁, hr]; rfl, fun q d hd => ?_⟩
    cases q with
    | zero => cases hd; exact hc
    | succ q => exact h₂ q d hd

/-- What is printed in Scala is code: loops and conditionals are closed, in the order they were opened. Loops are not
nested and not empty; there are none in the procedure of a circular visit, and none if none are required. -/
theorem C83_balanced {V : Type} {loops : Bool} {P : SProd V} {tss : List (List (Tok V))} (h : dumpVisits true loops P = .ok tss) :
    ∃ codes : List (Code V), tss = codes.map Code.render ∧ ∀ (q : Nat) (c : Code V), codes[q]? = some c →
      c.Flat ∧ (P.cyclic (q + 1) = true ∨ loops = false → c.NoLoop) := by
  obtain ⟨asg, _, hall⟩ := dumpVisits_ok h
  refine list_of_code tss fun q ts hq => ?_
  obtain ⟨w, hw, rfl⟩ := hall q ts hq
  have he := implement_effect (b := !P.cyclic (q + 1)) rfl P.order _ _ _ _ _ _ _ (fun _ h => by cases h) (.inl rfl) hw
  cases loops with
  | true =>
    obtain ⟨c, hc, hr⟩ := writes_code (he rfl)
    refine ⟨c, ⟨hc.flat, fun h => ?_⟩, hr⟩
    rcases h with h | h
    · rw [h] at hc
      exact hc
    · cases h
  | false =>
    obtain ⟨c, hc, hr⟩ := writes_code (he rfl)
    exact ⟨c, ⟨Code.NoLoop.flat hc, fun _ => hc⟩, hr⟩

/-- In C++ there are no loops. -/
theorem C83_cpp {V : Type} {loops : Bool} {P : SProd V} {tss : List (List (Tok V))} (h : dumpVisits false loops P = .ok tss) :
    ∃ codes : List (Code V), tss = codes.map Code.render ∧ ∀ (q : Nat) (c : Code V), codes[q]? = some c → c.NoLoop := by
  obtain ⟨asg, _, hall⟩ := dumpVisits_ok h
  refine list_of_code tss fun q ts hq => ?_
  obtain ⟨w, hw, rfl⟩ := hall q ts hq
  obtain ⟨c, hc, hr⟩ := writes_code (implement_cpp P.order _ _ _ _ _ _ _ rfl hw)
  exact ⟨c, hc, hr⟩

/-- The text is the text of one piece of code only. -/
theorem C83_unique {V : Type} {c d : Code V} (h : c.render = d.render) : c = d := render_injective h

/-- Printing succeeds, with as many procedures as there are visits, if the total order fits the production. -/
theorem C83_prints {V : Type} (scala loops : Bool) {P : SProd V} (hf : P.Fits P.order)
    (ha : ∀ q ∈ P.base.body.own, q.1 < P.base.insts.length) :
    ∃ tss, dumpVisits scala loops P = .ok tss ∧ tss.length = P.maxPhase := by
  obtain ⟨asg, h⟩ := makeAssignment_total (P := P) (arr := List.replicate P.base.insts.length ⟨false, []⟩) ha
  unfold dumpVisits
  rw [h, Res.ok_bind]
  have key : ∀ l : List Nat, ∃ tss, (l.mapM fun q => do
      let w ← implement scala P (q + 1) P.order asg ⟨0, 0⟩ none loops none ⟨[], []⟩
      return w.out ++ w.queue.map Tok.loopStart) = .ok tss ∧ tss.length = l.length := by
    intro l
    induction l with
    | nil => exact ⟨[], rfl, rfl⟩
    | cons q l ih =>
      obtain ⟨tss, h₁, h₂⟩ := ih
      obtain ⟨w, hw⟩ := implement_total (scala := scala) (phase := q + 1) (asg := asg) (c := ⟨0, 0⟩) (chunk := none) (allowed := loops)
        (loop := none) (w := ⟨[], []⟩) hf (.inl rfl) (fun _ => rfl)
      refine ⟨(w.out ++ w.queue.map .loopStart) :: tss, ?_, by simp [h₂]⟩
      rw [List.mapM_cons, hw, h₁]
      rfl
  obtain ⟨tss, h₁, h₂⟩ := key (List.range P.maxPhase)
  exact ⟨tss, h₁, by rw [h₂, List.length_range]⟩

/-! ## C81: assignments -/

/-- Without conditionals and collections: what is assigned to an instance is its equation. -/
theorem C81_equations_partial {V : Type} {scala loops : Bool} {P : SProd V}
    (hrules : ∀ (i : Nat) (inst : Inst V), P.base.insts[i]? = some inst → inst.rule = none)
    (hbody : ∀ r t f, ¬ P.base.body.Has r t f) (hconds : ∀ i : Nat, P.conds[i]?.getD (⟨0, 0⟩ : Dnc.Cond) = ⟨0, 0⟩)
    (hcoll : ∀ i, P.coll i = false) (hassigned : ∀ q ∈ P.base.body.own, q.1 < P.base.insts.length)
    (hunique : (P.base.body.own.map (·.1)).Nodup) {tss : List (List (Tok V))} (h : dumpVisits scala loops P = .ok tss) :
    ∀ ts ∈ tss, ∀ i e, Tok.assign i e ∈ ts → P.base.rhs (fun _ => false) i = some e := by
  obtain ⟨asg, ha, hall⟩ := dumpVisits_ok h
  obtain ⟨asg', ha', hW⟩ := walks_of hrules hconds hcoll hbody hassigned hunique
  rw [ha] at ha'
  cases ha'
  intro ts hts
  obtain ⟨q, hq, rfl⟩ := List.mem_iff_getElem.1 hts
  obtain ⟨w, hw, hts'⟩ := hall q _ (List.getElem?_eq_getElem hq)
  rw [hts']
  intro i e hm
  rcases List.mem_append.1 hm with hm | hm
  · exact says_implement hW (by intro i e h; cases h) hw i e hm
  · simp at hm

/-! ## C82: fixed points -/

section
variable {V : Type} [DecidableEq V] {ph : Phyla} {cyc : Nat → Nat → Bool} {A : Attrs V} {prods : List (SProd V)} {plans : Nat → List Visit}
  {codes : List (List (Code V))} {t : Static.Tree} {sp n h : Nat}

/-- If the evaluation of a tree ends, all equations hold. -/
theorem C82_solves_partial (hg : Grammar ph cyc A prods plans)
    (hcodes : ∀ (p : Nat) (P : SProd V), prods[p]? = some P → ∃ cs, codes[p]? = some cs ∧ Printed P cs)
    (hsp : ∀ P ∈ bases prods, some sp ∉ P.kidPhy) (ht : HasTy (bases prods) t (some sp))
    (hroot : ∀ (x : Nat) (s : Int), ph.sched sp x = some s → s < 0 → ph.implicit sp x = true) (hh : t.height ≤ h)
    {st' : St V} (hrun : visitAll A n h prods codes (cyc sp) sp t (List.range' 1 (ph.visits sp)) ⟨fun _ => none, false⟩ = .ok st') :
    Solves (bases prods) t st'.val :=
  eval_solves hg hcodes hsp ht hroot hh hrun

/-- What is computed is below every solution. -/
theorem C82_least_partial (hg : Grammar ph cyc A prods plans)
    (hcodes : ∀ (p : Nat) (P : SProd V), prods[p]? = some P → ∃ cs, codes[p]? = some cs ∧ Printed P cs)
    (hsp : ∀ P ∈ bases prods, some sp ∉ P.kidPhy) (ht : HasTy (bases prods) t (some sp))
    (hroot : ∀ (x : Nat) (s : Int), ph.sched sp x = some s → s < 0 → ph.implicit sp x = true) (hh : t.height ≤ h)
    {R : Key → V → V → Prop} (ho : Ordered A R prods)
    {st' : St V} (hrun : visitAll A n h prods codes (cyc sp) sp t (List.range' 1 (ph.visits sp)) ⟨fun _ => none, false⟩ = .ok st')
    {val : Slot → Option V} (hs : Solves (bases prods) t val) :
    ∀ s v, st'.val s = some v → ∃ w, val s = some w ∧ R s.2 v w :=
  eval_least hg hcodes hsp ht hroot hh ho hrun hs

/-- The evaluation of a tree ends: from some number on, it does not matter how many rounds loops may have. -/
theorem C82_terminates_partial (hg : Grammar ph cyc A prods plans)
    (hcodes : ∀ (p : Nat) (P : SProd V), prods[p]? = some P → ∃ cs, codes[p]? = some cs ∧ Printed P cs)
    (hsp : ∀ P ∈ bases prods, some sp ∉ P.kidPhy) (ht : HasTy (bases prods) t (some sp))
    (hroot : ∀ (x : Nat) (s : Int), ph.sched sp x = some s → s < 0 → ph.implicit sp x = true) (hh : t.height ≤ h)
    {R : Key → V → V → Prop} (ho : Ordered A R prods) (hb : Bounded A R) :
    ∃ N, ∀ n, N ≤ n → ∃ st', visitAll A n h prods codes (cyc sp) sp t (List.range' 1 (ph.visits sp)) ⟨fun _ => none, false⟩ = .ok st' :=
  eval_ends hg hcodes hsp ht hroot hh ho hb

/-- A planned production is printed. -/
theorem C82_printed {P : SProd V} {plan : List Visit} (hd : Described ph P.base) (hp : Planned ph cyc A P plan) :
    ∃ cs, Printed P cs := by
  refine ⟨(List.range P.maxPhase).map fun j => runsCode P (j + 1) (j == 0) ((plan[j]?.map (·.runs)).getD []), ?_⟩
  unfold Printed
  rw [dumpVisits_planned hd hp, List.map_map]
  rfl

end

/-! ## A grammar

`S → X`, `X → X`, `X → `; the start phylum has an attribute `out`, `X` has circular attributes `i` (inherited) and `s`. At
the root, `i` of the child is the larger of its `s` and a local; below, `s` is one more than `s` of the child, at most 3. -/

def sgPhyla : Phyla where
  sched p x := match p, x with
    | 0, 10 => some 1
    | 1, 20 => some (-1)
    | 1, 21 => some 1
    | _, _ => none
  implicit _ _ := false
  visits p := match p with
    | 0 => 1
    | 1 => 1
    | _ => 0

def sgCyc (p q : Nat) : Bool := p == 1 && q == 1

def sgA : Attrs (Fin 4) where
  circ k := k == .attr 20 || k == .attr 21
  bot _ := 0
  le _ v w := decide (v ≤ w)

def sgInst (lhs : Bool) (ch : Option Nat) (ph : Int) (inward : Bool) (kind : Kind) (attr : Nat) : Inst (Fin 4) :=
  ⟨lhs, ch, ph, none, inward, kind, attr⟩

def sgId : List (Fin 4) → Fin 4
  | v :: _ => v
  | [] => 0

def sgMax : List (Fin 4) → Fin 4
  | [v, w] => max v w
  | _ => 0

def sgUp : List (Fin 4) → Fin 4
  | v :: _ => if v < 3 then v + 1 else 3
  | [] => 0

/-- the plan of `S → X`: the local; what is repeated; the rest -/
def sgPlan0 : List Visit := [⟨[⟨2, [.inst 3]⟩, ⟨1, [.inst 1, .visit 0 1, .inst 2]⟩, ⟨0, [.inst 0]⟩], 0⟩]

def sgPlan1 : List Visit := [⟨[⟨0, [.inst 0]⟩, ⟨2, [.inst 2, .visit 0 1, .inst 3]⟩, ⟨1, [.inst 1]⟩], 1⟩]

def sgPlan2 : List Visit := [⟨[⟨0, [.inst 0]⟩, ⟨1, [.inst 1]⟩], 1⟩]

def sgP0 : SProd (Fin 4) where
  base := {
    insts := [sgInst true none 1 false (.node false) 10, sgInst false (some 0) (-1) false (.node false) 20,
      sgInst false (some 0) 1 true (.node false) 21, sgInst false none 0 false (.loc false) 0]
    defaults := List.replicate 4 none
    body := .decl 3 (.assign 3 ⟨[], fun _ => 1⟩ (.assign 1 ⟨[2, 3], sgMax⟩ (.assign 0 ⟨[2], sgId⟩ .nil)))
    cto := .nil
    lhsPhy := 0
    kidPhy := [some 1] }
  conds := []
  rules := []
  coll _ := false
  dfltFirst := true
  order := planTree 1 sgPlan0
  chunkCirc k := k == 1
  cyclic q := sgCyc 0 q
  maxPhase := 1

def sgP1 : SProd (Fin 4) where
  base := {
    insts := [sgInst true none (-1) true (.node false) 20, sgInst true none 1 false (.node false) 21,
      sgInst false (some 0) (-1) false (.node false) 20, sgInst false (some 0) 1 true (.node false) 21]
    defaults := List.replicate 4 none
    body := .assign 2 ⟨[0], sgId⟩ (.assign 1 ⟨[3], sgUp⟩ .nil)
    cto := .nil
    lhsPhy := 1
    kidPhy := [some 1] }
  conds := []
  rules := []
  coll _ := false
  dfltFirst := true
  order := planTree 1 sgPlan1
  chunkCirc _ := true
  cyclic q := sgCyc 1 q
  maxPhase := 1

def sgP2 : SProd (Fin 4) where
  base := {
    insts := [sgInst true none (-1) true (.node false) 20, sgInst true none 1 false (.node false) 21]
    defaults := List.replicate 2 none
    body := .assign 1 ⟨[0], sgId⟩ .nil
    cto := .nil
    lhsPhy := 1
    kidPhy := [] }
  conds := []
  rules := []
  coll _ := false
  dfltFirst := true
  order := planTree 1 sgPlan2
  chunkCirc _ := true
  cyclic q := sgCyc 1 q
  maxPhase := 1

def sgProds : List (SProd (Fin 4)) := [sgP0, sgP1, sgP2]

def sgPlans : Nat → List Visit
  | 0 => sgPlan0
  | 1 => sgPlan1
  | _ => sgPlan2

def sgTree : Static.Tree := .node 0 [.node 1 [.node 2 []]]

theorem sgPhased : Phased sgPhyla := by
  refine ⟨?_, ?_⟩
  · intro p x s h
    simp only [sgPhyla] at h ⊢
    split at h <;> cases h <;> simp
  · intro p k h1 h2
    match p, k with
    | 0, 1 => exact ⟨10, rfl⟩
    | 1, 1 => exact ⟨21, rfl⟩
    | _, 0 => omega
    | 0, k + 2 => simp [sgPhyla] at h2
    | 1, k + 2 => simp [sgPhyla] at h2
    | p + 2, k + 1 => simp [sgPhyla] at h2

theorem sgIdx {V : Type} {P : Prod V} {n : Nat} (hn : P.insts.length = n) {Q : Nat → Inst V → Prop}
    (h : ∀ i < n, ∀ inst, P.insts[i]? = some inst → Q i inst) : ∀ (i : Nat) (inst : Inst V), P.insts[i]? = some inst → Q i inst := by
  intro i inst hi
  refine h i ?_ inst hi
  subst hn
  by_contra hh
  rw [List.getElem?_eq_none (by omega)] at hi
  cases hi

theorem sgP0_described : Described sgPhyla sgP0.base := by
  refine ⟨rfl, ?_, ?_, ?_, ?_, ?_, ?_, ?_, ?_⟩
  · refine sgIdx (n := 4) rfl fun i hi inst h => ?_
    interval_cases i <;> (simp [sgP0, sgInst] at h; subst h; simp)
  · refine sgIdx (n := 4) rfl fun i hi inst h => ?_
    interval_cases i <;> (simp [sgP0, sgInst] at h; subst h; simp [sgPhyla, sgP0])
  · intro i inst c h
    revert i inst
    refine sgIdx (n := 4) rfl fun i hi inst h => ?_
    interval_cases i <;> (simp [sgP0, sgInst] at h; subst h; simp [sgPhyla, sgP0]) <;> (rintro rfl; simp)
  · refine sgIdx (n := 4) rfl fun i hi inst h => ?_
    interval_cases i <;> (simp [sgP0, sgInst] at h; subst h; simp)
  · intro i j a b hi hj
    revert j b
    revert i a
    refine sgIdx (n := 4) rfl fun i hi a ha => ?_
    refine sgIdx (n := 4) rfl fun j hj b hb => ?_
    interval_cases i <;> (simp [sgP0, sgInst] at ha; subst ha) <;> interval_cases j <;> (simp [sgP0, sgInst] at hb; subst hb; simp)
  · intro r t f h
    have h' : Block.Has (.decl 3 (.assign 3 _ (.assign 1 _ (.assign 0 _ .nil)))) r t f := h
    cases h' with | decl h => cases h with | assign h => cases h with | assign h => cases h with | assign h => cases h
  · intro σ q h
    simp [sgP0, Block.active] at h
    rcases h with rfl | rfl | rfl <;> decide
  · intro σ
    simp [sgP0, Block.active]

theorem sgP1_described : Described sgPhyla sgP1.base := by
  refine ⟨rfl, ?_, ?_, ?_, ?_, ?_, ?_, ?_, ?_⟩
  · refine sgIdx (n := 4) rfl fun i hi inst h => ?_
    interval_cases i <;> (simp [sgP1, sgInst] at h; subst h; simp)
  · refine sgIdx (n := 4) rfl fun i hi inst h => ?_
    interval_cases i <;> (simp [sgP1, sgInst] at h; subst h; simp [sgPhyla, sgP1])
  · intro i inst c h
    revert i inst
    refine sgIdx (n := 4) rfl fun i hi inst h => ?_
    interval_cases i <;> (simp [sgP1, sgInst] at h; subst h; simp [sgPhyla, sgP1]) <;> (rintro rfl; simp)
  · refine sgIdx (n := 4) rfl fun i hi inst h => ?_
    interval_cases i <;> (simp [sgP1, sgInst] at h; subst h; simp)
  · intro i j a b hi hj
    revert j b
    revert i a
    refine sgIdx (n := 4) rfl fun i hi a ha => ?_
    refine sgIdx (n := 4) rfl fun j hj b hb => ?_
    interval_cases i <;> (simp [sgP1, sgInst] at ha; subst ha) <;> interval_cases j <;> (simp [sgP1, sgInst] at hb; subst hb; simp)
  · intro r t f h
    have h' : Block.Has (.assign 2 _ (.assign 1 _ .nil)) r t f := h
    cases h' with | assign h => cases h with | assign h => cases h
  · intro σ q h
    simp [sgP1, Block.active] at h
    rcases h with rfl | rfl <;> decide
  · intro σ
    simp [sgP1, Block.active]

theorem sgP2_described : Described sgPhyla sgP2.base := by
  refine ⟨rfl, ?_, ?_, ?_, ?_, ?_, ?_, ?_, ?_⟩
  · refine sgIdx (n := 2) rfl fun i hi inst h => ?_
    interval_cases i <;> (simp [sgP2, sgInst] at h; subst h; simp)
  · refine sgIdx (n := 2) rfl fun i hi inst h => ?_
    interval_cases i <;> (simp [sgP2, sgInst] at h; subst h; simp [sgPhyla, sgP2])
  · intro i inst c h
    revert i inst
    refine sgIdx (n := 2) rfl fun i hi inst h => ?_
    interval_cases i <;> (simp [sgP2, sgInst] at h; subst h; simp [sgPhyla, sgP2])
  · refine sgIdx (n := 2) rfl fun i hi inst h => ?_
    interval_cases i <;> (simp [sgP2, sgInst] at h; subst h; simp)
  · intro i j a b hi hj
    revert j b
    revert i a
    refine sgIdx (n := 2) rfl fun i hi a ha => ?_
    refine sgIdx (n := 2) rfl fun j hj b hb => ?_
    interval_cases i <;> (simp [sgP2, sgInst] at ha; subst ha) <;> interval_cases j <;> (simp [sgP2, sgInst] at hb; subst hb; simp)
  · intro r t f h
    have h' : Block.Has (.assign 1 _ .nil) r t f := h
    cases h' with | assign h => cases h
  · intro σ q h
    simp [sgP2, Block.active] at h
    rcases h with rfl <;> decide
  · intro σ
    simp [sgP2, Block.active]

/-- all ways to take a list apart -/
def sgSplits {α : Type} : List α → List (List α × α)
  | [] => []
  | x :: l => ([], x) :: (sgSplits l).map fun s => (x :: s.1, s.2)

theorem sgSplits_mem {α : Type} {l a b : List α} {x : α} (h : l = a ++ x :: b) : (a, x) ∈ sgSplits l := by
  subst h
  induction a with
  | nil => simp [sgSplits]
  | cons y a ih => simp [sgSplits, ih]

/-- all places in a plan -/
def sgPlaces (plan : List Visit) : List (Nat × Bool × Visit × Run × List Step × Step) :=
  (sgSplits plan).flatMap fun x => (sgSplits x.2.runs).flatMap fun y => (sgSplits y.2.steps).map fun z =>
    (x.1.length + 1, x.1.isEmpty && y.1.isEmpty, x.2, y.2, x.1.flatMap Visit.steps ++ y.1.flatMap (·.steps) ++ z.1, z.2)

theorem sgPlaces_mem {plan : List Visit} {q : Nat} {first : Bool} {v : Visit} {r : Run} {before : List Step} {s : Step}
    (h : Occurs plan q first v r before s) : (q, first, v, r, before, s) ∈ sgPlaces plan := by
  obtain ⟨pre, post, rpre, rpost, spre, spost, h₁, h₂, h₃, h₄, h₅, h₆⟩ := h.pos
  unfold sgPlaces
  refine List.mem_flatMap.2 ⟨(pre, v), sgSplits_mem h₁, List.mem_flatMap.2 ⟨(rpre, r), sgSplits_mem h₂,
    List.mem_map.2 ⟨(spre, s), sgSplits_mem h₃, ?_⟩⟩⟩
  have : first = (pre.isEmpty && rpre.isEmpty) := by
    cases first
    · have : ¬ (pre = [] ∧ rpre = []) := fun h => by have := h₆.2 h; cases this
      cases pre <;> cases rpre <;> simp_all
    · have := h₆.1 rfl
      simp [this]
  simp [h₄, h₅, this]

theorem sgP0_planned : Planned sgPhyla sgCyc sgA sgP0 sgPlan0 := by
  refine ⟨rfl, ⟨rfl, rfl⟩, fun q => rfl, by decide, by decide, by decide, ?_, fun i => by simp [sgP0], fun i => rfl, ?_, ?_, ?_, ?_, ?_, ?_, ?_, ?_, ?_⟩
  · refine sgIdx (n := 4) rfl fun i hi inst h => ?_
    interval_cases i <;> (simp [sgP0, sgInst] at h; subst h; rfl)
  · intro v hv i hi
    simp [sgPlan0] at hv
    subst hv
    simp [Visit.steps] at hi
    show i < 4
    omega
  · intro x s h
    simp only [sgPhyla, sgP0] at h
    split at h <;> first | exact ⟨0, _, rfl, rfl, rfl⟩ | exact ⟨1, _, rfl, rfl, rfl⟩ | (exfalso; omega) | (cases h)
  · intro σ
    refine sgIdx (n := 4) rfl fun i hi inst h => ?_
    interval_cases i <;> (simp [sgP0, sgInst] at h; subst h; simp [sgP0, Block.locals])
  · refine sgIdx (n := 4) rfl fun i hi inst h => ?_
    interval_cases i <;> (simp [sgP0, sgInst] at h; subst h; simp [sgPlan0, Visit.steps])
  · intro i inst q v h
    revert i inst
    refine sgIdx (n := 4) rfl fun i hi inst h h₁ h₂ h₃ h₄ => ?_
    interval_cases i <;> (simp [sgP0, sgInst] at h; subst h; simp at h₁ h₂)
    all_goals first | (obtain rfl : q = 1 := by omega); simp [sgPlan0] at h₄; subst h₄; simp [Visit.steps] | omega
  · intro c k p h₁ h₂ h₃
    match c, h₁ with
    | 0, h₁ =>
      simp [sgP0] at h₁
      subst h₁
      have : p = 1 := by simp [sgPhyla] at h₃; omega
      subst this
      exact ⟨_, List.mem_singleton.2 rfl, by decide⟩
    | c + 1, h₁ => simp [sgP0] at h₁
  · refine sgIdx (n := 4) rfl fun i hi inst h => ?_
    interval_cases i <;> (simp [sgP0, sgInst] at h; subst h; simp [sgP0, SProd.rhs, Prod.rhs, Block.active])
  · intro q first v r before c p h
    have hm := sgPlaces_mem h
    simp [sgPlaces, sgSplits, sgPlan0, Visit.steps] at hm
    obtain ⟨rfl, rfl, rfl, rfl, rfl, rfl, rfl⟩ := hm
    refine ⟨1, rfl, by decide, by decide, by omega, ?_, by simp [SProd.Looped, sgCyc, sgP0]⟩
    intro x s h₁ h₂ h₃ h₄
    simp only [sgPhyla] at h₁
    split at h₁ <;> first | (exfalso; omega) | cases h₁ <;> first | omega | exact ⟨1, _, rfl, rfl, rfl, by decide⟩
  · intro q first v r before i e h he j hj
    have hm := sgPlaces_mem h
    simp [sgPlaces, sgSplits, sgPlan0, Visit.steps] at hm
    rcases hm with ⟨rfl, rfl, rfl, rfl, rfl, rfl⟩ | ⟨rfl, rfl, rfl, rfl, rfl, rfl⟩ | ⟨rfl, rfl, rfl, rfl, rfl, rfl⟩ | ⟨rfl, rfl, rfl, rfl, rfl, rfl⟩ <;> simp [sgP0, SProd.rhs, Prod.rhs, Block.active] at he <;> subst he <;> simp at hj <;>
      (try rcases hj with rfl | rfl) <;> (try subst hj) <;>
      refine ⟨by first | exact ⟨_, rfl, rfl, .inl rfl⟩ | exact ⟨_, rfl, rfl, .inr rfl⟩, ?_⟩ <;>
      first
        | exact .inl ⟨_, rfl, .inl ⟨rfl, by decide, by decide⟩⟩
        | exact .inl ⟨_, rfl, .inr (.inl ⟨rfl, by decide⟩)⟩
        | exact .inl ⟨_, rfl, .inr (.inr ⟨0, 1, rfl, rfl, by decide, by decide⟩)⟩
        | exact .inr ⟨rfl, .inr ⟨⟨rfl, rfl, rfl⟩, _, rfl, .inr ⟨0, 1, rfl, rfl, by decide, by decide⟩⟩⟩

theorem sgP1_planned : Planned sgPhyla sgCyc sgA sgP1 sgPlan1 := by
  refine ⟨rfl, ⟨rfl, rfl⟩, fun q => rfl, by decide, by decide, by decide, ?_, fun i => by simp [sgP1], fun i => rfl, ?_, ?_, ?_, ?_, ?_, ?_, ?_, ?_, ?_⟩
  · refine sgIdx (n := 4) rfl fun i hi inst h => ?_
    interval_cases i <;> (simp [sgP1, sgInst] at h; subst h; rfl)
  · intro v hv i hi
    simp [sgPlan1] at hv
    subst hv
    simp [Visit.steps] at hi
    show i < 4
    omega
  · intro x s h
    simp only [sgPhyla, sgP1] at h
    split at h <;> first | exact ⟨0, _, rfl, rfl, rfl⟩ | exact ⟨1, _, rfl, rfl, rfl⟩ | (exfalso; omega) | (cases h)
  · intro σ
    refine sgIdx (n := 4) rfl fun i hi inst h => ?_
    interval_cases i <;> (simp [sgP1, sgInst] at h; subst h; simp [sgP1, Block.locals])
  · refine sgIdx (n := 4) rfl fun i hi inst h => ?_
    interval_cases i <;> (simp [sgP1, sgInst] at h; subst h; simp [sgPlan1, Visit.steps])
  · intro i inst q v h
    revert i inst
    refine sgIdx (n := 4) rfl fun i hi inst h h₁ h₂ h₃ h₄ => ?_
    interval_cases i <;> (simp [sgP1, sgInst] at h; subst h; simp at h₁ h₂)
    all_goals first | (obtain rfl : q = 1 := by omega); simp [sgPlan1] at h₄; subst h₄; simp [Visit.steps] | omega
  · intro c k p h₁ h₂ h₃
    match c, h₁ with
    | 0, h₁ =>
      simp [sgP1] at h₁
      subst h₁
      have : p = 1 := by simp [sgPhyla] at h₃; omega
      subst this
      exact ⟨_, List.mem_singleton.2 rfl, by decide⟩
    | c + 1, h₁ => simp [sgP1] at h₁
  · refine sgIdx (n := 4) rfl fun i hi inst h => ?_
    interval_cases i <;> (simp [sgP1, sgInst] at h; subst h; simp [sgP1, SProd.rhs, Prod.rhs, Block.active])
  · intro q first v r before c p h
    have hm := sgPlaces_mem h
    simp [sgPlaces, sgSplits, sgPlan1, Visit.steps] at hm
    obtain ⟨rfl, rfl, rfl, rfl, rfl, rfl, rfl⟩ := hm
    refine ⟨1, rfl, by decide, by decide, by omega, ?_, by simp [SProd.Looped, sgCyc, sgP1]⟩
    intro x s h₁ h₂ h₃ h₄
    simp only [sgPhyla] at h₁
    split at h₁ <;> first | (exfalso; omega) | cases h₁ <;> first | omega | exact ⟨2, _, rfl, rfl, rfl, by decide⟩
  · intro q first v r before i e h he j hj
    have hm := sgPlaces_mem h
    simp [sgPlaces, sgSplits, sgPlan1, Visit.steps] at hm
    rcases hm with ⟨rfl, rfl, rfl, rfl, rfl, rfl⟩ | ⟨rfl, rfl, rfl, rfl, rfl, rfl⟩ | ⟨rfl, rfl, rfl, rfl, rfl, rfl⟩ | ⟨rfl, rfl, rfl, rfl, rfl, rfl⟩ <;> simp [sgP1, SProd.rhs, Prod.rhs, Block.active] at he <;> subst he <;> simp at hj <;>
      (try rcases hj with rfl | rfl) <;> (try subst hj) <;>
      refine ⟨by first | exact ⟨_, rfl, rfl, .inl rfl⟩ | exact ⟨_, rfl, rfl, .inr rfl⟩, ?_⟩ <;>
      first
        | exact .inl ⟨_, rfl, .inl ⟨rfl, by decide, by decide⟩⟩
        | exact .inl ⟨_, rfl, .inr (.inl ⟨rfl, by decide⟩)⟩
        | exact .inl ⟨_, rfl, .inr (.inr ⟨0, 1, rfl, rfl, by decide, by decide⟩)⟩
        | exact .inr ⟨rfl, .inr ⟨⟨rfl, rfl, rfl⟩, _, rfl, .inr ⟨0, 1, rfl, rfl, by decide, by decide⟩⟩⟩

theorem sgP2_planned : Planned sgPhyla sgCyc sgA sgP2 sgPlan2 := by
  refine ⟨rfl, ⟨rfl, rfl⟩, fun q => rfl, by decide, by decide, by decide, ?_, fun i => by simp [sgP2], fun i => rfl, ?_, ?_, ?_, ?_, ?_, ?_, ?_, ?_, ?_⟩
  · refine sgIdx (n := 2) rfl fun i hi inst h => ?_
    interval_cases i <;> (simp [sgP2, sgInst] at h; subst h; rfl)
  · intro v hv i hi
    simp [sgPlan2] at hv
    subst hv
    simp [Visit.steps] at hi
    show i < 2
    omega
  · intro x s h
    simp only [sgPhyla, sgP2] at h
    split at h <;> first | exact ⟨0, _, rfl, rfl, rfl⟩ | exact ⟨1, _, rfl, rfl, rfl⟩ | (exfalso; omega) | (cases h)
  · intro σ
    refine sgIdx (n := 2) rfl fun i hi inst h => ?_
    interval_cases i <;> (simp [sgP2, sgInst] at h; subst h; simp [sgP2, Block.locals])
  · refine sgIdx (n := 2) rfl fun i hi inst h => ?_
    interval_cases i <;> (simp [sgP2, sgInst] at h; subst h; simp [sgPlan2, Visit.steps])
  · intro i inst q v h
    revert i inst
    refine sgIdx (n := 2) rfl fun i hi inst h h₁ h₂ h₃ h₄ => ?_
    interval_cases i <;> (simp [sgP2, sgInst] at h; subst h; simp at h₁ h₂)
    all_goals first | (obtain rfl : q = 1 := by omega); simp [sgPlan2] at h₄; subst h₄; simp [Visit.steps] | omega
  · intro c k p h₁ h₂ h₃
    simp [sgP2] at h₁
  · refine sgIdx (n := 2) rfl fun i hi inst h => ?_
    interval_cases i <;> (simp [sgP2, sgInst] at h; subst h; simp [sgP2, SProd.rhs, Prod.rhs, Block.active])
  · intro q first v r before c p h
    have hm := sgPlaces_mem h
    simp [sgPlaces, sgSplits, sgPlan2, Visit.steps] at hm
  · intro q first v r before i e h he j hj
    have hm := sgPlaces_mem h
    simp [sgPlaces, sgSplits, sgPlan2, Visit.steps] at hm
    rcases hm with ⟨rfl, rfl, rfl, rfl, rfl, rfl⟩ | ⟨rfl, rfl, rfl, rfl, rfl, rfl⟩ <;> simp [sgP2, SProd.rhs, Prod.rhs, Block.active] at he <;> subst he <;> simp at hj <;>
      (try rcases hj with rfl | rfl) <;> (try subst hj) <;>
      refine ⟨by first | exact ⟨_, rfl, rfl, .inl rfl⟩ | exact ⟨_, rfl, rfl, .inr rfl⟩, ?_⟩ <;>
      first
        | exact .inl ⟨_, rfl, .inl ⟨rfl, by decide, by decide⟩⟩
        | exact .inl ⟨_, rfl, .inr (.inl ⟨rfl, by decide⟩)⟩
        | exact .inl ⟨_, rfl, .inr (.inr ⟨0, 1, rfl, rfl, by decide, by decide⟩)⟩
        | exact .inr ⟨rfl, .inr ⟨⟨rfl, rfl, rfl⟩, _, rfl, .inr ⟨0, 1, rfl, rfl, by decide, by decide⟩⟩⟩

theorem sgGrammar : Grammar sgPhyla sgCyc sgA sgProds sgPlans := by
  refine ⟨sgPhased, ?_, ?_⟩
  · intro p P h
    match p, h with
    | 0, h => cases h; exact sgP0_described
    | 1, h => cases h; exact sgP1_described
    | 2, h => cases h; exact sgP2_described
  · intro p P h
    match p, h with
    | 0, h => cases h; exact sgP0_planned
    | 1, h => cases h; exact sgP1_planned
    | 2, h => cases h; exact sgP2_planned

def sgR (_ : Key) (v w : _root_.Fin 4) : Prop := v ≤ w

theorem sgId_mono {ks : List Key} {vs ws : List (_root_.Fin 4)} (h : Pointwise sgR ks vs ws) : sgId vs ≤ sgId ws := by
  cases h with
  | nil => exact le_refl _
  | cons h _ => exact h

theorem sgUp_mono {ks : List Key} {vs ws : List (_root_.Fin 4)} (h : Pointwise sgR ks vs ws) : sgUp vs ≤ sgUp ws := by
  cases h with
  | nil => exact le_refl _
  | @cons k v w _ _ _ h _ =>
    show (if v < 3 then v + 1 else 3) ≤ (if w < 3 then w + 1 else 3)
    have h' : v ≤ w := h
    clear h
    revert v w
    decide

theorem sgMax_mono {k l : Key} {vs ws : List (_root_.Fin 4)} (h : Pointwise sgR [k, l] vs ws) : sgMax vs ≤ sgMax ws := by
  cases h with
  | cons h₁ h => cases h with
    | cons h₂ h => cases h with
      | nil => exact max_le_max h₁ h₂

theorem sgOrdered : Ordered sgA sgR sgProds := by
  refine ⟨fun _ _ => le_refl _, fun _ _ _ _ h₁ h₂ => le_trans h₁ h₂, fun _ _ v => Fin.zero_le v, ?_⟩
  intro P hP i e he vs ws h
  simp only [sgProds, List.mem_cons, List.not_mem_nil, or_false] at hP
  show e.fn vs ≤ e.fn ws
  rcases hP with rfl | rfl | rfl
  · match i, he with
    | 0, he => cases he; exact sgId_mono h
    | 1, he => cases he; exact sgMax_mono h
    | 2, he => cases he
    | 3, he => cases he; exact le_refl _
    | i + 4, he => simp [SProd.rhs, Prod.rhs, Block.active, sgP0] at he
  · match i, he with
    | 0, he => cases he
    | 1, he => cases he; exact sgUp_mono h
    | 2, he => cases he; exact sgId_mono h
    | 3, he => cases he
    | i + 4, he => simp [SProd.rhs, Prod.rhs, Block.active, sgP1] at he
  · match i, he with
    | 0, he => cases he
    | 1, he => cases he; exact sgId_mono h
    | i + 2, he => simp [SProd.rhs, Prod.rhs, Block.active, sgP2] at he

theorem sgBounded : Bounded sgA sgR := by
  refine ⟨fun k _ v w h => decide_eq_true h, fun _ v => v.val, 3, fun k _ => ⟨fun v w h hne => ?_, fun v => Nat.le_of_lt_succ v.isLt⟩⟩
  have : v < w := lt_of_le_of_ne h hne
  exact this

/-- what is printed -/
def sgCodes : List (List (Code (_root_.Fin 4))) :=
  [[.assign 3 ⟨[], fun _ => 1⟩ (.loop 1 (.assign 1 ⟨[2, 3], sgMax⟩ (.visit 0 1 .done)) (.assign 0 ⟨[2], sgId⟩ .done))],
   [.assign 2 ⟨[0], sgId⟩ (.visit 0 1 (.assign 1 ⟨[3], sgUp⟩ .done))],
   [.assign 1 ⟨[0], sgId⟩ .done]]

theorem sgPrinted : ∀ (p : Nat) (P : SProd (_root_.Fin 4)), sgProds[p]? = some P → ∃ cs, sgCodes[p]? = some cs ∧ Printed P cs := by
  intro p P h
  match p, h with
  | 0, h => cases h; exact ⟨_, rfl, rfl⟩
  | 1, h => cases h; exact ⟨_, rfl, rfl⟩
  | 2, h => cases h; exact ⟨_, rfl, rfl⟩

theorem sgTyped : HasTy (bases sgProds) sgTree (some 0) := by
  have h2 : HasTy (bases sgProds) (.node 2 []) (some 1) := .node (P := sgP2.base) rfl rfl (fun c k o h => by cases h)
  have h1 : HasTy (bases sgProds) (.node 1 [.node 2 []]) (some 1) := by
    refine .node (P := sgP1.base) rfl rfl (fun c k o h h' => ?_)
    match c, h, h' with
    | 0, h, h' => cases h; cases h'; exact h2
  refine .node (P := sgP0.base) rfl rfl (fun c k o h h' => ?_)
  match c, h, h' with
  | 0, h, h' => cases h; cases h'; exact h1

theorem sgRoot : ∀ (x : Nat) (s : Int), sgPhyla.sched 0 x = some s → s < 0 → sgPhyla.implicit 0 x = true := by
  intro x s h hs
  simp only [sgPhyla] at h
  split at h <;> first | (cases h; omega) | cases h

/-- the value of `out` after an evaluation with at most `n` rounds -/
def sgOut {V : Type} (r : Res (St V)) : Option (List (Option V)) :=
  match r with
  | .ok st => some [st.val ([], .attr 10), st.val ([0], .attr 20), st.val ([0], .attr 21)]
  | _ => none

/-- The hypotheses of `C82_solves_partial`, `C82_least_partial` and `C82_terminates_partial` hold; the loop is run four
times. -/
example : Grammar sgPhyla sgCyc sgA sgProds sgPlans ∧ Ordered sgA sgR sgProds ∧ Bounded sgA sgR ∧
    (∀ P ∈ bases sgProds, some 0 ∉ P.kidPhy) ∧ HasTy (bases sgProds) sgTree (some 0) ∧ sgTree.height ≤ 3 ∧
    sgOut (visitAll sgA 4 3 sgProds sgCodes (sgCyc 0) 0 sgTree (List.range' 1 (sgPhyla.visits 0)) ⟨fun _ => none, false⟩) =
      some [some 3, some 3, some 3] ∧
    sgOut (visitAll sgA 3 3 sgProds sgCodes (sgCyc 0) 0 sgTree (List.range' 1 (sgPhyla.visits 0)) ⟨fun _ => none, false⟩) = none :=
  ⟨sgGrammar, sgOrdered, sgBounded, by decide, sgTyped, by simp [sgTree, Static.Tree.height], by decide +kernel, by decide +kernel⟩

/-- `C83_prints`, `C83_balanced` and `C81_equations_partial` apply. -/
example : sgP0.Fits sgP0.order ∧ ∃ tss, dumpVisits true true sgP0 = .ok tss ∧ tss ≠ [] := by
  refine ⟨?_, _, rfl, by simp [sgP0]⟩
  simp [sgP0, planTree, sgPlan0, runsTree, stepsTree, Step.tree, SProd.Fits, sgInst]

/-! ## Refutations -/

/-- `S → X` without the local: nothing comes before what has to be repeated. -/
def sgQ0 : SProd (_root_.Fin 4) where
  base := {
    insts := [sgInst true none 1 false (.node false) 10, sgInst false (some 0) (-1) false (.node false) 20,
      sgInst false (some 0) 1 true (.node false) 21]
    defaults := List.replicate 3 none
    body := .assign 1 ⟨[2], fun vs => max (sgId vs) 1⟩ (.assign 0 ⟨[2], sgId⟩ .nil)
    cto := .nil
    lhsPhy := 0
    kidPhy := [some 1] }
  conds := []
  rules := []
  coll _ := false
  dfltFirst := true
  order := .inst 1 1 2 (.mark 1 0 1 2 (.inst 2 1 2 (.inst 0 1 1 (.mark 1 (-1) 1 1 .nil))))
  chunkCirc k := k == 2
  cyclic q := sgCyc 0 q
  maxPhase := 1

def sgQInput : Chunk.Input :=
  ⟨[⟨1, -1, ⟨0, 0⟩, none⟩, ⟨-1, 0, ⟨0, 0⟩, none⟩, ⟨1, 0, ⟨0, 0⟩, none⟩], [0, 0, 0, 7, 7, 15, 31, 15, 7], ⟨1, [false, false]⟩,
    [some ⟨1, [false, true]⟩]⟩

theorem sgQ0_described : Described sgPhyla sgQ0.base := by
  refine ⟨rfl, ?_, ?_, ?_, ?_, ?_, ?_, ?_, ?_⟩
  · refine sgIdx (n := 3) rfl fun i hi inst h => ?_
    interval_cases i <;> (simp [sgQ0, sgInst] at h; subst h; simp)
  · refine sgIdx (n := 3) rfl fun i hi inst h => ?_
    interval_cases i <;> (simp [sgQ0, sgInst] at h; subst h; simp [sgPhyla, sgQ0])
  · intro i inst c h
    revert i inst
    refine sgIdx (n := 3) rfl fun i hi inst h => ?_
    interval_cases i <;> (simp [sgQ0, sgInst] at h; subst h; simp [sgPhyla, sgQ0]) <;> (rintro rfl; simp)
  · refine sgIdx (n := 3) rfl fun i hi inst h => ?_
    interval_cases i <;> (simp [sgQ0, sgInst] at h; subst h; simp)
  · intro i j a b hi hj
    revert j b
    revert i a
    refine sgIdx (n := 3) rfl fun i hi a ha => ?_
    refine sgIdx (n := 3) rfl fun j hj b hb => ?_
    interval_cases i <;> (simp [sgQ0, sgInst] at ha; subst ha) <;> interval_cases j <;> (simp [sgQ0, sgInst] at hb; subst hb; simp)
  · intro r t f h
    have h' : Block.Has (.assign 1 _ (.assign 0 _ .nil)) r t f := h
    cases h' with | assign h => cases h with | assign h => cases h
  · intro σ q h
    simp [sgQ0, Block.active] at h
    rcases h with rfl | rfl <;> decide
  · intro σ
    simp [sgQ0, Block.active]

def sgQProds : List (SProd (_root_.Fin 4)) := [sgQ0, sgP1, sgP2]

def sgQCodes : List (List (Code (_root_.Fin 4))) :=
  [[.assign 1 ⟨[2], fun vs => max (sgId vs) 1⟩ (.visit 0 1 (.assign 0 ⟨[2], sgId⟩ .done))],
   [.assign 2 ⟨[0], sgId⟩ (.visit 0 1 (.assign 1 ⟨[3], sgUp⟩ .done))],
   [.assign 1 ⟨[0], sgId⟩ .done]]

/-- `sgQ0` is scheduled by the chunk scheduler -/
theorem sgQ0_from : sgQ0.From sgQInput := by
  refine ⟨⟨100, ?_⟩, ?_, ⟨?_, rfl⟩, rfl, ?_⟩
  · have : (match Chunk.schedule 100 sgQInput with | .ok t => decide (t = sgQ0.order) | _ => false) = true := by decide +kernel
    generalize Chunk.schedule 100 sgQInput = r at this ⊢
    cases r <;> simp_all
  · intro cs h k c hk
    have h' : Chunk.collectChunks sgQInput = .ok [⟨.halfLeft, 1, -1, false, []⟩, ⟨.halfRight, 1, -1, false, [0]⟩, ⟨.visit, 1, 0, true, [1, 2]⟩] := rfl
    rw [h'] at h
    cases h
    match k, hk with
    | 0, hk => cases hk; rfl
    | 1, hk => cases hk; rfl
    | 2, hk => cases hk; rfl
  · intro q
    match q with
    | 0 => rfl
    | 1 => rfl
    | q + 2 => rfl
  · intro i e j he hj
    match i, he with
    | 0, he =>
      cases he
      rcases List.mem_singleton.1 hj with rfl
      decide
    | 1, he =>
      cases he
      rcases List.mem_singleton.1 hj with rfl
      decide
    | 2, he => cases he
    | i + 3, he => simp [Prod.rhs, Block.active, sgQ0] at he

theorem sgQOrdered : Ordered sgA sgR sgQProds := by
  refine ⟨fun _ _ => le_refl _, fun _ _ _ _ h₁ h₂ => le_trans h₁ h₂, fun _ _ v => Fin.zero_le v, ?_⟩
  intro P hP i e he vs ws h
  simp only [sgQProds, List.mem_cons, List.not_mem_nil, or_false] at hP
  rcases hP with rfl | rfl | rfl
  · show e.fn vs ≤ e.fn ws
    match i, he with
    | 0, he => cases he; exact sgId_mono h
    | 1, he => cases he; exact max_le_max (sgId_mono h) (le_refl _)
    | 2, he => cases he
    | i + 3, he => simp [SProd.rhs, Prod.rhs, Block.active, sgQ0] at he
  · exact sgOrdered.mono sgP1 (by simp [sgProds]) i e he vs ws h
  · exact sgOrdered.mono sgP2 (by simp [sgProds]) i e he vs ws h

/-- a solution is one at the root -/
theorem sgSolved0 {prods : List (Prod (_root_.Fin 4))} {p : Nat} {kids : List Static.Tree} {P : Prod (_root_.Fin 4)} (hP : prods[p]? = some P)
    {val : Slot → Option (_root_.Fin 4)} (h : Solves prods (.node p kids) val) : P.Solved val [] := by
  obtain ⟨P', hP', hs⟩ := h [] p kids .root
  rw [hP] at hP'
  cases hP'
  exact hs

/-- If what has to be repeated is the first thing in the total order of a production, there is no loop: the evaluation ends
with values that do not solve the equations. (The check at static-scc-impl.cc:409-415 looks at the number of the chunk,
which is never -1 there.) -/
theorem C82_first_refuted : ∃ (P : SProd (_root_.Fin 4)) (I : Chunk.Input) (codes : List (List (Code (_root_.Fin 4)))) (t : Static.Tree)
    (st : St (_root_.Fin 4)), P.From I ∧ Described sgPhyla P.base ∧ Ordered sgA sgR [P, sgP1, sgP2] ∧ Bounded sgA sgR ∧
    (∀ (p : Nat) (Q : SProd (_root_.Fin 4)), [P, sgP1, sgP2][p]? = some Q → ∃ cs, codes[p]? = some cs ∧ Printed Q cs) ∧
    HasTy (bases [P, sgP1, sgP2]) t (some 0) ∧
    visitAll sgA 4 3 [P, sgP1, sgP2] codes (sgCyc 0) 0 t (List.range' 1 (sgPhyla.visits 0)) ⟨fun _ => none, false⟩ = .ok st ∧
    ¬ Solves (bases [P, sgP1, sgP2]) t st.val := by
  have hrun : sgOut (visitAll sgA 4 3 sgQProds sgQCodes (sgCyc 0) 0 sgTree (List.range' 1 (sgPhyla.visits 0)) ⟨fun _ => none, false⟩) =
      some [some 2, some 1, some 2] := by decide +kernel
  cases hv : visitAll sgA 4 3 sgQProds sgQCodes (sgCyc 0) 0 sgTree (List.range' 1 (sgPhyla.visits 0)) ⟨fun _ => none, false⟩ with
  | ub => rw [hv] at hrun; cases hrun
  | stop => rw [hv] at hrun; cases hrun
  | nofuel => rw [hv] at hrun; cases hrun
  | ok st =>
    rw [hv] at hrun
    simp only [sgOut, Option.some.injEq, List.cons.injEq, and_true] at hrun
    refine ⟨sgQ0, sgQInput, sgQCodes, sgTree, st, sgQ0_from, sgQ0_described, sgQOrdered, sgBounded, ?_, ?_, hv, ?_⟩
    · intro p P h
      match p, h with
      | 0, h => cases h; exact ⟨_, rfl, rfl⟩
      | 1, h => cases h; exact ⟨_, rfl, rfl⟩
      | 2, h => cases h; exact ⟨_, rfl, rfl⟩
    · have h2 : HasTy (bases sgQProds) (.node 2 []) (some 1) := .node (P := sgP2.base) rfl rfl (fun c k o h => by cases h)
      have h1 : HasTy (bases sgQProds) (.node 1 [.node 2 []]) (some 1) := by
        refine .node (P := sgP1.base) rfl rfl (fun c k o h h' => ?_)
        match c, h, h' with
        | 0, h, h' => cases h; cases h'; exact h2
      refine .node (P := sgQ0.base) rfl rfl (fun c k o h h' => ?_)
      match c, h, h' with
      | 0, h, h' => cases h; cases h'; exact h1
    · intro hs
      obtain ⟨σ, _, hall⟩ := sgSolved0 (prods := bases sgQProds) (p := 0) (P := sgQ0.base) rfl hs
      obtain ⟨e, v, h₁, h₂, h₃⟩ := hall 1 ⟨_, rfl, .inr (.inl ⟨by decide, by decide, rfl⟩)⟩
      cases h₁
      have ha : sgQ0.base.value st.val [] 2 = some 2 := hrun.2.2
      have hb : sgQ0.base.value st.val [] 1 = some 1 := hrun.2.1
      rw [hb] at h₃
      cases h₃
      simp [Prod.eval, ha, sgId] at h₂

/-! Two circular locals that need each other. -/

def sgL : SProd (_root_.Fin 4) where
  base := {
    insts := [sgInst true none (-1) true (.node true) 9, sgInst true none 1 false (.node false) 10, sgInst false none 0 false (.loc false) 2,
      sgInst false none 0 false (.loc false) 3]
    defaults := List.replicate 4 none
    body := .decl 2 (.decl 3 (.assign 2 ⟨[3], sgUp⟩ (.assign 3 ⟨[2], sgId⟩ (.assign 1 ⟨[2], sgId⟩ .nil))))
    cto := .nil
    lhsPhy := 0
    kidPhy := [] }
  conds := []
  rules := []
  coll _ := false
  dfltFirst := true
  order := .inst 0 1 0 (.inst 2 1 2 (.inst 3 1 3 (.inst 1 1 1 (.mark 1 (-1) 1 1 .nil))))
  chunkCirc k := k == 2 || k == 3
  cyclic _ := false
  maxPhase := 1

def sgLPhyla : Phyla where
  sched p x := match p, x with
    | 0, 9 => some (-1)
    | 0, 10 => some 1
    | _, _ => none
  implicit _ x := x == 9
  visits p := match p with
    | 0 => 1
    | _ => 0

def sgLA : Attrs (_root_.Fin 4) where
  circ k := k == .loc 2 || k == .loc 3
  bot _ := 0
  le _ v w := decide (v ≤ w)

def sgLInput : Chunk.Input :=
  ⟨[⟨-1, -1, ⟨0, 0⟩, none⟩, ⟨1, -1, ⟨0, 0⟩, none⟩, ⟨0, 0, ⟨0, 0⟩, none⟩, ⟨0, 0, ⟨0, 0⟩, none⟩],
    [0, 0, 0, 0, 0, 0, 0, 0, 0, 31, 7, 15, 0, 7, 15, 7], ⟨1, [false, false]⟩, []⟩

def sgLCodes : List (List (Code (_root_.Fin 4))) :=
  [[.loop 2 (.assign 2 ⟨[3], sgUp⟩ .done) (.loop 3 (.assign 3 ⟨[2], sgId⟩ .done) (.assign 1 ⟨[2], sgId⟩ .done))]]

theorem sgL_described : Described sgLPhyla sgL.base := by
  refine ⟨rfl, ?_, ?_, ?_, ?_, ?_, ?_, ?_, ?_⟩
  · refine sgIdx (n := 4) rfl fun i hi inst h => ?_
    interval_cases i <;> (simp [sgL, sgInst] at h; subst h; simp)
  · refine sgIdx (n := 4) rfl fun i hi inst h => ?_
    interval_cases i <;> (simp [sgL, sgInst] at h; subst h; simp [sgLPhyla, sgL])
  · intro i inst c h
    revert i inst
    refine sgIdx (n := 4) rfl fun i hi inst h => ?_
    interval_cases i <;> (simp [sgL, sgInst] at h; subst h; simp [sgLPhyla, sgL])
  · refine sgIdx (n := 4) rfl fun i hi inst h => ?_
    interval_cases i <;> (simp [sgL, sgInst] at h; subst h; simp)
  · intro i j a b hi hj
    revert j b
    revert i a
    refine sgIdx (n := 4) rfl fun i hi a ha => ?_
    refine sgIdx (n := 4) rfl fun j hj b hb => ?_
    interval_cases i <;> (simp [sgL, sgInst] at ha; subst ha) <;> interval_cases j <;> (simp [sgL, sgInst] at hb; subst hb; simp)
  · intro r t f h
    have h' : Block.Has (.decl 2 (.decl 3 (.assign 2 _ (.assign 3 _ (.assign 1 _ .nil))))) r t f := h
    cases h' with | decl h => cases h with | decl h => cases h with | assign h => cases h with | assign h => cases h with | assign h => cases h
  · intro σ q h
    simp [sgL, Block.active] at h
    rcases h with rfl | rfl | rfl <;> decide
  · intro σ
    simp [sgL, Block.active]

theorem sgL_from : sgL.From sgLInput := by
  refine ⟨⟨100, ?_⟩, ?_, ⟨?_, rfl⟩, rfl, ?_⟩
  · have : (match Chunk.schedule 100 sgLInput with | .ok t => decide (t = sgL.order) | _ => false) = true := by decide +kernel
    generalize Chunk.schedule 100 sgLInput = r at this ⊢
    cases r <;> simp_all
  · intro cs h k c hk
    have h' : Chunk.collectChunks sgLInput = .ok [⟨.halfLeft, 1, -1, false, [0]⟩, ⟨.halfRight, 1, -1, false, [1]⟩, ⟨.loc, 0, 0, true, [2]⟩,
      ⟨.loc, 0, 0, true, [3]⟩] := rfl
    rw [h'] at h
    cases h
    match k, hk with
    | 0, hk => cases hk; rfl
    | 1, hk => cases hk; rfl
    | 2, hk => cases hk; rfl
    | 3, hk => cases hk; rfl
  · intro q
    match q with
    | 0 => rfl
    | 1 => rfl
    | q + 2 => rfl
  · intro i e j he hj
    match i, he with
    | 0, he => cases he
    | 1, he =>
      cases he
      rcases List.mem_singleton.1 hj with rfl
      decide
    | 2, he =>
      cases he
      rcases List.mem_singleton.1 hj with rfl
      decide
    | 3, he =>
      cases he
      rcases List.mem_singleton.1 hj with rfl
      decide
    | i + 4, he => simp [Prod.rhs, Block.active, sgL] at he

theorem sgLOrdered : Ordered sgLA sgR [sgL] := by
  refine ⟨fun _ _ => le_refl _, fun _ _ _ _ h₁ h₂ => le_trans h₁ h₂, fun _ _ v => Fin.zero_le v, ?_⟩
  intro P hP i e he vs ws h
  simp only [List.mem_cons, List.not_mem_nil, or_false] at hP
  subst hP
  show e.fn vs ≤ e.fn ws
  match i, he with
  | 0, he => cases he
  | 1, he => cases he; exact sgId_mono h
  | 2, he => cases he; exact sgUp_mono h
  | 3, he => cases he; exact sgId_mono h
  | i + 4, he => simp [SProd.rhs, Prod.rhs, Block.active, sgL] at he

def sgOutL {V : Type} (r : Res (St V)) : Option (List (Option V)) :=
  match r with
  | .ok st => some [st.val ([], .loc 2), st.val ([], .loc 3)]
  | _ => none

/-- Each circular local has a chunk of its own and gets a loop of its own, also if two of them need each other: the
evaluation ends with values that do not solve the equations. -/
theorem C82_locals_refuted : ∃ (P : SProd (_root_.Fin 4)) (I : Chunk.Input) (codes : List (List (Code (_root_.Fin 4)))) (t : Static.Tree)
    (st : St (_root_.Fin 4)), P.From I ∧ Described sgLPhyla P.base ∧ Ordered sgLA sgR [P] ∧ Bounded sgLA sgR ∧
    (∀ (p : Nat) (Q : SProd (_root_.Fin 4)), [P][p]? = some Q → ∃ cs, codes[p]? = some cs ∧ Printed Q cs) ∧
    HasTy (bases [P]) t (some 0) ∧
    visitAll sgLA 9 2 [P] codes (fun _ => false) 0 t (List.range' 1 (sgLPhyla.visits 0)) ⟨fun _ => none, false⟩ = .ok st ∧
    ¬ Solves (bases [P]) t st.val := by
  have hrun : sgOutL (visitAll sgLA 9 2 [sgL] sgLCodes (fun _ => false) 0 (.node 0 []) (List.range' 1 (sgLPhyla.visits 0)) ⟨fun _ => none, false⟩) =
      some [some 1, some 1] := by decide +kernel
  cases hv : visitAll sgLA 9 2 [sgL] sgLCodes (fun _ => false) 0 (.node 0 []) (List.range' 1 (sgLPhyla.visits 0)) ⟨fun _ => none, false⟩ with
  | ub => rw [hv] at hrun; cases hrun
  | stop => rw [hv] at hrun; cases hrun
  | nofuel => rw [hv] at hrun; cases hrun
  | ok st =>
    rw [hv] at hrun
    simp only [sgOutL, Option.some.injEq, List.cons.injEq, and_true] at hrun
    refine ⟨sgL, sgLInput, sgLCodes, .node 0 [], st, sgL_from, sgL_described, sgLOrdered, ?_, ?_, ?_, hv, ?_⟩
    · exact ⟨fun k _ v w h => decide_eq_true h, fun _ v => v.val, 3, fun k _ =>
        ⟨fun v w h hne => (lt_of_le_of_ne h hne : v < w), fun v => Nat.le_of_lt_succ v.isLt⟩⟩
    · intro p P h
      match p, h with
      | 0, h => cases h; exact ⟨_, rfl, rfl⟩
    · exact .node (P := sgL.base) rfl rfl (fun c k o h h' => by cases h)
    · intro hs
      obtain ⟨σ, _, hall⟩ := sgSolved0 (prods := bases [sgL]) (p := 0) (P := sgL.base) rfl hs
      obtain ⟨e, v, h₁, h₂, h₃⟩ := hall 2 ⟨_, rfl, .inr (.inr ⟨rfl, rfl, by simp [sgL, Block.locals]⟩)⟩
      cases h₁
      have ha : sgL.base.value st.val [] 3 = some 1 := hrun.2
      have hb : sgL.base.value st.val [] 2 = some 1 := hrun.1
      rw [hb] at h₃
      cases h₃
      simp [Prod.eval, ha, sgUp] at h₂

/-- In C++ nothing is repeated. -/
theorem C82_cpp_refuted : ∃ (P : SProd (_root_.Fin 4)) (plan : List Visit), Planned sgPhyla sgCyc sgA P plan ∧
    (∃ tss, dumpVisits true true P = .ok tss ∧ ∃ ts ∈ tss, ∃ k, Tok.loopStart k ∈ ts) ∧
    ∃ codes : List (Code (_root_.Fin 4)), dumpVisits false true P = .ok (codes.map Code.render) ∧ ∀ c ∈ codes, c.NoLoop := by
  refine ⟨sgP0, sgPlan0, sgP0_planned, ⟨_, rfl, _, List.mem_cons_self, 1, ?_⟩, ?_⟩
  · show Tok.loopStart 1 ∈ [Tok.assign 3 _, .loopStart 1, .assign 1 _, .visit 0 1, .loopEnd 1, .assign 0 _]
    simp
  · obtain ⟨tss, h, _⟩ := C83_prints false true (P := sgP0)
      (by simp [sgP0, planTree, sgPlan0, runsTree, stepsTree, Step.tree, SProd.Fits, sgInst])
      (by simp [sgP0, Block.own])
    obtain ⟨codes, hc, hn⟩ := C83_cpp h
    refine ⟨codes, by rw [h, hc], fun c hc' => ?_⟩
    obtain ⟨q, hq, rfl⟩ := List.mem_iff_getElem.1 hc'
    exact hn q _ (List.getElem?_eq_getElem hq)

/-! Defaults and collections in conditionals. -/

def sgD (coll dfltFirst : Bool) (dflt : Option (Expr (_root_.Fin 4))) (inner : Block (_root_.Fin 4)) : SProd (_root_.Fin 4) where
  base := {
    insts := [sgInst true none (-1) true (.node true) 9, sgInst true none 1 false (.node false) 10,
      ⟨false, none, 0, some ⟨.ifs [] (fun _ => true), inner, some .nil⟩, false, .unknown, 0⟩]
    defaults := [none, dflt, none]
    body := .assign 1 ⟨[], fun _ => 1⟩ (.cond 2 inner .nil .nil)
    cto := .nil
    lhsPhy := 0
    kidPhy := [] }
  conds := []
  rules := [none, none, some 0]
  coll _ := coll
  dfltFirst := dfltFirst
  order := .inst 0 1 0 (.ifs 2 1 2 (.inst 1 1 1 (.mark 1 (-1) 1 1 .nil)) (.inst 1 1 1 (.mark 1 (-1) 1 1 .nil)))
  chunkCirc _ := false
  cyclic _ := false
  maxPhase := 1

/-- The default of an attribute is assigned, too, if there is a conditional before, although there is an assignment; if its
address is larger, after it. -/
theorem C81_default_refuted : ∃ (P : SProd (_root_.Fin 4)) (e d : Expr (_root_.Fin 4)), e.fn [] ≠ d.fn [] ∧
    (∀ σ, P.base.rhs σ 1 = some e) ∧ (∀ i, P.coll i = false) ∧
    dumpVisits true true P = .ok [[.ifOpen [] (fun _ => true), .assign 1 e, .assign 1 d, .elseOpen, .assign 1 e, .assign 1 d, .close]] :=
  ⟨sgD false false (some ⟨[], fun _ => 0⟩) .nil, ⟨[], fun _ => 1⟩, ⟨[], fun _ => 0⟩, by decide, fun σ => by
    simp [sgD, Prod.rhs, Block.active], fun _ => rfl, rfl⟩

/-- What is contributed to a collection outside is lost in a branch that contributes, too. -/
theorem C81_collection_refuted : ∃ (P : SProd (_root_.Fin 4)) (e d : Expr (_root_.Fin 4)), e.fn [] ≠ d.fn [] ∧ P.coll 1 = true ∧
    (∀ σ, (1, e) ∈ P.base.body.active σ) ∧ (∀ σ, σ 2 = true → (1, d) ∈ P.base.body.active σ) ∧
    dumpVisits true true P = .ok [[.ifOpen [] (fun _ => true), .assign 1 d, .elseOpen, .assign 1 e, .close]] :=
  ⟨sgD true false none (.assign 1 ⟨[], fun _ => 2⟩ .nil), ⟨[], fun _ => 1⟩, ⟨[], fun _ => 2⟩, by decide, rfl, fun σ => by
    simp [sgD, Block.active], fun σ h => by simp [sgD, Block.active, h], rfl⟩

end Aps.Props
