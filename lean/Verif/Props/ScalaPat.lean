import Verif.Proofs.ScalaPat
import Verif.Props.DynGen
/-!
# C93: patterns in the generated Scala program
-/
namespace Aps.Props
open Aps.DynGen Aps.ScalaPat

variable {V : Type}

/-- **C93**: if what the generator prints for a pattern is a legal Scala pattern, then it matches exactly the
values that the pattern of the source matches, and every variable that the following code uses has the same
value -- for every value matched, whatever was printed before (`k`), provided that the names of the variables are
kept apart. -/
theorem C93_match (W : World V) (ar : Nat → Nat) (nm : Names) (p : Pat V) (hn : Apart nm p) (k : Nat) (s : SPat V) (k' : Nat)
    (h : dumpP nm p false k = some (s, k')) (hl : Legal ar s) (v : V) (ρ : Env V) :
    smatchTop W nm s v ρ = pmatch W p v ρ := by
  have h0 : scope nm ([] : List (Name × V)) ρ = ρ := rfl
  cases s with
  | guard t e =>
    cases p with
    | typed t p => cases p <;> simp [dumpP] at h
    | call c ps => simp [dumpP] at h
    | seq ps => simp [dumpP] at h
    | and p q =>
      rw [dumpP_and] at h
      cases q <;> simp only [Option.bind_eq_some_iff, Option.map_eq_some_iff, _root_.Prod.exists, _root_.Prod.mk.injEq] at h
      case cond e' =>
        obtain ⟨t', k1, e1, e2, rfl⟩ := h
        cases e2
        have := smatch_spec (W := W) (ar := ar) hn.2 p false k t _ e1 hl.1 (fun x hx => hn.1 x (by simp [patVars, hx])) v [] ρ
        rw [h0] at this
        simp only [smatchTop, pmatch]
        rw [← this]
        cases smatch W t v [] <;> rfl
      all_goals (obtain ⟨_, _, _, _, _, _, h, _⟩ := h; cases h)
    | var x => simp [dumpP] at h
    | wild => simp [dumpP] at h
    | cond e => simp [dumpP] at h
    | rest => simp [dumpP] at h
  | star => exact hl.1.elim
  | any => exact smatch_spec (W := W) (ar := ar) hn.2 p false k _ _ h hl.1 hn.1 v [] ρ
  | var n => exact smatch_spec (W := W) (ar := ar) hn.2 p false k _ _ h hl.1 hn.1 v [] ρ
  | typed n t => exact smatch_spec (W := W) (ar := ar) hn.2 p false k _ _ h hl.1 hn.1 v [] ρ
  | call c r as => exact smatch_spec (W := W) (ar := ar) hn.2 p false k _ _ h hl.1 hn.1 v [] ρ
  | seq r as => exact smatch_spec (W := W) (ar := ar) hn.2 p false k _ _ h hl.1 hn.1 v [] ρ
  | pand a b => exact smatch_spec (W := W) (ar := ar) hn.2 p false k _ _ h hl.1 hn.1 v [] ρ

/-- **C93**: for which patterns of the source the form of what is printed is that of a Scala pattern: exactly those
made of variables, constructors, sequences (with `...` only at the end) and conjunctions, with a condition (if any) only at the very end. -/
theorem C93_form (ar : Nat → Nat) (nm : Names) (p : Pat V) (k : Nat) :
    (∃ s k', dumpP nm p false k = some (s, k') ∧ form ar s) ↔ Supported ar p := by
  have key : ∀ p : Pat V, (∀ q e, p ≠ .and q (.cond e)) →
      ((∃ s k', dumpP nm p false k = some (s, k') ∧ form ar s) ↔ plain ar p) := by
    intro p hp
    constructor
    · rintro ⟨s, k', h, hf⟩
      cases s with
      | guard t e =>
        exfalso
        cases p with
        | typed t p => cases p <;> simp [dumpP] at h
        | call c ps => simp [dumpP] at h
        | seq ps => simp [dumpP] at h
        | and p q =>
          rw [dumpP_and] at h
          cases q <;> simp only [Option.bind_eq_some_iff, Option.map_eq_some_iff, _root_.Prod.exists, _root_.Prod.mk.injEq] at h
          case cond e' => exact hp _ _ rfl
          all_goals (obtain ⟨_, _, _, _, _, _, h, _⟩ := h; cases h)
        | var x => simp [dumpP] at h
        | wild => simp [dumpP] at h
        | cond e => simp [dumpP] at h
        | rest => simp [dumpP] at h
      | _ => exact dump_plain ar nm p false k _ _ h hf
    · intro h
      obtain ⟨s, k', e, hi⟩ := plain_dump ar nm p false k h
      refine ⟨s, k', e, ?_⟩
      cases s <;> first | exact hi | exact hi.elim
  have cnd : ∀ (p : Pat V) e, (∃ s k', dumpP nm (.and p (.cond e)) false k = some (s, k') ∧ form ar s) ↔ plain ar p := by
    intro p e
    constructor
    · rintro ⟨s, k', h, hf⟩
      rw [dumpP_and] at h
      simp only [Option.map_eq_some_iff, _root_.Prod.exists, _root_.Prod.mk.injEq] at h
      obtain ⟨t, k1, e1, rfl, rfl⟩ := h
      exact dump_plain ar nm p false k _ _ e1 hf
    · intro h
      obtain ⟨s, k', e1, hi⟩ := plain_dump ar nm p false k h
      exact ⟨.guard s e, k', by rw [dumpP_and]; simp [e1], hi⟩
  cases p with
  | and p q =>
    cases q with
    | cond e => exact cnd p e
    | _ => exact key _ (fun _ _ h => by simp at h)
  | _ => exact key _ (fun _ _ h => by simp at h)

/-- **C93**: a pattern of that form in which every variable has a name, different variables different ones, is printed as
a legal Scala pattern, whatever was printed before. -/
theorem C93_named (ar : Nat → Nat) (nm : Names) (p : Pat V) (hs : Supported ar p) (hn : named p)
    (hd : ((patVars p).map nm.bound).Nodup) (k : Nat) :
    ∃ s k', dumpP nm p false k = some (s, k') ∧ Legal ar s := by
  obtain ⟨s, k', h, hf⟩ := (C93_form ar nm p k).2 hs
  exact ⟨s, k', h, hf, by rw [svars_named nm p _ _ _ _ h hn]; exact hd⟩

/-- **C93**: the pattern of a rule, `?x=c(?y,?,?z,...)`, in which variables may have no name, is printed as a legal Scala
pattern, whatever was printed before, if different variables have different names, none of them a number. -/
theorem C93_rule (ar : Nat → Nat) (nm : Names) (x c : Nat) (ps : List (Pat V)) (ha : ps.length = ar c)
    (hv : ∀ p ∈ ps, isVar p) (hd : ((x :: patsVars ps).map nm.bound).Nodup)
    (hx : ∀ y ∈ x :: patsVars ps, ∀ j, nm.bound y ≠ numbered j) (k : Nat) :
    ∃ s k', dumpP nm (.and (.var x) (.call c ps)) false k = some (s, k') ∧ Legal ar s := by
  simp only [List.map_cons, List.nodup_cons] at hd
  obtain ⟨as, e, hl, hi, hn, hm⟩ := rule_actuals nm ps 0 hv (fun y hy => hx y (by simp [hy])) hd.2
  refine ⟨.call c (.var (nm.bound x)) as, 0 + ps.length, by rw [dumpP_and]; simp [dumpP, e], ⟨trivial, hl.trans ha, hi ar⟩, ?_⟩
  simp only [svars, List.cons_append, List.nil_append, List.nodup_cons]
  refine ⟨fun hb => ?_, hn⟩
  rcases hm _ hb with hb | ⟨j, _, hb⟩
  · exact hd.1 hb
  · exact hx x (by simp) j hb

/-- **C93** (the program): the functions generated for Scala, with the patterns that are printed, compute what the
equations say (C47), if the patterns are printed as legal Scala patterns.  `at_ p`: what the counter is
when `p` is printed. -/
theorem C93_program (W : World V) (ar : Nat → Nat) (nm : Names) (at_ : Pat V → Nat) (pr : Printer V) (ts : List (Tlm V)) (d : Nat)
    (hp : ∀ t ∈ ts, legalAt ar nm at_ t.pat ∧ patsB (legalAt ar nm at_) t.body)
    (hc : ∀ t ∈ ts, covered .scala d t.body)
    (he : (dumpTlms .scala pr d true ts Gen.start).err = false) :
    (∃ f, (dumpTlms .scala pr d true ts Gen.start).out = renderFun true f) ∧
    ∀ f, (dumpTlms .scala pr d true ts Gen.start).out = renderFun true f →
      ∀ (col : Bool) (anode : V) (deft : Option V) (nodes : Nat → List V) (ρ : Env V), (col = true → deft.isSome = true) →
        call W .scala (printed W nm at_) ⟨col, anode⟩ deft nodes f ρ =
          match value W col deft (actives W d anode nodes ρ ts) with
          | some v => .ok v
          | none => .stop := by
  have R : Right W .scala (printed W nm at_) pr (legalAt ar nm at_) := by
    intro p c b _ hp n ρ
    obtain ⟨hn, s, k', h, hl⟩ := hp
    simp only [armMatch, printed, h]
    rw [C93_match W ar nm p hn _ s k' h hl n ρ]
  obtain ⟨h1, h2⟩ := gen_correct R hp hc he
  exact ⟨h1, fun f hf col anode deft nodes ρ hd => h2 f hf col anode deft nodes ρ (fun h => by cases h) hd⟩

/-! ### A case that meets the hypotheses -/

/-- Names `a`, `aa`, `aaa`, ... -/
def spNames : Names := ⟨fun x => List.replicate (x + 1) 'a', fun _ => none⟩

theorem decimal_not_a : ∀ k, ¬ 'a' ∈ Ast.decimal k := by
  intro k
  induction k using Nat.strongRecOn with
  | ind k ih =>
    unfold Ast.decimal
    have dig : ∀ d, d < 10 → 'a' ≠ Nat.digitChar d := by decide
    split
    · rename_i h; simpa using dig k h
    · rename_i h
      simp only [List.mem_append, List.mem_singleton, not_or]
      exact ⟨ih _ (Nat.div_lt_self (by omega) (by omega)), dig _ (Nat.mod_lt _ (by omega))⟩

theorem spNames_apart (p : Pat V) : Apart spNames p := by
  have ub : ∀ x, spNames.used x = spNames.bound x := fun _ => rfl
  have inj : ∀ {x y}, spNames.used y = spNames.bound x → y = x := by
    intro x y h
    have := congrArg List.length h
    simp [Names.used, Names.bound, spNames] at this
    exact this
  refine ⟨fun x _ y => ⟨inj, fun h => by rw [h, ub]⟩, fun y k h => ?_⟩
  have h2 : List.replicate (y + 1) 'a' = Ast.decimal k := List.append_cancel_left h
  exact decimal_not_a k (by rw [← h2]; simp)

/-- `?x=f(?y,?,?z)`. -/
def spRule : Pat Nat := .and (.var 0) (.call 7 [.var 1, .wild, .var 2])

example : (∃ s k', dumpP spNames spRule false 5 = some (s, k') ∧ Legal (fun _ => 3) s) :=
  C93_rule (fun _ => 3) spNames 0 7 [.var 1, .wild, .var 2] rfl (by simp [isVar]) (by decide)
    (fun y _ j h => (spNames_apart spRule).2 y j h) 5

/-- `f({?y,...},?z) if e`. -/
def spNested : Pat Nat := .and (.call 7 [.seq [.var 1, .rest], .var 2]) (.cond fun ρ => ρ 1 + ρ 2)

example : Supported (fun _ => 2) spNested ∧ named spNested ∧ ((patVars spNested).map spNames.bound).Nodup := by
  refine ⟨by simp [Supported, spNested, plain, plainAll, plainSeq], by simp [named, spNested, namedAll], by decide⟩

/-- A rule `?x=f(?y,?,?z)` that gives a value to attribute 9 at `x`. -/
def spProgram : List (Tlm Nat) := [⟨1, spRule, [.assign (.attr 9 fun ρ => ρ 0) fun ρ => ρ 1 + ρ 2]⟩]

example : ∀ t ∈ spProgram, legalAt (fun _ => 3) spNames (fun _ => 5) t.pat ∧ patsB (legalAt (fun _ => 3) spNames (fun _ => 5)) t.body := by
  intro t ht
  simp only [spProgram, List.mem_singleton] at ht
  subst ht
  refine ⟨⟨spNames_apart _, ?_⟩, by simp [patsB, patsS]⟩
  exact C93_rule (fun _ => 3) spNames 0 7 [.var 1, .wild, .var 2] rfl (by simp [isVar]) (by decide)
    (fun y _ j h => (spNames_apart spRule).2 y j h) 5

/-! ### What does not hold -/

/-- The counter starts again for each constructor pattern, so two nameless variables get the same name: `f(?,g(?))` has the
right form, the generator reports no error, and Scala rejects what is printed. -/
theorem C93_nameless_refuted : ∃ (ar : Nat → Nat) (p : Pat Nat), Supported ar p ∧ patOk ar p ∧
    ∀ (nm : Names) (k : Nat), ∃ s k', dumpP nm p false k = some (s, k') ∧ ¬ Legal ar s := by
  refine ⟨fun c => if c = 1 then 2 else 1, .call 1 [.wild, .call 2 [.wild]], by simp [Supported, plain, plainAll],
    by simp [patOk, patsOk], fun nm k => ⟨.call 1 .any [.var (numbered 0), .call 2 .any [.var (numbered 0)]], 2,
      by simp [dumpP, actualsP], fun h => ?_⟩⟩
  have := h.2
  simp [svars, svarsAll] at this

/-- And a nested pattern sets the counter back for the variables after it: in `f(?,?,g(),?)` one constructor pattern has
two variables of the same name. -/
theorem C93_reset_refuted : ∃ (ar : Nat → Nat) (p : Pat Nat), Supported ar p ∧ patOk ar p ∧
    ∀ (nm : Names) (k : Nat), ∃ s k', dumpP nm p false k = some (s, k') ∧ ¬ Legal ar s := by
  refine ⟨fun c => if c = 1 then 4 else 0, .call 1 [.wild, .wild, .call 2 [], .wild], by simp [Supported, plain, plainAll],
    by simp [patOk, patsOk], fun nm k => ⟨.call 1 .any [.var (numbered 0), .var (numbered 1), .call 2 .any [], .var (numbered 1)], 2,
      by simp [dumpP, actualsP], fun h => ?_⟩⟩
  have := h.2
  simp [svars, svarsAll, numbered] at this

/-- Whether `?=f(?)` is printed as a legal Scala pattern depends on what was printed before. -/
theorem C93_history_refuted : ∃ (ar : Nat → Nat) (p : Pat Nat) (nm : Names) (k₁ k₂ : Nat),
    (∃ s k', dumpP nm p false k₁ = some (s, k') ∧ Legal ar s) ∧ ∃ s k', dumpP nm p false k₂ = some (s, k') ∧ ¬ Legal ar s := by
  refine ⟨fun _ => 1, .and .wild (.call 1 [.wild]), spNames, 1, 0,
    ⟨.call 1 (.var (numbered 1)) [.var (numbered 0)], 1, by simp [dumpP, actualsP], ?_⟩,
    ⟨.call 1 (.var (numbered 0)) [.var (numbered 0)], 1, by simp [dumpP, actualsP], fun h => ?_⟩⟩
  · refine ⟨by simp [form, inner, innerAll], ?_⟩
    simp only [svars, svarsAll, List.append_nil, List.cons_append, List.nil_append, List.nodup_cons, List.mem_singleton,
      List.not_mem_nil, not_false_eq_true, List.nodup_nil, and_true]
    intro h
    have := numbered_inj h
    omega
  · have := h.2
    simp [svars, svarsAll] at this

/-- A literal inside a pattern, `f(1)`, is a variable with a condition (`parse/aps.y:112-117`).  The C++ generator prints code
for it that matches the right values (C47); the Scala generator reports no error and prints what is no Scala pattern. -/
theorem C93_literal_refuted : ∃ (ar : Nat → Nat) (p : Pat Nat), patOk ar p ∧ (cppPrinter ar p).isSome = true ∧ named p ∧
    ∀ (nm : Names) (k : Nat), ∃ s k', dumpP nm p false k = some (s, k') ∧ ¬ Legal ar s := by
  refine ⟨fun _ => 1, .call 1 [.and (.var 5) (.cond fun ρ => if ρ 5 = 1 then 1 else 0)], by simp [patOk, patsOk],
    by simp [cppPrinter, pcond, callCond], by simp [named, namedAll],
    fun nm k => ⟨.call 1 .any [.guard (.var (nm.bound 5)) fun ρ => if ρ 5 = 1 then 1 else 0], 1,
      by simp [dumpP, actualsP], fun h => ?_⟩⟩
  exact h.1.2.2.1

/-- A variable whose name is an operator is bound under that name, but used under its code name: the pattern is legal and
matches the right values, but the variable is not the one the body uses. -/
theorem C93_operator_refuted : ∃ (W : World Nat) (nm : Names) (p : Pat Nat) (s : SPat Nat) (v : Nat) (ρ : Env Nat),
    dumpP nm p false 0 = some (s, 0) ∧ (∀ ar, Legal ar s) ∧ (∀ x y, nm.used x = nm.used y → x = y) ∧
    smatchTop W nm s v ρ ≠ pmatch W p v ρ := by
  refine ⟨⟨id, id, fun _ => [], fun _ => [], fun _ => 0, fun _ _ => true, fun _ => true, fun a _ => a⟩,
    ⟨fun x => if x = 0 then ['+'] else List.replicate (x + 1) 'a', fun x => if x = 0 then some ['o', 'p'] else none⟩,
    .var 0, .var ['v', '_', '+'], 1, fun _ => 0, by simp [dumpP, Names.bound], fun ar => ⟨trivial, by simp [svars]⟩, ?_, ?_⟩
  · intro x y h
    simp only [Names.used, List.append_cancel_left_eq] at h
    have aux : ∀ n, (['o', 'p'] : List Char) ≠ List.replicate (n + 1) 'a' := by
      intro n h
      have : 'o' ∈ List.replicate (n + 1) 'a' := by rw [← h]; simp
      simp at this
    by_cases hx : x = 0 <;> by_cases hy : y = 0
    · omega
    · simp [hx, hy] at h; exact absurd h (aux y)
    · simp [hx, hy] at h; exact absurd h.symm (aux x)
    · simp [hx, hy] at h
      exact h
  · intro h
    have := congrArg (fun o => (o.getD fun _ => 9) 0) h
    simp [smatchTop, smatch, pmatch, scope, Names.used] at this

end Aps.Props
