import Verif.Proofs.Driver
/-!
# C95: what the compilers accept, write and return

The specification is in `Spec/Driver.lean`.
-/
namespace Aps.Props

open Aps.Driver Aps.Dnc Aps.Oag Aps.Cycle

theorem not_and_bits {s : State} : (stateCycle s &&& MAYBE_SIMPLE = 0 ∨ stateCycle s &&& NOT_JUST_FIBER = 0) ↔
    ¬ (SelfDep s simpleBit ∧ SelfDep s attrBit) := by
  rw [and_bit_eq_zero.1, and_bit_eq_zero.2, ← stateCycle_bit, ← stateCycle_bit]
  unfold simpleBit attrBit
  cases (stateCycle s).getLsbD 4 <;> cases (stateCycle s).getLsbD 1 <;> simp

theorem stateCycle_zero {s : State} : stateCycle s = 0 ↔ ∀ b, ¬ SelfDep s b := by
  constructor
  · intro h b hb
    rw [← stateCycle_bit, h] at hb
    simp at hb
  · intro h
    by_contra hne
    obtain ⟨b, hb⟩ := dep_ne_zero.1 hne
    exact h b ((stateCycle_bit s b).1 hb)

/-- C95: a module is rejected as not DNC exactly if, in its closed dependency graphs, some instance depends on itself in a way that is
not monotone and some instance does in a way that is not between fibers only; whichever of the two kinds of schedule is asked for. -/
theorem C95_not_dnc {fuel : Nat} {scc : Bool} {m : Mod} {s : State} {v : Verdict} (hs : dncClose fuel m.start = .ok s)
    (hv : analyzeModule fuel scc m = .ok v) : (∃ d, v = .notDnc d) ↔ SelfDep s simpleBit ∧ SelfDep s attrBit := by
  unfold analyzeModule at hv
  rw [hs, Res.ok_bind] at hv
  obtain ⟨r, hr, hv⟩ := Res.bind_eq_ok.1 hv
  unfold firstTest at hr
  by_cases h0 : stateCycle s = 0
  · simp only [h0, if_true, Res.ok.injEq] at hr
    subst hr
    have hno : ¬ (SelfDep s simpleBit ∧ SelfDep s attrBit) := fun h => stateCycle_zero.1 h0 _ h.1
    refine ⟨fun ⟨d, hd⟩ => ?_, fun h => absurd h hno⟩
    subst hd
    cases scc with
    | true => simp [secondScc, Res.bind_eq_ok] at hv
    | false =>
      simp only [Bool.false_eq_true, if_false, secondOag, Res.bind_eq_ok] at hv
      obtain ⟨r, _, hv⟩ := hv
      split at hv <;> simp at hv
  · simp only [h0, if_false] at hr
    by_cases hb : SelfDep s simpleBit ∧ SelfDep s attrBit
    · rw [if_neg (mt not_and_bits.1 (not_not.2 hb)), Res.ok.injEq] at hr
      subst hr
      simp only [Res.pure_eq, Res.ok.injEq] at hv
      exact ⟨fun _ => hb, fun _ => ⟨_, hv.symm⟩⟩
    · rw [if_pos (not_and_bits.2 hb)] at hr
      simp only [Res.bind_eq_ok, Res.pure_eq, Res.ok.injEq] at hr
      obtain ⟨s', _, rfl⟩ := hr
      refine ⟨fun ⟨d, hd⟩ => ?_, fun h => absurd h hb⟩
      subst hd
      cases scc with
      | true => simp [secondScc, Res.bind_eq_ok] at hv
      | false =>
        simp only [Bool.false_eq_true, if_false, secondOag, Res.bind_eq_ok] at hv
        obtain ⟨r, _, hv⟩ := hv
        split at hv <;> simp at hv

/-- C95, with `-S`: a module is accepted exactly if it is not rejected as above, and no instance depends on itself in the graphs that the
search for phases leaves (after the fiber cycles, if there were any, have been broken); these graphs are those handed on. The flag for loops is set exactly
if there were cycles, all of them monotone. -/
theorem C95_static {fuel : Nat} {m : Mod} {s : State} {v : Verdict} (hs : dncClose fuel m.start = .ok s)
    (hv : analyzeModule fuel false m = .ok v) (s' : State) (loop : Bool) :
    v = .accepted s' loop ↔
      ¬ (SelfDep s simpleBit ∧ SelfDep s attrBit) ∧ (∀ b, ¬ SelfDep s' b) ∧ (loop = true ↔ (∃ b, SelfDep s b) ∧ ¬ SelfDep s simpleBit) ∧
      ∃ s1 r, ((∀ b, ¬ SelfDep s b) → s1 = s) ∧ ((∃ b, SelfDep s b) → breakFiberCycles fuel m.ord false m.up (stateCycle s) s = .ok s1) ∧
        computeOag fuel m.dirs m.insts s1 = .ok (s', r) := by
  have hd := C95_not_dnc hs hv
  unfold analyzeModule at hv
  rw [hs, Res.ok_bind] at hv
  obtain ⟨r, hr, hv⟩ := Res.bind_eq_ok.1 hv
  unfold firstTest at hr
  have second : ∀ s1 l, secondOag fuel m s1 l 0 = .ok v → ∃ r, computeOag fuel m.dirs m.insts s1 = .ok r ∧
      ((∀ b, ¬ SelfDep r.1 b) → v = .accepted r.1 l) ∧ ((∃ b, SelfDep r.1 b) → v = .notOag (stateCycle r.1)) := by
    intro s1 l h
    simp only [secondOag, oagTest, if_true, Res.bind_eq_ok, Res.pure_eq, Res.ok.injEq] at h
    obtain ⟨p, ⟨r, hr, rfl⟩, h⟩ := h
    refine ⟨r, hr, fun hno => ?_, fun ⟨b, hb⟩ => ?_⟩
    · rw [if_neg (by simpa using stateCycle_zero.2 hno)] at h
      simpa using h.symm
    · rw [if_pos (fun h0 => stateCycle_zero.1 h0 b hb)] at h
      simpa using h.symm
  by_cases h0 : stateCycle s = 0
  · simp only [h0, if_true, Res.ok.injEq] at hr
    subst hr
    have hno := stateCycle_zero.1 h0
    obtain ⟨r, hr, ha, hn⟩ := second s false hv
    constructor
    · intro he
      by_cases hc : ∀ b, ¬ SelfDep r.1 b
      · rw [ha hc] at he
        cases he
        exact ⟨fun h => hno _ h.1, hc, by simp [hno], s, r.2, fun _ => rfl, fun ⟨b, hb⟩ => absurd hb (hno b), hr⟩
      · push Not at hc
        rw [hn hc] at he; cases he
    · rintro ⟨-, h2, h3, s1, r', e1, -, e3⟩
      rw [e1 hno, hr] at e3
      cases e3
      rw [ha h2]
      have : loop = false := by
        cases loop with
        | false => rfl
        | true => exact absurd (h3.1 rfl).1.choose_spec (hno _)
      rw [this]
  · have hyes : ∃ b, SelfDep s b := by
      by_contra hc; push Not at hc; exact h0 (stateCycle_zero.2 hc)
    simp only [h0, if_false] at hr
    by_cases hb : SelfDep s simpleBit ∧ SelfDep s attrBit
    · obtain ⟨d, rfl⟩ := hd.2 hb
      exact ⟨fun h => (by cases h), fun h => absurd hb h.1⟩
    · rw [if_pos (not_and_bits.2 hb)] at hr
      simp only [Res.bind_eq_ok, Res.pure_eq, Res.ok.injEq] at hr
      obtain ⟨s1, hbr, rfl⟩ := hr
      obtain ⟨r, hr, ha, hn⟩ := second s1 _ hv
      have hl : decide (stateCycle s &&& MAYBE_SIMPLE = 0) = true ↔ (∃ b, SelfDep s b) ∧ ¬ SelfDep s simpleBit := by
        rw [decide_eq_true_iff, and_bit_eq_zero.1, ← stateCycle_bit]
        simp [simpleBit, hyes]
      constructor
      · intro he
        by_cases hc : ∀ b, ¬ SelfDep r.1 b
        · rw [ha hc] at he
          cases he
          exact ⟨hb, hc, hl, s1, r.2, fun h => absurd hyes.choose_spec (h _), fun _ => hbr, hr⟩
        · push Not at hc
          rw [hn hc] at he; cases he
      · rintro ⟨-, h2, h3, s2, r', -, e2, e3⟩
        have e4 := e2 hyes
        rw [hbr] at e4
        cases e4
        rw [hr] at e3
        cases e3
        rw [ha h2]
        congr 1
        rw [Bool.eq_iff_iff, hl, h3]

/-- C95, with `-C`: a module is accepted exactly if it is not rejected as not DNC; the other errors are never reported. The flag for loops is
as above. -/
theorem C95_scc {fuel : Nat} {m : Mod} {s : State} {v : Verdict} (hs : dncClose fuel m.start = .ok s)
    (hv : analyzeModule fuel true m = .ok v) :
    ((∃ s' loop, v = .accepted s' loop) ↔ ¬ (SelfDep s simpleBit ∧ SelfDep s attrBit)) ∧ (∀ d, v ≠ .notCoag d) ∧ (∀ d, v ≠ .notOag d) ∧
    ∀ s' loop, v = .accepted s' loop → (loop = true ↔ (∃ b, SelfDep s b) ∧ ¬ SelfDep s simpleBit) := by
  have hd := C95_not_dnc hs hv
  unfold analyzeModule at hv
  rw [hs, Res.ok_bind] at hv
  obtain ⟨r, hr, hv⟩ := Res.bind_eq_ok.1 hv
  unfold firstTest at hr
  by_cases h0 : stateCycle s = 0
  · simp only [h0, if_true, Res.ok.injEq] at hr
    subst hr
    have hno := stateCycle_zero.1 h0
    simp only [if_true, secondScc, Res.pure_eq] at hv
    rw [if_neg (by simp [MAYBE_SIMPLE])] at hv
    obtain ⟨s', -, hv⟩ := Res.bind_eq_ok.1 hv
    cases hv
    refine ⟨⟨fun _ h => hno _ h.1, fun _ => ⟨_, _, rfl⟩⟩, fun d h => (by cases h), fun d h => (by cases h), ?_⟩
    intro s'' loop he
    cases he
    simp [hno]
  · have hyes : ∃ b, SelfDep s b := by
      by_contra hc; push Not at hc; exact h0 (stateCycle_zero.2 hc)
    simp only [h0, if_false] at hr
    by_cases hb : SelfDep s simpleBit ∧ SelfDep s attrBit
    · obtain ⟨d, rfl⟩ := hd.2 hb
      exact ⟨⟨fun ⟨_, _, h⟩ => (by cases h), fun h => absurd hb h⟩, fun d h => (by cases h), fun d h => (by cases h), fun _ _ h => (by cases h)⟩
    · rw [if_pos (not_and_bits.2 hb)] at hr
      simp only [Res.bind_eq_ok, Res.pure_eq, Res.ok.injEq] at hr
      obtain ⟨s1, -, rfl⟩ := hr
      simp only [if_true, secondScc, Res.pure_eq] at hv
      rw [if_neg (by simp [MAYBE_SIMPLE])] at hv
      obtain ⟨s', -, hv⟩ := Res.bind_eq_ok.1 hv
      cases hv
      refine ⟨⟨fun _ => hb, fun _ => ⟨_, _, rfl⟩⟩, fun d h => (by cases h), fun d h => (by cases h), ?_⟩
      intro s'' loop he
      cases he
      rw [decide_eq_true_iff, and_bit_eq_zero.1, ← stateCycle_bit]
      simp [simpleBit, hyes]

/-- C95: the analysis ends, with `-C` (if the scheduler does) and with `-S` (unless fiber cycles have to be broken). -/
theorem C95_ends_partial (m : Mod) (h : OagStart m.start m.dirs m.insts) :
    ∃ F s, (∀ f, F ≤ f → dncClose f m.start = .ok s) ∧
      ((∀ x, ∃ y, m.sched x = .ok y) → ∃ F', ∀ f, F' ≤ f → ∃ v, analyzeModule f true m = .ok v) ∧
      (((∀ b, ¬ SelfDep s b) ∨ (SelfDep s simpleBit ∧ SelfDep s attrBit)) → ∃ F', ∀ f, F' ≤ f → ∃ v, analyzeModule f false m = .ok v) := by
  obtain ⟨F, s, e1, hoag⟩ := C48_oag h
  have e1' := e1 F (Nat.le_refl _)
  obtain ⟨F0, s0, e0, fx, -⟩ := dncClose_total m.start h.start.inv
  have : s0 = s := by
    have a := dncClose_mono e0 (max F F0) (Nat.le_max_right _ _)
    rw [e1 (max F F0) (Nat.le_max_left _ _)] at a
    cases a; rfl
  subst this
  refine ⟨F, s0, e1, fun hsch => ?_, fun hc => ?_⟩
  · obtain ⟨F2, s2, e2, -, -⟩ := dncClose_total s0 fx.inv
    refine ⟨max F F2, fun f hf => ?_⟩
    have a1 := e1 f (le_trans (Nat.le_max_left _ _) hf)
    have a2 := dncClose_mono e2 f (le_trans (Nat.le_max_right _ _) hf)
    unfold analyzeModule
    rw [a1, Res.ok_bind]
    obtain ⟨P, P', cs, -, p1, p2, -⟩ := C49_pass m.ord true m.up m.start s0 h.start F e1'
    have hbr : ∀ d, breakFiberCycles f m.ord true m.up d s0 = .ok s2 := by
      intro d
      unfold breakFiberCycles
      rw [p1, Res.ok_bind, p2, Res.ok_bind, C49_scc_unchanged, Res.ok_bind, a2]
    have hsec : ∀ x l, ∃ v, secondScc m x l 0 = .ok v := by
      intro x l
      obtain ⟨y, hy⟩ := hsch x
      exact ⟨.accepted y l, by simp [secondScc, hy]⟩
    unfold firstTest
    by_cases h0 : stateCycle s0 = 0
    · simp only [h0, if_true, Res.ok_bind]
      exact hsec _ _
    · by_cases hb : stateCycle s0 &&& MAYBE_SIMPLE = 0 ∨ stateCycle s0 &&& NOT_JUST_FIBER = 0
      · simp only [h0, if_false, hb, if_true, hbr, Res.ok_bind, Res.pure_eq]
        exact hsec _ _
      · simp only [h0, if_false, hb, Res.ok_bind]
        exact ⟨_, rfl⟩
  · rcases hc with hno | hb
    · obtain ⟨F2, s', sch, ts, e2, -⟩ := hoag (stateCycle_zero.2 hno)
      refine ⟨max F F2, fun f hf => ?_⟩
      have a1 := e1 f (le_trans (Nat.le_max_left _ _) hf)
      have a2 := e2 f (le_trans (Nat.le_max_right _ _) hf)
      unfold analyzeModule firstTest
      rw [a1, Res.ok_bind]
      simp only [stateCycle_zero.2 hno, if_true, Res.ok_bind, Bool.false_eq_true, if_false, secondOag, oagTest, a2, Res.pure_eq]
      split <;> exact ⟨_, rfl⟩
    · refine ⟨F, fun f hf => ?_⟩
      have hne : stateCycle s0 ≠ 0 := fun h0 => stateCycle_zero.1 h0 _ hb.1
      unfold analyzeModule firstTest
      rw [e1 f hf, Res.ok_bind]
      have := mt not_and_bits.1 (not_not.2 hb)
      simp only [hne, if_false, this, Res.ok_bind]
      exact ⟨_, rfl⟩

/-! ## The command line -/

/-- C95: a command line can be read as items, from the left, unless it ends in an option that lacks a word. -/
theorem C95_lines (args : List String) :
    (∃ items, Reads args items) ∨ ∃ pre ws items, args = pre ++ ws ∧ Reads pre items ∧ Dangling ws := reads_total args

/-- C95: the exit status is 0 exactly if nothing is wrong with the line: no wrong option, and each program passes all phases under
the options before it (and its output can be opened, for aps2scala). Then the outputs are those of all the programs, in order, each for the
implementation asked for by the options before it. (There is room for 80 `--omit` and 40 `--impl`.) -/
theorem C95_success {tool : Tool} {fuel : Nat} {W : World} (ht : Ends fuel W) {args : List String} {items : List Item} (hr : Reads args items)
    (h0 : args ≠ []) (ho : items.countP Item.isOmit ≤ 80) (hi : items.countP Item.isImpl ≤ 40) (out : List (String × Impl)) :
    main tool fuel W args = .exit 0 out ↔ LineOk tool fuel W items ∧ out = outputs W [] items := by
  unfold main
  rw [if_neg h0]
  rcases loop_items (tool := tool) ht hr Agrees.init (by simpa using ho) (by simpa using hi) with ⟨hall, hl⟩ | ⟨a, i, b, hab, -, hno, hl⟩
  · rw [hl]
    simp only [List.nil_append, End.exit.injEq, true_and] at hall ⊢
    exact ⟨fun h => ⟨hall, h.symm⟩, fun h => h.2.symm⟩
  · rw [hl]
    simp only [End.exit.injEq, Nat.one_ne_zero, false_and, false_iff, not_and]
    intro hok
    exact absurd (hok a i b hab) (by simpa using hno)

/-- C95: otherwise it is 1, and the outputs are those of the programs before the first thing that is wrong: nothing is written for a program
with errors, and nothing after it. -/
theorem C95_failure {tool : Tool} {fuel : Nat} {W : World} (ht : Ends fuel W) {args : List String} {items : List Item} (hr : Reads args items)
    (h0 : args ≠ []) (ho : items.countP Item.isOmit ≤ 80) (hi : items.countP Item.isImpl ≤ 40) (h : ¬ LineOk tool fuel W items) :
    ∃ pre i post, items = pre ++ i :: post ∧ LineOk tool fuel W pre ∧ ¬ ItemOk tool fuel W pre i ∧
      main tool fuel W args = .exit 1 (outputs W [] pre) := by
  unfold main
  rw [if_neg h0]
  rcases loop_items (tool := tool) ht hr Agrees.init (by simpa using ho) (by simpa using hi) with ⟨hall, hl⟩ | ⟨a, i, b, hab, hpre, hno, hl⟩
  · exact absurd (fun pre i post he => by simpa using hall pre i post he) h
  · exact ⟨a, i, b, hab, fun c j d hcd => by simpa using hpre c j d hcd, by simpa using hno, by rw [hl]; rfl⟩

theorem outputs_spec (W : World) (n : String) (i : Impl) : ∀ (items pre0 : List Item), (n, i) ∈ outputs W pre0 items ↔
    ∃ pre post, items = pre ++ .file n :: post ∧ i = implIn (pre0 ++ pre) ∧ W.writable n = true := by
  intro items
  induction items with
  | nil => intro pre0; simp [outputs]
  | cons x is ih =>
    intro pre0
    have rest : (n, i) ∈ outputs W (pre0 ++ [x]) is ↔
        ∃ pre post, x :: is = (x :: pre) ++ .file n :: post ∧ i = implIn (pre0 ++ (x :: pre)) ∧ W.writable n = true := by
      rw [ih]; simp
    have split : (∃ pre post, x :: is = pre ++ .file n :: post ∧ i = implIn (pre0 ++ pre) ∧ W.writable n = true) ↔
        (x = .file n ∧ i = implIn pre0 ∧ W.writable n = true) ∨
        ∃ pre post, x :: is = (x :: pre) ++ .file n :: post ∧ i = implIn (pre0 ++ (x :: pre)) ∧ W.writable n = true := by
      constructor
      · rintro ⟨pre, post, he, h1, h2⟩
        cases pre with
        | nil => simp only [List.nil_append, List.cons.injEq] at he; exact .inl ⟨he.1, by simpa using h1, h2⟩
        | cons y pre =>
          simp only [List.cons_append, List.cons.injEq] at he
          exact .inr ⟨pre, post, by rw [he.2]; rfl, by rw [he.1]; exact h1, h2⟩
      · rintro (⟨rfl, h1, h2⟩ | ⟨pre, post, he, h1, h2⟩)
        · exact ⟨[], is, rfl, by simpa using h1, h2⟩
        · exact ⟨x :: pre, post, he, h1, h2⟩
    rw [split, ← rest]
    cases x with
    | file k =>
      by_cases hw : W.writable k = true
      · simp only [outputs, hw, if_true, List.mem_append, List.mem_singleton, Prod.mk.injEq, Item.file.injEq]
        constructor
        · rintro (⟨rfl, rfl⟩ | h)
          · exact .inl ⟨rfl, rfl, hw⟩
          · exact .inr h
        · rintro (⟨rfl, rfl, -⟩ | h)
          · exact .inl ⟨rfl, rfl⟩
          · exact .inr h
      · simp only [outputs, hw, List.mem_append, Item.file.injEq]
        constructor
        · rintro (h | h)
          · simp at h
          · exact .inr h
        · rintro (⟨rfl, -, h⟩ | h)
          · exact absurd h hw
          · exact .inr h
    | _ => simp [outputs]

/-- C95: whatever the exit status, whenever there is an output for a program, then the program is named on the line, it passed every
phase under the options before it, and the output is for the implementation these ask for. -/
theorem C95_output {tool : Tool} {fuel : Nat} {W : World} (ht : Ends fuel W) {args : List String} {items : List Item} (hr : Reads args items)
    (h0 : args ≠ []) (ho : items.countP Item.isOmit ≤ 80) (hi : items.countP Item.isImpl ≤ 40) {code : Nat} {out : List (String × Impl)}
    (h : main tool fuel W args = .exit code out) {n : String} {i : Impl} (hn : (n, i) ∈ out) :
    ∃ pre post, items = pre ++ .file n :: post ∧ Passes fuel W pre n ∧ i = implIn pre := by
  by_cases hok : LineOk tool fuel W items
  · rw [((C95_success ht hr h0 ho hi _).2 ⟨hok, rfl⟩)] at h
    cases h
    obtain ⟨pre, post, he, h1, -⟩ := (outputs_spec W n i items []).1 hn
    exact ⟨pre, post, he, (hok pre _ post he).1, by simpa using h1⟩
  · obtain ⟨a, j, b, hab, hpre, -, hm⟩ := C95_failure ht hr h0 ho hi hok
    rw [hm] at h
    cases h
    obtain ⟨pre, post, he, h1, -⟩ := (outputs_spec W n i a []).1 hn
    exact ⟨pre, post ++ j :: b, by rw [hab, he]; simp, (hpre pre _ post he).1, by simpa using h1⟩

/-! ## Examples and refutations -/

/-- the graph of the example for C48 -/
def drvGood : Mod :=
  ⟨match c48graph with | .ok g => ⟨[g], [c48phy]⟩ | _ => ⟨[], []⟩, c48dirs, [c48insts], true, fun _ => false, .ok⟩

/-- one rule whose two attributes depend on each other, in a way that is neither monotone nor of fibers -/
def drvCyclic : Mod :=
  ⟨match buildState [(2, [10, 11], [], [(0, 1, ⟨0, 0⟩, 31), (1, 0, ⟨0, 0⟩, 31)])] [] with | .ok s => s | _ => ⟨[], []⟩, [], [[]], true, fun _ => false, .ok⟩

/-- Program "a" has the first module, "b" the second, "c" cannot be written. -/
def drvWorld : World where
  load _ _ n := n != "x"
  bindErrs _ _ := 0
  typeErrs _ n := if n = "t" then 2 else 0
  decls n := if n = "a" then [.other, .module drvGood] else if n = "b" then [.module drvGood, .module drvCyclic] else []
  writable n := n != "c"

def Verdict.tag : Verdict → Nat × Bool
  | .accepted _ l => (0, l)
  | .notDnc _ => (1, false)
  | .notCoag _ => (2, false)
  | .notOag _ => (3, false)

theorem drv_verdicts : ∀ scc, (analyzeModule 40 scc drvGood).bind (fun v => .ok (Verdict.tag v)) = .ok (0, false) ∧
    (analyzeModule 40 scc drvCyclic).bind (fun v => .ok (Verdict.tag v)) = .ok (1, false) := by decide +kernel

theorem drv_ends : Ends 40 drvWorld := by
  have hv : ∀ {α β : Type} {x : Res α} {f : α → Res β} {b : β}, x.bind f = .ok b → ∃ a, x = .ok a := by
    intro α β x f b h
    cases x <;> simp_all
  intro n scc m hm
  have : m = drvGood ∨ m = drvCyclic := by
    simp only [drvWorld] at hm
    split at hm
    · simp at hm; exact .inl hm
    · split at hm
      · simpa using hm
      · simp at hm
  rcases this with rfl | rfl
  · exact hv (drv_verdicts scc).1
  · exact hv (drv_verdicts scc).2

/-- lines that succeed and fail -/
example : main .scala 40 drvWorld ["a", "-S", "a", "-DH", "-C", "a"] = .exit 0 [("a", .dynamic), ("a", .static), ("a", .scc)] ∧
    main .cpp 40 drvWorld ["b", "-S", "a", "b", "a"] = .exit 1 [("b", .dynamic), ("a", .static)] ∧
    main .cpp 40 drvWorld ["a", "-Z", "a"] = .exit 1 [("a", .dynamic)] ∧ main .scala 40 drvWorld ["x"] = .exit 1 [] ∧
    main .scala 40 drvWorld ["--omit", "q", "t", "a"] = .exit 1 [] := by decide +kernel

/-- the hypotheses of C95_success and C95_failure hold for them -/
example : Reads ["b", "-S", "a"] [.file "b", .static, .file "a"] :=
  .cons (ws := ["b"]) (.file (by decide +kernel)) (.cons (ws := ["-S"]) (.static (by simp)) (.cons (ws := ["a"]) (.file (by decide +kernel)) .nil))

example : Ends 40 drvWorld := drv_ends

/-- C95 (refuted in general): apscpp ends with status 0 although an output could not be written. -/
theorem C95_unwritable_refuted : ¬ ∀ (W : World) (args : List String) (items : List Item) (out : List (String × Impl)), Reads args items → args ≠ [] →
    main .cpp 40 W args = .exit 0 out → ∀ n ∈ filesIn items, ∃ i, (n, i) ∈ out := by
  intro h
  obtain ⟨i, hi⟩ := h drvWorld ["c"] [.file "c"] [] (.cons (ws := ["c"]) (.file (by decide +kernel)) .nil) (by simp) (by decide +kernel) "c"
    (by simp [filesIn, Item.file?, List.filterMap_cons])
  cases hi

/-- C95 (refuted in general): a line that ends in `-p` or `--impl`, and one with more than 80 `--omit`, go beyond what is there. -/
theorem C95_overrun_refuted : (main .cpp 40 drvWorld ["a", "-p"] = .bad ∧ main .scala 40 drvWorld ["--impl"] = .bad) ∧
    main .scala 40 drvWorld ((List.replicate 81 ["--omit", "q"]).flatten) = .bad := by
  refine ⟨by decide +kernel, by decide +kernel⟩

/-- In one rule two fibers depend on each other, not monotonically; in another, two attributes do, monotonically. -/
def drvTwo : Mod :=
  ⟨match buildState [(2, [10, 11], [], [(0, 1, ⟨0, 0⟩, 29), (1, 0, ⟨0, 0⟩, 29)]), (2, [20, 21], [], [(0, 1, ⟨0, 0⟩, 15), (1, 0, ⟨0, 0⟩, 15)])] [] with
    | .ok s => s | _ => ⟨[], []⟩, [], [[], []], true, fun _ => false, .ok⟩

/-- C95 (refuted in general): a module can be rejected as not DNC although each of its cycles is of a kind that is accepted: the kinds of all cycles are
put together before they are tested. -/
theorem C95_each_cycle_refuted : ∃ (m : Mod) (s : State) (d : Dep), dncClose 40 m.start = .ok s ∧ analyzeModule 40 true m = .ok (.notDnc d) ∧
    s.phys = [] ∧ ∀ g ∈ s.augs, ∀ j < g.n, ∀ e ∈ g.cell j j, ¬ (e.kind.getLsbD simpleBit = true ∧ e.kind.getLsbD attrBit = true) := by
  have key : (dncClose 40 drvTwo.start).bind (fun s => .ok (decide (s.phys = []), decide (∀ g ∈ s.augs, ∀ j < g.n, ∀ e ∈ g.cell j j, ¬ (e.kind.getLsbD 4 = true ∧ e.kind.getLsbD 1 = true)))) =
      .ok (true, true) := by decide +kernel
  have key2 : (analyzeModule 40 true drvTwo).bind (fun v => .ok (Verdict.tag v)) = .ok (1, false) := by decide +kernel
  obtain ⟨s, e, key⟩ := bind_ok key
  obtain ⟨v, ev, key2⟩ := bind_ok key2
  simp only [Res.ok.injEq, Prod.mk.injEq, decide_eq_true_eq] at key key2
  cases v with
  | notDnc d => exact ⟨drvTwo, s, d, e, ev, key.1, key.2⟩
  | _ => simp [Verdict.tag] at key2

end Aps.Props
