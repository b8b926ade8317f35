import Verif.Spec.Driver
import Verif.Props.OagMain
import Verif.Props.CycleBreak
/-!
# Lemmas about the main program
-/
namespace Aps.Driver

open Aps.Dnc Aps.Oag Aps.Cycle Aps.Props

theorem and_bit_eq_zero {d : Dep} : (d &&& MAYBE_SIMPLE = 0 ↔ d.getLsbD 4 = false) ∧ (d &&& NOT_JUST_FIBER = 0 ↔ d.getLsbD 1 = false) := by
  unfold MAYBE_SIMPLE NOT_JUST_FIBER
  refine ⟨⟨fun h => ?_, fun h => ?_⟩, ⟨fun h => ?_, fun h => ?_⟩⟩
  · have := congrArg (fun x => BitVec.getLsbD x 4) h
    simpa using this
  · apply BitVec.eq_of_getLsbD_eq
    intro i hi
    rw [BitVec.getLsbD_and]
    by_cases h4 : i = 4
    · subst h4; rw [h]; rfl
    · have : (16#32).getLsbD i = false := by interval_cases i <;> first | rfl | omega
      simp [this]
  · have := congrArg (fun x => BitVec.getLsbD x 1) h
    simpa using this
  · apply BitVec.eq_of_getLsbD_eq
    intro i hi
    rw [BitVec.getLsbD_and]
    by_cases h4 : i = 1
    · subst h4; rw [h]; rfl
    · have : (2#32).getLsbD i = false := by interval_cases i <;> first | rfl | omega
      simp [this]

theorem stateCycle_bit (s : State) (b : Nat) : (stateCycle s).getLsbD b = true ↔ SelfDep s b := C22_report s b

/-- `analyzeProgram` counts no error exactly if every module is accepted. -/
theorem analyzeProgram_spec (fuel : Nat) (scc : Bool) (ds : List Decl) (h : ∀ m, Decl.module m ∈ ds → ∃ v, analyzeModule fuel scc m = .ok v) :
    ∃ k, analyzeProgram fuel scc ds = .ok k ∧ (k = 0 ↔ ∀ m, Decl.module m ∈ ds → Accepts fuel scc m) := by
  induction ds with
  | nil => exact ⟨0, rfl, by simp⟩
  | cons d ds ih =>
    obtain ⟨k, hk, hi⟩ := ih fun m hm => h m (by simp [hm])
    cases d with
    | other => exact ⟨k, hk, by simpa using hi⟩
    | module m =>
      obtain ⟨v, hv⟩ := h m (by simp)
      refine ⟨v.errors + k, by simp [analyzeProgram, hv, hk], ?_⟩
      constructor
      · intro h0 m' hm'
        rcases List.mem_cons.1 hm' with he | hm'
        · cases he
          cases v with
          | accepted s l => exact ⟨s, l, hv⟩
          | _ => simp [Verdict.errors] at h0
        · exact hi.1 (by omega) m' hm'
      · intro ha
        obtain ⟨s, l, hs⟩ := ha m (by simp)
        rw [hs] at hv
        cases hv
        have := hi.2 fun m' hm' => ha m' (by simp [hm'])
        simp [Verdict.errors, this]

/-- the state agrees with the items read so far -/
structure Agrees (pre : List Item) (st : St) : Prop where
  static : st.static = true ↔ Static pre
  scc : st.scc = true ↔ SccMode pre
  path : st.path = pathIn pre
  seen : st.seen = filesIn pre
  omitted : st.omitted.length = pre.countP Item.isOmit
  impls : st.impls.length = pre.countP Item.isImpl

theorem Agrees.init : Agrees [] {} := ⟨by simp [Static], by simp [SccMode], rfl, rfl, rfl, rfl⟩

theorem outputs_append (W : World) (pre is js : List Item) :
    outputs W pre (is ++ js) = outputs W pre is ++ outputs W (pre ++ is) js := by
  induction is generalizing pre with
  | nil => simp [outputs]
  | cons i is ih => cases i <;> simp [outputs, ih]

open Classical in
theorem Agrees.mode {pre : List Item} {st : St} (h : Agrees pre st) : st.scc = decide (SccMode pre) := by
  have := h.scc
  cases hs : st.scc <;> simp_all

theorem scc_static {pre : List Item} (h : SccMode pre) : Static pre := .inr h

/-- what `compile` does -/
theorem compile_spec {tool : Tool} {fuel : Nat} {W : World} {n : String} {pre : List Item} {st : St} (h : Agrees pre st)
    (ht : ∀ scc m, Decl.module m ∈ W.decls n → ∃ v, analyzeModule fuel scc m = .ok v) :
    (ItemOk tool fuel W pre (.file n) ∧ ∃ st', compile tool fuel W n st = .inl st' ∧ Agrees (pre ++ [.file n]) st' ∧
      st'.out = st.out ++ outputs W pre [.file n]) ∨
    (¬ ItemOk tool fuel W pre (.file n) ∧ compile tool fuel W n st = .inr (.exit 1 st.out)) := by
  classical
  have hm := h.mode
  have ag : ∀ o, Agrees (pre ++ [.file n]) { st with seen := st.seen ++ [n], out := o } := fun o =>
    ⟨by simpa [Static] using h.static, by simpa [SccMode] using h.scc, by simpa [pathIn, Item.path?, List.filterMap_cons] using h.path,
      by simpa [filesIn, Item.file?, List.filterMap_cons] using h.seen, by simpa [Item.isOmit] using h.omitted, by simpa [Item.isImpl] using h.impls⟩
  have ag' : Agrees (pre ++ [.file n]) { st with seen := st.seen ++ [n] } := ag st.out
  unfold compile
  simp only [h.path, h.seen] at ag ag' ⊢
  by_cases hl : W.load (pathIn pre) (filesIn pre) n = true
  swap
  · right
    exact ⟨fun hp => hl hp.1.load, by simp [hl]⟩
  by_cases hb : W.bindErrs (filesIn pre) n = 0
  swap
  · right
    exact ⟨fun hp => hb hp.1.bind, by simp [hl, hb]⟩
  by_cases hty : W.typeErrs (filesIn pre) n = 0
  swap
  · right
    exact ⟨fun hp => hty hp.1.type, by simp [hl, hb, hty]⟩
  simp only [hl, hb, hty, Bool.not_true, Bool.false_eq_true, if_false, ne_eq, not_true_eq_false]
  by_cases hs : st.static = true
  · have hst := h.static.1 hs
    obtain ⟨k, hk, hi⟩ := analyzeProgram_spec fuel st.scc (W.decls n) (ht st.scc)
    simp only [hs, if_true, hk] at ag ag' ⊢
    cases k with
    | succ k =>
      right
      refine ⟨fun hp => ?_, rfl⟩
      have := hi.2 (by rw [hm]; exact hp.1.analysis hst)
      omega
    | zero =>
      have hacc := hi.1 rfl
      rw [hm] at hacc
      have hpass : Passes fuel W pre n := ⟨hl, hb, hty, fun _ => hacc⟩
      have himp : (if st.scc then Impl.scc else Impl.static) = implIn pre := by
        unfold implIn
        by_cases hsc : SccMode pre
        · simp [hm, hsc]
        · simp [hm, hsc, hst]
      simp only [himp]
      by_cases hw : W.writable n = true
      · left
        refine ⟨⟨hpass, fun _ => hw⟩, _, by simp only [hw, if_true]; rfl, ag _, by simp [outputs, hw]⟩
      · cases tool with
        | cpp =>
          left
          exact ⟨⟨hpass, fun h => by cases h⟩, _, by simp only [hw, Bool.false_eq_true, if_false], ag', by simp [outputs, hw]⟩
        | scala =>
          right
          exact ⟨fun hp => hw (hp.2 rfl), by simp [hw]⟩
  · simp only [Bool.not_eq_true] at hs
    have hns : ¬ Static pre := fun hc => by rw [h.static.2 hc] at hs; cases hs
    have hpass : Passes fuel W pre n := ⟨hl, hb, hty, fun hc => absurd hc hns⟩
    have himp : Impl.dynamic = implIn pre := by
      unfold implIn
      rw [if_neg (fun hc => hns (scc_static hc)), if_neg hns]
    simp only [hs, Bool.false_eq_true, if_false, himp] at ag ag' ⊢
    by_cases hw : W.writable n = true
    · left
      refine ⟨⟨hpass, fun _ => hw⟩, _, by simp only [hw, if_true]; rfl, ag _, by simp [outputs, hw]⟩
    · cases tool with
      | cpp =>
        left
        exact ⟨⟨hpass, fun h => by cases h⟩, _, by simp only [hw, Bool.false_eq_true, if_false], ag', by simp [outputs, hw]⟩
      | scala =>
        right
        exact ⟨fun hp => hw (hp.2 rfl), by simp [hw]⟩

theorem debugOk_iff {o : List Char} : debugOk o = true ↔ o ≠ [] ∧ ∀ c ∈ o, c ∈ debugLetters := by
  unfold debugOk
  simp

theorem wordOf_hyphen {o : List Char} (h : o.head? ≠ some 'D') : wordOf ('-' :: o) = .hyphen := by
  cases o with
  | nil => rfl
  | cons c cs =>
    unfold wordOf
    split
    · rename_i he; cases he; exact absurd rfl h
    · rfl
    · rename_i h2; exact absurd rfl (h2 (c :: cs))

theorem wordOf_plain {o : List Char} (h : o.head? ≠ some '-') : wordOf o = .plain := by
  unfold wordOf
  split
  · exact absurd rfl h
  · exact absurd rfl h
  · rfl

/-- words that are none of those spelled out -/
theorem loop_plain (tool : Tool) (fuel : Nat) (W : World) {w : String} (hk : w ∉ known) (rest : List String) (st : St) :
    (∀ o, w.toList = '-' :: 'D' :: o → loop tool fuel W (w :: rest) st = if debugOk o then loop tool fuel W rest st else .exit 1 st.out) ∧
    (∀ o, w.toList = '-' :: o → o.head? ≠ some 'D' → loop tool fuel W (w :: rest) st = .exit 1 st.out) ∧
    (w.toList.head? ≠ some '-' → ∀ st', compile tool fuel W w st = .inl st' → loop tool fuel W (w :: rest) st = loop tool fuel W rest st') ∧
    (w.toList.head? ≠ some '-' → ∀ e, compile tool fuel W w st = .inr e → loop tool fuel W (w :: rest) st = e) := by
  simp only [known, List.mem_cons, List.not_mem_nil, or_false, not_or] at hk
  obtain ⟨h1, h2, h3, h4, h5, h6, h7, h8, h9, h10, h11, h12, h13, h14⟩ := hk
  rw [loop.eq_def]
  simp only [h1, h2, h3, h4, h5, h6, h7, h8, h9, h10, h11, h12, h13, h14, if_false, or_self]
  refine ⟨fun o ho => ?_, fun o ho hd => ?_, fun hp st' hc => ?_, fun hp e hc => ?_⟩
  · rw [ho]; rfl
  · rw [ho, wordOf_hyphen hd]
  · rw [wordOf_plain hp]; simp only [hc]
  · rw [wordOf_plain hp]; simp only [hc]

theorem known_hyphen {w : String} (h : w ∈ known) : w.toList.head? = some '-' ∧ ∀ o, w.toList ≠ '-' :: 'D' :: o := by
  simp only [known, List.mem_cons, List.not_mem_nil, or_false] at h
  rcases h with rfl | rfl | rfl | rfl | rfl | rfl | rfl | rfl | rfl | rfl | rfl | rfl | rfl | rfl <;>
    exact ⟨by decide +kernel, fun o ho => absurd (congrArg (fun l => l[1]?) ho) (by simp only [List.getElem?_cons_succ, List.getElem?_cons_zero]; decide +kernel)⟩

theorem not_known_of {w : String} (h : w.toList.head? ≠ some '-') : w ∉ known := fun hk => h (known_hyphen hk).1

theorem not_known_debug {w : String} {o : List Char} (h : w.toList = '-' :: 'D' :: o) : w ∉ known := fun hk => (known_hyphen hk).2 o h

/-- every pass ends on the modules -/
def Ends (fuel : Nat) (W : World) : Prop := ∀ n scc m, Decl.module m ∈ W.decls n → ∃ v, analyzeModule fuel scc m = .ok v

theorem loop_item {tool : Tool} {fuel : Nat} {W : World} (ht : Ends fuel W) {ws : List String} {i : Item} (hw : Words ws i)
    (rest : List String) {pre : List Item} {st : St} (h : Agrees pre st) (ho : i.isOmit = true → pre.countP Item.isOmit < 80)
    (hi : i.isImpl = true → pre.countP Item.isImpl < 40) :
    (ItemOk tool fuel W pre i ∧ ∃ st', loop tool fuel W (ws ++ rest) st = loop tool fuel W rest st' ∧ Agrees (pre ++ [i]) st' ∧
      st'.out = st.out ++ outputs W pre [i]) ∨
    (¬ ItemOk tool fuel W pre i ∧ loop tool fuel W (ws ++ rest) st = .exit 1 st.out) := by
  have same : Agrees (pre ++ [.quiet]) st :=
    ⟨by simpa [Static] using h.static, by simpa [SccMode] using h.scc, by simpa [pathIn, Item.path?, List.filterMap_cons] using h.path,
      by simpa [filesIn, Item.file?, List.filterMap_cons] using h.seen, by simpa [Item.isOmit] using h.omitted, by simpa [Item.isImpl] using h.impls⟩
  cases hw with
  | «omit» n =>
    left
    have := ho rfl
    refine ⟨trivial, { st with omitted := st.omitted ++ [n] }, ?_, ?_, by simp [outputs]⟩
    · rw [List.cons_append, loop.eq_def]
      have hl : ¬ 80 ≤ st.omitted.length := by rw [h.omitted]; omega
      simp only [if_true, hl, if_false]
      rfl
    · exact ⟨by simpa [Static] using h.static, by simpa [SccMode] using h.scc, by simpa [pathIn, Item.path?, List.filterMap_cons] using h.path,
        by simpa [filesIn, Item.file?, List.filterMap_cons] using h.seen, by simpa [Item.isOmit] using h.omitted, by simpa [Item.isImpl] using h.impls⟩
  | impl a b =>
    left
    have := hi rfl
    refine ⟨trivial, { st with impls := st.impls ++ [(a, b)] }, ?_, ?_, by simp [outputs]⟩
    · rw [List.cons_append, loop.eq_def]
      have hl : ¬ 80 ≤ 2 * st.impls.length := by rw [h.impls]; omega
      have hne : ¬ ("--impl" = "--omit") := by decide +kernel
      simp only [if_true, hl, hne, if_false]
      rfl
    · exact ⟨by simpa [Static] using h.static, by simpa [SccMode] using h.scc, by simpa [pathIn, Item.path?, List.filterMap_cons] using h.path,
        by simpa [filesIn, Item.file?, List.filterMap_cons] using h.seen, by simpa [Item.isOmit] using h.omitted, by simpa [Item.isImpl] using h.impls⟩
  | quiet hm =>
    left
    simp only [List.mem_cons, List.not_mem_nil, or_false] at hm
    rcases hm with rfl | rfl | rfl | rfl | rfl | rfl
    all_goals rw [List.cons_append, List.nil_append, loop.eq_def]
    · exact ⟨trivial, st, by simp, same, by simp [outputs]⟩
    · exact ⟨trivial, st, by simp, same, by simp [outputs]⟩
    · exact ⟨trivial, { st with verbose := st.verbose + 1 }, by simp, ⟨same.1, same.2, same.3, same.4, same.5, same.6⟩, by simp [outputs]⟩
    · exact ⟨trivial, { st with verbose := st.verbose + 1 }, by simp, ⟨same.1, same.2, same.3, same.4, same.5, same.6⟩, by simp [outputs]⟩
    · exact ⟨trivial, { st with debug := st.debug + 1 }, by simp, ⟨same.1, same.2, same.3, same.4, same.5, same.6⟩, by simp [outputs]⟩
    · exact ⟨trivial, { st with debug := st.debug + 1 }, by simp, ⟨same.1, same.2, same.3, same.4, same.5, same.6⟩, by simp [outputs]⟩
  | static hm =>
    left
    have ag : Agrees (pre ++ [.static]) { st with static := true } :=
      ⟨by simp [Static], by simpa [SccMode] using h.scc, by simpa [pathIn, Item.path?, List.filterMap_cons] using h.path,
        by simpa [filesIn, Item.file?, List.filterMap_cons] using h.seen, by simpa [Item.isOmit] using h.omitted, by simpa [Item.isImpl] using h.impls⟩
    simp only [List.mem_cons, List.not_mem_nil, or_false] at hm
    rcases hm with rfl | rfl
    all_goals
      rw [List.cons_append, List.nil_append, loop.eq_def]
      exact ⟨trivial, _, by simp, ag, by simp [outputs]⟩
  | scc hm =>
    left
    have ag : Agrees (pre ++ [.scc]) { st with static := true, scc := true } :=
      ⟨by simp [Static], by simp [SccMode], by simpa [pathIn, Item.path?, List.filterMap_cons] using h.path,
        by simpa [filesIn, Item.file?, List.filterMap_cons] using h.seen, by simpa [Item.isOmit] using h.omitted, by simpa [Item.isImpl] using h.impls⟩
    simp only [List.mem_cons, List.not_mem_nil, or_false] at hm
    rcases hm with rfl | rfl
    all_goals
      rw [List.cons_append, List.nil_append, loop.eq_def]
      exact ⟨trivial, _, by simp, ag, by simp [outputs]⟩
  | path p hm =>
    left
    have ag : Agrees (pre ++ [.path p]) { st with path := some p } :=
      ⟨by simpa [Static] using h.static, by simpa [SccMode] using h.scc, by simp [pathIn, Item.path?, List.filterMap_cons],
        by simpa [filesIn, Item.file?, List.filterMap_cons] using h.seen, by simpa [Item.isOmit] using h.omitted, by simpa [Item.isImpl] using h.impls⟩
    simp only [List.mem_cons, List.not_mem_nil, or_false] at hm
    rcases hm with rfl | rfl
    all_goals
      rw [List.cons_append, loop.eq_def]
      exact ⟨trivial, _, by simp, ag, by simp [outputs]⟩
  | debug hd hne hall =>
    left
    refine ⟨trivial, st, ?_, same, by simp [outputs]⟩
    rw [List.cons_append, List.nil_append, (loop_plain tool fuel W (not_known_debug hd) rest st).1 _ hd, if_pos (debugOk_iff.2 ⟨hne, hall⟩)]
  | badDebug hd hb =>
    right
    refine ⟨fun h => h, ?_⟩
    rw [List.cons_append, List.nil_append, (loop_plain tool fuel W (not_known_debug hd) rest st).1 _ hd, if_neg]
    intro hk
    obtain ⟨h1, h2⟩ := debugOk_iff.1 hk
    rcases hb with hb | ⟨c, hc, hb⟩
    · exact h1 hb
    · exact hb (h2 c hc)
  | wrong hd hn hk =>
    right
    exact ⟨fun h => h, (loop_plain tool fuel W hk rest st).2.1 _ hd hn⟩
  | file hn =>
    rename_i w
    have hp := (loop_plain tool fuel W (not_known_of hn) rest st).2.2
    rcases compile_spec (tool := tool) (fuel := fuel) (W := W) (n := w) h (fun scc m hm => ht w scc m hm) with ⟨h1, st', h2, h3, h4⟩ | ⟨h1, h2⟩
    · exact .inl ⟨h1, st', hp.1 hn st' h2, h3, h4⟩
    · exact .inr ⟨h1, hp.2 hn _ h2⟩

/-- the items of a line: up to the first that is not right -/
theorem loop_items {tool : Tool} {fuel : Nat} {W : World} (ht : Ends fuel W) {args : List String} {items : List Item} (hr : Reads args items) :
    ∀ {pre : List Item} {st : St}, Agrees pre st → (pre ++ items).countP Item.isOmit ≤ 80 → (pre ++ items).countP Item.isImpl ≤ 40 →
      ((∀ a i b, items = a ++ i :: b → ItemOk tool fuel W (pre ++ a) i) ∧ loop tool fuel W args st = .exit 0 (st.out ++ outputs W pre items)) ∨
      (∃ a i b, items = a ++ i :: b ∧ (∀ c j d, a = c ++ j :: d → ItemOk tool fuel W (pre ++ c) j) ∧ ¬ ItemOk tool fuel W (pre ++ a) i ∧
        loop tool fuel W args st = .exit 1 (st.out ++ outputs W pre a)) := by
  induction hr with
  | nil =>
    intro pre st h _ _
    left
    exact ⟨fun a i b hab => by simp at hab, by rw [loop.eq_def]; simp [outputs]⟩
  | @cons ws i rest is hw hr ih =>
    intro pre st h ho hi
    have ho' : i.isOmit = true → pre.countP Item.isOmit < 80 := by
      intro hb
      rw [List.countP_append, List.countP_cons, hb] at ho
      simp only [if_true] at ho
      omega
    have hi' : i.isImpl = true → pre.countP Item.isImpl < 40 := by
      intro hb
      rw [List.countP_append, List.countP_cons, hb] at hi
      simp only [if_true] at hi
      omega
    rcases loop_item (tool := tool) ht hw rest h ho' hi' with ⟨hok, st', e, h', eo⟩ | ⟨hno, e⟩
    · have hout : ∀ l, st'.out ++ outputs W (pre ++ [i]) l = st.out ++ outputs W pre (i :: l) := by
        intro l
        rw [show i :: l = [i] ++ l from rfl, outputs_append, eo, List.append_assoc]
      rcases ih h' (by simpa using ho) (by simpa using hi) with ⟨hall, hl⟩ | ⟨a, j, b, hab, hall, hno, hl⟩
      · left
        refine ⟨fun a j b hab => ?_, by rw [e, hl, hout]⟩
        cases a with
        | nil => simp only [List.nil_append, List.cons.injEq] at hab; rw [← hab.1]; simpa using hok
        | cons x a =>
          simp only [List.cons_append, List.cons.injEq] at hab
          have := hall a j b hab.2
          rw [List.append_assoc, ← List.singleton_append] at *
          rw [← hab.1]; exact this
      · right
        refine ⟨i :: a, j, b, by rw [hab]; rfl, fun c k d hcd => ?_, by simpa using hno, by rw [e, hl, hout]⟩
        cases c with
        | nil => simp only [List.nil_append, List.cons.injEq] at hcd; rw [← hcd.1]; simpa using hok
        | cons x c =>
          simp only [List.cons_append, List.cons.injEq] at hcd
          have := hall c k d hcd.2
          rw [← hcd.1]; simpa using this
    · right
      exact ⟨[], i, is, rfl, fun c j d hcd => by simp at hcd, by simpa using hno, by rw [e]; simp [outputs]⟩

/-- every line can be read, unless it ends in an option that lacks something -/
theorem reads_total (args : List String) :
    (∃ items, Reads args items) ∨ ∃ pre ws items, args = pre ++ ws ∧ Reads pre items ∧ Dangling ws := by
  induction hn : args.length using Nat.strongRecOn generalizing args with
  | _ n ih =>
    have step : ∀ (ws : List String) (i : Item) (rest : List String), args = ws ++ rest → Words ws i → 0 < ws.length →
        (∃ items, Reads args items) ∨ ∃ pre ws items, args = pre ++ ws ∧ Reads pre items ∧ Dangling ws := by
      intro ws i rest he hw hpos
      rcases ih rest.length (by rw [← hn, he, List.length_append]; omega) rest rfl with ⟨is, hr⟩ | ⟨pre, d, is, hp, hr, hd⟩
      · exact .inl ⟨i :: is, by rw [he]; exact .cons hw hr⟩
      · exact .inr ⟨ws ++ pre, d, i :: is, by rw [he, hp, List.append_assoc], .cons hw hr, hd⟩
    have dang : Dangling args → (∃ items, Reads args items) ∨ ∃ pre ws items, args = pre ++ ws ∧ Reads pre items ∧ Dangling ws :=
      fun hd => .inr ⟨[], args, [], rfl, .nil, hd⟩
    match args, hn, step, dang with
    | [], _, _, _ => exact .inl ⟨[], .nil⟩
    | w :: rest, hn, step, dang =>
      by_cases hk : w ∈ known
      · simp only [known, List.mem_cons, List.not_mem_nil, or_false] at hk
        rcases hk with rfl | rfl | rfl | rfl | rfl | rfl | rfl | rfl | rfl | rfl | rfl | rfl | rfl | rfl
        · match rest, step, dang with
          | [], _, dang => exact dang (.inl rfl)
          | n :: rest, step, _ => exact step ["--omit", n] _ _ rfl (Words.omit n) (by simp)
        · match rest, step, dang with
          | [], _, dang => exact dang (.inr (.inl rfl))
          | [a], _, dang => exact dang (.inr (.inr (.inl ⟨a, rfl⟩)))
          | a :: b :: rest, step, _ => exact step ["--impl", a, b] _ _ rfl (.impl a b) (by simp)
        · exact step ["-I"] _ _ rfl (.quiet (by simp)) (by simp)
        · exact step ["--incremental"] _ _ rfl (.quiet (by simp)) (by simp)
        · exact step ["-S"] _ _ rfl (.static (by simp)) (by simp)
        · exact step ["--static"] _ _ rfl (.static (by simp)) (by simp)
        · exact step ["-C"] _ _ rfl (.scc (by simp)) (by simp)
        · exact step ["--static-scc"] _ _ rfl (.scc (by simp)) (by simp)
        · exact step ["-V"] _ _ rfl (.quiet (by simp)) (by simp)
        · exact step ["--verbose"] _ _ rfl (.quiet (by simp)) (by simp)
        · exact step ["-G"] _ _ rfl (.quiet (by simp)) (by simp)
        · exact step ["--debug"] _ _ rfl (.quiet (by simp)) (by simp)
        · match rest, step, dang with
          | [], _, dang => exact dang (.inr (.inr (.inr (.inl rfl))))
          | p :: rest, step, _ => exact step ["-p", p] _ _ rfl (.path p (by simp)) (by simp)
        · match rest, step, dang with
          | [], _, dang => exact dang (.inr (.inr (.inr (.inr rfl))))
          | p :: rest, step, _ => exact step ["--apspath", p] _ _ rfl (.path p (by simp)) (by simp)
      · by_cases hh : w.toList.head? = some '-'
        · obtain ⟨o, ho⟩ : ∃ o, w.toList = '-' :: o := by
            cases hl : w.toList with
            | nil => rw [hl] at hh; cases hh
            | cons c o => rw [hl] at hh; simp only [List.head?_cons, Option.some.injEq] at hh; exact ⟨o, by rw [hh]⟩
          by_cases hd : o.head? = some 'D'
          · obtain ⟨q, hq⟩ : ∃ q, o = 'D' :: q := by
              cases o with
              | nil => cases hd
              | cons c q => simp only [List.head?_cons, Option.some.injEq] at hd; exact ⟨q, by rw [hd]⟩
            subst hq
            by_cases hok : q ≠ [] ∧ ∀ c ∈ q, c ∈ debugLetters
            · exact step [w] _ _ rfl (.debug ho hok.1 hok.2) (by simp)
            · refine step [w] _ _ rfl (.badDebug ho ?_) (by simp)
              by_cases hq : q = []
              · exact .inl hq
              · right
                by_contra hc
                push Not at hc
                exact hok ⟨hq, hc⟩
          · exact step [w] _ _ rfl (.wrong ho hd hk) (by simp)
        · exact step [w] _ _ rfl (.file hh) (by simp)

end Aps.Driver
