import Verif.Spec.SccGen
import Mathlib.Tactic.Common
/-!
# What is printed is code

The stream of tokens is balanced, loops are not nested.
-/
set_option linter.unusedVariables false
namespace Aps.SccGen
open Aps.Oag Aps.Dnc Aps.Static

variable {V : Type}

/-- one piece of code after the other -/
def Code.append : Code V → Code V → Code V
  | .done, d => d
  | .visit c ph rest, d => .visit c ph (rest.append d)
  | .assign i e rest, d => .assign i e (rest.append d)
  | .loop id body rest, d => .loop id body (rest.append d)
  | .letNode e rest, d => .letNode e (rest.append d)
  | .ifs reads fn t f rest, d => .ifs reads fn t f (rest.append d)
  | .mat pat t f rest, d => .mat pat t f (rest.append d)

theorem render_append (c d : Code V) : (c.append d).render = c.render ++ d.render := by
  induction c <;> simp [Code.append, Code.render, *]

theorem Code.NoLoop.flat {c : Code V} (h : c.NoLoop) : c.Flat := by
  induction c with
  | done => trivial
  | visit _ _ _ ih => exact ih h
  | assign _ _ _ ih => exact ih h
  | loop _ _ _ _ _ => exact h.elim
  | letNode _ _ ih => exact ih h
  | ifs _ _ _ _ _ iht ihf ih => exact ⟨iht h.1, ihf h.2.1, ih h.2.2⟩
  | mat _ _ _ _ iht ihf ih => exact ⟨iht h.1, ihf h.2.1, ih h.2.2⟩

theorem noLoop_append {c d : Code V} (hc : c.NoLoop) (hd : d.NoLoop) : (c.append d).NoLoop := by
  induction c with
  | done => exact hd
  | visit _ _ _ ih => exact ih hc
  | assign _ _ _ ih => exact ih hc
  | loop _ _ _ _ _ => exact hc.elim
  | letNode _ _ ih => exact ih hc
  | ifs _ _ _ _ _ _ _ ih => exact ⟨hc.1, hc.2.1, ih hc.2.2⟩
  | mat _ _ _ _ _ _ ih => exact ⟨hc.1, hc.2.1, ih hc.2.2⟩

theorem flat_append {c d : Code V} (hc : c.Flat) (hd : d.Flat) : (c.append d).Flat := by
  induction c with
  | done => exact hd
  | visit _ _ _ ih => exact ih hc
  | assign _ _ _ ih => exact ih hc
  | loop _ _ _ _ ih => exact ⟨hc.1, hc.2.1, ih hc.2.2⟩
  | letNode _ _ ih => exact ih hc
  | ifs _ _ _ _ _ _ _ ih => exact ⟨hc.1, hc.2.1, ih hc.2.2⟩
  | mat _ _ _ _ _ _ ih => exact ⟨hc.1, hc.2.1, ih hc.2.2⟩

/-- what is allowed in code: nothing, loops of one level -/
def Lev (b : Bool) (c : Code V) : Prop := if b then c.Flat else c.NoLoop

theorem Lev.flat {b : Bool} {c : Code V} (h : Lev b c) : c.Flat := by
  cases b
  · exact Code.NoLoop.flat h
  · exact h

theorem lev_of {b : Bool} {c : Code V} (h : c.NoLoop) : Lev b c := by
  cases b
  · exact h
  · exact Code.NoLoop.flat h

theorem lev_append {b : Bool} {c d : Code V} (hc : Lev b c) (hd : Lev b d) : Lev b (c.append d) := by
  cases b
  · exact noLoop_append hc hd
  · exact flat_append hc hd

/-- a piece of code was written, and nothing is held back -/
def Writes (b : Bool) (w w' : Writer V) : Prop := ∃ c, Lev b c ∧ w' = ⟨[], w.out ++ c.render⟩

/-- the rest of the body of a loop was written, its end, and more -/
def Ends (id : Nat) (w w' : Writer V) : Prop :=
  ∃ body rest, Code.NoLoop body ∧ Code.Flat rest ∧ w' = ⟨[], w.out ++ (body.render ++ .loopEnd id :: rest.render)⟩

/-- What `implement` does with the writer. -/
def Effect (b allowed : Bool) (loop : Option Nat) (w w' : Writer V) : Prop :=
  match allowed, loop with
  | true, some id => b = true ∧ (w.queue = [] → Ends id w w') ∧ (w.queue = [id] → Writes true w w')
  | true, none => w.queue = [] → Writes b w w'
  | false, _ => w.queue = [] → Writes false w w'

/-- the state of the writer between two steps -/
def Ready (allowed : Bool) (loop : Option Nat) (w : Writer V) : Prop :=
  w.queue = [] ∨ (allowed = true ∧ ∃ id, loop = some id ∧ w.queue = [id])

theorem writes_done {b : Bool} {w : Writer V} (h : w.queue = []) : Writes b w w := by
  refine ⟨.done, lev_of trivial, ?_⟩
  obtain ⟨q, o⟩ := w
  simp only at h
  simp [h, Code.render]

theorem writes_trans {b : Bool} {w₁ w₂ w₃ : Writer V} (h₁ : Writes b w₁ w₂) (h₂ : Writes b w₂ w₃) : Writes b w₁ w₃ := by
  obtain ⟨c, hc, rfl⟩ := h₁
  obtain ⟨d, hd, rfl⟩ := h₂
  exact ⟨c.append d, lev_append hc hd, by simp [render_append]⟩

theorem writes_ends {id : Nat} {w₁ w₂ w₃ : Writer V} (h₁ : Writes false w₁ w₂) (h₂ : Ends id w₂ w₃) : Ends id w₁ w₃ := by
  obtain ⟨c, hc, rfl⟩ := h₁
  obtain ⟨d, r, hd, hr, rfl⟩ := h₂
  exact ⟨c.append d, r, noLoop_append hc hd, hr, by simp [render_append]⟩

theorem ends_writes {id : Nat} {w₁ w₂ w₃ : Writer V} (h₁ : Ends id w₁ w₂) (h₂ : Writes true w₂ w₃) : Ends id w₁ w₃ := by
  obtain ⟨c, r, hc, hr, rfl⟩ := h₁
  obtain ⟨d, hd, rfl⟩ := h₂
  exact ⟨c, r.append d, hc, flat_append hr hd, by simp [render_append]⟩

theorem writes_mono {b : Bool} {w w' : Writer V} (h : Writes false w w') : Writes b w w' := by
  obtain ⟨c, hc, rfl⟩ := h
  exact ⟨c, lev_of hc, rfl⟩

theorem writes_flat {b : Bool} {w w' : Writer V} (h : Writes b w w') : Writes true w w' := by
  obtain ⟨c, hc, rfl⟩ := h
  exact ⟨c, hc.flat, rfl⟩

/-- Something without a loop is written, then the rest. -/
theorem effect_after {b allowed : Bool} {loop : Option Nat} {w w₁ w' : Writer V} {c : Code V} (hc : c.NoLoop)
    (hne : c.render ≠ []) (hw : w₁ = w.write c.render) (h : Effect b allowed loop w₁ w') : Effect b allowed loop w w' := by
  have hq : w₁.queue = [] := by rw [hw]; rfl
  have hwr : w.queue = [] → Writes false w w₁ := by
    intro h
    exact ⟨c, hc, by rw [hw]; simp [Writer.write, h]⟩
  match allowed, loop with
  | true, some id =>
    refine ⟨h.1, fun hq' => writes_ends (hwr hq') (h.2.1 hq), fun hq' => ?_⟩
    obtain ⟨d, r, hd, hr, rfl⟩ := h.2.1 hq
    refine ⟨.loop id (c.append d) r, ⟨noLoop_append hc hd, by simp [render_append, hne], hr⟩, ?_⟩
    rw [hw]
    simp [Writer.write, hq', Code.render, render_append]
  | true, none => exact fun hq' => writes_trans (writes_mono (hwr hq')) (h hq)
  | false, _ => exact fun hq' => writes_trans (hwr hq') (h hq)

theorem instToks_code (P : SProd V) (asg : Asgs V) (i : Nat) (inst : Inst V) :
    ∃ c : Code V, c.NoLoop ∧ c.render = instToks P asg i inst := by
  have : ∀ l : List (Expr V), ∃ c : Code V, c.NoLoop ∧
      c.render = l.filterMap fun e => (emits inst (some e)).map (.assign i) := by
    intro l
    induction l with
    | nil => exact ⟨.done, trivial, rfl⟩
    | cons e l ih =>
      obtain ⟨c, hc, hr⟩ := ih
      cases he : emits inst (some e) with
      | none => exact ⟨c, hc, by simp [he, hr]⟩
      | some e' => exact ⟨.assign i e' c, hc, by simp [he, hr, Code.render]⟩
  unfold instToks
  split
  · exact ⟨.done, trivial, rfl⟩
  · exact this _

theorem effect_writeAll {b allowed : Bool} {loop : Option Nat} {w w' : Writer V} {P : SProd V} {asg : Asgs V} {i : Nat}
    {inst : Inst V} (h : Effect b allowed loop (w.writeAll (instToks P asg i inst)) w') : Effect b allowed loop w w' := by
  obtain ⟨c, hc, hr⟩ := instToks_code P asg i inst
  unfold Writer.writeAll at h
  split at h
  · exact h
  · rename_i hne
    refine effect_after hc (by rw [hr]; simpa using hne) ?_ h
    rw [hr]

theorem ready_writeAll {allowed : Bool} {loop : Option Nat} {w : Writer V} {ts : List (Tok V)} (h : Ready allowed loop w) :
    Ready allowed loop (w.writeAll ts) := by
  unfold Writer.writeAll
  split
  · exact h
  · exact .inl rfl

theorem effect_close {b allowed : Bool} {loop : Option Nat} {w : Writer V} (hb : allowed = true → loop.isSome → b = true)
    (hw : Ready allowed loop w) : Effect b allowed loop w (closeLoop true allowed loop w).2 := by
  match allowed, loop with
  | true, some id =>
    refine ⟨hb rfl rfl, fun hq => ⟨.done, .done, trivial, trivial, ?_⟩, fun hq => ⟨.done, trivial, ?_⟩⟩
    · simp [closeLoop, loopEnd, hq, Writer.write, Code.render]
    · simp [closeLoop, loopEnd, hq, Code.render]
  | true, none => exact fun hq => writes_done hq
  | false, some id => exact fun hq => writes_done hq
  | false, none => exact fun hq => writes_done hq

theorem close_state {allowed : Bool} {loop : Option Nat} {w : Writer V} (hw : Ready allowed loop w) :
    ((closeLoop true allowed loop w).2).queue = [] ∧
    (closeLoop true allowed loop w).1 = (if allowed then none else loop) := by
  match allowed, loop, hw with
  | true, some id, .inl hq => simp [closeLoop, loopEnd, hq, Writer.write]
  | true, some id, .inr ⟨_, _, hi, hq⟩ => cases hi; simp [closeLoop, loopEnd, hq]
  | true, none, .inl hq => simp [closeLoop, hq]
  | false, some id, .inl hq => simp [closeLoop, hq]
  | false, none, .inl hq => simp [closeLoop, hq]

/-- Closing a loop, then the rest. -/
theorem effect_close_then {b allowed : Bool} {loop : Option Nat} {w w' : Writer V} (hb : allowed = true → loop.isSome → b = true)
    (hw : Ready allowed loop w) (h : Effect b allowed (closeLoop true allowed loop w).1 (closeLoop true allowed loop w).2 w') :
    Effect b allowed loop w w' := by
  have hs := close_state hw
  have he := effect_close hb hw
  rw [hs.2] at h
  match allowed, loop, hw with
  | true, some id, _ =>
    have hb' := hb rfl rfl
    have h' : Writes b _ w' := h hs.1
    exact ⟨hb', fun hq => ends_writes (he.2.1 hq) (writes_flat h'), fun hq => writes_trans (he.2.2 hq) (writes_flat h')⟩
  | true, none, _ => exact fun hq => writes_trans (he hq) (h hs.1)
  | false, some id, _ => exact fun hq => writes_trans (he hq) (h hs.1)
  | false, none, _ => exact fun hq => writes_trans (he hq) (h hs.1)

theorem effect_chunk {P : SProd V} {phase : Nat} {b allowed : Bool} {k : Nat} {chunk loop loop' : Option Nat} {w w₁ w' : Writer V}
    (hbp : b = !P.cyclic phase) (hb : allowed = true → loop.isSome → b = true)
    (hw : Ready allowed loop w) (hs : chunkStep true P phase allowed k chunk loop w = .ok (loop', w₁)) :
    (allowed = true → loop'.isSome → b = true) ∧ Ready allowed loop' w₁ ∧
    (Effect b allowed loop' w₁ w' → Effect b allowed loop w w') := by
  unfold chunkStep at hs
  split at hs
  · simp only at hs
    have hcs := close_state hw
    split at hs
    · rename_i hcirc
      simp only [Bool.and_eq_true] at hcirc
      obtain ⟨⟨ha, hc⟩, hp⟩ := hcirc
      have hbt : b = true := by rw [hbp]; exact hp
      obtain ⟨w₂, h₁, h₂⟩ := Res.bind_eq_ok.1 hs
      unfold loopStart at h₁
      rw [hcs.1] at h₁
      simp at h₁ h₂
      subst h₁
      obtain ⟨h₂, h₃⟩ := h₂
      subst h₂ h₃
      refine ⟨fun _ _ => hbt, .inr ⟨ha, k, rfl, rfl⟩, fun h => effect_close_then hb hw ?_⟩
      rw [hcs.2, ha]
      subst ha
      simp only [if_true]
      intro _
      rw [hbt]
      exact h.2.2 rfl
    · simp only [Res.pure_eq, Res.ok.injEq] at hs
      rw [hs] at hcs
      refine ⟨?_, .inl hcs.1, fun h => effect_close_then hb hw (by rw [hs]; exact h)⟩
      intro ha
      subst ha
      have := hcs.2
      simp only [if_true] at this
      simp [this]
  · simp only [Res.pure_eq, Res.ok.injEq, _root_.Prod.mk.injEq] at hs
    obtain ⟨rfl, rfl⟩ := hs
    exact ⟨hb, hw, id⟩

/-- the head of a conditional statement and its branches -/
theorem condHead_code (t : Test V) (x y : Code V) : ∃ c : Code V,
    c.render = condHead t ++ (x.render ++ .elseOpen :: (y.render ++ [.close])) ∧ (x.NoLoop → y.NoLoop → c.NoLoop) ∧
    (x.Flat → y.Flat → c.Flat) := by
  match t with
  | .ifs reads fn => exact ⟨.ifs reads fn x y .done, by simp [condHead, Code.render], fun h₁ h₂ => ⟨h₁, h₂, trivial⟩,
      fun h₁ h₂ => ⟨h₁, h₂, trivial⟩⟩
  | .mat true e pat => exact ⟨.letNode e (.mat pat x y .done), by simp [condHead, Code.render],
      fun h₁ h₂ => ⟨h₁, h₂, trivial⟩, fun h₁ h₂ => ⟨h₁, h₂, trivial⟩⟩
  | .mat false e pat => exact ⟨.mat pat x y .done, by simp [condHead, Code.render],
      fun h₁ h₂ => ⟨h₁, h₂, trivial⟩, fun h₁ h₂ => ⟨h₁, h₂, trivial⟩⟩

theorem implement_effect {P : SProd V} {phase : Nat} {b : Bool} (hbp : b = !P.cyclic phase) (t : Chunk.Tree) :
    ∀ (asg : Asgs V) (c : Cond) (chunk : Option Nat) (allowed : Bool) (loop : Option Nat) (w w' : Writer V),
      (allowed = true → loop.isSome → b = true) → Ready allowed loop w →
      implement true P phase t asg c chunk allowed loop w = .ok w' → Effect b allowed loop w w' := by
  induction t with
  | nil =>
    intro asg c chunk allowed loop w w' hb hw h
    simp only [implement, Res.ok.injEq] at h
    rw [← h]
    exact effect_close hb hw
  | inst i v k next ih =>
    intro asg c chunk allowed loop w w' hb hw h
    simp only [implement] at h
    obtain ⟨⟨loop', w₁⟩, hs, h⟩ := Res.bind_eq_ok.1 h
    obtain ⟨hb', hw', he⟩ := effect_chunk (w' := w') hbp hb hw hs
    apply he
    simp only at h
    split at h
    · exact ih _ _ _ _ _ _ _ hb' hw' h
    · split at h
      · cases h
      · split at h
        · cases h
        · split at h
          · exact ih _ _ _ _ _ _ _ hb' hw' h
          · exact effect_writeAll (ih _ _ _ _ _ _ _ hb' (ready_writeAll hw') h)
  | mark ph ch v k next ih =>
    intro asg c chunk allowed loop w w' hb hw h
    simp only [implement] at h
    obtain ⟨⟨loop', w₁⟩, hs, h⟩ := Res.bind_eq_ok.1 h
    obtain ⟨hb', hw', he⟩ := effect_chunk (w' := w') hbp hb hw hs
    apply he
    simp only at h
    split at h
    · exact ih _ _ _ _ _ _ _ hb' hw' h
    · split at h
      · have hcs := close_state hw'
        split at h
        · simp only [Res.ok.injEq] at h
          rw [← h]
          exact effect_close hb' hw'
        · refine effect_close_then hb' hw' (ih _ _ _ _ _ _ _ ?_ (.inl hcs.1) h)
          intro ha
          rw [hcs.2, ha]
          simp
      · refine effect_after (c := .visit ch.toNat ph.toNat .done) trivial (by simp [Code.render]) ?_
          (ih _ _ _ _ _ _ _ hb' (.inl rfl) h)
        simp [Code.render]
  | ifs i v k t f iht ihf =>
    intro asg c chunk allowed loop w w' hb hw h
    simp only [implement] at h
    obtain ⟨⟨loop', w₁⟩, hs, h⟩ := Res.bind_eq_ok.1 h
    obtain ⟨hb', hw', he⟩ := effect_chunk (w' := w') hbp hb hw hs
    apply he
    simp only at h
    split at h
    · split at h
      · cases h
      · split at h
        · exact ihf _ _ _ _ _ _ _ hb' hw' h
        · rename_i rule _ _
          obtain ⟨at_, _, h⟩ := Res.bind_eq_ok.1 h
          obtain ⟨w₂, h₂, h⟩ := Res.bind_eq_ok.1 h
          obtain ⟨af, _, h⟩ := Res.bind_eq_ok.1 h
          obtain ⟨w₃, h₃, h⟩ := Res.bind_eq_ok.1 h
          simp only [Res.pure_eq, Res.ok.injEq] at h
          have hi : (allowed && loop'.isNone) = true → loop'.isSome → b = true := by
            intro h1 h2
            simp only [Bool.and_eq_true] at h1
            cases loop' <;> simp_all
          have e₂ := iht _ _ _ _ _ _ _ hi (.inl rfl) h₂
          have e₃ := ihf _ _ _ _ _ _ _ hi (.inl rfl) h₃
          -- the whole statement is written
          have key : ∀ {bb : Bool}, Writes bb (w₁.write (condHead rule.test)) w₂ → Writes bb (w₂.write [.elseOpen]) w₃ →
              ∃ c : Code V, Lev bb c ∧ c.render ≠ [] ∧ w₃.write [.close] = w₁.write c.render := by
            rintro bb ⟨x, hx, rfl⟩ ⟨y, hy, rfl⟩
            obtain ⟨c, hc, h₁, h₂⟩ := condHead_code rule.test x y
            refine ⟨c, ?_, by rw [hc]; simp, ?_⟩
            · cases bb
              · exact h₁ hx hy
              · exact h₂ hx hy
            · rw [hc]
              simp [Writer.write]
          have hcl : ∀ {w₄ : Writer V}, w₄.queue = [] → Effect b allowed loop' w₄ (closeLoop true allowed loop' w₄).2 :=
            fun hq => effect_close hb' (.inl hq)
          rw [← h]
          match allowed, loop' with
          | true, none =>
            obtain ⟨c, hc, _, hr⟩ := key (e₂ rfl) (e₃ rfl)
            intro hq
            refine ⟨c, hc, ?_⟩
            rw [hr]
            simp [closeLoop, Writer.write, hq]
          | true, some id =>
            obtain ⟨c, hc, hne, hr⟩ := key (e₂ rfl) (e₃ rfl)
            exact effect_after hc hne hr (hcl rfl)
          | false, none =>
            obtain ⟨c, hc, hne, hr⟩ := key (e₂ rfl) (e₃ rfl)
            exact effect_after hc hne hr (hcl rfl)
          | false, some id =>
            obtain ⟨c, hc, hne, hr⟩ := key (e₂ rfl) (e₃ rfl)
            exact effect_after hc hne hr (hcl rfl)
    · cases h

/-! ## C++ -/

theorem closeLoop_cpp (allowed : Bool) (loop : Option Nat) (w : Writer V) : (closeLoop false allowed loop w).2 = w := by
  unfold closeLoop
  split
  · split <;> simp [loopEnd]
  · rfl

theorem chunkStep_cpp {P : SProd V} {phase : Nat} {allowed : Bool} {k : Nat} {chunk loop loop' : Option Nat} {w w₁ : Writer V}
    (hs : chunkStep false P phase allowed k chunk loop w = .ok (loop', w₁)) : w₁ = w := by
  unfold chunkStep at hs
  split at hs
  · simp only at hs
    split at hs
    · simp only [loopStart] at hs
      simp [closeLoop_cpp] at hs
      exact hs.2.symm
    · simp only [Res.pure_eq, Res.ok.injEq] at hs
      have := congrArg (·.2) hs
      simp only [closeLoop_cpp] at this
      exact this.symm
  · simp only [Res.pure_eq, Res.ok.injEq, _root_.Prod.mk.injEq] at hs
    exact hs.2.symm

theorem implement_cpp {P : SProd V} {phase : Nat} (t : Chunk.Tree) :
    ∀ (asg : Asgs V) (c : Cond) (chunk : Option Nat) (allowed : Bool) (loop : Option Nat) (w w' : Writer V), w.queue = [] →
      implement false P phase t asg c chunk allowed loop w = .ok w' → Writes false w w' := by
  induction t with
  | nil =>
    intro asg c chunk allowed loop w w' hw h
    simp only [implement, Res.ok.injEq, closeLoop_cpp] at h
    rw [← h]
    exact writes_done hw
  | inst i v k next ih =>
    intro asg c chunk allowed loop w w' hw h
    simp only [implement] at h
    obtain ⟨⟨loop', w₁⟩, hs, h'⟩ := Res.bind_eq_ok.1 h
    clear h
    have h := h'
    clear h'
    have := chunkStep_cpp hs
    subst this
    simp only at h
    split at h
    · exact ih _ _ _ _ _ _ _ hw h
    · split at h
      · cases h
      · split at h
        · cases h
        · split at h
          · exact ih _ _ _ _ _ _ _ hw h
          · rename_i inst _ _ _
            obtain ⟨x, hx, hr⟩ := instToks_code P asg i inst
            have hq : (w₁.writeAll (instToks P asg i inst)).queue = [] := by
              unfold Writer.writeAll
              split
              · exact hw
              · rfl
            refine writes_trans ⟨x, hx, ?_⟩ (ih _ _ _ _ _ _ _ hq h)
            rw [hr]
            unfold Writer.writeAll
            split
            · rename_i he
              rw [List.isEmpty_iff] at he
              obtain ⟨q, o⟩ := w₁
              simp only at hw
              simp [hw, he]
            · simp [Writer.write, hw]
  | mark ph ch v k next ih =>
    intro asg c chunk allowed loop w w' hw h
    simp only [implement] at h
    obtain ⟨⟨loop', w₁⟩, hs, h'⟩ := Res.bind_eq_ok.1 h
    clear h
    have h := h'
    clear h'
    have := chunkStep_cpp hs
    subst this
    simp only at h
    split at h
    · exact ih _ _ _ _ _ _ _ hw h
    · split at h
      · split at h
        · simp only [Res.ok.injEq, closeLoop_cpp] at h
          rw [← h]
          exact writes_done hw
        · rw [closeLoop_cpp] at h
          exact ih _ _ _ _ _ _ _ hw h
      · refine writes_trans ⟨.visit ch.toNat ph.toNat .done, trivial, ?_⟩ (ih _ _ _ _ _ _ _ rfl h)
        simp [Code.render, Writer.write, hw]
  | ifs i v k t f iht ihf =>
    intro asg c chunk allowed loop w w' hw h
    simp only [implement] at h
    obtain ⟨⟨loop', w₁⟩, hs, h'⟩ := Res.bind_eq_ok.1 h
    clear h
    have h := h'
    clear h'
    have := chunkStep_cpp hs
    subst this
    simp only at h
    split at h
    · split at h
      · cases h
      · split at h
        · exact ihf _ _ _ _ _ _ _ hw h
        · rename_i rule _ _
          obtain ⟨at_, _, h⟩ := Res.bind_eq_ok.1 h
          obtain ⟨w₂, h₂, h⟩ := Res.bind_eq_ok.1 h
          obtain ⟨af, _, h⟩ := Res.bind_eq_ok.1 h
          obtain ⟨w₃, h₃, h⟩ := Res.bind_eq_ok.1 h
          simp only [Res.pure_eq, Res.ok.injEq, closeLoop_cpp] at h
          obtain ⟨x, hx, rfl⟩ := iht _ _ _ _ _ _ _ rfl h₂
          obtain ⟨y, hy, rfl⟩ := ihf _ _ _ _ _ _ _ rfl h₃
          obtain ⟨d, hd, h₁, _⟩ := condHead_code rule.test x y
          refine ⟨d, h₁ hx hy, ?_⟩
          rw [← h, hd]
          simp [Writer.write, hw]
    · cases h

end Aps.SccGen
