import Verif.Proofs.Rope
set_option linter.unusedVariables false
/-!
# C14: rope strings

`Denotes m p t` (in `Verif/Proofs/Rope.lean`): the string `p` stands for the text `t`: a leaf for
the text it was made from, a concatenation for the texts of its parts one after the other.
-/
namespace Aps.Props
open Aps.Rope

/-- How a client may build a string. -/
inductive RopeExpr where
  | lit (s : List Nat)
  | saved (s : List Nat)
  | stub (s : List Nat)
  | conc (a b : RopeExpr)

/-- The text meant. -/
def RopeExpr.text : RopeExpr → List Nat
  | .lit s => s
  | .saved s => s
  | .stub s => s
  | .conc a b => a.text ++ b.text

/-- C strings have no 0 byte inside. -/
def RopeExpr.ok : RopeExpr → Prop
  | .lit s => 0 ∉ s
  | .saved s => 0 ∉ s
  | .stub s => 0 ∉ s
  | .conc a b => a.ok ∧ b.ok

/-- The calls made. -/
def RopeExpr.build : RopeExpr → List Obj → Res (Nat × List Obj)
  | .lit s, m => .ok (makeString s m)
  | .saved s, m => .ok (makeSavedString s m)
  | .stub s, m => .ok (makeStubString s m)
  | .conc a b, m => (a.build m).bind fun r => (b.build r.2).bind fun q => concString r.1 q.1 q.2

theorem makeString_spec (s : List Nat) (hs : 0 ∉ s) (m : List Obj) (hm : WellMade m) :
    ∃ l, makeString s m = (m.length, m ++ l) ∧ Denotes (m ++ l) m.length s ∧ WellMade (m ++ l) := by
  unfold makeString
  split
  · refine ⟨[.constant s], rfl, .constant (by simp), ?_⟩
    intro u hu
    rcases List.mem_append.1 hu with hu | hu
    · exact hm u hu
    · simp at hu
  · refine ⟨[.chars s], rfl, .chars (by simp), ?_⟩
    intro u hu
    rcases List.mem_append.1 hu with hu | hu
    · exact hm u hu
    · simp at hu; rw [hu]; exact ⟨hs, by omega⟩

/-- Every string built by `make_string`, `make_saved_string`, `make_stub_string` and `conc_string`
denotes the concatenation of the pieces; strings built before keep their text. -/
theorem C14_build (e : RopeExpr) (he : e.ok) (m : List Obj) (hm : WellMade m) :
    ∃ p m', e.build m = .ok (p, m') ∧ Denotes m' p e.text ∧ WellMade m' ∧
      ∀ q t, Denotes m q t → Denotes m' q t := by
  have key : ∀ (e : RopeExpr), e.ok → ∀ m, WellMade m →
      ∃ p l, e.build m = .ok (p, m ++ l) ∧ Denotes (m ++ l) p e.text ∧ WellMade (m ++ l) := by
    intro e
    induction e with
    | lit s => intro h m hm; obtain ⟨l, h1, h2⟩ := makeString_spec s h m hm
               exact ⟨_, l, by simp [RopeExpr.build, h1], h2⟩
    | saved s => intro h m hm; obtain ⟨l, h1, h2⟩ := makeString_spec s h m hm
                 exact ⟨_, l, by simp [RopeExpr.build, makeSavedString, h1], h2⟩
    | stub s =>
      intro h m hm
      refine ⟨m.length, [.constant s], rfl, .constant (by simp [RopeExpr.text]), ?_⟩
      intro u hu
      rcases List.mem_append.1 hu with hu | hu
      · exact hm u hu
      · simp at hu
    | conc a b iha ihb =>
      intro h m hm
      obtain ⟨p, l, e1, d1, n1⟩ := iha h.1 m hm
      obtain ⟨q, l', e2, d2, n2⟩ := ihb h.2 _ n1
      obtain ⟨r, l'', e3, d3, n3⟩ := concString_spec n2 (d1.append l') d2
      refine ⟨r, l ++ l' ++ l'', ?_, ?_, ?_⟩
      · simp only [RopeExpr.build, e1, e2, e3, Res.bind]; simp
      · simpa [RopeExpr.text] using d3
      · simpa using n3
  obtain ⟨p, l, h1, h2, h3⟩ := key e he m hm
  exact ⟨p, _, h1, h2, h3, fun q t h => h.append l⟩

/-- `string_length` is the length of the text. -/
theorem C14_length (m : List Obj) (hm : WellMade m) (p : Nat) (t : List Nat) (h : Denotes m p t) :
    ∃ f, ∀ fuel, f ≤ fuel → stringLength m fuel p = .ok t.length := stringLength_spec hm h

/-- `realize_string` into a buffer with room for the length plus one writes exactly the text and a
NUL, and nothing after. -/
theorem C14_realize (m : List Obj) (hm : WellMade m) (p : Nat) (t : List Nat) (h : Denotes m p t) :
    ∃ f, ∀ fuel, f ≤ fuel → ∀ buf : List Nat, t.length + 1 ≤ buf.length →
      realizeString m fuel p buf = .ok (t ++ 0 :: buf.drop (t.length + 1)) := realizeString_spec hm h

/-- `substitute_string` gives a string whose text is that of `subject` with the text of `sub` for
every occurrence of the string `stub`; all strings there were keep their text. -/
theorem C14_substitute (m : List Obj) (hm : WellMade m) (sub stub subject : Nat) (w t : List Nat)
    (hs : Denotes m sub w) (h : DenotesSub m stub w subject t) :
    ∃ f, ∀ fuel, f ≤ fuel → ∃ r m', substString sub stub fuel subject m = .ok (r, m') ∧
      Denotes m' r t ∧ ∀ q u, Denotes m q u → Denotes m' q u := by
  obtain ⟨f, hf⟩ := substString_spec (sub := sub) h
  refine ⟨f, fun fuel hfu => ?_⟩
  obtain ⟨r, l, e, d, _⟩ := hf fuel hfu [] (by simpa using hm) (by simpa using hs)
  simp only [List.append_nil] at e d
  exact ⟨r, _, e, d, fun q u hq => hq.append l⟩

/-- Strings from `make_integer_string` are not usable: it stores the type code of constant
strings, so `string_length` and `realize_string` follow an integer as if it were a pointer, for
every integer and base, in every memory. -/
theorem C14_integer_refuted (n : Int) (base : Nat) (m : List Obj) (fuel : Nat) (buf : List Nat)
    (hb : buf ≠ []) :
    stringLength (makeIntegerString n base m).2 (fuel + 1) (makeIntegerString n base m).1 = .ub ∧
    realizeString (makeIntegerString n base m).2 (fuel + 1) (makeIntegerString n base m).1 buf
      = .ub := by
  have hl : 0 < buf.length := List.length_pos_iff.2 hb
  constructor
  · simp [stringLength, makeIntegerString, code]
  · simp [realizeString, realizeAux, makeIntegerString, code, writeAt, hl]

/-- A case: `conc (conc "ab" stub) ""` in a memory with another string. -/
example : (RopeExpr.conc (.conc (.lit [97, 98]) (.stub [200, 99])) (.lit [])).ok := by
  simp [RopeExpr.ok]
example : ∃ p m', (RopeExpr.conc (.conc (.lit [97, 98]) (.stub [200, 99])) (.lit [])).build
      [.chars [120]] = .ok (p, m') ∧
    stringLength m' 9 p = .ok 4 ∧
    realizeString m' 9 p [1, 1, 1, 1, 1, 7] = .ok [97, 98, 200, 99, 0, 7] := by
  refine ⟨_, _, rfl, ?_, ?_⟩ <;> decide +kernel
example : DenotesSub [.chars [97], .constant [63], .conc 0 1, .conc 2 1] 1 [98, 98] 3
    [97, 98, 98, 98, 98] :=
  .conc (t := [97, 98, 98]) (by decide) rfl
    (.conc (t := [97]) (by decide) rfl (.chars (by decide) rfl) .stub) .stub

end Aps.Props
