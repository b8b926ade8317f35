import Verif.Model.Rope
import Mathlib.Data.List.Basic
import Mathlib.Tactic.Common
set_option linter.unusedVariables false
namespace Aps.Rope

/-- No C string has a 0 byte inside, and those kept as plain C strings start with a byte below
128. -/
def WellMade (m : List Obj) : Prop := ∀ s, Obj.chars s ∈ m → 0 ∉ s ∧ s.headD 0 < 128

theorem code_chars {s : List Nat} (h : s.headD 0 < 128) : code (.chars s) = .plain (s.headD 0) := by
  simp only [code, codeOfByte]; rw [if_pos h]

/-- The text of a string: of a leaf, what it was made from; of a concatenation, one after the
other. -/
inductive Denotes (m : List Obj) : Nat → List Nat → Prop
  | chars {p t} : m[p]? = some (.chars t) → Denotes m p t
  | constant {p t} : m[p]? = some (.constant t) → Denotes m p t
  | conc {p a b t u} : m[p]? = some (.conc a b) → Denotes m a t → Denotes m b u →
      Denotes m p (t ++ u)

/-- The text when every occurrence of the string `stub` is replaced by the text `w`. -/
inductive DenotesSub (m : List Obj) (stub : Nat) (w : List Nat) : Nat → List Nat → Prop
  | stub : DenotesSub m stub w stub w
  | chars {p t} : p ≠ stub → m[p]? = some (.chars t) → DenotesSub m stub w p t
  | constant {p t} : p ≠ stub → m[p]? = some (.constant t) → DenotesSub m stub w p t
  | conc {p a b t u} : p ≠ stub → m[p]? = some (.conc a b) → DenotesSub m stub w a t →
      DenotesSub m stub w b u → DenotesSub m stub w p (t ++ u)

theorem get_append {m : List Obj} {p : Nat} {o : Obj} (h : m[p]? = some o) (l : List Obj) :
    (m ++ l)[p]? = some o := by
  rw [List.getElem?_append_left (List.getElem?_eq_some_iff.1 h).1]; exact h

theorem Denotes.append {m : List Obj} {p : Nat} {t : List Nat} (h : Denotes m p t) (l : List Obj) :
    Denotes (m ++ l) p t := by
  induction h with
  | chars h => exact .chars (get_append h l)
  | constant h => exact .constant (get_append h l)
  | conc h _ _ i1 i2 => exact .conc (get_append h l) i1 i2

theorem DenotesSub.append {m : List Obj} {stub : Nat} {w : List Nat} {p : Nat} {t : List Nat}
    (h : DenotesSub m stub w p t) (l : List Obj) : DenotesSub (m ++ l) stub w p t := by
  induction h with
  | stub => exact .stub
  | chars hn h => exact .chars hn (get_append h l)
  | constant hn h => exact .constant hn (get_append h l)
  | conc hn h _ _ i1 i2 => exact .conc hn (get_append h l) i1 i2

theorem Denotes.det {m : List Obj} {p : Nat} {t u : List Nat} (h : Denotes m p t)
    (h' : Denotes m p u) : t = u := by
  induction h generalizing u with
  | chars h => cases h' with
    | chars h2 => rw [h] at h2; cases h2; rfl
    | constant h2 => rw [h] at h2; cases h2
    | conc h2 => rw [h] at h2; cases h2
  | constant h => cases h' with
    | chars h2 => rw [h] at h2; cases h2
    | constant h2 => rw [h] at h2; cases h2; rfl
    | conc h2 => rw [h] at h2; cases h2
  | conc h _ _ i1 i2 => cases h' with
    | chars h2 => rw [h] at h2; cases h2
    | constant h2 => rw [h] at h2; cases h2
    | conc h2 ha hb => rw [h] at h2; cases h2; rw [i1 ha, i2 hb]

theorem stringLength_spec {m : List Obj} (hw : WellMade m) {p : Nat} {t : List Nat} (h : Denotes m p t) :
    ∃ f, ∀ fuel, f ≤ fuel → stringLength m fuel p = .ok t.length := by
  induction h with
  | chars h =>
    refine ⟨1, fun fuel hf => ?_⟩
    obtain ⟨g, rfl⟩ : ∃ g, fuel = g + 1 := ⟨fuel - 1, by omega⟩
    simp [stringLength, h, code_chars (hw _ (List.mem_of_getElem? h)).2]
  | constant h =>
    refine ⟨1, fun fuel hf => ?_⟩
    obtain ⟨g, rfl⟩ : ∃ g, fuel = g + 1 := ⟨fuel - 1, by omega⟩
    simp [stringLength, h, code]
  | conc h _ _ i1 i2 =>
    obtain ⟨f1, h1⟩ := i1
    obtain ⟨f2, h2⟩ := i2
    refine ⟨max f1 f2 + 1, fun fuel hf => ?_⟩
    obtain ⟨g, rfl⟩ : ∃ g, fuel = g + 1 := ⟨fuel - 1, by omega⟩
    simp [stringLength, h, code, h1 g (by omega), h2 g (by omega)]

theorem writeAt_spec (t : List Nat) : ∀ (buf : List Nat) (i : Nat), i + t.length ≤ buf.length →
    writeAt buf i t = .ok (buf.take i ++ t ++ buf.drop (i + t.length)) := by
  induction t with
  | nil => intro buf i _; simp [writeAt]
  | cons b t ih =>
    intro buf i h
    simp only [List.length_cons] at h
    simp only [writeAt]
    rw [if_pos (by omega), ih _ _ (by simp; omega)]
    congr 1
    have h1 : (buf.set i b).take (i + 1) = buf.take i ++ [b] := by
      rw [List.take_succ, List.take_set_of_le (Nat.le_refl i)]
      simp [List.getElem?_set_self (show i < buf.length by omega)]
    have h2 : (buf.set i b).drop (i + 1 + t.length) = buf.drop (i + (t.length + 1)) := by
      rw [List.drop_set_of_lt (by omega)]
      congr 1; omega
    rw [h1, h2]
    simp

theorem copy_spec (buf t : List Nat) (i : Nat) (h : i + t.length + 1 ≤ buf.length) :
    ∃ r, copy buf i t = .ok (i + t.length, buf.take i ++ t ++ r) ∧
      r.length + (i + t.length) = buf.length ∧ r.drop 1 = buf.drop (i + t.length + 1) := by
  unfold copy
  rw [writeAt_spec _ _ _ (by simp; omega)]
  refine ⟨0 :: buf.drop (i + (t.length + 1)), ?_, ?_, ?_⟩
  · simp
  · simp; omega
  · simp; congr 1

/-- What writing a string at `i` leaves: what was before, the text, one byte, what came after. -/
theorem realizeAux_spec {m : List Obj} (hw : WellMade m) {p : Nat} {t : List Nat} (h : Denotes m p t) :
    ∃ f, ∀ fuel, f ≤ fuel → ∀ (i : Nat) (buf : List Nat), i + t.length + 1 ≤ buf.length →
      ∃ r, realizeAux m fuel p i buf = .ok (i + t.length, buf.take i ++ t ++ r) ∧
        r.length + (i + t.length) = buf.length ∧ r.drop 1 = buf.drop (i + t.length + 1) := by
  induction h with
  | chars h =>
    refine ⟨1, fun fuel hf i buf hb => ?_⟩
    obtain ⟨g, rfl⟩ : ∃ g, fuel = g + 1 := ⟨fuel - 1, by omega⟩
    simp only [realizeAux, h, code_chars (hw _ (List.mem_of_getElem? h)).2]
    exact copy_spec buf _ i hb
  | constant h =>
    refine ⟨1, fun fuel hf i buf hb => ?_⟩
    obtain ⟨g, rfl⟩ : ∃ g, fuel = g + 1 := ⟨fuel - 1, by omega⟩
    simp only [realizeAux, h, code]
    exact copy_spec buf _ i hb
  | @conc p a b t u h _ _ i1 i2 =>
    obtain ⟨f1, h1⟩ := i1
    obtain ⟨f2, h2⟩ := i2
    refine ⟨max f1 f2 + 1, fun fuel hf i buf hb => ?_⟩
    obtain ⟨g, rfl⟩ : ∃ g, fuel = g + 1 := ⟨fuel - 1, by omega⟩
    rw [List.length_append] at hb
    simp only [realizeAux, h, code]
    obtain ⟨r1, e1, l1, d1⟩ := h1 g (by omega) i buf (by omega)
    rw [e1]
    simp only [Res.bind]
    have hi : (buf.take i).length = i := by rw [List.length_take]; omega
    have hlen : (buf.take i ++ t ++ r1).length = buf.length := by simp; omega
    obtain ⟨r2, e2, l2, d2⟩ := h2 g (by omega) (i + t.length) (buf.take i ++ t ++ r1)
      (by rw [hlen]; omega)
    refine ⟨r2, ?_, ?_, ?_⟩
    · rw [e2]
      have ht : (buf.take i ++ t ++ r1).take (i + t.length) = buf.take i ++ t := by
        rw [List.take_append_of_le_length (by simp; omega), List.take_of_length_le (by simp; omega)]
      rw [ht]
      congr 2
      · simp; omega
      · simp
    · rw [hlen] at l2; simp; omega
    · rw [d2, List.length_append]
      have : (buf.take i ++ t ++ r1).drop (i + t.length + u.length + 1) =
          r1.drop (u.length + 1) := by
        rw [List.drop_append]
        have : (buf.take i ++ t).length = i + t.length := by simp; omega
        rw [this, List.drop_of_length_le (by simp; omega)]
        simp only [List.nil_append]
        congr 1; omega
      rw [this]
      have : r1.drop (u.length + 1) = (r1.drop 1).drop u.length := by
        rw [List.drop_drop]; congr 1; omega
      rw [this, d1, List.drop_drop]
      congr 1; omega

theorem realizeString_spec {m : List Obj} (hw : WellMade m) {p : Nat} {t : List Nat} (h : Denotes m p t) :
    ∃ f, ∀ fuel, f ≤ fuel → ∀ (buf : List Nat), t.length + 1 ≤ buf.length →
      realizeString m fuel p buf = .ok (t ++ 0 :: buf.drop (t.length + 1)) := by
  obtain ⟨f, hf⟩ := realizeAux_spec hw h
  refine ⟨f, fun fuel hfu buf hb => ?_⟩
  unfold realizeString
  rw [writeAt_spec _ _ _ (by simp; omega)]
  simp only [Res.bind, List.take_zero, List.nil_append, List.length_singleton, Nat.zero_add,
    List.singleton_append]
  have hl : (0 :: buf.drop 1).length = buf.length := by simp; omega
  obtain ⟨r, e, l, d⟩ := hf fuel hfu 0 (0 :: buf.drop 1) (by rw [hl]; omega)
  rw [e]
  simp only [List.take_zero, List.nil_append, Nat.zero_add] at l d ⊢
  rw [hl] at l
  rw [writeAt_spec _ _ _ (by simp; omega)]
  congr 1
  have h1 : (t ++ r).take t.length = t := List.take_left' rfl
  have h2 : (t ++ r).drop (t.length + [0].length) = r.drop 1 := by
    rw [List.drop_append]; simp
  rw [h1, h2, d]
  simp

theorem plain_zero {m : List Obj} {p : Nat} {t : List Nat} (h : Denotes m p t)
    (hz : ∀ o, m[p]? = some o → ∀ s, o = .chars s → 0 ∉ s ∧ s.headD 0 < 128) (o : Obj) (ho : m[p]? = some o)
    (hc : code o = .plain 0) : t = [] := by
  cases h with
  | chars h2 =>
    rw [ho] at h2; cases h2
    rw [code_chars (hz _ ho _ rfl).2] at hc
    simp only [Code.plain.injEq] at hc
    cases t with
    | nil => rfl
    | cons x t => simp at hc; subst hc; exact absurd (List.mem_cons_self ..) (hz _ ho _ rfl).1
  | constant h2 => rw [ho] at h2; cases h2; simp [code] at hc
  | conc h2 => rw [ho] at h2; cases h2; simp [code] at hc

theorem Denotes.get {m : List Obj} {p : Nat} {t : List Nat} (h : Denotes m p t) :
    ∃ o, m[p]? = some o := by
  cases h with
  | chars h => exact ⟨_, h⟩
  | constant h => exact ⟨_, h⟩
  | conc h => exact ⟨_, h⟩

theorem concString_spec {m : List Obj} (hm : WellMade m) {a b : Nat} {t u : List Nat}
    (ha : Denotes m a t) (hb : Denotes m b u) :
    ∃ r l, concString a b m = .ok (r, m ++ l) ∧ Denotes (m ++ l) r (t ++ u) ∧ WellMade (m ++ l) := by
  obtain ⟨x, hx⟩ := ha.get
  obtain ⟨y, hy⟩ := hb.get
  simp only [concString, hx, hy]
  have hz : ∀ (p : Nat) o, m[p]? = some o → ∀ s, o = .chars s → 0 ∉ s ∧ s.headD 0 < 128 := by
    rintro p o ho s rfl
    exact hm s (List.mem_of_getElem? ho)
  split
  · rename_i hc
    refine ⟨b, [], by simp, ?_, by simpa using hm⟩
    rw [plain_zero ha (hz a) x hx hc]
    simpa using hb
  · split
    · rename_i hc
      refine ⟨a, [], by simp, ?_, by simpa using hm⟩
      rw [plain_zero hb (hz b) y hy hc]
      simpa using ha
    · refine ⟨m.length, [.conc a b], rfl, ?_, ?_⟩
      · exact .conc (by simp) (ha.append _) (hb.append _)
      · intro s hs
        rcases List.mem_append.1 hs with hs | hs
        · exact hm s hs
        · simp at hs

theorem substString_spec {m0 : List Obj} {stub sub : Nat} {w : List Nat} {p : Nat}
    {t : List Nat} (h : DenotesSub m0 stub w p t) :
    ∃ f, ∀ fuel, f ≤ fuel → ∀ l0, WellMade (m0 ++ l0) → Denotes (m0 ++ l0) sub w →
      ∃ r l, substString sub stub fuel p (m0 ++ l0) = .ok (r, m0 ++ l0 ++ l) ∧
        Denotes (m0 ++ l0 ++ l) r t ∧ WellMade (m0 ++ l0 ++ l) := by
  induction h with
  | stub =>
    refine ⟨1, fun fuel hf l0 hn hs => ?_⟩
    obtain ⟨g, rfl⟩ : ∃ g, fuel = g + 1 := ⟨fuel - 1, by omega⟩
    exact ⟨sub, [], by simp [substString], by simpa using hs, by simpa using hn⟩
  | @chars p t hn h =>
    refine ⟨1, fun fuel hf l0 hnn hs => ?_⟩
    obtain ⟨g, rfl⟩ : ∃ g, fuel = g + 1 := ⟨fuel - 1, by omega⟩
    exact ⟨p, [], by simp [substString, hn, get_append h], by simpa using .chars (get_append h l0),
      by simpa using hnn⟩
  | @constant p t hn h =>
    refine ⟨1, fun fuel hf l0 hnn hs => ?_⟩
    obtain ⟨g, rfl⟩ : ∃ g, fuel = g + 1 := ⟨fuel - 1, by omega⟩
    exact ⟨p, [], by simp [substString, hn, get_append h],
      by simpa using .constant (get_append h l0), by simpa using hnn⟩
  | @conc p a b t u hn h _ _ i1 i2 =>
    obtain ⟨f1, h1⟩ := i1
    obtain ⟨f2, h2⟩ := i2
    refine ⟨max f1 f2 + 1, fun fuel hf l0 hnn hs => ?_⟩
    obtain ⟨g, rfl⟩ : ∃ g, fuel = g + 1 := ⟨fuel - 1, by omega⟩
    obtain ⟨r1, l1, e1, d1, n1⟩ := h1 g (by omega) l0 hnn hs
    rw [List.append_assoc] at e1 d1 n1
    obtain ⟨r2, l2, e2, d2, n2⟩ := h2 g (by omega) (l0 ++ l1) n1
      (by rw [← List.append_assoc]; exact hs.append _)
    simp only [substString, hn, if_false, get_append h, e1, Res.bind, e2]
    have d1' : Denotes (m0 ++ (l0 ++ l1) ++ l2) r1 t := d1.append l2
    split
    · rename_i heq
      refine ⟨p, l1 ++ l2, by simp, ?_, by simpa using n2⟩
      rw [heq.1] at d1'
      rw [heq.2] at d2
      have := Denotes.conc (get_append (get_append h (l0 ++ l1)) l2) d1' d2
      simpa using this
    · obtain ⟨r, l, e, d, n⟩ := concString_spec n2 d1' d2
      exact ⟨r, l1 ++ l2 ++ l, by rw [e]; simp, by simpa using d, by simpa using n⟩

end Aps.Rope
