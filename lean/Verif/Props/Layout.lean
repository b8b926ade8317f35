import Verif.Proofs.Layout
import Mathlib.Tactic.IntervalCases
/-!
# C102: the files of a program fit together

`header` and `body` are what apscpp prints, `pp` the C preprocessor; `Installed` says that there is the header of every program in
use, and that their guards are macros, all different.
-/
namespace Aps.Props
open Aps.Layout

/-- The program `basic`. -/
def loBasic : Str := ['b', 'a', 's', 'i', 'c']

/-- **C102** (C++).  The preprocessor gets to the end of a generated file, whatever programs say `with` about each other (in circles,
too).  The result has the declarations of `basic`, of the program and of all that these use, directly or not: each once, in
the order of its program, and nothing else.  And what follows a `with` in a program comes after everything that this uses, unless
it uses the program. -/
theorem C102_includes {progs : Str → Option Prog} {files : Str → Option (List Line)} {n : Str} {p : Prog}
    (I : Installed progs files fun k => Uses progs loBasic k ∨ Uses progs n k) (hp : progs n = some p) (hn : p.name = n)
    (hi : files ['a', 'p', 's', '-', 'i', 'm', 'p', 'l', '.', 'h'] = some []) :
    ∃ N st, (∀ fuel, N ≤ fuel → pp files fuel (body p) ⟨[], []⟩ = .ok st) ∧
      (∀ k, Uses progs loBasic k ∨ Uses progs n k → ∃ q, progs k = some q ∧ own k st.out = declsOf k q.units) ∧
      (∀ x ∈ st.out, Uses progs loBasic x.1 ∨ Uses progs n x.1) ∧
      ∀ k q pre m post, Uses progs loBasic k ∨ Uses progs n k → progs k = some q → q.units = pre ++ .with (quoted m) :: post →
        ¬ Uses progs m k → ∃ o1 o2, st.out = o1 ++ o2 ∧ own k o1 = declsOf k pre ∧
          ∀ j r, Uses progs m j → progs j = some r → own j o1 = declsOf j r.units := by
  obtain ⟨l, hl⟩ := I.finite
  have hI0 : Inv progs (fun k => Uses progs loBasic k ∨ Uses progs n k) (fun _ => False) ⟨[], []⟩ := by
    have nb : ∀ k, ¬ Begun progs ⟨[], []⟩ k := fun k ⟨_, _, _, _, h⟩ => by cases h
    exact ⟨fun k _ hb => absurd hb (nb k), fun k _ hb => absurd hb (nb k), fun _ _ _ => rfl, (fun x hx => by cases hx),
      fun k _ hb => absurd hb (nb k)⟩
  have rd : ∀ (k : Str) (st : St), (Uses progs loBasic k ∨ Uses progs n k) →
      Inv progs (fun k => Uses progs loBasic k ∨ Uses progs n k) (fun _ => False) st →
      Reads progs files (fun k => Uses progs loBasic k ∨ Uses progs n k) (fun _ => False) k st := fun k st hk hI =>
    read_header I hl _ _ k st (Nat.lt_succ_self _) hk hI (fun s h => h.elim) (fun s h => h.elim)
  obtain ⟨pb, hpb, hfb⟩ := I.found loBasic (.inl .refl)
  obtain ⟨p', hp', hfn⟩ := I.found n (.inr .refl)
  rw [hp] at hp'; cases hp'
  have begun : ∀ st, Inv progs (fun k => Uses progs loBasic k ∨ Uses progs n k) (fun _ => False) st → ∀ a, (∀ k, Uses progs a k →
      Uses progs loBasic k ∨ Uses progs n k) → Begun progs st a → ∀ k, Uses progs a k → Begun progs st k := by
    intro st hI a ha hb k hk
    induction hk with
    | refl => exact hb
    | tail hk hw ih => exact hI.succ _ (ha _ hk) ih (fun h => h) _ hw
  have fin : ∀ st, Inv progs (fun k => Uses progs loBasic k ∨ Uses progs n k) (fun _ => False) st → Begun progs st loBasic →
      Begun progs st n → (∀ k, Uses progs loBasic k ∨ Uses progs n k → ∃ q, progs k = some q ∧ own k st.out = declsOf k q.units) ∧
      (∀ x ∈ st.out, Uses progs loBasic x.1 ∨ Uses progs n x.1) ∧
      ∀ k q pre m post, Uses progs loBasic k ∨ Uses progs n k → progs k = some q → q.units = pre ++ .with (quoted m) :: post →
        ¬ Uses progs m k → ∃ o1 o2, st.out = o1 ++ o2 ∧ own k o1 = declsOf k pre ∧
          ∀ j r, Uses progs m j → progs j = some r → own j o1 = declsOf j r.units := by
    intro st hI hb hbn
    have all : ∀ k, Uses progs loBasic k ∨ Uses progs n k → Begun progs st k := fun k hk =>
      hk.elim (begun st hI loBasic (fun _ => .inl) hb k) (begun st hI n (fun _ => .inr) hbn k)
    refine ⟨fun k hk => ?_, hI.only, fun k q pre m post hk hq hu hnu => hI.order k hk (all k hk) (fun h => h) q pre m post hq hu hnu⟩
    obtain ⟨q, hq, -⟩ := I.found k hk
    exact ⟨q, hq, hI.done k hk (all k hk) (fun h => h) q hq⟩
  have empty : ∀ fuel st, pp files (fuel + 1) [] st = .ok st := fun _ _ => rfl
  have step : ∀ fuel f ls ls' st st', files f = some ls → pp files fuel ls st = .ok st' →
      pp files (fuel + 1) (.incl f :: ls') st = pp files fuel ls' st' := by
    intro fuel f ls ls' st st' h1 h2
    simp only [pp, h1, h2, Res.bind]
  by_cases hbas : p.name = loBasic
  · obtain ⟨N, st, r, i, b, -⟩ := rd n ⟨[], []⟩ (.inr .refl) hI0 p hp
    have e : n = loBasic := hn ▸ hbas
    refine ⟨N + 3, st, ?_, fin st i (e ▸ b) b⟩
    intro fuel hf
    obtain ⟨f, rfl⟩ : ∃ f, fuel = f + 3 := ⟨fuel - 3, by omega⟩
    have hbas' : p.name = ['b', 'a', 's', 'i', 'c'] := hbas
    rw [body, if_pos hbas', List.nil_append, step _ _ _ _ _ _ hi (empty _ _), hn, step _ _ _ _ _ _ hfn (r _ (by omega)), empty]
  · obtain ⟨N, st, r, i, b, a⟩ := rd loBasic ⟨[], []⟩ (.inl .refl) hI0 pb hpb
    obtain ⟨N', st', r', i', b', a'⟩ := rd n st (.inr .refl) i p hp
    refine ⟨N + N' + 4, st', ?_, fin st' i' (b.mono a'.defs) b'⟩
    intro fuel hf
    obtain ⟨f, rfl⟩ : ∃ f, fuel = f + 4 := ⟨fuel - 4, by omega⟩
    have hbas' : ¬ p.name = ['b', 'a', 's', 'i', 'c'] := hbas
    have hfb' : files (dotH ['b', 'a', 's', 'i', 'c']) = some (header loBasic pb) := hfb
    rw [body, if_neg hbas', step _ _ _ _ _ _ hi (empty _ _), hn, List.singleton_append,
      step _ _ _ _ _ _ hfb' (r _ (by omega)), step _ _ _ _ _ _ hfn (r' _ (by omega)), empty]

/-! ### Names -/

/-- Names made of small letters, digits and underscores that do not start with a digit. -/
def Plain (s : Str) : Prop :=
  (∀ c ∈ s, ('a' ≤ c ∧ c ≤ 'z') ∨ ('0' ≤ c ∧ c ≤ '9') ∨ c = '_') ∧ ∃ c cs, s = c :: cs ∧ ¬ ('0' ≤ c ∧ c ≤ '9')

/-- One character. -/
theorem upper_char {c d : Char} (hc : ('a' ≤ c ∧ c ≤ 'z') ∨ ('0' ≤ c ∧ c ≤ '9') ∨ c = '_')
    (hd : ('a' ≤ d ∧ d ≤ 'z') ∨ ('0' ≤ d ∧ d ≤ '9') ∨ d = '_') :
    identChar (upperChar c) = true ∧ (¬ ('0' ≤ c ∧ c ≤ '9') → identStart (upperChar c) = true) ∧ (upperChar c = upperChar d → c = d) := by
  have key : ∀ x ∈ ['a', 'b', 'c', 'd', 'e', 'f', 'g', 'h', 'i', 'j', 'k', 'l', 'm', 'n', 'o', 'p', 'q', 'r', 's', 't', 'u', 'v', 'w', 'x', 'y',
      'z', '0', '1', '2', '3', '4', '5', '6', '7', '8', '9', '_'], identChar (upperChar x) = true ∧
      (¬ ('0' ≤ x ∧ x ≤ '9') → identStart (upperChar x) = true) ∧
      ∀ y ∈ ['a', 'b', 'c', 'd', 'e', 'f', 'g', 'h', 'i', 'j', 'k', 'l', 'm', 'n', 'o', 'p', 'q', 'r', 's', 't', 'u', 'v', 'w', 'x', 'y',
      'z', '0', '1', '2', '3', '4', '5', '6', '7', '8', '9', '_'], upperChar x = upperChar y → x = y := by decide +kernel
  have mem : ∀ x : Char, ('a' ≤ x ∧ x ≤ 'z') ∨ ('0' ≤ x ∧ x ≤ '9') ∨ x = '_' →
      x ∈ ['a', 'b', 'c', 'd', 'e', 'f', 'g', 'h', 'i', 'j', 'k', 'l', 'm', 'n', 'o', 'p', 'q', 'r', 's', 't', 'u', 'v', 'w', 'x', 'y',
      'z', '0', '1', '2', '3', '4', '5', '6', '7', '8', '9', '_'] := by
    intro x hx
    rcases hx with ⟨h1, h2⟩ | ⟨h1, h2⟩ | rfl
    · have h1 : 97 ≤ x.toNat := h1
      have h2 : x.toNat ≤ 122 := h2
      rw [← Char.ofNat_toNat x]
      generalize x.toNat = k at h1 h2
      interval_cases k <;> decide
    · have h1 : 48 ≤ x.toNat := h1
      have h2 : x.toNat ≤ 57 := h2
      rw [← Char.ofNat_toNat x]
      generalize x.toNat = k at h1 h2
      interval_cases k <;> decide
    · decide
  obtain ⟨h1, h2, h3⟩ := key c (mem c hc)
  exact ⟨h1, h2, h3 d (mem d hd)⟩

/-- The guard of a plain name is a macro: the name in capitals, and `_H`. -/
theorem macro_plain {s : Str} (hs : Plain s) : macroOf (guardText s) = some (s.map upperChar ++ ['_', 'H']) := by
  obtain ⟨hc, c, cs, rfl, hd⟩ := hs
  have h0 := hc c List.mem_cons_self
  have tk : ∀ cs : Str, (∀ c ∈ cs, ('a' ≤ c ∧ c ≤ 'z') ∨ ('0' ≤ c ∧ c ≤ '9') ∨ c = '_') →
      (cs.map upperChar ++ ['_', 'H', ' ']).takeWhile identChar = cs.map upperChar ++ ['_', 'H'] := by
    intro cs
    induction cs with
    | nil => intro _; decide +kernel
    | cons x cs ih =>
      intro h
      have hx := h x List.mem_cons_self
      rw [List.map_cons, List.cons_append, List.takeWhile_cons, if_pos (upper_char hx hx).1,
        ih fun c hc => h c (List.mem_cons_of_mem _ hc)]
      rfl
  simp only [guardText, List.map_cons, List.cons_append, macroOf, if_pos ((upper_char h0 h0).2.1 hd)]
  rw [tk cs fun c hc' => hc c (List.mem_cons_of_mem _ hc')]

/-- **C102.** Plain names have guards that are macros, different for different names. -/
theorem C102_guards_partial {s t : Str} (hs : Plain s) (ht : Plain t) : (macroOf (guardText s)).isSome = true ∧
    (macroOf (guardText s) = macroOf (guardText t) → s = t) := by
  rw [macro_plain hs, macro_plain ht]
  refine ⟨rfl, fun h => ?_⟩
  have h := List.append_cancel_right (Option.some.inj h)
  have key : ∀ a b : Str, (∀ c ∈ a, ('a' ≤ c ∧ c ≤ 'z') ∨ ('0' ≤ c ∧ c ≤ '9') ∨ c = '_') →
      (∀ c ∈ b, ('a' ≤ c ∧ c ≤ 'z') ∨ ('0' ≤ c ∧ c ≤ '9') ∨ c = '_') → a.map upperChar = b.map upperChar → a = b := by
    intro a
    induction a with
    | nil => intro b _ _ h; cases b <;> simp_all
    | cons x a ih =>
      intro b ha hb h
      cases b with
      | nil => simp at h
      | cons y b =>
        simp only [List.map_cons, List.cons.injEq] at h
        rw [(upper_char (ha x List.mem_cons_self) (hb y List.mem_cons_self)).2.2 h.1,
          ih b (fun c hc => ha c (List.mem_cons_of_mem _ hc)) (fun c hc => hb c (List.mem_cons_of_mem _ hc)) h.2]
  exact key s t hs.1 ht.1 h

/-- **C102** (Scala).  A `with` imports the object that the declarations of the program are in. -/
theorem C102_imports (p q : Prog) (h : .with (quoted q.name) ∈ p.units) : objectName q ∈ imports p ∧ objectName p ∈ imports p := by
  have app : ∀ a b : Str, programId (a ++ b) = programId a ++ programId b := by
    intro a
    induction a with
    | nil => intro b; rfl
    | cons c a ih =>
      intro b
      simp only [List.cons_append, programId, ih]
      split
      · rfl
      · split <;> rfl
  have hq : programId (quoted q.name) = programId q.name := by
    have e : programId ['"'] = [] := by decide +kernel
    rw [show quoted q.name = ['"'] ++ (q.name ++ ['"']) from rfl, app, app, e, List.nil_append, List.append_nil]
  refine ⟨List.mem_cons_of_mem _ (List.mem_cons_of_mem _ (List.mem_filterMap.2 ⟨_, h, ?_⟩)), List.mem_cons_of_mem _ List.mem_cons_self⟩
  simp only [hq, objectName]

/-- **C102** (Scala).  The objects of programs with plain names have these names, and so are different. -/
theorem C102_objects_partial {p q : Prog} (hp : Plain p.name) (hq : Plain q.name) : objectName p = p.name ++ implicit ∧
    (objectName p = objectName q → p.name = q.name) := by
  have id : ∀ s : Str, (∀ c ∈ s, ('a' ≤ c ∧ c ≤ 'z') ∨ ('0' ≤ c ∧ c ≤ '9') ∨ c = '_') → programId s = s := by
    intro s
    induction s with
    | nil => intro _; rfl
    | cons c s ih =>
      intro h
      have hc := h c List.mem_cons_self
      rw [programId, ih fun c hc => h c (List.mem_cons_of_mem _ hc)]
      by_cases h1 : ('a' ≤ c ∧ c ≤ 'z') ∨ ('A' ≤ c ∧ c ≤ 'Z') ∨ ('0' ≤ c ∧ c ≤ '9')
      · rw [if_pos h1]
      · have h2 : c = '_' := by
          rcases hc with h | h | h
          · exact absurd (.inl h) h1
          · exact absurd (.inr (.inr h)) h1
          · exact h
        subst h2
        rfl
  simp only [objectName, id _ hp.1, id _ hq.1]
  exact ⟨trivial, fun h => List.append_cancel_right h⟩

/-! ### Examples -/

/-- `m` says `with` about `a` and `b`, and these about each other. -/
def loProgs (n : Str) : Option Prog :=
  if n = loBasic then some ⟨n, [.decl 0]⟩
  else if n = ['m'] then some ⟨n, [.with (quoted ['a']), .decl 0, .with (quoted ['b']), .decl 1]⟩
  else if n = ['a'] then some ⟨n, [.decl 0, .with (quoted ['b']), .decl 1]⟩
  else if n = ['b'] then some ⟨n, [.with (quoted ['a']), .none, .decl 0]⟩
  else none

/-- The files of a set of programs: the header of each, and `aps-impl.h`. -/
def loFiles (progs : Str → Option Prog) (f : Str) : Option (List Line) :=
  if f = ['a', 'p', 's', '-', 'i', 'm', 'p', 'l', '.', 'h'] then some [] else
  (progs f.dropLast.dropLast).bind fun p => if f = dotH f.dropLast.dropLast then some (header f.dropLast.dropLast p) else none

/-- What there is. -/
theorem lo_cases {n : Str} {p : Prog} (h : loProgs n = some p) : p.name = n ∧ n ∈ [loBasic, ['m'], ['a'], ['b']] ∧
    ∀ t, .with t ∈ p.units → t ∈ [quoted ['a'], quoted ['b']] := by
  unfold loProgs at h
  split at h
  · rename_i e; subst e; cases h; exact ⟨rfl, by simp, by simp⟩
  · split at h
    · rename_i e; subst e; cases h; exact ⟨rfl, by simp, by simp⟩
    · split at h
      · rename_i e; subst e; cases h; exact ⟨rfl, by simp, by simp⟩
      · split at h
        · rename_i e; subst e; cases h; exact ⟨rfl, by simp, by simp⟩
        · cases h

/-- Every name in use is one of the four. -/
theorem lo_uses {k n : Str} (hk : k ∈ [loBasic, ['m'], ['a'], ['b']]) (h : Uses loProgs k n) : n ∈ [loBasic, ['m'], ['a'], ['b']] := by
  induction h with
  | refl => exact hk
  | tail _ hw _ =>
    obtain ⟨p, hp, hm⟩ := hw
    have := (lo_cases hp).2.2 _ hm
    have inj : ∀ a b : Str, quoted a = quoted b → a = b := fun a b e => List.append_cancel_right (List.cons.inj e).2
    simp only [List.mem_cons, List.not_mem_nil, or_false] at this
    rcases this with e | e <;> rw [inj _ _ e] <;> simp

/-- The hypotheses of `C102_includes` are met. -/
theorem lo_installed : Installed loProgs (loFiles loProgs) fun k => Uses loProgs loBasic k ∨ Uses loProgs ['m'] k := by
  have mem : ∀ k, Uses loProgs loBasic k ∨ Uses loProgs ['m'] k → k ∈ [loBasic, ['m'], ['a'], ['b']] :=
    fun k h => h.elim (lo_uses (by simp)) (lo_uses (by simp))
  have ex : ∀ k ∈ [loBasic, ['m'], ['a'], ['b']], ∃ p, loProgs k = some p ∧ loFiles loProgs (dotH k) = some (header k p) := by
    intro k hk
    simp only [List.mem_cons, List.not_mem_nil, or_false] at hk
    rcases hk with rfl | rfl | rfl | rfl <;> exact ⟨_, rfl, by decide +kernel⟩
  refine ⟨fun k h => ex k (mem k h), fun k m h hw => h.imp (fun h => h.tail hw) (fun h => h.tail hw), ?_, ?_, ?_, _, mem⟩
  · intro k p t _ hp ht
    have := (lo_cases hp).2.2 t ht
    simp only [List.mem_cons, List.not_mem_nil, or_false] at this
    rcases this with e | e <;> exact ⟨_, e⟩
  · intro k p hk hp
    have := mem k hk
    rw [(lo_cases hp).1]
    revert this
    revert k
    intro k _ _ hk
    simp only [List.mem_cons, List.not_mem_nil, or_false] at hk
    rcases hk with rfl | rfl | rfl | rfl <;> decide +kernel
  · intro j k p q hj hk hp hq
    rw [(lo_cases hp).1, (lo_cases hq).1]
    have h1 := mem j hj
    have h2 := mem k hk
    simp only [List.mem_cons, List.not_mem_nil, or_false] at h1 h2
    rcases h1 with rfl | rfl | rfl | rfl <;> rcases h2 with rfl | rfl | rfl | rfl <;> decide +kernel

example : ∃ p, loProgs ['m'] = some p ∧ p.name = ['m'] ∧
    loFiles loProgs ['a', 'p', 's', '-', 'i', 'm', 'p', 'l', '.', 'h'] = some [] := ⟨_, rfl, rfl, by decide +kernel⟩

/-- The text of `m`: `b` is read in the middle of `a`. -/
example : ((loProgs ['m']).map fun p => (pp (loFiles loProgs) 40 (body p) ⟨[], []⟩).bind fun st => Res.ok st.out) =
    some (.ok [(loBasic, 0), (['a'], 0), (['b'], 0), (['a'], 1), (['m'], 0), (['m'], 1)]) := by decide +kernel

example : Plain ['t', 'e', 's', 't', '_', '1'] ∧ Plain ['_', '2'] := by
  refine ⟨⟨?_, 't', _, rfl, by decide⟩, ?_, '_', _, rfl, by decide⟩ <;> decide

example : (⟨['m'], [.with (quoted ['a'])]⟩ : Prog).units.length = 1 ∧
    objectName ⟨['a'], []⟩ ∈ imports ⟨['m'], [.with (quoted ['a'])]⟩ :=
  ⟨rfl, (C102_imports ⟨['m'], [.with (quoted ['a'])]⟩ ⟨['a'], []⟩ (by simp)).1⟩

/-! ### What goes wrong -/

/-- Two programs with the declarations `0`, and `m` that says `with` about both; the names are what `filebase` makes of them. -/
def loTwo (a b na nb n : Str) : Option Prog :=
  if n = loBasic then some ⟨n, []⟩
  else if n = ['m'] then some ⟨n, [.with (quoted a), .with (quoted b), .decl 0]⟩
  else if n = a then some ⟨na, [.decl 0]⟩
  else if n = b then some ⟨nb, [.decl 0]⟩
  else none

/-- **C102 fails for `a-b` and `a_b`**, and for `A` and `a`: both have the guard of the other, and the declarations of the second are
not in the text of a program that uses both. -/
theorem C102_guards_refuted :
    ((loTwo ['a', '-', 'b'] ['a', '_', 'b'] ['a', '-', 'b'] ['a', '_', 'b'] ['m']).map fun p =>
      (pp (loFiles (loTwo ['a', '-', 'b'] ['a', '_', 'b'] ['a', '-', 'b'] ['a', '_', 'b'])) 40 (body p) ⟨[], []⟩).bind fun st =>
        Res.ok st.out) = some (.ok [(['a', '-', 'b'], 0), (['m'], 0)]) ∧
    ((loTwo ['A'] ['a'] ['A'] ['a'] ['m']).map fun p =>
      (pp (loFiles (loTwo ['A'] ['a'] ['A'] ['a'])) 40 (body p) ⟨[], []⟩).bind fun st => Res.ok st.out) =
      some (.ok [(['A'], 0), (['m'], 0)]) ∧
    macroOf (guardText ['2', 'd']) = none := by decide +kernel

/-- **C102 fails for programs of the same name in two directories**: the guard does not have the directory. -/
theorem C102_directory_refuted :
    ((loTwo ['x', '/', 'a'] ['y', '/', 'a'] ['a'] ['a'] ['m']).map fun p =>
      (pp (loFiles (loTwo ['x', '/', 'a'] ['y', '/', 'a'] ['a'] ['a'])) 40 (body p) ⟨[], []⟩).bind fun st => Res.ok st.out) =
      some (.ok [(['x', '/', 'a'], 0), (['m'], 0)]) := by decide +kernel

/-- **C102 fails in Scala** for `a-b` and `a_b`, which have one object; and what a `with` imports is not the object of a program in a
directory. -/
theorem C102_objects_refuted : objectName ⟨['a', '-', 'b'], []⟩ = objectName ⟨['a', '_', 'b'], []⟩ ∧
    objectName ⟨['a'], []⟩ ∉ imports ⟨['m'], [.with (quoted ['x', '/', 'a'])]⟩ := by decide +kernel

end Aps.Props
