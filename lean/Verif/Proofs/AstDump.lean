import Verif.Proofs.Ast

/-!
# Proofs about the Lisp dump
-/
namespace Aps.Ast

/-! ## Numbers -/

theorem readLine_digit (acc d : Nat) (h : d < 10) (r : List Char) :
    readLine acc (Nat.digitChar d :: r) = readLine (acc * 10 + d) r := by
  have : d = 0 ∨ d = 1 ∨ d = 2 ∨ d = 3 ∨ d = 4 ∨ d = 5 ∨ d = 6 ∨ d = 7 ∨ d = 8 ∨ d = 9 := by omega
  rcases this with rfl | rfl | rfl | rfl | rfl | rfl | rfl | rfl | rfl | rfl <;> rfl

theorem readLine_decimal (n : Nat) : ∀ (acc : Nat) (r : List Char),
    readLine acc (decimal n ++ r) = readLine (acc * 10 ^ (decimal n).length + n) r := by
  induction n using Nat.strongRecOn with
  | ind n ih =>
    intro acc r
    unfold decimal
    split
    · rename_i h
      simp only [List.cons_append, List.nil_append, List.length_singleton, Nat.pow_one]
      exact readLine_digit acc n h r
    · rename_i h
      simp only [List.append_assoc, List.length_append, List.length_singleton, Nat.pow_succ]
      rw [ih (n / 10) (Nat.div_lt_self (by omega) (by omega))]
      simp only [List.cons_append, List.nil_append]
      rw [readLine_digit _ _ (Nat.mod_lt _ (by omega))]
      congr 1
      rw [Nat.add_mul, Nat.mul_assoc, Nat.add_assoc]
      congr 1
      omega

theorem readLine_mark (n : Nat) (r : List Char) :
    readLine 0 (decimal n ++ '!' :: r) = some (n, r) := by
  rw [readLine_decimal]
  simp [readLine]

/-! ## Strings -/

theorem readStr_plain {c : Char} (h1 : c ≠ '"') (h2 : c ≠ '\\') (l : List Char) :
    readStr (c :: l) = (readStr l).map fun r => (c :: r.1, r.2) := by
  rw [readStr.eq_4]
  · exact h1
  · intro c' l' h; exact absurd h h2

theorem unescape_plain {c : Char} (h : c ≠ '\\') (l : List Char) :
    unescape (c :: l) = c :: unescape l := by
  rw [unescape.eq_2]
  intro c' l' h'; exact absurd h' h

theorem dumpChars_plain {q : Bool} {c : Char} (h : c ≠ '\\') (h2 : q = true → c ≠ '"') (l : List Char) :
    dumpChars q (c :: l) = (do
      let r ← dumpChars q l
      pure ((if c = '"' then ['\\', '"'] else [c]) ++ r)) := by
  rw [dumpChars.eq_4]
  · rw [if_neg]
    rintro ⟨hq, hc⟩
    exact h2 hq hc
  · intro hc; exact absurd hc h
  · intro c' l' hc; exact absurd hc h

theorem dumpChars_reads {q : Bool} {l : List Char} (h : Escaped q l) (tail : List Char)
    (ht : dumpChars q tail = .ok []) :
    ∃ out, dumpChars q (l ++ tail) = .ok out ∧
      ∀ rest, readStr (out ++ '"' :: rest) = some (unescape l, rest) := by
  induction h with
  | nil => exact ⟨[], by simpa using ht, fun rest => by simp [readStr, unescape]⟩
  | esc c l _ ih =>
    obtain ⟨out, h1, h2⟩ := ih
    by_cases hc : c = 'n'
    · subst hc
      refine ⟨'\n' :: out, by simp [dumpChars, h1], fun rest => ?_⟩
      rw [List.cons_append, readStr_plain (by decide) (by decide), h2]
      simp [unescape]
    · refine ⟨'\\' :: c :: out, by simp [dumpChars, h1, hc], fun rest => ?_⟩
      simp [readStr, h2, unescape, hc]
  | plain c l hc hq _ ih =>
    obtain ⟨out, h1, h2⟩ := ih
    by_cases hd : c = '"'
    · subst hd
      refine ⟨'\\' :: '"' :: out, ?_, fun rest => ?_⟩
      · rw [List.cons_append, dumpChars_plain hc hq, h1]; simp
      · rw [unescape_plain hc]; simp [readStr, h2]
    · refine ⟨c :: out, ?_, fun rest => ?_⟩
      · rw [List.cons_append, dumpChars_plain hc hq, h1]; simp [hd]
      · rw [unescape_plain hc, List.cons_append, readStr_plain hd hc, h2]; rfl

theorem body_quoted (b : List Char) : body ('"' :: (b ++ ['"'])) = b := by
  simp [body]

theorem body_bare {s : List Char} (h : s.head? ≠ some '"') : body s = s := by
  cases s with
  | nil => rfl
  | cons c l =>
    unfold body
    split
    · simp_all
    · rfl

theorem dumpString_reads {s : List Char} (h : StringToken s) :
    ∃ out, dumpString s = .ok (" \"".toList ++ out ++ ['"']) ∧
      ∀ rest, readStr (out ++ '"' :: rest) = some (unescape (body s), rest) := by
  rcases h with ⟨b, rfl, hb⟩ | ⟨hq, hs⟩
  · obtain ⟨out, h1, h2⟩ := dumpChars_reads hb ['"'] (by decide)
    refine ⟨out, ?_, by rw [body_quoted]; exact h2⟩
    simp only [dumpString, h1, Res.ok_bind]
    rfl
  · obtain ⟨out, h1, h2⟩ := dumpChars_reads hs [] (by decide)
    refine ⟨out, ?_, by rw [body_bare hq]; exact h2⟩
    simp only [List.append_nil] at h1
    unfold dumpString
    split
    · simp_all
    · simp only [h1, Res.ok_bind]
      rfl

/-! ## Symbols -/

/-- Nothing, or something that ends a symbol. -/
def Ended (rest : List Char) : Prop := ∀ c l, rest = c :: l → isDelim c = true

theorem readTok_end {rest : List Char} (h : Ended rest) : readTok false rest = some ([], rest) := by
  cases rest with
  | nil => rfl
  | cons c l =>
    have hd := h c l rfl
    have hb : c ≠ '|' := by rintro rfl; simp [isDelim] at hd
    have hs : c ≠ '\\' := by rintro rfl; simp [isDelim] at hd
    rw [readTok.eq_5]
    · simp [hd]
    · exact hb
    · intro hc; exact absurd hc hs
    · intro c' l' hc; exact absurd hc hs

theorem readTok_plain {bars : Bool} {c : Char} (h1 : c ≠ '|') (h2 : c ≠ '\\')
    (h3 : bars = false → isDelim c = false) (l : List Char) :
    readTok bars (c :: l) = (readTok bars l).map fun r => (c :: r.1, r.2) := by
  rw [readTok.eq_5]
  · rw [if_neg]
    cases bars <;> simp_all
  · exact h1
  · intro hc; exact absurd hc h2
  · intro c' l' hc; exact absurd hc h2

theorem readTok_name {rest : List Char} : ∀ (name : List Char),
    (∀ c ∈ name, c ≠ '|' ∧ c ≠ '\\' ∧ isDelim c = false) →
    ∀ r, readTok false rest = some ([], r) → readTok false (name ++ rest) = some (name, r)
  | [], _, r, h => by simpa using h
  | c :: l, hn, r, h => by
    obtain ⟨h1, h2, h3⟩ := hn c List.mem_cons_self
    rw [List.cons_append, readTok_plain h1 h2 (fun _ => h3),
      readTok_name l (fun d hd => hn d (List.mem_cons_of_mem _ hd)) r h]
    rfl

theorem readTok_bars {rest : List Char} (h : Ended rest) : ∀ (name : List Char),
    readTok true ((name.flatMap fun c => if c = '\\' ∨ c = '|' then ['\\', c] else [c]) ++
      '|' :: rest) = some (name, rest)
  | [] => by simp [readTok, readTok_end h]
  | c :: l => by
    have ih := readTok_bars h l
    simp only [List.flatMap_cons]
    split
    · rename_i hc
      simp only [List.cons_append, List.nil_append, readTok, ih, Option.map_some]
    · rename_i hc
      rw [List.append_assoc, List.cons_append, List.nil_append,
        readTok_plain (fun h => hc (.inr h)) (fun h => hc (.inl h)) (by simp), ih]
      rfl

theorem readTok_symbol {rest : List Char} (h : Ended rest) (name : List Char) :
    readTok false (("aps-boot::|".toList ++
      (name.flatMap fun c => if c = '\\' ∨ c = '|' then ['\\', c] else [c]) ++ ['|']) ++ rest) =
      some ("aps-boot::".toList ++ name, rest) := by
  have hb := readTok_bars h name
  have : "aps-boot::|".toList = "aps-boot::".toList ++ ['|'] := by decide
  rw [this]
  simp only [List.append_assoc, List.cons_append, List.nil_append]
  generalize hx : ((name.flatMap fun c => if c = '\\' ∨ c = '|' then ['\\', c] else [c]) ++
    '|' :: rest) = x at hb ⊢
  have h1 : ∀ (pre : List Char), (∀ c ∈ pre, c ≠ '|' ∧ c ≠ '\\' ∧ isDelim c = false) →
      readTok false (pre ++ '|' :: x) = some (pre ++ name, rest) := by
    intro pre
    induction pre with
    | nil => intro _; simpa [readTok] using hb
    | cons c l ih =>
      intro hp
      obtain ⟨h1, h2, h3⟩ := hp c List.mem_cons_self
      rw [List.cons_append, readTok_plain h1 h2 (fun _ => h3),
        ih (fun d hd => hp d (List.mem_cons_of_mem _ hd))]
      rfl
  exact h1 _ (by decide)

theorem con_name (c : Con) : c.name ≠ [] ∧
    ∀ x ∈ c.name, x ≠ '|' ∧ x ≠ '\\' ∧ isDelim x = false ∧ x ≠ '#' := by
  have h : ∀ c ∈ Con.all, c.name ≠ [] ∧
    ∀ x ∈ c.name, x ≠ '|' ∧ x ≠ '\\' ∧ isDelim x = false ∧ x ≠ '#' := by decide +kernel
  exact h c (Con.mem_all c)

/-! ## Trees -/

/-- The text is one white space and then something the reader takes for the expression, whatever
follows. -/
def ReadsAs (out : List Char) (x : Sexp) : Prop :=
  ∃ w c tail, out = w :: c :: tail ∧ isSpace w = true ∧ isSpace c = false ∧ c ≠ ')' ∧
    ∀ rest, Ended rest → ∃ M, ∀ m, M ≤ m → readItem m (c :: tail ++ rest) = some (x, rest)

/-- The same, and what follows need not end a symbol. -/
def ReadsAny (out : List Char) (x : Sexp) : Prop :=
  ∃ w c tail, out = w :: c :: tail ∧ isSpace w = true ∧ isSpace c = false ∧ c ≠ ')' ∧
    ∀ rest, ∃ M, ∀ m, M ≤ m → readItem m (c :: tail ++ rest) = some (x, rest)

/-- What the induction says of a child. -/
def Dumps (k : Kind) (v : Val) : Prop :=
  ∃ out, (∃ N, ∀ fuel, N ≤ fuel → dump fuel k v = .ok out) ∧ ReadsAs out (sexp v)

theorem isDelim_space {w : Char} (h : isSpace w = true) : isDelim w = true := by
  simp only [isSpace, isDelim] at *
  grind

theorem dumps_calls (v : Val) (ks : List (Kind × Acc)) (kids : List Val)
    (hg : List.Forall₂ (fun ka x => get ka.2 v = .ok x) ks kids)
    (hw : List.Forall₂ (fun ka x => Dumps ka.1 x) ks kids) :
    ∃ out, (∃ N, ∀ fuel, N ≤ fuel → dumpCalls (dump fuel) ks v = .ok out) ∧
      ∀ rest, Ended (out ++ ')' :: rest) ∧
      ∃ M, ∀ m, M ≤ m → readItems m (out ++ ')' :: rest) = some (sexpAll kids, rest) := by
  induction hg with
  | nil =>
    refine ⟨[], ⟨0, fun fuel _ => rfl⟩, fun rest => ⟨?_, 1, fun m hm => ?_⟩⟩
    · intro c l h; cases h; decide
    · obtain ⟨m, rfl⟩ : ∃ i, m = i + 1 := ⟨m - 1, by omega⟩
      simp [readItems, isSpace, sexpAll]
  | @cons ka x ks kids hx _ ih =>
    cases hw with
    | cons hwx hw =>
      obtain ⟨out, ⟨N, hN⟩, hout⟩ := ih hw
      obtain ⟨o, ⟨N', hN'⟩, w, c, tail, rfl, hs, hc, hp, hr⟩ := hwx
      refine ⟨(w :: c :: tail) ++ out, ⟨max N N', fun fuel hf => ?_⟩, fun rest => ⟨?_, ?_⟩⟩
      · simp [dumpCalls, hx, hN' fuel (by omega), hN fuel (by omega)]
      · intro d l h
        simp only [List.cons_append, List.cons.injEq] at h
        rw [← h.1]
        exact isDelim_space hs
      · obtain ⟨he, M, hM⟩ := hout rest
        obtain ⟨M', hM'⟩ := hr _ he
        refine ⟨max M M' + 2, fun m hm => ?_⟩
        obtain ⟨m, rfl⟩ : ∃ i, m = i + 2 := ⟨m - 2, by omega⟩
        have h1 := hM' m (by omega)
        have h2 := hM m (by omega)
        simp only [List.cons_append, List.append_assoc] at h1 h2 ⊢
        simp only [readItems, hs, if_true, hc, hp, if_false]
        simp [h1, h2, sexpAll]

theorem sexp_node (c : Con) (a line : Nat) (kids : List Val) :
    sexp (.node a (opNum c) line kids) = .list (.tok c.name :: .line line :: sexpAll kids) := by
  simp [sexp, op_find]

theorem dumps_node (c : Con) (a line : Nat) (kids : List Val) (hl : c.fields.length = kids.length)
    (hw : List.Forall₂ (fun ka x => Dumps ka.1 x) c.fields kids) :
    ∃ out, (∃ N, ∀ fuel, N ≤ fuel → dump fuel (.ph c.phylum) (.node a (opNum c) line kids) = .ok out) ∧
      ReadsAny out (sexp (.node a (opNum c) line kids)) := by
  obtain ⟨out, ⟨N, hN⟩, hout⟩ := dumps_calls _ _ kids (gets c a line kids hl) hw
  obtain ⟨hne, hnm⟩ := con_name c
  refine ⟨'\n' :: '(' :: (c.name ++ ' ' :: '#' :: (decimal line ++ '!' :: (out ++ [')']))),
    ⟨N + 1, fun fuel hf => ?_⟩,
    '\n', '(', _, rfl, by decide, by decide, by decide, fun rest => ?_⟩
  · obtain ⟨m, rfl⟩ : ∃ i, fuel = i + 1 := ⟨fuel - 1, by omega⟩
    simp [dump, key_node, dump_table c (Con.mem_all c), hN m (by omega)]
  · obtain ⟨_, M, hM⟩ := hout rest
    refine ⟨M + 6, fun m hm => ?_⟩
    obtain ⟨m, rfl⟩ : ∃ i, m = i + 6 := ⟨m - 6, by omega⟩
    rw [sexp_node]
    obtain ⟨d, l, hd⟩ := List.exists_cons_of_ne_nil hne
    have hdd := hnm d (by rw [hd]; exact List.mem_cons_self)
    have hsp : isSpace d = false := by
      cases h : isSpace d with
      | false => rfl
      | true => rw [isDelim_space h] at hdd; simp at hdd
    have hnp : d ≠ ')' ∧ d ≠ '(' ∧ d ≠ '"' := by
      have := hdd.2.2.1
      refine ⟨?_, ?_, ?_⟩ <;> rintro rfl <;> simp [isDelim] at this
    have htok : readTok false (c.name ++ ' ' :: '#' :: (decimal line ++ '!' :: (out ++ ')' :: rest)))
        = some (c.name, ' ' :: '#' :: (decimal line ++ '!' :: (out ++ ')' :: rest))) :=
      readTok_name _ (fun x hx => ⟨(hnm x hx).1, (hnm x hx).2.1, (hnm x hx).2.2.1⟩) _
        (readTok_end (by intro c l h; cases h; decide))
    simp only [List.cons_append, List.append_assoc, List.nil_append]
    rw [show (m + 6 : Nat) = (m + 5) + 1 from rfl, readItem]
    simp only [show isSpace '(' = false from rfl]
    rw [hd] at htok ⊢
    simp only [List.cons_append] at htok ⊢
    rw [if_neg (by simp), if_pos trivial]
    rw [show (m + 5 : Nat) = (m + 4) + 1 from rfl, readItems]
    rw [if_neg (by simp [hsp]), if_neg hnp.1]
    rw [show (m + 4 : Nat) = (m + 3) + 1 from rfl, readItem]
    rw [if_neg (by simp [hsp]), if_neg hnp.2.1, if_neg hnp.1, if_neg hnp.2.2, if_neg hdd.2.2.2, htok]
    simp only [Option.map_some, Option.bind_eq_bind, Option.bind_some]
    rw [show (m + 3 + 1 : Nat) = (m + 3) + 1 from rfl, readItems]
    rw [if_pos (by decide)]
    rw [show (m + 3 : Nat) = (m + 2) + 1 from rfl, readItems]
    rw [if_neg (by decide), if_neg (by decide)]
    rw [show (m + 2 : Nat) = (m + 1) + 1 from rfl, readItem]
    rw [if_neg (by decide), if_neg (by decide), if_neg (by decide), if_neg (by decide),
      if_pos rfl, readLine_mark]
    simp only [Option.map_some, Option.bind_eq_bind, Option.bind_some]
    rw [hM (m + 1 + 1) (by omega)]
    rfl

theorem mem_strings_kids {x : Val} {s : List Char} : ∀ {kids : List Val}, x ∈ kids →
    s ∈ strings x → s ∈ stringsAll kids
  | v :: vs, hx, hs => by
    rcases List.mem_cons.1 hx with rfl | hx
    · exact List.mem_append_left _ hs
    · exact List.mem_append_right _ (mem_strings_kids hx hs)

theorem dumps_tok (pre : List Char) (d : Char) (l : List Char)
    (hp : pre = d :: l) (k : Kind) (v : Val) (name : List Char)
    (hd : ∀ fuel, dump (fuel + 1) k v = .ok (' ' :: pre))
    (hsp : isDelim d = false) (hh : d ≠ '#')
    (hr : ∀ rest, Ended rest → readTok false (pre ++ rest) = some (name, rest))
    (hx : sexp v = .tok name) : Dumps k v := by
  subst hp
  refine ⟨' ' :: d :: l, ⟨1, fun fuel hf => ?_⟩, ' ', d, l, rfl, by decide, ?_, ?_, fun rest he => ?_⟩
  · obtain ⟨m, rfl⟩ : ∃ i, fuel = i + 1 := ⟨fuel - 1, by omega⟩
    exact hd m
  · cases h : isSpace d with
    | false => rfl
    | true => rw [isDelim_space h] at hsp; simp at hsp
  · rintro rfl; simp [isDelim] at hsp
  · refine ⟨1, fun m hm => ?_⟩
    obtain ⟨m, rfl⟩ : ∃ i, m = i + 1 := ⟨m - 1, by omega⟩
    have hs : isSpace d = false := by
      cases h : isSpace d with
      | false => rfl
      | true => rw [isDelim_space h] at hsp; simp at hsp
    have h1 : d ≠ '(' ∧ d ≠ ')' ∧ d ≠ '"' := by
      refine ⟨?_, ?_, ?_⟩ <;> rintro rfl <;> simp [isDelim] at hsp
    have := hr rest he
    simp only [List.cons_append] at this ⊢
    rw [readItem, if_neg (by simp [hs]), if_neg h1.1, if_neg h1.2.1, if_neg h1.2.2, if_neg hh, this, hx]
    rfl

theorem dumps (v : Val) : ∀ k, Conforms k v → (∀ s ∈ strings v, StringToken s) → Dumps k v := by
  refine Val.ind (P := fun v => ∀ k, Conforms k v → (∀ s ∈ strings v, StringToken s) → Dumps k v)
    ?_ ?_ ?_ ?_ ?_ v
  · rintro (p | (_ | _ | _)) h _ <;> simp [Conforms] at h
  · rintro n (p | (_ | _ | _)) h _ <;> simp [Conforms] at h
    exact dumps_tok ("aps-boot::|".toList ++
        (n.flatMap fun c => if c = '\\' ∨ c = '|' then ['\\', c] else [c]) ++ ['|']) 'a'
      ("ps-boot::|".toList ++
        (n.flatMap fun c => if c = '\\' ∨ c = '|' then ['\\', c] else [c]) ++ ['|']) rfl _ _
      ("aps-boot::".toList ++ n) (fun fuel => rfl) (by decide)
      (by decide) (fun rest he => readTok_symbol he n) rfl
  · rintro s (p | (_ | _ | _)) h hs <;> simp [Conforms] at h
    obtain ⟨out, h1, h2⟩ := dumpString_reads (hs s (by simp [strings]))
    refine ⟨' ' :: '"' :: (out ++ ['"']), ⟨1, fun fuel hf => ?_⟩, ' ', '"', out ++ ['"'], rfl,
      by decide, by decide, by decide, fun rest _ => ⟨1, fun m hm => ?_⟩⟩
    · obtain ⟨m, rfl⟩ : ∃ i, fuel = i + 1 := ⟨fuel - 1, by omega⟩
      simpa [dump] using h1
    · obtain ⟨m, rfl⟩ : ∃ i, m = i + 1 := ⟨m - 1, by omega⟩
      simp only [List.cons_append, List.append_assoc, List.nil_append]
      rw [readItem, if_neg (by decide), if_neg (by decide), if_neg (by decide), if_pos rfl, h2]
      rfl
  · rintro b (p | (_ | _ | _)) h _ <;> simp [Conforms] at h
    cases b
    · exact dumps_tok "nil".toList 'n' "il".toList rfl _ _ "nil".toList (fun _ => rfl) (by decide)
        (by decide) (fun rest he => readTok_name _ (by decide) _ (readTok_end he)) rfl
    · exact dumps_tok "t".toList 't' [] rfl _ _ "t".toList (fun _ => rfl) (by decide)
        (by decide) (fun rest he => readTok_name _ (by decide) _ (readTok_end he)) rfl
  · rintro a op line kids ih (p | (_ | _ | _)) h hs <;> try (simp [Conforms] at h; done)
    obtain ⟨c, rfl, rfl, hc⟩ := conforms_node.1 h
    suffices h : List.Forall₂ (fun ka x => Dumps ka.1 x) c.fields kids by
      obtain ⟨out, h1, w, d, tail, h2, h3, h4, h5, h6⟩ := dumps_node c a line kids hc.length_eq h
      exact ⟨out, h1, w, d, tail, h2, h3, h4, h5, fun rest _ => h6 rest⟩
    have hs' : ∀ x ∈ kids, ∀ s ∈ strings x, StringToken s := by
      intro x hx s hsx
      exact hs s (by simp only [strings]; exact mem_strings_kids hx hsx)
    clear h hs
    generalize c.fields = ks at hc
    induction hc with
    | nil => exact .nil
    | @cons ka x ks xs hx _ ih2 =>
      exact .cons (ih x List.mem_cons_self _ hx (hs' x List.mem_cons_self))
        (ih2 (fun y hy => ih y (List.mem_cons_of_mem _ hy))
          (fun y hy => hs' y (List.mem_cons_of_mem _ hy)))

theorem dumps_root {p : Phylum} {v : Val} (h : Conforms (.ph p) v)
    (hs : ∀ s ∈ strings v, StringToken s) :
    ∃ out, (∃ N, ∀ fuel, N ≤ fuel → dump fuel (.ph p) v = .ok out) ∧
      ∀ rest, ∃ M, ∀ m, M ≤ m → readItem m (out ++ rest) = some (sexp v, rest) := by
  obtain ⟨c, a, line, kids, rfl, rfl, hc⟩ := conforms_ph h
  have hd : List.Forall₂ (fun ka x => Dumps ka.1 x) c.fields kids := by
    have hs' : ∀ x ∈ kids, ∀ s ∈ strings x, StringToken s := by
      intro x hx s hsx
      exact hs s (by simp only [strings]; exact mem_strings_kids hx hsx)
    clear h hs
    generalize c.fields = ks at hc
    induction hc with
    | nil => exact .nil
    | @cons ka x ks xs hx _ ih2 =>
      exact .cons (dumps x _ hx (hs' x List.mem_cons_self))
        (ih2 (fun y hy => hs' y (List.mem_cons_of_mem _ hy)))
  obtain ⟨out, h1, w, d, tail, rfl, h3, h4, h5, h6⟩ := dumps_node c a line kids hc.length_eq hd
  refine ⟨_, h1, fun rest => ?_⟩
  obtain ⟨M, hM⟩ := h6 rest
  refine ⟨M + 1, fun m hm => ?_⟩
  obtain ⟨m, rfl⟩ : ∃ i, m = i + 1 := ⟨m - 1, by omega⟩
  have := hM m (by omega)
  simp only [List.cons_append] at this ⊢
  rw [readItem, if_pos h3]
  exact this

/-! ## What the Lisp expression tells -/

theorem name_inj {c d : Con} (h : c.name = d.name) : c = d := by
  have h2 : ∀ c ∈ Con.all, ∀ d ∈ Con.all, c.name = d.name → c = d := by decide +kernel
  exact h2 c (Con.mem_all c) d (Con.mem_all d) h

theorem sexp_content (v : Val) : ∀ k w, Conforms k v → Conforms k w → sexp v = sexp w →
    content v = content w := by
  refine Val.ind (P := fun v => ∀ k w, Conforms k v → Conforms k w → sexp v = sexp w →
    content v = content w) ?_ ?_ ?_ ?_ ?_ v
  · rintro (p | (_ | _ | _)) w h <;> simp [Conforms] at h
  · rintro n (p | (_ | _ | _)) w h <;> simp [Conforms] at h
    intro hw he
    cases w <;> simp_all [Conforms, sexp, content]
  · rintro n (p | (_ | _ | _)) w h <;> simp [Conforms] at h
    intro hw he
    cases w <;> simp_all [Conforms, sexp, content]
  · rintro b (p | (_ | _ | _)) w h <;> simp [Conforms] at h
    intro hw he
    cases w with
    | bool b' => cases b <;> cases b' <;> simp_all [sexp, content]
    | _ => simp [Conforms] at hw
  · rintro a op line kids ih (p | (_ | _ | _)) w h hw he <;> try (simp [Conforms] at h; done)
    obtain ⟨c, rfl, rfl, hc⟩ := conforms_node.1 h
    obtain ⟨d, b, line', kids', rfl, hp, hd⟩ := conforms_ph hw
    rw [sexp_node, sexp_node] at he
    simp only [Sexp.list.injEq, List.cons.injEq, Sexp.tok.injEq, Sexp.line.injEq] at he
    obtain ⟨h1, h2, h3⟩ := he
    have := name_inj h1
    subst this
    subst h2
    suffices hk : contentAll kids = contentAll kids' by simp [content, hk]
    clear h hw hp h1
    generalize c.fields = ks at hc hd
    induction hc generalizing kids' with
    | nil => cases hd; rfl
    | @cons ka x ks xs hx _ ih2 =>
      cases hd with
      | @cons _ y _ ys hy hd =>
        simp only [sexpAll, List.cons.injEq] at h3
        simp only [contentAll]
        rw [ih x List.mem_cons_self _ y hx hy h3.1,
          ih2 (fun z hz => ih z (List.mem_cons_of_mem _ hz)) ys h3.2 hd]

theorem cText_unescape {esc : Char → Option Char}
    (hesc : ∀ c x, esc c = some x → x = if c = 'n' then '\n' else c) :
    ∀ (l t : List Char), cText esc l = some t → unescape l = t := by
  intro l
  fun_induction cText esc l with
  | case1 => intro t h; cases h
  | case2 c l ih =>
    intro t h
    simp only [Option.bind_eq_bind, Option.bind_eq_some_iff, Option.pure_def, Option.some.injEq] at h
    obtain ⟨x, hx, r, hr, rfl⟩ := h
    rw [unescape, ih r hr, hesc c x hx]
  | case3 c l h1 h2 ih =>
    intro t h
    simp only [Option.bind_eq_bind, Option.bind_eq_some_iff, Option.pure_def, Option.some.injEq] at h
    obtain ⟨r, hr, rfl⟩ := h
    have : c ≠ '\\' := by
      rintro rfl
      cases l with
      | nil => exact h1 rfl rfl
      | cons d l => exact h2 d l rfl rfl
    rw [unescape_plain this, ih r hr]
  | case4 => intro t h; cases h; rfl

end Aps.Ast
