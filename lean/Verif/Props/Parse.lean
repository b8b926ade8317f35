import Verif.Proofs.ParseMore
/-!
# C75–C79: the parser
-/
set_option linter.unusedVariables false
namespace Aps.Props
open Aps.Parse

/-- examples: `+` of level 6, `*` of level 7, `++` right associative of level 5 -/
def plusTok : Tok := .oper [43] (some (opl 6))
def timesTok : Tok := .oper [42] (some (opl 7))
def catTok : Tok := .oper [43, 43] (some (opr 5))

/-! ## C75: the tree found -/

/-- The parser gives a tree exactly if it is written like that and every operand belongs to the operator that binds tighter. -/
theorem C75_tree (ts : List Tok) (c : Cst) : parse ts = .ok c ↔ Respects c ∧ yield c = ts := parse_iff ts c

/-- It always ends, with a tree or a syntax error. -/
theorem C75_total (ts : List Tok) : (∃ c, parse ts = .ok c) ∨ parse ts = .stop := parse_total ts

/-- There is a syntax error exactly if there is no such tree. -/
theorem C75_error (ts : List Tok) : parse ts = .stop ↔ ¬ ∃ c, Respects c ∧ yield c = ts := by
  constructor
  · rintro h ⟨c, hc⟩
    rw [(parse_iff ts c).2 hc] at h
    cases h
  · intro h
    rcases parse_total ts with ⟨c, hc⟩ | h'
    · exact (h ⟨c, (parse_iff ts c).1 hc⟩).elim
    · exact h'

/-- No expression can be read in two ways. -/
theorem C75_unambiguous (c d : Cst) (hc : Respects c) (hd : Respects d) (h : yield c = yield d) : c = d := by
  have h1 := (parse_iff (yield d) c).2 ⟨hc, h⟩
  have h2 := (parse_iff (yield d) d).2 ⟨hd, rfl⟩
  rw [h1] at h2
  cases h2; rfl

/-- `f(1) + 2 * 3 ++ 4` -/
example : parse [.atom 9, .lp, .atom 1, .rp, plusTok, .atom 2, timesTok, .atom 3, catTok, .atom 4] =
    .ok (.bin catTok (.bin plusTok (.call (.atom 9) (.cons (.atom 1) .nil)) (.bin timesTok (.atom 2) (.atom 3))) (.atom 4)) :=
  (C75_tree _ _).2 ⟨by simp [Respects, RespectsAll, Simple, Atomic, plusTok, timesTok, catTok, Tok.infix, rightEdge, leftEdge, LeftWins, RightWins, opl, opr], rfl⟩
example : parse [.atom 1, plusTok] = .stop := rfl

/-! ## C76: parentheses, association, levels -/

/-- Any expression can be written: with parentheses around every operand it is read as it was meant. -/
theorem C76_parentheses (c : Cst) (h : OperatorsOk c) : parse (yield (parens c)) = .ok (parens c) ∧ build (parens c) = build c :=
  ⟨(parse_iff _ _).2 ⟨parens_respects c h, rfl⟩, parens_build c⟩

/-- What is built for an expression that has been read means what was written: an operator's function is called with its operands from left
to right, whatever functions and values are. -/
theorem C76_meaning {V : Type} (M : Sem V) (ts : List Tok) (c : Cst) (h : parse ts = .ok c) : (build c).mean M = meaning M c :=
  build_mean M c (respects_ok c ((parse_iff ts c).1 h).1)

/-- Operators of one level declared `infixl` associate to the left, however many there are. -/
theorem C76_left (e : Cst) (xs : List (Tok × Cst)) (n : Nat) (he : Simple e ∧ Respects e)
    (h : ∀ x ∈ xs, x.1.infix = some (opl n) ∧ Simple x.2 ∧ Respects x.2) : parse (chain e xs) = .ok (toLeft e xs) :=
  (parse_iff _ _).2 ⟨toLeft_respects xs e (opl n) rfl he.2 (by rw [(simple_edges he.1).2]; intro q hq; cases hq) h, toLeft_yield xs e⟩

/-- Operators of one level declared `infixr` associate to the right. -/
theorem C76_right (e : Cst) (xs : List (Tok × Cst)) (n : Nat) (he : Simple e ∧ Respects e)
    (h : ∀ x ∈ xs, x.1.infix = some (opr n) ∧ Simple x.2 ∧ Respects x.2) : parse (chain e xs) = .ok (toRight e xs) :=
  (parse_iff _ _).2 ⟨toRight_respects xs e (opr n) rfl he.1 he.2 h, toRight_yield xs e⟩

/-- Of operators of different levels, the one with the higher level has the operand between them. -/
theorem C76_levels (a b c : Cst) (o1 o2 : Tok) (p q : Prec) (ha : Simple a ∧ Respects a) (hb : Simple b ∧ Respects b) (hc : Simple c ∧ Respects c)
    (h1 : o1.infix = some p) (h2 : o2.infix = some q) :
    (q.level < p.level → parse (yield a ++ o1 :: (yield b ++ o2 :: yield c)) = .ok (.bin o2 (.bin o1 a b) c)) ∧
    (p.level < q.level → parse (yield a ++ o1 :: (yield b ++ o2 :: yield c)) = .ok (.bin o1 a (.bin o2 b c))) := by
  have ea := simple_edges ha.1
  have eb := simple_edges hb.1
  have ec := simple_edges hc.1
  constructor
  · intro h
    refine (parse_iff _ _).2 ⟨⟨⟨ha.2, hb.2, p, h1, by simp [ea], by simp [eb]⟩, hc.2, q, h2, ?_, by simp [ec]⟩, by simp [yield]⟩
    simp only [rightEdge, eb.2, h1, Option.toList_some, List.append_nil, List.mem_singleton, forall_eq]
    exact .inl h
  · intro h
    refine (parse_iff _ _).2 ⟨⟨ha.2, ⟨hb.2, hc.2, q, h2, by simp [eb], by simp [ec]⟩, p, h1, by simp [ea], ?_⟩, by simp [yield]⟩
    simp only [leftEdge, eb.1, h2, Option.toList_some, List.append_nil, List.mem_singleton, forall_eq]
    exact .inl h

/-- the order of the levels: `if` and `for`, `or`, `and`, `in`, `...`, then the operators from 0 to 9 -/
theorem C76_order : pIf.level < pOr.level ∧ pOr.level < pAnd.level ∧ pAnd.level < pNot.level ∧ pNot.level < pRep.level ∧
    (∀ n, pRep.level < (opl n).level ∧ pRep.level < (opr n).level) ∧
    ∀ m n, m < n → (opl m).level < (opl n).level ∧ (opr m).level < (opl n).level ∧ (opl m).level < (opr n).level ∧ (opr m).level < (opr n).level := by
  refine ⟨by decide, by decide, by decide, by decide, ?_, ?_⟩
  · intro n; simp only [pRep, opl, opr]; omega
  · intro m n h; simp only [opl, opr]; omega

/-- `in` and `not in` do not associate: two of them in a row are an error, and so is `not a in b`. -/
theorem C76_in (a b : Cst) (o1 o2 : Tok) (ha : Simple a ∧ Respects a) (hb : Simple b ∧ Respects b) (h1 : o1 = .in ∨ o1 = .notIn)
    (h2 : o2 = .in ∨ o2 = .notIn) (rest : List Tok) :
    parse (yield a ++ o1 :: (yield b ++ o2 :: rest)) = .stop ∧ parse (.not :: (yield a ++ o2 :: rest)) = .stop := by
  have ea := simple_edges ha.1
  have eb := simple_edges hb.1
  have i1 : o1.infix = some pNot := by rcases h1 with rfl | rfl <;> rfl
  have i2 : o2.infix = some pNot := by rcases h2 with rfl | rfl <;> rfl
  exact ⟨parse_conflict ha.2 hb.2 i1 i2 (by simp [ea]) (by simp [eb]) (by simp [eb]) ⟨rfl, rfl⟩ rest,
    parse_conflict_pre (p := pNot) ha.2 rfl i2 (by simp [ea]) (by simp [ea]) ⟨rfl, rfl⟩ rest⟩

/-- Not so: minus associates to the left, as it should with `infixl 6` (base/aps-builtin.aps:8). It associates to the right, for all
operands, and a minus before them is for all of the difference. -/
theorem C76_minus_refuted (a b c : Cst) (ha : Simple a ∧ Respects a) (hb : Simple b ∧ Respects b) (hc : Simple c ∧ Respects c) :
    parse (yield a ++ .minus :: (yield b ++ .minus :: yield c)) = .ok (.bin .minus a (.bin .minus b c)) ∧
    parse (.minus :: (yield a ++ .minus :: yield b)) = .ok (.pre .minus (.bin .minus a b)) ∧
    parse (yield a ++ .minus :: (yield b ++ plusTok :: yield c)) = .ok (.bin plusTok (.bin .minus a b) c) ∧
    parse (yield a ++ plusTok :: (yield b ++ .minus :: yield c)) = .ok (.bin plusTok a (.bin .minus b c)) := by
  have ea := simple_edges ha.1
  have eb := simple_edges hb.1
  refine ⟨?_, ?_, ?_, ?_⟩
  · have := C76_right a [(.minus, b), (.minus, c)] 6 ha (by
      intro x hx
      simp only [List.mem_cons, List.not_mem_nil, or_false] at hx
      rcases hx with rfl | rfl
      · exact ⟨rfl, hb⟩
      · exact ⟨rfl, hc⟩)
    simpa [chain, toRight] using this
  · refine (parse_iff _ _).2 ⟨⟨⟨ha.2, hb.2, opr 6, rfl, by simp [ea], by simp [eb]⟩, pUnary, rfl, ?_⟩, by simp [yield]⟩
    simp only [leftEdge, ea.1, Tok.infix, Option.toList_some, List.append_nil, List.mem_singleton, forall_eq]
    exact .inr ⟨rfl, rfl⟩
  · exact (C76_levels a b c .minus plusTok (opr 6) (opl 6) ha hb hc rfl rfl).1 (by decide)
  · exact (C76_levels a b c plusTok .minus (opl 6) (opr 6) ha hb hc rfl rfl).2 (by decide)

/-- `10 - 4 - 3` with numbers for atoms: 9, not 3 -/
def minusValue : Cst → Int
  | .atom n => n
  | .bin .minus l r => minusValue l - minusValue r
  | _ => 0
example : parse [.atom 10, .minus, .atom 4, .minus, .atom 3] = .ok (.bin .minus (.atom 10) (.bin .minus (.atom 4) (.atom 3))) ∧
    minusValue (.bin .minus (.atom 10) (.bin .minus (.atom 4) (.atom 3))) = 9 :=
  ⟨(C76_minus_refuted (.atom 10) (.atom 4) (.atom 3) ⟨trivial, trivial⟩ ⟨trivial, trivial⟩ ⟨trivial, trivial⟩).1, by decide⟩

/-- with integers: `1 - 2 - 4` -/
example : (build (.bin .minus (.atom 1) (.bin .minus (.atom 2) (.atom 4)))).mean
    (⟨fun a => (a : Int), fun _ => 0, fun _ vs => vs.headD 0 - vs.getLastD 0, fun a _ => a, id, fun a _ => a, fun a _ _ => a⟩ : Sem Int) = 3 := by
  rw [C76_meaning _ [.atom 1, .minus, .atom 2, .minus, .atom 4] (.bin .minus (.atom 1) (.bin .minus (.atom 2) (.atom 4))) rfl]; decide

example : OperatorsOk (.bin timesTok (.bin plusTok (.atom 1) (.atom 2)) (.pre .minus (.rep (.atom 3)))) ∧
    yield (parens (.bin timesTok (.bin plusTok (.atom 1) (.atom 2)) (.pre .minus (.rep (.atom 3))))) =
      [.lp, .atom 1, plusTok, .atom 2, .rp, timesTok, .lp, .minus, .lp, .atom 3, .dots, .rp, .rp] :=
  ⟨by simp [OperatorsOk, plusTok, timesTok, Tok.infix, Tok.prefix], by decide +kernel⟩
example : parse (chain (.atom 1) [(plusTok, .atom 2), (plusTok, .atom 3)]) = .ok (.bin plusTok (.bin plusTok (.atom 1) (.atom 2)) (.atom 3)) :=
  C76_left (.atom 1) [(plusTok, .atom 2), (plusTok, .atom 3)] 6 ⟨trivial, trivial⟩ (by
    intro x hx
    simp only [List.mem_cons, List.not_mem_nil, or_false] at hx
    rcases hx with rfl | rfl <;> exact ⟨rfl, trivial, trivial⟩)

/-! ## C77: fixity -/

/-- In files read one after another, each expression is read with the levels declared before it — in its file or one read earlier — and
operators not declared have level 9 and associate to the left; no operator is declared twice, and levels are from 0 to 9. -/
theorem C77_fixity (fs : List (List Parse.Unit)) (F : Fix) (xs : List (List Ast)) (h : files fs F = .ok xs) :
    (∀ i k l s, fs.flatten[i]? = some (.fixity k l s) → (orElse F (fs.flatten.take i)) s = none ∧ ∀ n ∈ l, n < 10) ∧
    (∀ i ts, fs.flatten[i]? = some (.decl ts) → ∃ c, Respects c ∧ yield c = ts.map (lookup (orElse F (fs.flatten.take i))) ∧
      xs.flatten[decls (fs.flatten.take i)]? = some (build c)) := by
  obtain ⟨F', h⟩ := files_flatten fs F xs h
  exact (file_spec _ _ _ _ h).2.2

/-- What a declaration gives, and what there is without one. -/
theorem C77_given (s : List Nat) (F : Fix) (us vs : List Parse.Unit) (k : FixKind) (l : Option Nat) (hF : F s = none) (hus : fixityIn us s = none) :
    (lookup (orElse F us) (.oper s none)).infix = some (opl 9) ∧
    (lookup (orElse F (us ++ .fixity k l s :: vs)) (.oper s none)).infix = some (if k = .infixr then opr (l.getD 9) else opl (l.getD 9)) := by
  have happ : ∀ us vs : List Parse.Unit, fixityIn us s = none → fixityIn (us ++ vs) s = fixityIn vs s := by
    intro us vs h
    induction us with
    | nil => rfl
    | cons u us ih =>
      cases u with
      | fixity k l t =>
        simp only [fixityIn] at h
        split at h
        · cases h
        · rename_i hne
          simp only [List.cons_append, fixityIn, if_neg hne]
          exact ih h
      | decl ts => exact ih h
  constructor
  · simp [lookup, orElse, hF, hus, Tok.infix]
  · simp only [lookup, orElse, hF, happ us _ hus, fixityIn, if_true, Option.none_or, Tok.infix]
    cases k <;> rfl

/-- Not so: how a file is read depends on the file only. After another file its operators can have other levels, or its declarations can be
errors. -/
theorem C77_file_alone_refuted : ∃ (f g : List Parse.Unit) (e e' : Ast), files [g] (fun _ => none) = .ok [[e]] ∧
    (∃ x, files [f, g] (fun _ => none) = .ok [x, [e']]) ∧ e ≠ e' ∧
    files [f] (fun _ => none) = .ok [[]] ∧ files [f, f] (fun _ => none) = .stop := by
  refine ⟨[.fixity .infixr (some 5) [43, 43]], [.decl [.atom 1, .oper [43, 43] none, .atom 2, .oper [43, 43] none, .atom 3]],
    binop [43, 43] (binop [43, 43] (.atom 1) (.atom 2)) (.atom 3), binop [43, 43] (.atom 1) (binop [43, 43] (.atom 2) (.atom 3)), ?_, ⟨[], ?_⟩, ?_, ?_, ?_⟩
  · rfl
  · rfl
  · simp [binop]
  · rfl
  · rfl

/-- `infixl 6 +; infixl 7 *;` in one file and `1 + 2 * 3` in the next -/
example : ∃ xs, files [[.fixity .infixl (some 6) [43], .fixity .infixl (some 7) [42]],
      [.decl [.atom 1, .oper [43] none, .atom 2, .oper [42] none, .atom 3]]] (fun _ => none) = .ok xs ∧
    xs = [[], [binop [43] (.atom 1) (binop [42] (.atom 2) (.atom 3))]] := ⟨_, rfl, rfl⟩

/-! ## C78: public and constant -/

/-- `private` and `public` are lexical, in every file. -/
theorem C78_public (ps : List Items) (s : Flags) :
    (programs ps s).map (fun ds => ds.map fun x => (x.name, x.pub)) = ps.map (fun p => publicI p true) := programs_pub ps s

/-- So is `var`, if there is no `var;`. -/
theorem C78_constant_partial (ps : List Items) (s : Flags) (h : ∀ p ∈ ps, noVarI p = true) :
    (programs ps s).map (fun ds => ds.map fun x => (x.name, x.con)) = ps.map (fun p => constantI p s.con) := programs_con ps s h

/-- Not so in general: `var;` at the start of a module makes what is after the module, and in all files read later, not constant. -/
theorem C78_constant_refuted : ∃ ps : List Items,
    (programs ps ⟨false, true⟩).map (fun ds => ds.map fun x => (x.name, x.con)) = [[(2, false), (1, false), (3, false)], [(4, false)]] ∧
    ps.map (fun p => constantI p true) = [[(2, false), (1, true), (3, true)], [(4, true)]] :=
  ⟨[.decl (.module 1 (.var (.decl (.plain 2) .nil))) (.decl (.plain 3) .nil), .decl (.plain 4) .nil], rfl, rfl⟩

/-- `private; module 1 begin 2; private; 3; end; 4; public 5; 6;` -/
example : (programs [.priv (.decl (.module 1 (.decl (.plain 2) (.priv (.decl (.plain 3) .nil)))) (.decl (.plain 4) (.decl (.pub (.plain 5))
      (.decl (.plain 6) .nil))))] ⟨false, true⟩).map (fun ds => ds.map fun x => (x.name, x.pub)) =
    [[(2, true), (3, false), (1, false), (4, false), (5, true), (6, false)]] := C78_public _ _
example : noVarI (.decl (.var (.plain 1)) (.decl (.plain 2) .nil)) = true ∧
    constantI (.decl (.var (.plain 1)) (.decl (.plain 2) .nil)) true = [(1, false), (2, true)] := ⟨rfl, rfl⟩

/-! ## C79: names of what has none -/

/-- Two names made are the same only if the number is, and the names of the files but for characters that are no letters or digits. -/
theorem C79_names (b b' : List Nat) (n n' : Nat) : implicitName b n = implicitName b' n' ↔
    n = n' ∧ b.map (fun c => if alnum c then c else 95) = b'.map (fun c => if alnum c then c else 95) := by
  constructor
  · intro h
    obtain ⟨h1, h2⟩ := implicitName_inj h
    exact ⟨h2, h1⟩
  · rintro ⟨rfl, h⟩
    rw [implicitName_eq, implicitName_eq]
    simp only [plain, h]

/-- They are not names of wildcards (an underscore and a number), nor those of identifiers that start with a letter. -/
theorem C79_fresh (b : List Nat) (n : Nat) : (∀ m, implicitName b n ≠ 95 :: Symbol.digits m m) ∧
    ∀ c w, (65 ≤ c ∧ c ≤ 90 ∨ 97 ≤ c ∧ c ≤ 122) → implicitName b n ≠ c :: w := by
  rw [implicitName_eq]
  constructor
  · intro m h
    simp only [List.cons.injEq, true_and] at h
    exact no_underscore m (by rw [← h]; simp)
  · intro c w hc h
    simp only [List.cons.injEq] at h
    omega

/-- Not so: what is in different files has different names. -/
theorem C79_files_refuted : implicitName [97, 45, 98] 1 = implicitName [97, 95, 98] 1 := by decide

/-- `_basic_12` -/
example : implicitName [98, 97, 115, 105, 99] 12 = [95, 98, 97, 115, 105, 99, 95, 49, 50] := by decide +kernel

end Aps.Props
