import Verif.Proofs.Parse
import Verif.Proofs.Symbol
/-!
# Parentheses, chains of operators, fixity, flags and names
-/
set_option linter.unusedVariables false
namespace Aps.Parse

/-! ## parentheses -/

theorem wrap_atomic (c : Cst) : Atomic (wrap c) := by cases c <;> trivial
theorem atomic_simple {c : Cst} (h : Atomic c) : Simple c := by cases c <;> first | trivial | cases h
theorem wrap_respects {c : Cst} (h : Respects c) : Respects (wrap c) := by
  cases c <;> first | exact h | exact ⟨by simp, h, trivial⟩
theorem wrap_build (c : Cst) : build (wrap c) = build c := by
  cases c <;> first | rfl | (simp only [wrap, build, builds, appends])

theorem parensAll_ne {es : Csts} (h : es ≠ .nil) : parensAll es ≠ .nil := by
  cases es with
  | nil => exact (h rfl).elim
  | cons e es => simp [parensAll]

mutual
theorem parens_respects : ∀ c : Cst, OperatorsOk c → Respects (parens c)
  | .atom a, _ => trivial
  | .paren es, h => ⟨parensAll_ne h.1, parens_respectsAll es h.2⟩
  | .call f as, h => ⟨atomic_simple (wrap_atomic _), wrap_respects (parens_respects f h.1), parens_respectsAll as h.2⟩
  | .dot e f, h => ⟨atomic_simple (wrap_atomic _), wrap_atomic _, wrap_respects (parens_respects e h.1), wrap_respects (parens_respects f h.2)⟩
  | .bin o l r, h => by
    obtain ⟨p, hp⟩ := Option.isSome_iff_exists.1 h.1
    refine ⟨wrap_respects (parens_respects l h.2.1), wrap_respects (parens_respects r h.2.2), p, hp, ?_, ?_⟩
    · rw [(simple_edges (atomic_simple (wrap_atomic _))).2]; intro q hq; cases hq
    · rw [(simple_edges (atomic_simple (wrap_atomic _))).1]; intro q hq; cases hq
  | .pre o e, h => by
    obtain ⟨p, hp⟩ := Option.isSome_iff_exists.1 h.1
    refine ⟨wrap_respects (parens_respects e h.2), p, hp, ?_⟩
    rw [(simple_edges (atomic_simple (wrap_atomic _))).1]; intro q hq; cases hq
  | .rep e, h => by
    refine ⟨wrap_respects (parens_respects e h), ?_⟩
    rw [(simple_edges (atomic_simple (wrap_atomic _))).2]; intro q hq; cases hq
theorem parens_respectsAll : ∀ es : Csts, OperatorsOkAll es → RespectsAll (parensAll es)
  | .nil, _ => trivial
  | .cons e es, h => ⟨parens_respects e h.1, parens_respectsAll es h.2⟩
end

mutual
theorem parens_build : ∀ c : Cst, build (parens c) = build c
  | .atom a => rfl
  | .paren .nil => rfl
  | .paren (.cons e es) => by simp only [parens, parensAll, build, parens_build e, parens_builds es]
  | .call f as => by simp only [parens, build, wrap_build, parens_build f, parens_builds as]
  | .dot e f => by simp only [parens, build, wrap_build, parens_build e, parens_build f]
  | .bin o l r => by cases o <;> simp only [parens, build, wrap_build, parens_build l, parens_build r]
  | .pre o e => by cases o <;> simp only [parens, build, wrap_build, parens_build e]
  | .rep e => by simp only [parens, build, wrap_build, parens_build e]
theorem parens_builds : ∀ es : Csts, builds (parensAll es) = builds es
  | .nil => rfl
  | .cons e es => by simp only [parensAll, builds, parens_build e, parens_builds es]
end

/-! ## meaning -/

theorem appends_mean {V : Type} (M : Sem V) : ∀ (es : Asts) (a : Ast), (appends a es).mean M = (es.means M).foldl M.append (a.mean M)
  | .nil, a => rfl
  | .cons e es, a => by
    have := appends_mean M es (.append a e)
    simp only [appends, Asts.means, List.foldl_cons, this, Ast.mean]

mutual
theorem build_mean {V : Type} (M : Sem V) : ∀ c : Cst, OperatorsOk c → (build c).mean M = meaning M c
  | .atom a, _ => rfl
  | .paren .nil, h => (h.1 rfl).elim
  | .paren (.cons e es), h => by
    simp only [build, meaning, meanings, appends_mean, build_mean M e h.2.1, builds_mean M es h.2.2]
  | .call f as, h => by simp only [build, meaning, Ast.mean, build_mean M f h.1, builds_mean M as h.2]
  | .dot e f, h => by simp only [build, meaning, Ast.mean, Asts.means, build_mean M f h.2, build_mean M e h.1]
  | .bin o l r, h => by
    have h1 := build_mean M l h.2.1
    have h2 := build_mean M r h.2.2
    have h3 := h.1
    cases o <;> first | (cases h3; done) | (simp only [build, meaning, binop, unop, Ast.mean, Asts.means, h1, h2]; try rfl)
  | .pre o e, h => by
    have h1 := build_mean M e h.2
    have h3 := h.1
    cases o <;> first | (cases h3; done) | (simp only [build, meaning, binop, unop, Ast.mean, Asts.means, h1]; rfl)
  | .rep e, h => by simp only [build, meaning, Ast.mean, build_mean M e h]
theorem builds_mean {V : Type} (M : Sem V) : ∀ es : Csts, OperatorsOkAll es → (builds es).means M = meanings M es
  | .nil, _ => rfl
  | .cons e es, h => by simp only [builds, meanings, Asts.means, build_mean M e h.1, builds_mean M es h.2]
end

mutual
theorem respects_ok : ∀ c : Cst, Respects c → OperatorsOk c
  | .atom a, _ => trivial
  | .paren es, h => ⟨h.1, respects_okAll es h.2⟩
  | .call f as, h => ⟨respects_ok f h.2.1, respects_okAll as h.2.2⟩
  | .dot e f, h => ⟨respects_ok e h.2.2.1, respects_ok f h.2.2.2⟩
  | .bin o l r, h => by
    obtain ⟨h1, h2, p, hp, _⟩ := h
    exact ⟨by rw [hp]; rfl, respects_ok l h1, respects_ok r h2⟩
  | .pre o e, h => by
    obtain ⟨h1, p, hp, _⟩ := h
    exact ⟨by rw [hp]; rfl, respects_ok e h1⟩
  | .rep e, h => respects_ok e h.1
theorem respects_okAll : ∀ es : Csts, RespectsAll es → OperatorsOkAll es
  | .nil, _ => trivial
  | .cons e es, h => ⟨respects_ok e h.1, respects_okAll es h.2⟩
end

/-! ## chains -/

theorem toLeft_yield : ∀ (xs : List (Tok × Cst)) (e : Cst), yield (toLeft e xs) = chain e xs
  | [], e => by simp [toLeft, chain]
  | x :: xs, e => by
    have := toLeft_yield xs (.bin x.1 e x.2)
    simp only [toLeft, List.foldl_cons] at this ⊢
    rw [this]
    simp [chain, yield]

theorem toLeft_respects : ∀ (xs : List (Tok × Cst)) (e : Cst) (p : Prec), p.assoc = .left → Respects e → (∀ q ∈ rightEdge e, LeftWins q p) →
    (∀ x ∈ xs, x.1.infix = some p ∧ Simple x.2 ∧ Respects x.2) → Respects (toLeft e xs)
  | [], e, p, _, he, _, _ => he
  | x :: xs, e, p, hp, he, hr, h => by
    obtain ⟨h1, h2, h3⟩ := h x (by simp)
    have hs := simple_edges h2
    refine toLeft_respects xs (.bin x.1 e x.2) p hp ⟨he, h3, p, h1, hr, ?_⟩ ?_ (fun y hy => h y (List.mem_cons_of_mem _ hy))
    · rw [hs.1]; intro q hq; cases hq
    · intro q hq
      simp only [rightEdge, hs.2, h1, Option.toList_some, List.append_nil, List.mem_singleton] at hq
      subst hq
      exact .inr ⟨rfl, hp⟩

theorem toRight_yield : ∀ (xs : List (Tok × Cst)) (e : Cst), yield (toRight e xs) = chain e xs
  | [], e => by simp [toRight, chain]
  | x :: xs, e => by
    have := toRight_yield xs x.2
    simp only [toRight, yield]
    rw [this]
    simp [chain]

theorem toRight_leftEdge (xs : List (Tok × Cst)) (e : Cst) (p : Prec) (he : Simple e)
    (h : ∀ x ∈ xs, x.1.infix = some p) : ∀ q ∈ leftEdge (toRight e xs), q = p := by
  cases xs with
  | nil => simp [toRight, (simple_edges he).1]
  | cons x xs => simp [toRight, leftEdge, (simple_edges he).1, h x (by simp)]

theorem toRight_respects : ∀ (xs : List (Tok × Cst)) (e : Cst) (p : Prec), p.assoc = .right → Simple e → Respects e →
    (∀ x ∈ xs, x.1.infix = some p ∧ Simple x.2 ∧ Respects x.2) → Respects (toRight e xs)
  | [], e, p, _, _, he, _ => he
  | x :: xs, e, p, hp, hs, he, h => by
    obtain ⟨h1, h2, h3⟩ := h x (by simp)
    have hx : ∀ y ∈ xs, y.1.infix = some p ∧ Simple y.2 ∧ Respects y.2 := fun y hy => h y (List.mem_cons_of_mem _ hy)
    refine ⟨he, toRight_respects xs x.2 p hp h2 h3 hx, p, h1, ?_, ?_⟩
    · rw [(simple_edges hs).2]; intro q hq; cases hq
    · intro q hq
      rw [toRight_leftEdge xs x.2 p h2 (fun y hy => (hx y hy).1) q hq]
      exact .inr ⟨rfl, hp⟩

/-- an operator that cannot follow another -/
theorem parse_conflict {a b : Cst} {o1 o2 : Tok} {p q : Prec} (ha : Respects a) (hb : Respects b) (h1 : o1.infix = some p) (h2 : o2.infix = some q)
    (hra : ∀ x ∈ rightEdge a, LeftWins x p) (hlb : ∀ x ∈ leftEdge b, RightWins p x) (hrb : ∀ x ∈ rightEdge b, LeftWins x q)
    (hc : p.level = q.level ∧ q.assoc = .nonassoc) (rest : List Tok) : parse (yield a ++ o1 :: (yield b ++ o2 :: rest)) = .stop := by
  have n1 := infix_next h1 (yield b ++ o2 :: rest)
  have n2 := infix_next h2 rest
  have hp : (Frame.bin a o1).prec = p := by simp [Frame.prec, h1]
  generalize hts : yield a ++ o1 :: (yield b ++ o2 :: rest) = ts
  have s1 := complete a (4 * ts.length + 1) [] (o1 :: (yield b ++ o2 :: rest)) ha n1.2.1 (by rw [n1.1]; intro x hx; cases hx; exact hra) (by intro F hF; cases hF)
  have s2 := via s1 fun m => after_shift (S := []) n1.1 (by intro F hF; cases hF)
  have s3 := via s2 (g := fun k => before k [.bin a o1] (yield b ++ o2 :: rest)) fun m => by
    cases m with
    | zero => exact .inl rfl
    | succ m =>
      right
      refine ⟨m, ?_⟩
      have := n1.2.2
      cases o1 <;> first | (exact (this rfl).elim) | simp only [shift]
  have s4 := via s3 fun m => complete b m [.bin a o1] (o2 :: rest) hb n2.2.1 (by rw [n2.1]; intro x hx; cases hx; exact hrb)
    (by intro F hF; cases hF; rw [hp]; exact hlb)
  have hfuel := ((fuel_enough (4 * ts.length + 1)).1 [] ts (by simp)).1.1
  rw [hts] at s4
  unfold parse expr
  rcases s4 with s4 | ⟨m, s4⟩
  · exact (hfuel s4).elim
  · rw [s4] at hfuel ⊢
    cases m with
    | zero => exact (hfuel rfl).elim
    | succ m =>
      have hres : resolve (Frame.bin a o1).prec q = .error := by
        rw [hp]
        unfold resolve
        rw [if_neg (by omega), if_neg (by omega), hc.2]
      rw [after_succ, n2.1]
      simp only [hres]
      rfl

theorem parse_conflict_pre {a : Cst} {o1 o2 : Tok} {p q : Prec} (ha : Respects a) (h1 : o1.prefix = some p) (h2 : o2.infix = some q)
    (hla : ∀ x ∈ leftEdge a, RightWins p x) (hra : ∀ x ∈ rightEdge a, LeftWins x q)
    (hc : p.level = q.level ∧ q.assoc = .nonassoc) (rest : List Tok) : parse (o1 :: (yield a ++ o2 :: rest)) = .stop := by
  have n2 := infix_next h2 rest
  have hp : (Frame.pre o1).prec = p := by simp [Frame.prec, h1]
  have s1 : before (4 * (o1 :: (yield a ++ o2 :: rest)).length + 1) [] (o1 :: (yield a ++ o2 :: rest)) =
      before (4 * (o1 :: (yield a ++ o2 :: rest)).length) [.pre o1] (yield a ++ o2 :: rest) := by
    cases o1 <;> first | (cases h1; done) | simp [before, Tok.prefix]
  have s2 := complete a (4 * (o1 :: (yield a ++ o2 :: rest)).length) [.pre o1] (o2 :: rest) ha n2.2.1
    (by rw [n2.1]; intro x hx; cases hx; exact hra) (by intro F hF; cases hF; rw [hp]; exact hla)
  have hfuel := ((fuel_enough (4 * (o1 :: (yield a ++ o2 :: rest)).length + 1)).1 [] (o1 :: (yield a ++ o2 :: rest)) (by simp)).1.1
  unfold parse expr
  rw [s1] at hfuel ⊢
  rcases s2 with s2 | ⟨m, s2⟩
  · exact (hfuel s2).elim
  · rw [s2] at hfuel ⊢
    cases m with
    | zero => exact (hfuel rfl).elim
    | succ m =>
      have hres : resolve (Frame.pre o1).prec q = .error := by
        rw [hp]
        unfold resolve
        rw [if_neg (by omega), if_neg (by omega), hc.2]
      rw [after_succ, n2.1]
      simp only [hres]
      rfl

/-! ## fixity -/

theorem declare_ok {k : FixKind} {l : Option Nat} {s : List Nat} {F F' : Fix} (h : declare k l s F = .ok F') :
    F s = none ∧ (∀ n ∈ l, n < 10) ∧ ∀ t, F' t = (F t).or (if s = t then some (givenLevel k l) else none) := by
  unfold declare at h
  cases hs : F s with
  | some x => rw [hs] at h; cases h
  | none =>
    rw [hs] at h
    simp only at h
    split at h
    · cases h
    · rename_i l' hl
      cases h
      refine ⟨rfl, ?_, ?_⟩
      swap
      · intro t
        by_cases e : t = s
        · subst e
          rw [hs]
          cases k <;> simp [givenLevel]
        · simp only
          rw [if_neg e, if_neg (fun h => e h.symm)]; simp
      intro n hn
      by_contra hc
      have : l = some (n - 10 + 10) := by rw [hn]; congr 1; omega
      exact hl _ this

theorem orElse_nil (F : Fix) : orElse F [] = F := by funext s; simp [orElse, fixityIn]

theorem file_spec : ∀ (us : List Unit) (F F' : Fix) (es : List Ast), file us F = .ok (es, F') →
    F' = orElse F us ∧ es.length = decls us ∧
    (∀ i k l s, us[i]? = some (.fixity k l s) → (orElse F (us.take i)) s = none ∧ ∀ n ∈ l, n < 10) ∧
    (∀ i ts, us[i]? = some (.decl ts) → ∃ c, Respects c ∧ yield c = ts.map (lookup (orElse F (us.take i))) ∧
      es[decls (us.take i)]? = some (build c))
  | [], F, F', es, h => by
    cases h
    refine ⟨(orElse_nil F).symm, rfl, ?_, ?_⟩
    · intro i k l s hi; simp at hi
    · intro i ts hi; simp at hi
  | .fixity k l s :: us, F, F', es, h => by
    obtain ⟨F1, h1, h2⟩ := Res.bind_eq_ok.1 h
    obtain ⟨d1, d2, d3⟩ := declare_ok h1
    obtain ⟨r1, r2, r3, r4⟩ := file_spec us F1 F' es h2
    have step : ∀ vs, orElse F1 vs = orElse F (.fixity k l s :: vs) := by
      intro vs
      funext t
      simp only [orElse, d3 t, fixityIn]
      cases F t with
      | some x => simp
      | none => by_cases e : s = t <;> simp [e]
    refine ⟨by rw [r1, step], by simpa [decls] using r2, ?_, ?_⟩
    · intro i k' l' s' hi
      cases i with
      | zero =>
        simp only [List.getElem?_cons_zero, Option.some.injEq, Unit.fixity.injEq] at hi
        obtain ⟨_, rfl, rfl⟩ := hi
        refine ⟨?_, d2⟩
        rw [List.take_zero, orElse_nil]; exact d1
      | succ i =>
        rw [List.take_succ_cons, ← step]
        exact r3 i k' l' s' hi
    · intro i ts hi
      cases i with
      | zero => simp at hi
      | succ i =>
        rw [List.take_succ_cons, ← step]
        obtain ⟨c, c1, c2, c3⟩ := r4 i ts hi
        exact ⟨c, c1, c2, by simpa [decls] using c3⟩
  | .decl ts0 :: us, F, F', es, h => by
    obtain ⟨c, h1, h⟩ := Res.bind_eq_ok.1 h
    obtain ⟨x, h2, h⟩ := Res.bind_eq_ok.1 h
    obtain ⟨es', F2⟩ := x
    cases h
    obtain ⟨r1, r2, r3, r4⟩ := file_spec us F F2 es' h2
    have step : ∀ vs, orElse F vs = orElse F (.decl ts0 :: vs) := by
      intro vs; funext t; simp only [orElse, fixityIn]
    refine ⟨by rw [r1, step], by simpa [decls] using r2, ?_, ?_⟩
    · intro i k' l' s' hi
      cases i with
      | zero => simp at hi
      | succ i =>
        rw [List.take_succ_cons, ← step]
        exact r3 i k' l' s' hi
    · intro i ts hi
      cases i with
      | zero =>
        simp only [List.getElem?_cons_zero, Option.some.injEq, Unit.decl.injEq] at hi
        subst hi
        obtain ⟨c1, c2⟩ := (parse_iff _ _).1 h1
        exact ⟨c, c1, by rw [List.take_zero, orElse_nil]; exact c2, by simp [decls]⟩
      | succ i =>
        rw [List.take_succ_cons, ← step]
        obtain ⟨c, c1, c2, c3⟩ := r4 i ts hi
        refine ⟨c, c1, c2, ?_⟩
        simpa [decls] using c3

theorem file_append : ∀ (us vs : List Unit) (F : Fix), file (us ++ vs) F =
    (file us F >>= fun x => file vs x.2 >>= fun y => Res.ok (x.1 ++ y.1, y.2))
  | [], vs, F => by
    show file vs F = (Res.ok ([], F) >>= _)
    rw [Res.ok_bind]
    cases file vs F <;> rfl
  | .fixity k l s :: us, vs, F => by
    show (declare k l s F >>= _) = ((declare k l s F >>= _) >>= _)
    cases declare k l s F with
    | ok F1 => exact file_append us vs F1
    | ub => rfl
    | stop => rfl
    | nofuel => rfl
  | .decl ts :: us, vs, F => by
    show (parse (ts.map (lookup F)) >>= _) = ((parse (ts.map (lookup F)) >>= _) >>= _)
    cases parse (ts.map (lookup F)) with
    | ok c =>
      simp only [Res.ok_bind]
      show (file (us ++ vs) F >>= _) = _
      rw [file_append us vs F]
      cases file us F with
      | ok x =>
        simp only [Res.ok_bind]
        cases file vs x.2 <;> rfl
      | ub => rfl
      | stop => rfl
      | nofuel => rfl
    | ub => rfl
    | stop => rfl
    | nofuel => rfl

theorem files_flatten : ∀ (fs : List (List Unit)) (F : Fix) (xs : List (List Ast)), files fs F = .ok xs →
    ∃ F', file fs.flatten F = .ok (xs.flatten, F')
  | [], F, xs, h => by cases h; exact ⟨F, rfl⟩
  | f :: fs, F, xs, h => by
    obtain ⟨x, h1, h⟩ := Res.bind_eq_ok.1 h
    obtain ⟨ys, h2, h⟩ := Res.bind_eq_ok.1 h
    cases h
    obtain ⟨F', h3⟩ := files_flatten fs x.2 ys h2
    refine ⟨F', ?_⟩
    rw [List.flatten_cons, file_append, h1, Res.ok_bind, h3]
    rfl

/-! ## flags -/

mutual
theorem flagsD_pub : ∀ (d : Decl) (s : Flags), (flagsD d s).1.map (fun x => (x.name, x.pub)) = publicD d s.pub ∧ (flagsD d s).2.pub = s.pub
  | .plain n, s => ⟨rfl, rfl⟩
  | .module n body, s => by
    have := flagsI_pub body { s with pub := true }
    simp only [flagsD, publicD, List.map_append, this, List.map_cons, List.map_nil, and_self]
  | .func n body, s => by
    have := flagsI_pub body { s with pub := false }
    simp only [flagsD, publicD, List.map_append, this, List.map_cons, List.map_nil, and_self]
  | .block n body, s => by
    have := flagsI_pub body s
    simp only [flagsD, publicD, List.map_cons, this, and_self]
  | .poly n d, s => by
    have := flagsD_pub d s
    simp only [flagsD, publicD, List.map_cons, this, and_self]
  | .priv d, s => by
    have := flagsD_pub d { s with pub := false }
    simp only [flagsD, publicD, this, and_self]
  | .pub d, s => by
    have := flagsD_pub d { s with pub := true }
    simp only [flagsD, publicD, this, and_self]
  | .var d, s => by
    have := flagsD_pub d { s with con := false }
    simp only [flagsD, publicD, this, and_self]
theorem flagsI_pub : ∀ (is : Items) (s : Flags), (flagsI is s).1.map (fun x => (x.name, x.pub)) = publicI is s.pub
  | .nil, s => rfl
  | .decl d is, s => by
    have h1 := flagsD_pub d s
    have h2 := flagsI_pub is (flagsD d s).2
    simp only [flagsI, publicI, List.map_append, h1, h2]
  | .priv is, s => by have := flagsI_pub is { s with pub := false }; simp only [flagsI, publicI, this]
  | .pub is, s => by have := flagsI_pub is { s with pub := true }; simp only [flagsI, publicI, this]
  | .var is, s => by have := flagsI_pub is { s with con := false }; simp only [flagsI, publicI, this]
end

mutual
theorem flagsD_con : ∀ (d : Decl) (s : Flags), noVarD d = true →
    (flagsD d s).1.map (fun x => (x.name, x.con)) = constantD d s.con ∧ (flagsD d s).2.con = s.con
  | .plain n, s, _ => ⟨rfl, rfl⟩
  | .module n body, s, h => by
    have := flagsI_con body { s with pub := true } h
    simp only [flagsD, constantD, List.map_append, this, List.map_cons, List.map_nil, and_self]
  | .func n body, s, h => by
    have := flagsI_con body { s with pub := false } h
    simp only [flagsD, constantD, List.map_append, this, List.map_cons, List.map_nil, and_self]
  | .block n body, s, h => by
    have := flagsI_con body s h
    simp only [flagsD, constantD, List.map_cons, this, and_self]
  | .poly n d, s, h => by
    have := flagsD_con d s h
    simp only [flagsD, constantD, List.map_cons, this, and_self]
  | .priv d, s, h => by
    have := flagsD_con d { s with pub := false } h
    simp only [flagsD, constantD, this, and_self]
  | .pub d, s, h => by
    have := flagsD_con d { s with pub := true } h
    simp only [flagsD, constantD, this, and_self]
  | .var d, s, h => by
    have := flagsD_con d { s with con := false } h
    simp only [flagsD, constantD, this, and_self]
theorem flagsI_con : ∀ (is : Items) (s : Flags), noVarI is = true →
    (flagsI is s).1.map (fun x => (x.name, x.con)) = constantI is s.con ∧ (flagsI is s).2.con = s.con
  | .nil, s, _ => ⟨rfl, rfl⟩
  | .decl d is, s, h => by
    simp only [noVarI, Bool.and_eq_true] at h
    have h1 := flagsD_con d s h.1
    have h2 := flagsI_con is (flagsD d s).2 h.2
    simp only [flagsI, constantI, List.map_append, h1, h2, and_self]
  | .priv is, s, h => by have := flagsI_con is { s with pub := false } h; simp only [flagsI, constantI, this, and_self]
  | .pub is, s, h => by have := flagsI_con is { s with pub := true } h; simp only [flagsI, constantI, this, and_self]
  | .var is, s, h => by cases h
end

theorem programs_pub : ∀ (ps : List Items) (s : Flags),
    (programs ps s).map (fun ds => ds.map fun x => (x.name, x.pub)) = ps.map (fun p => publicI p true)
  | [], s => rfl
  | p :: ps, s => by
    have h1 := flagsI_pub p { s with pub := true }
    have h2 := programs_pub ps (flagsI p { s with pub := true }).2
    simp only [programs, List.map_cons, h1, h2]

theorem programs_con : ∀ (ps : List Items) (s : Flags), (∀ p ∈ ps, noVarI p = true) →
    (programs ps s).map (fun ds => ds.map fun x => (x.name, x.con)) = ps.map (fun p => constantI p s.con)
  | [], s, _ => rfl
  | p :: ps, s, h => by
    have h1 := flagsI_con p { s with pub := true } (h p (by simp))
    have h2 := programs_con ps (flagsI p { s with pub := true }).2 (fun q hq => h q (by simp [hq]))
    simp only [programs, List.map_cons, h1, h2]

/-! ## names -/

theorem digits_range (f : Nat) : ∀ n, ∀ c ∈ Symbol.digits f n, 48 ≤ c ∧ c ≤ 57 := by
  induction f with
  | zero => intro n c hc; cases hc
  | succ f ih =>
    intro n c hc
    simp only [Symbol.digits] at hc
    split at hc
    · cases hc
    · rcases List.mem_append.1 hc with hc | hc
      · exact ih _ c hc
      · simp only [List.mem_singleton] at hc; omega

/-- other characters replaced -/
def plain (s : List Nat) : List Nat := s.map fun c => if alnum c then c else 95

theorem implicitName_eq (b : List Nat) (n : Nat) : implicitName b n = 95 :: (plain b ++ 95 :: Symbol.digits n n) := by
  have hd : (Symbol.digits n n).map (fun c => if alnum c then c else 95) = Symbol.digits n n := by
    rw [List.map_congr_left (g := id)]
    · simp
    · intro c hc
      have := digits_range n n c hc
      simp [alnum, Nat.ble_eq, this.1, this.2]
  unfold implicitName
  rw [List.map_append, hd]
  simp [plain, alnum]

theorem last_split : ∀ (l1 l2 d1 d2 : List Nat), 95 ∉ d1 → 95 ∉ d2 → l1 ++ 95 :: d1 = l2 ++ 95 :: d2 → l1 = l2 ∧ d1 = d2
  | [], [], d1, d2, _, _, h => by simpa using h
  | [], x :: l2, d1, d2, h1, _, h => by
    simp only [List.nil_append, List.cons_append, List.cons.injEq] at h
    exact (h1 (by rw [h.2]; simp)).elim
  | x :: l1, [], d1, d2, _, h2, h => by
    simp only [List.nil_append, List.cons_append, List.cons.injEq] at h
    exact (h2 (by rw [← h.2]; simp)).elim
  | x :: l1, y :: l2, d1, d2, h1, h2, h => by
    simp only [List.cons_append, List.cons.injEq] at h
    obtain ⟨e1, e2⟩ := last_split l1 l2 d1 d2 h1 h2 h.2
    exact ⟨by rw [h.1, e1], e2⟩

theorem no_underscore (n : Nat) : 95 ∉ Symbol.digits n n := by
  intro h
  have := digits_range n n 95 h
  omega

theorem implicitName_inj {b b' : List Nat} {n n' : Nat} (h : implicitName b n = implicitName b' n') : plain b = plain b' ∧ n = n' := by
  rw [implicitName_eq, implicitName_eq] at h
  simp only [List.cons.injEq, true_and] at h
  obtain ⟨h1, h2⟩ := last_split _ _ _ _ (no_underscore n) (no_underscore n') h
  refine ⟨h1, ?_⟩
  have := congrArg Symbol.val h2
  rwa [Symbol.val_digits _ _ (Nat.le_refl _), Symbol.val_digits _ _ (Nat.le_refl _)] at this

end Aps.Parse
