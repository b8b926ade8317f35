import Verif.Proofs.DynGenPat
set_option linter.unusedVariables false
/-! The text that the generator prints, and its structure. -/
namespace Aps.DynGen
variable {V : Type}

abbrev Arm (V : Type) := Pat V × Cond V × List (Nat × Path) × List (Code V)

mutual
/-- The structure of the text printed for a statement; `none`: an error is reported. -/
def pruneS (lang : Lang) (pr : Printer V) (d : Nat) : Stmt V → Option (List (Code V))
  | .assign (.value d') rhs => some (if d' = d then [.asg none rhs] else [])
  | .assign (.attr d' a) rhs => some (if d' = d then [.asg (some a) rhs] else [])
  | .ite c t e => (prune lang pr d t).bind fun t => (prune lang pr d e).map fun e =>
    if t.isEmpty && e.isEmpty then [] else [.ifb c t e]
  | .cases e ms b => (pruneM lang pr d ms).bind fun arms => (prune lang pr d b).map fun b =>
    if arms.isEmpty && b.isEmpty then [] else [.caseb e arms b]
  | .fors e ms => (pruneM lang pr d ms).map fun arms => if arms.isEmpty then [] else [.forb e arms]
  | .forin x e b =>
    match lang with
    | .cpp => none
    | .scala => (prune lang pr d b).map fun b => if b.isEmpty then [] else [.forinb x e b]
  | .decl x e attr => some (if attr then [] else [.loc x e])
def prune (lang : Lang) (pr : Printer V) (d : Nat) : List (Stmt V) → Option (List (Code V))
  | [] => some []
  | s :: ss => (pruneS lang pr d s).bind fun c => (prune lang pr d ss).map fun cs => c ++ cs
def pruneM (lang : Lang) (pr : Printer V) (d : Nat) : List (Pat V × List (Stmt V)) → Option (List (Arm V))
  | [] => some []
  | (p, b) :: ms => (prune lang pr d b).bind fun body => (pruneM lang pr d ms).bind fun arms =>
    if body.isEmpty then some arms else (pr p).map fun cb => (p, cb.1, cb.2, body) :: arms
end

/-- The structure of the text of a whole function. -/
def pruneFun (lang : Lang) (pr : Printer V) (d : Nat) : List (Tlm V) → Option (List (Nat × Arm V))
  | [] => some []
  | t :: ts => (prune lang pr d t.body).bind fun body => (pruneFun lang pr d ts).bind fun f =>
    if body.isEmpty then some f else (pr t.pat).map fun cb => (t.ph, t.pat, cb.1, cb.2, body) :: f

/-! ### Errors stay -/

theorem push_err {c : Ctx V} {g : Gen V} (h : g.err = true) : (push c g).err = true := by
  simp only [push]; split
  · rfl
  · exact h
theorem pop_err {g : Gen V} (h : g.err = true) : (pop g).err = true := h
theorem openTok_err {pr : Printer V} {c : Ctx V} {g : Gen V} (h : g.err = true) : (openTok pr c g).err = true := by
  cases c <;> simp only [openTok] <;> first | exact h | skip
  cases pr _ with
  | none => rfl
  | some x => exact h
theorem openAll_err {pr : Printer V} : ∀ {cs : List (Ctx V)} {g : Gen V}, g.err = true → (openAll pr cs g).err = true
  | [], g, h => h
  | c :: cs, g, h => openAll_err (cs := cs) (openTok_err h)
theorem activate_err {pr : Printer V} {g : Gen V} (h : g.err = true) : (activate pr g).err = true := openAll_err h

mutual
theorem dumpStmt_err {lang : Lang} {pr : Printer V} {d : Nat} : ∀ (s : Stmt V) (g : Gen V), g.err = true → (dumpStmt lang pr d s g).err = true
  | .assign (.value d') rhs, g, h => by
    simp only [dumpStmt, dumpAssign]; split
    · exact activate_err h
    · exact h
  | .assign (.attr d' a) rhs, g, h => by
    simp only [dumpStmt, dumpAssign]; split
    · exact activate_err h
    · exact h
  | .ite c t e, g, h => pop_err (pop_err (dumpBlock_err e _ (push_err (pop_err (dumpBlock_err t _ (push_err (push_err h)))))))
  | .cases e ms b, g, h => pop_err (pop_err (dumpBlock_err b _ (push_err (dumpMatches_err true ms _ (push_err h)))))
  | .fors e ms, g, h => pop_err (dumpMatches_err false ms _ (push_err h))
  | .forin x e b, g, h => by
    cases lang with
    | cpp => simp [dumpStmt]
    | scala => exact pop_err (dumpBlock_err b _ (push_err h))
  | .decl x e attr, g, h => by
    simp only [dumpStmt]; split
    · exact h
    · exact activate_err h
theorem dumpBlock_err {lang : Lang} {pr : Printer V} {d : Nat} : ∀ (b : List (Stmt V)) (g : Gen V), g.err = true → (dumpBlock lang pr d b g).err = true
  | [], g, h => h
  | s :: ss, g, h => dumpBlock_err ss _ (dumpStmt_err s g h)
theorem dumpMatches_err {lang : Lang} {pr : Printer V} {d : Nat} (x : Bool) : ∀ (ms : List (Pat V × List (Stmt V))) (g : Gen V), g.err = true →
    (dumpMatches lang pr d x ms g).err = true
  | [], g, h => h
  | (p, b) :: ms, g, h => dumpMatches_err x ms _ (pop_err (dumpBlock_err b _ (push_err h)))
end

/-! ### What is printed -/

/-- The text that opens a context. -/
def tokOf (pr : Printer V) : Ctx V → Option (Tok V)
  | .ifC c => some (.ifO c)
  | .thenC => some .thenO
  | .elseC => some .elseO
  | .caseC e => some (.caseO e)
  | .forC e => some (.forO e)
  | .forinC x e => some (.forinO x e)
  | .dfltC => some .dfltO
  | .tlmC ph => some (.tlmO ph)
  | .matchC x p => (pr p).map fun cb => .matchO x p cb.1 cb.2

def toksOf (pr : Printer V) : List (Ctx V) → Option (List (Tok V))
  | [] => some []
  | c :: cs => (tokOf pr c).bind fun t => (toksOf pr cs).map fun ts => t :: ts

theorem toksOf_append {pr : Printer V} : ∀ {a b : List (Ctx V)} {ts : List (Tok V)}, toksOf pr (a ++ b) = some ts →
    ∃ x y, toksOf pr a = some x ∧ toksOf pr b = some y ∧ ts = x ++ y
  | [], b, ts, h => ⟨[], ts, rfl, h, rfl⟩
  | c :: a, b, ts, h => by
    simp only [List.cons_append, toksOf, Option.bind_eq_some_iff, Option.map_eq_some_iff] at h
    obtain ⟨t, h1, r, h2, rfl⟩ := h
    obtain ⟨x, y, h3, h4, rfl⟩ := toksOf_append h2
    exact ⟨t :: x, y, by simp [toksOf, h1, h3], h4, rfl⟩

theorem openTok_ok {pr : Printer V} {c : Ctx V} {g : Gen V} (h : (openTok pr c g).err = false) :
    ∃ t, tokOf pr c = some t ∧ openTok pr c g = { g with out := g.out ++ [t] } := by
  cases c <;> simp only [openTok, tokOf] at h ⊢ <;> try exact ⟨_, rfl, rfl⟩
  cases e : pr _ with
  | none => rw [e] at h; cases h
  | some x => exact ⟨_, rfl, rfl⟩

theorem openAll_ok {pr : Printer V} : ∀ {cs : List (Ctx V)} {g : Gen V}, (openAll pr cs g).err = false →
    ∃ ts, toksOf pr cs = some ts ∧ openAll pr cs g = { g with out := g.out ++ ts }
  | [], g, h => ⟨[], rfl, by simp [openAll]⟩
  | c :: cs, g, h => by
    have h1 : (openTok pr c g).err = false := by
      cases e : (openTok pr c g).err with
      | false => rfl
      | true => rw [show openAll pr (c :: cs) g = openAll pr cs (openTok pr c g) from rfl, openAll_err e] at h; cases h
    obtain ⟨t, e1, e2⟩ := openTok_ok h1
    obtain ⟨ts, e3, e4⟩ := openAll_ok (cs := cs) (g := openTok pr c g) h
    refine ⟨t :: ts, by simp [toksOf, e1, e3], ?_⟩
    show openAll pr cs (openTok pr c g) = _
    rw [e4, e2]
    simp

/-- From `g` to `g'`, the text `ts` was printed, after opening what was not yet open. -/
def Emits (pr : Printer V) (g : Gen V) (ts : List (Tok V)) (g' : Gen V) : Prop :=
  (ts = [] ∧ g' = g) ∨
  (ts ≠ [] ∧ ∃ os, toksOf pr (g.stack.drop g.started) = some os ∧
    g' = { g with started := g.stack.length, out := g.out ++ os ++ ts })

theorem Emits.nil {pr : Printer V} {g : Gen V} : Emits pr g [] g := .inl ⟨rfl, rfl⟩

theorem Emits.keep {pr : Printer V} {g g' : Gen V} {ts : List (Tok V)} (h : Emits pr g ts g') (hs : g.started ≤ g.stack.length) :
    g'.stack = g.stack ∧ g'.err = g.err ∧ g'.started ≤ g'.stack.length := by
  rcases h with ⟨_, rfl⟩ | ⟨_, os, _, rfl⟩
  · exact ⟨rfl, rfl, hs⟩
  · exact ⟨rfl, rfl, Nat.le_refl _⟩

theorem Emits.trans {pr : Printer V} {g g1 g2 : Gen V} {ts ts' : List (Tok V)} (h : Emits pr g ts g1) (h' : Emits pr g1 ts' g2) :
    Emits pr g (ts ++ ts') g2 := by
  rcases h with ⟨rfl, rfl⟩ | ⟨hn, os, ho, rfl⟩
  · exact h'
  · rcases h' with ⟨rfl, rfl⟩ | ⟨hn', os', ho', rfl⟩
    · exact .inr ⟨by simpa using hn, os, ho, by simp⟩
    · refine .inr ⟨by simp [hn], os, ho, ?_⟩
      simp only [List.drop_length, toksOf, Option.some.injEq] at ho'
      subst ho'
      simp

theorem activate_emits {pr : Printer V} {g : Gen V} (hs : g.started ≤ g.stack.length) (t : Tok V)
    (h : (activate pr g).err = false) :
    Emits pr g [t] { activate pr g with out := (activate pr g).out ++ [t] } := by
  obtain ⟨os, h1, h2⟩ := openAll_ok (g := g) h
  refine .inr ⟨by simp, os, h1, ?_⟩
  simp only [activate, h2, Nat.max_eq_right hs]

/-- The text of a context around a text. -/
def wrap (pr : Printer V) (c : Ctx V) (ts : List (Tok V)) : Option (List (Tok V)) :=
  if ts.isEmpty then some [] else (tokOf pr c).map fun t => t :: (ts ++ [.close])

theorem wrap_emits {pr : Printer V} {c : Ctx V} {g g1 : Gen V} {ts : List (Tok V)} (hs : g.started ≤ g.stack.length)
    (hl : g.stack.length < maxDepth) (h : Emits pr (push c g) ts g1) :
    ∃ ts', wrap pr c ts = some ts' ∧ Emits pr g ts' (pop g1) := by
  have hp : push c g = { g with stack := g.stack ++ [c] } := by
    simp only [push]; rw [if_neg (by omega)]
  rw [hp] at h
  rcases h with ⟨rfl, rfl⟩ | ⟨hn, os, ho, rfl⟩
  · refine ⟨[], rfl, .inl ⟨rfl, ?_⟩⟩
    simp only [pop, List.length_append, List.length_singleton, Nat.add_sub_cancel, List.take_left', Nat.min_eq_left hs]
    rw [Nat.sub_eq_zero_of_le hs]
    cases g; simp
  · rw [List.drop_append_of_le_length hs] at ho
    obtain ⟨x, y, h1, h2, rfl⟩ := toksOf_append ho
    simp only [toksOf, Option.bind_eq_some_iff, Option.map_eq_some_iff, Option.some.injEq] at h2
    obtain ⟨t, h2, _, rfl, rfl⟩ := h2
    have he : ts.isEmpty = false := by cases ts <;> simp at hn ⊢
    refine ⟨t :: (ts ++ [.close]), by simp [wrap, he, h2], .inr ⟨by simp, x, h1, ?_⟩⟩
    simp only [pop, List.length_append, List.length_singleton, Nat.add_sub_cancel, List.take_left', Nat.min_eq_right (Nat.le_succ _)]
    rw [show g.stack.length + 1 - g.stack.length = 1 by omega]
    simp

theorem err_false {f : Gen V → Gen V} (mono : ∀ g, g.err = true → (f g).err = true) {g : Gen V} (h : (f g).err = false) :
    g.err = false := by
  cases e : g.err with
  | false => rfl
  | true => rw [mono g e] at h; cases h

theorem push_started {c : Ctx V} {g : Gen V} (hs : g.started ≤ g.stack.length) :
    (push c g).started ≤ (push c g).stack.length := by
  simp only [push]
  split
  · exact hs
  · simp only [List.length_append, List.length_singleton]; omega

theorem push_ok {c : Ctx V} {g : Gen V} (h : (push c g).err = false) :
    g.stack.length < maxDepth ∧ push c g = { g with stack := g.stack ++ [c] } ∧ g.err = false := by
  simp only [push] at h ⊢
  by_cases hl : g.stack.length ≥ maxDepth
  · rw [if_pos hl] at h; cases h
  · rw [if_neg hl] at h
    exact ⟨by omega, if_neg hl, h⟩

theorem renders_append : ∀ (a b : List (Code V)), renders (a ++ b) = renders a ++ renders b
  | [], b => rfl
  | c :: a, b => by simp [renders, renders_append a b]

theorem render_ne (c : Code V) : render c ≠ [] := by cases c <;> simp [render]

theorem renders_empty : ∀ (a : List (Code V)), (renders a).isEmpty = a.isEmpty
  | [] => rfl
  | c :: a => by
    have := render_ne c
    cases h : render c with
    | nil => exact absurd h this
    | cons t ts => simp [renders, h]

theorem renderArms_empty (x : Bool) : ∀ (a : List (Arm V)), (renderArms x a).isEmpty = a.isEmpty
  | [] => rfl
  | (p, c, b, body) :: a => by simp [renderArms]

mutual
theorem dumpStmt_emits {lang : Lang} {pr : Printer V} {d : Nat} : ∀ (s : Stmt V) (g : Gen V), g.started ≤ g.stack.length →
    (dumpStmt lang pr d s g).err = false →
    ∃ cs, pruneS lang pr d s = some cs ∧ Emits pr g (renders cs) (dumpStmt lang pr d s g)
  | .assign (.value d') rhs, g, hs, h => by
    simp only [dumpStmt, dumpAssign] at h ⊢
    by_cases hd : d' = d
    · simp only [hd, if_true] at h ⊢
      exact ⟨[.asg none rhs], by simp [pruneS], activate_emits hs _ h⟩
    · simp only [hd, if_false] at h ⊢
      exact ⟨[], by simp [pruneS, hd], .nil⟩
  | .assign (.attr d' a) rhs, g, hs, h => by
    simp only [dumpStmt, dumpAssign] at h ⊢
    by_cases hd : d' = d
    · simp only [hd, if_true] at h ⊢
      exact ⟨[.asg (some a) rhs], by simp [pruneS], activate_emits hs _ h⟩
    · simp only [hd, if_false] at h ⊢
      exact ⟨[], by simp [pruneS, hd], .nil⟩
  | .decl x e attr, g, hs, h => by
    simp only [dumpStmt] at h ⊢
    cases attr
    · simp only [if_false, Bool.false_eq_true] at h ⊢
      exact ⟨[.loc x e], by simp [pruneS], activate_emits hs _ h⟩
    · simp only [if_true] at h ⊢
      exact ⟨[], by simp [pruneS], .nil⟩
  | .ite c t e, g, hs, h => by
    simp only [dumpStmt] at h ⊢
    -- the states in between
    have h4 := err_false (f := fun g => g) (fun _ h => h) (g := dumpBlock lang pr d e (push .elseC (pop (dumpBlock lang pr d t (push .thenC (push (.ifC c) g)))))) h
    have h3 := err_false (fun g => dumpBlock_err e g) h4
    obtain ⟨l3, p3, h2⟩ := push_ok h3
    have h2' : (dumpBlock lang pr d t (push .thenC (push (.ifC c) g))).err = false := h2
    have h1 := err_false (fun g => dumpBlock_err t g) h2'
    obtain ⟨l1, p1, h0⟩ := push_ok h1
    obtain ⟨l0, p0, hg⟩ := push_ok h0
    have s0 : (push (.ifC c) g).started ≤ (push (.ifC c) g).stack.length := push_started hs
    have s1 : (push .thenC (push (.ifC c) g)).started ≤ (push .thenC (push (.ifC c) g)).stack.length := push_started s0
    obtain ⟨cs1, e1, m1⟩ := dumpBlock_emits t _ s1 h2'
    obtain ⟨ts1, w1, m1⟩ := wrap_emits s0 l1 m1
    have s2 := (m1.keep s0).2.2
    have s3 := push_started (c := .elseC) s2
    obtain ⟨cs2, e2, m2⟩ := dumpBlock_emits e _ s3 h4
    obtain ⟨ts2, w2, m2⟩ := wrap_emits s2 l3 m2
    obtain ⟨ts3, w3, m3⟩ := wrap_emits hs l0 (m1.trans m2)
    refine ⟨if cs1.isEmpty && cs2.isEmpty then [] else [.ifb c cs1 cs2], by simp [pruneS, e1, e2], ?_⟩
    have : renders (if cs1.isEmpty && cs2.isEmpty then [] else [.ifb c cs1 cs2]) = ts3 := by
      simp only [wrap, tokOf, renders_empty, Option.map_some] at w1 w2 w3
      cases hc1 : cs1.isEmpty <;> cases hc2 : cs2.isEmpty <;>
        simp [hc1] at w1 <;> simp [hc2] at w2 <;> subst w1 <;> subst w2 <;> simp at w3 <;> subst w3 <;>
        simp [renders, render, hc1, hc2]
      all_goals (first | (have : cs1 = [] := List.isEmpty_iff.1 hc1; subst this) | skip)
      all_goals (first | (have : cs2 = [] := List.isEmpty_iff.1 hc2; subst this) | skip)
      all_goals simp_all
    rw [this]
    exact m3
  | .cases e ms b, g, hs, h => by
    simp only [dumpStmt] at h ⊢
    have h4 := err_false (f := fun g => g) (fun _ h => h) (g := dumpBlock lang pr d b (push .dfltC (dumpMatches lang pr d true ms (push (.caseC e) g)))) h
    have h3 := err_false (fun g => dumpBlock_err b g) h4
    obtain ⟨l3, p3, h2⟩ := push_ok h3
    have h1 := err_false (fun g => dumpMatches_err true ms g) h2
    obtain ⟨l0, p0, hg⟩ := push_ok h1
    have s0 : (push (.caseC e) g).started ≤ (push (.caseC e) g).stack.length := push_started hs
    obtain ⟨arms, e1, m1⟩ := dumpMatches_emits true ms _ s0 h2
    have s2 := (m1.keep s0).2.2
    have s3 := push_started (c := .dfltC) s2
    obtain ⟨cs2, e2, m2⟩ := dumpBlock_emits b _ s3 h4
    obtain ⟨ts2, w2, m2⟩ := wrap_emits s2 l3 m2
    obtain ⟨ts3, w3, m3⟩ := wrap_emits hs l0 (m1.trans m2)
    refine ⟨if arms.isEmpty && cs2.isEmpty then [] else [.caseb e arms cs2], by simp [pruneS, e1, e2], ?_⟩
    have : renders (if arms.isEmpty && cs2.isEmpty then [] else [.caseb e arms cs2]) = ts3 := by
      simp only [wrap, tokOf, renders_empty, Option.map_some] at w2
      cases hc2 : cs2.isEmpty <;> simp [hc2] at w2 <;> subst w2 <;>
        simp only [wrap, tokOf, Option.map_some] at w3
      · simp at w3; subst w3; simp [renders, render, hc2]
      · simp only [List.append_nil, renderArms_empty] at w3
        cases hc1 : arms.isEmpty <;> simp [hc1] at w3 <;> subst w3 <;> simp [renders, render, hc2]
    rw [this]
    exact m3
  | .fors e ms, g, hs, h => by
    simp only [dumpStmt] at h ⊢
    have h2 : (dumpMatches lang pr d false ms (push (.forC e) g)).err = false := h
    have h1 := err_false (fun g => dumpMatches_err false ms g) h2
    obtain ⟨l0, p0, hg⟩ := push_ok h1
    obtain ⟨arms, e1, m1⟩ := dumpMatches_emits false ms _ (push_started hs) h2
    obtain ⟨ts3, w3, m3⟩ := wrap_emits hs l0 m1
    refine ⟨if arms.isEmpty then [] else [.forb e arms], by simp [pruneS, e1], ?_⟩
    have : renders (if arms.isEmpty then [] else [.forb e arms]) = ts3 := by
      simp only [wrap, tokOf, Option.map_some, renderArms_empty] at w3
      cases hc1 : arms.isEmpty <;> simp [hc1] at w3 <;> subst w3 <;> simp [renders, render]
    rw [this]
    exact m3
  | .forin x e b, g, hs, h => by
    cases lang with
    | cpp => simp [dumpStmt] at h
    | scala =>
      simp only [dumpStmt] at h ⊢
      have h2 : (dumpBlock .scala pr d b (push (.forinC x e) g)).err = false := h
      have h1 := err_false (fun g => dumpBlock_err b g) h2
      obtain ⟨l0, p0, hg⟩ := push_ok h1
      obtain ⟨cs, e1, m1⟩ := dumpBlock_emits b _ (push_started hs) h2
      obtain ⟨ts3, w3, m3⟩ := wrap_emits hs l0 m1
      refine ⟨if cs.isEmpty then [] else [.forinb x e cs], by simp [pruneS, e1], ?_⟩
      have : renders (if cs.isEmpty then [] else [.forinb x e cs]) = ts3 := by
        simp only [wrap, tokOf, Option.map_some, renders_empty] at w3
        cases hc1 : cs.isEmpty <;> simp [hc1] at w3 <;> subst w3 <;> simp [renders, render]
      rw [this]
      exact m3
theorem dumpBlock_emits {lang : Lang} {pr : Printer V} {d : Nat} : ∀ (b : List (Stmt V)) (g : Gen V), g.started ≤ g.stack.length →
    (dumpBlock lang pr d b g).err = false →
    ∃ cs, prune lang pr d b = some cs ∧ Emits pr g (renders cs) (dumpBlock lang pr d b g)
  | [], g, hs, h => ⟨[], rfl, .nil⟩
  | s :: ss, g, hs, h => by
    have h1 := err_false (fun g => dumpBlock_err ss g) (g := dumpStmt lang pr d s g) h
    obtain ⟨c, e1, m1⟩ := dumpStmt_emits s g hs h1
    obtain ⟨cs, e2, m2⟩ := dumpBlock_emits ss _ (m1.keep hs).2.2 h
    refine ⟨c ++ cs, by simp [prune, e1, e2], ?_⟩
    rw [renders_append]
    exact m1.trans m2
theorem dumpMatches_emits {lang : Lang} {pr : Printer V} {d : Nat} (x : Bool) : ∀ (ms : List (Pat V × List (Stmt V))) (g : Gen V),
    g.started ≤ g.stack.length → (dumpMatches lang pr d x ms g).err = false →
    ∃ arms, pruneM lang pr d ms = some arms ∧ Emits pr g (renderArms x arms) (dumpMatches lang pr d x ms g)
  | [], g, hs, h => ⟨[], rfl, .nil⟩
  | (p, b) :: ms, g, hs, h => by
    have h2 := err_false (fun g => dumpMatches_err x ms g) (g := pop (dumpBlock lang pr d b (push (.matchC x p) g))) h
    have h2' : (dumpBlock lang pr d b (push (.matchC x p) g)).err = false := h2
    have h1 := err_false (fun g => dumpBlock_err b g) h2'
    obtain ⟨l0, p0, hg⟩ := push_ok h1
    have s0 : (push (.matchC x p) g).started ≤ (push (.matchC x p) g).stack.length := push_started hs
    obtain ⟨cs, e1, m1⟩ := dumpBlock_emits b _ s0 h2'
    obtain ⟨ts, w1, m1⟩ := wrap_emits hs l0 m1
    obtain ⟨arms, e2, m2⟩ := dumpMatches_emits x ms _ (m1.keep hs).2.2 h
    have m3 := m1.trans m2
    simp only [wrap, renders_empty] at w1
    cases hc : cs.isEmpty
    · simp only [hc, Bool.false_eq_true, if_false, tokOf, Option.map_map, Option.map_eq_some_iff] at w1
      obtain ⟨cb, e3, rfl⟩ := w1
      refine ⟨(p, cb.1, cb.2, cs) :: arms, by simp only [pruneM, e1, e2, Option.bind_some, hc, e3, Option.map_some]; rfl, ?_⟩
      exact m3
    · simp only [hc, if_true, Option.some.injEq] at w1
      subst w1
      exact ⟨arms, by simp only [pruneM, e1, e2, Option.bind_some, hc]; rfl, m3⟩
end

theorem dumpTlms_err {lang : Lang} {pr : Printer V} {d : Nat} {col : Bool} : ∀ (ts : List (Tlm V)) (g : Gen V), g.err = true →
    (dumpTlms lang pr d col ts g).err = true
  | [], g, h => h
  | t :: ts, g, h => by
    refine dumpTlms_err ts _ ?_
    cases col
    · exact pop_err (dumpBlock_err _ _ (push_err h))
    · exact pop_err (pop_err (dumpBlock_err _ _ (push_err (push_err h))))

theorem dumpTlms_emits {lang : Lang} {pr : Printer V} {d : Nat} {col : Bool} : ∀ (ts : List (Tlm V)) (g : Gen V),
    g.started ≤ g.stack.length → (dumpTlms lang pr d col ts g).err = false →
    ∃ f, pruneFun lang pr d ts = some f ∧ Emits pr g (renderFun col f) (dumpTlms lang pr d col ts g)
  | [], g, hs, h => ⟨[], rfl, .nil⟩
  | t :: ts, g, hs, h => by
    cases col with
    | false =>
      have h2 := err_false (fun g => dumpTlms_err (col := false) ts g) (g := pop (dumpBlock lang pr d t.body (push (.matchC false t.pat) g))) h
      have h2' : (dumpBlock lang pr d t.body (push (.matchC false t.pat) g)).err = false := h2
      have h1 := err_false (fun g => dumpBlock_err t.body g) h2'
      obtain ⟨l0, p0, hg⟩ := push_ok h1
      obtain ⟨cs, e1, m1⟩ := dumpBlock_emits t.body _ (push_started hs) h2'
      obtain ⟨x, w1, m1⟩ := wrap_emits hs l0 m1
      obtain ⟨f, e2, m2⟩ := dumpTlms_emits ts _ (m1.keep hs).2.2 h
      have m3 := m1.trans m2
      simp only [wrap, renders_empty] at w1
      cases hc : cs.isEmpty
      · simp only [hc, Bool.false_eq_true, if_false, tokOf, Option.map_map, Option.map_eq_some_iff] at w1
        obtain ⟨cb, e3, rfl⟩ := w1
        refine ⟨(t.ph, t.pat, cb.1, cb.2, cs) :: f, by simp only [pruneFun, e1, e2, Option.bind_some, hc, e3, Option.map_some]; rfl, ?_⟩
        have e : renderFun false ((t.ph, t.pat, cb.1, cb.2, cs) :: f) =
            .matchO false t.pat cb.1 cb.2 :: (renders cs ++ [.close]) ++ renderFun false f := by simp [renderFun]
        rw [e]; exact m3
      · simp only [hc, if_true, Option.some.injEq] at w1
        subst w1
        exact ⟨f, by simp only [pruneFun, e1, e2, Option.bind_some, hc]; rfl, m3⟩
    | true =>
      have h3 := err_false (fun g => dumpTlms_err (col := true) ts g)
        (g := pop (pop (dumpBlock lang pr d t.body (push (.matchC false t.pat) (push (.tlmC t.ph) g))))) h
      have h2' : (dumpBlock lang pr d t.body (push (.matchC false t.pat) (push (.tlmC t.ph) g))).err = false := h3
      have h1 := err_false (fun g => dumpBlock_err t.body g) h2'
      obtain ⟨l1, p1, h0⟩ := push_ok h1
      obtain ⟨l0, p0, hg⟩ := push_ok h0
      obtain ⟨cs, e1, m1⟩ := dumpBlock_emits t.body _ (push_started (push_started hs)) h2'
      obtain ⟨x, w1, m1⟩ := wrap_emits (push_started hs) l1 m1
      obtain ⟨y, w2, m1⟩ := wrap_emits hs l0 m1
      obtain ⟨f, e2, m2⟩ := dumpTlms_emits ts _ (m1.keep hs).2.2 h
      have m3 := m1.trans m2
      simp only [wrap, renders_empty] at w1
      cases hc : cs.isEmpty
      · simp only [hc, Bool.false_eq_true, if_false, tokOf, Option.map_map, Option.map_eq_some_iff] at w1
        obtain ⟨cb, e3, rfl⟩ := w1
        simp [wrap, tokOf] at w2
        subst w2
        refine ⟨(t.ph, t.pat, cb.1, cb.2, cs) :: f, by simp only [pruneFun, e1, e2, Option.bind_some, hc, e3, Option.map_some]; rfl, ?_⟩
        have e : renderFun true ((t.ph, t.pat, cb.1, cb.2, cs) :: f) =
            .tlmO t.ph :: (.matchO false t.pat cb.1 cb.2 :: (renders cs ++ [.close, .close])) ++ renderFun true f := by
          simp [renderFun]
        rw [e]; exact m3
      · simp only [hc, if_true, Option.some.injEq] at w1
        subst w1
        simp [wrap] at w2
        subst w2
        exact ⟨f, by simp only [pruneFun, e1, e2, Option.bind_some, hc]; rfl, m3⟩

/-- The text of the whole function. -/
theorem dumpTlms_text {lang : Lang} {pr : Printer V} {d : Nat} {col : Bool} (ts : List (Tlm V))
    (h : (dumpTlms lang pr d col ts Gen.start).err = false) :
    ∃ f, pruneFun lang pr d ts = some f ∧ (dumpTlms lang pr d col ts Gen.start).out = renderFun col f := by
  obtain ⟨f, h1, h2⟩ := dumpTlms_emits ts Gen.start (Nat.le_refl _) h
  refine ⟨f, h1, ?_⟩
  rcases h2 with ⟨e, e'⟩ | ⟨_, os, e, e'⟩
  · rw [e', e]; rfl
  · rw [e']
    simp only [Gen.start, List.drop_nil, toksOf, Option.some.injEq] at e
    subst e
    rfl

/-! ### The text determines the structure -/

mutual
theorem render_inj : ∀ (c c' : Code V) (r r' : List (Tok V)), render c ++ r = render c' ++ r' → c = c' ∧ r = r'
  | .asg g e, .asg g' e', r, r', h => by simpa [render, and_assoc] using h
  | .loc x e, .loc x' e', r, r', h => by simpa [render, and_assoc] using h
  | .ifb c t e, .ifb c' t' e', r, r', h => by
    simp only [render, List.cons_append, List.cons.injEq, Tok.ifO.injEq] at h
    obtain ⟨rfl, h⟩ := h
    have key : t = t' ∧ e = e' ∧ r = r' := by
      cases ht : t.isEmpty <;> cases ht' : t'.isEmpty <;> cases he : e.isEmpty <;> cases he' : e'.isEmpty <;>
        simp only [ht, ht', he, he', Bool.false_eq_true, if_false, if_true, List.nil_append, List.append_nil, List.cons_append,
          List.append_assoc, List.cons.injEq, reduceCtorEq, false_and, true_and] at h
      case false.false.false.false =>
        obtain ⟨a, h⟩ := renders_inj t t' _ _ h
        simp only [List.cons.injEq, true_and] at h
        obtain ⟨b, h⟩ := renders_inj e e' _ _ h
        exact ⟨a, b, by simpa using h⟩
      case false.false.false.true =>
        obtain ⟨a, h⟩ := renders_inj t t' _ _ h
        simp at h
      case false.false.true.false =>
        obtain ⟨a, h⟩ := renders_inj t t' _ _ h
        simp at h
      case false.false.true.true =>
        obtain ⟨a, h⟩ := renders_inj t t' _ _ h
        rw [List.isEmpty_iff] at he he'
        exact ⟨a, he.trans he'.symm, by simpa using h⟩
      case true.true.false.false =>
        obtain ⟨b, h⟩ := renders_inj e e' _ _ h
        rw [List.isEmpty_iff] at ht ht'
        exact ⟨ht.trans ht'.symm, b, by simpa using h⟩
      case true.true.true.true =>
        rw [List.isEmpty_iff] at ht ht' he he'
        exact ⟨ht.trans ht'.symm, he.trans he'.symm, h⟩
    obtain ⟨rfl, rfl, rfl⟩ := key
    exact ⟨rfl, rfl⟩
  | .caseb e a d, .caseb e' a' d', r, r', h => by
    simp only [render, List.cons_append, List.cons.injEq, Tok.caseO.injEq] at h
    obtain ⟨rfl, h⟩ := h
    simp only [List.append_assoc] at h
    have key : a = a' ∧ d = d' ∧ r = r' := by
      cases hd : d.isEmpty <;> cases hd' : d'.isEmpty <;>
        simp only [hd, hd', Bool.false_eq_true, if_false, if_true, List.nil_append, List.cons_append, List.append_assoc] at h
      · obtain ⟨x, h⟩ := renderArms_inj true a a' _ _ (by simp) (by simp) h
        simp only [List.cons.injEq, true_and] at h
        obtain ⟨y, h⟩ := renders_inj d d' _ _ h
        exact ⟨x, y, by simpa using h⟩
      · obtain ⟨x, h⟩ := renderArms_inj true a a' _ _ (by simp) (by simp) h
        simp at h
      · obtain ⟨x, h⟩ := renderArms_inj true a a' _ _ (by simp) (by simp) h
        simp at h
      · obtain ⟨x, h⟩ := renderArms_inj true a a' _ _ (by simp) (by simp) h
        rw [List.isEmpty_iff] at hd hd'
        exact ⟨x, hd.trans hd'.symm, by simpa using h⟩
    obtain ⟨rfl, rfl, rfl⟩ := key
    exact ⟨rfl, rfl⟩
  | .forb e a, .forb e' a', r, r', h => by
    simp only [render, List.cons_append, List.cons.injEq, Tok.forO.injEq, List.append_assoc] at h
    obtain ⟨rfl, h⟩ := h
    obtain ⟨rfl, h⟩ := renderArms_inj false a a' _ _ (by simp) (by simp) h
    exact ⟨rfl, by simpa using h⟩
  | .forinb x e b, .forinb x' e' b', r, r', h => by
    simp only [render, List.cons_append, List.cons.injEq, Tok.forinO.injEq, List.append_assoc, List.nil_append] at h
    obtain ⟨⟨rfl, rfl⟩, h⟩ := h
    obtain ⟨rfl, h⟩ := renders_inj b b' _ _ h
    exact ⟨rfl, by simpa using h⟩
  | .asg _ _, .loc _ _, _, _, h
  | .asg _ _, .ifb _ _ _, _, _, h
  | .asg _ _, .caseb _ _ _, _, _, h
  | .asg _ _, .forb _ _, _, _, h
  | .asg _ _, .forinb _ _ _, _, _, h
  | .loc _ _, .asg _ _, _, _, h
  | .loc _ _, .ifb _ _ _, _, _, h
  | .loc _ _, .caseb _ _ _, _, _, h
  | .loc _ _, .forb _ _, _, _, h
  | .loc _ _, .forinb _ _ _, _, _, h
  | .ifb _ _ _, .asg _ _, _, _, h
  | .ifb _ _ _, .loc _ _, _, _, h
  | .ifb _ _ _, .caseb _ _ _, _, _, h
  | .ifb _ _ _, .forb _ _, _, _, h
  | .ifb _ _ _, .forinb _ _ _, _, _, h
  | .caseb _ _ _, .asg _ _, _, _, h
  | .caseb _ _ _, .loc _ _, _, _, h
  | .caseb _ _ _, .ifb _ _ _, _, _, h
  | .caseb _ _ _, .forb _ _, _, _, h
  | .caseb _ _ _, .forinb _ _ _, _, _, h
  | .forb _ _, .asg _ _, _, _, h
  | .forb _ _, .loc _ _, _, _, h
  | .forb _ _, .ifb _ _ _, _, _, h
  | .forb _ _, .caseb _ _ _, _, _, h
  | .forb _ _, .forinb _ _ _, _, _, h
  | .forinb _ _ _, .asg _ _, _, _, h
  | .forinb _ _ _, .loc _ _, _, _, h
  | .forinb _ _ _, .ifb _ _ _, _, _, h
  | .forinb _ _ _, .caseb _ _ _, _, _, h
  | .forinb _ _ _, .forb _ _, _, _, h => by
    simp [render] at h
/-- A closing brace ends a sequence of statements. -/
theorem renders_inj : ∀ (a b : List (Code V)) (r r' : List (Tok V)), renders a ++ .close :: r = renders b ++ .close :: r' →
    a = b ∧ Tok.close :: r = .close :: r'
  | [], [], r, r', h => ⟨rfl, h⟩
  | [], c :: cs, r, r', h => by cases c <;> simp [renders, render] at h
  | c :: cs, [], r, r', h => by cases c <;> simp [renders, render] at h
  | c :: cs, c' :: cs', r, r', h => by
    simp only [renders, List.append_assoc] at h
    obtain ⟨rfl, h1⟩ := render_inj c c' _ _ h
    obtain ⟨rfl, h2⟩ := renders_inj cs cs' _ _ h1
    exact ⟨rfl, h2⟩
/-- The matches end where no match begins. -/
theorem renderArms_inj (x0 : Bool) : ∀ (a b : List (Arm V)) (r r' : List (Tok V)),
    (∀ x p c bs, r.head? ≠ some (.matchO x p c bs)) → (∀ x p c bs, r'.head? ≠ some (.matchO x p c bs)) →
    renderArms x0 a ++ r = renderArms x0 b ++ r' → a = b ∧ r = r'
  | [], [], r, r', _, _, h => ⟨rfl, h⟩
  | [], (p, c, bs, body) :: b, r, r', hr, _, h => by
    simp only [renderArms, List.nil_append, List.cons_append] at h
    exact absurd (by rw [h]; rfl) (hr x0 p c bs)
  | (p, c, bs, body) :: a, [], r, r', _, hr, h => by
    simp only [renderArms, List.nil_append, List.cons_append] at h
    exact absurd (by rw [← h]; rfl) (hr x0 p c bs)
  | (p, c, bs, body) :: a, (p', c', bs', body') :: b, r, r', hr, hr', h => by
    simp only [renderArms, List.cons_append, List.append_assoc, List.cons.injEq, Tok.matchO.injEq, true_and, List.nil_append] at h
    obtain ⟨⟨rfl, rfl, rfl⟩, h⟩ := h
    obtain ⟨rfl, h1⟩ := renders_inj body body' _ _ h
    simp only [List.cons.injEq, true_and] at h1
    obtain ⟨rfl, h2⟩ := renderArms_inj x0 a b _ _ hr hr' h1
    exact ⟨rfl, h2⟩
end

/-- Two generated functions with the same text are the same. -/
theorem renderFun_false_inj : ∀ (f f' : List (Nat × Arm V)), renderFun false f = renderFun false f' →
    f.map (·.2) = f'.map (·.2)
  | [], [], _ => rfl
  | [], (_, _, _, _, _) :: _, h => by simp [renderFun] at h
  | (_, _, _, _, _) :: _, [], h => by simp [renderFun] at h
  | (ph, p, c, b, body) :: f, (ph', p', c', b', body') :: f', h => by
    simp only [renderFun, Bool.false_eq_true, if_false, List.nil_append, List.append_nil, List.cons_append, List.append_assoc,
      List.cons.injEq, Tok.matchO.injEq, true_and] at h
    obtain ⟨⟨rfl, rfl, rfl⟩, h⟩ := h
    obtain ⟨rfl, h1⟩ := renders_inj body body' _ _ h
    simp only [List.cons.injEq, true_and] at h1
    simpa using renderFun_false_inj f f' h1

theorem renderFun_true_inj : ∀ (f f' : List (Nat × Arm V)), renderFun true f = renderFun true f' → f = f'
  | [], [], _ => rfl
  | [], (_, _, _, _, _) :: _, h => by simp [renderFun] at h
  | (_, _, _, _, _) :: _, [], h => by simp [renderFun] at h
  | (ph, p, c, b, body) :: f, (ph', p', c', b', body') :: f', h => by
    simp only [renderFun, if_true, List.cons_append, List.append_assoc, List.nil_append,
      List.cons.injEq, Tok.matchO.injEq, Tok.tlmO.injEq, true_and] at h
    obtain ⟨rfl, ⟨rfl, rfl, rfl⟩, h⟩ := h
    obtain ⟨rfl, h1⟩ := renders_inj body body' _ _ h
    simp only [List.cons.injEq, true_and] at h1
    obtain rfl := renderFun_true_inj f f' h1
    rfl

end Aps.DynGen
