import Verif.Proofs.DynGenRun
import Verif.Proofs.ScalaPat
import Verif.Spec.Locals
set_option linter.unusedVariables false
namespace Aps.Locals
open Aps.DynGen
variable {V : Type}

/-- The numbers given from `u` on. -/
def numbersFrom (u : Nat) (l : List Nat) : List (Nat × Nat) := l.zip (List.range' (u + 1) l.length)

theorem numbersFrom_append (u : Nat) (a b : List Nat) : numbersFrom u (a ++ b) = numbersFrom u a ++ numbersFrom (u + a.length) b := by
  simp only [numbersFrom, List.length_append]
  rw [← List.range'_append_1, List.zip_append (by simp)]
  rw [show u + 1 + a.length = u + a.length + 1 by omega]

/-- What noting the locals `l` does. -/
def After (l : List Nat) (s s' : St) : Prop :=
  s'.unique = s.unique + l.length ∧ s'.noted = s.noted ++ numbersFrom s.unique l

theorem After.trans {a b : List Nat} {s s' s'' : St} (h : After a s s') (h' : After b s' s'') : After (a ++ b) s s'' := by
  refine ⟨by rw [h'.1, h.1, List.length_append]; omega, ?_⟩
  rw [h'.2, h.2, numbersFrom_append, h.1, List.append_assoc]

theorem After.nil {s : St} (e : Bool) : After [] s { s with err := e } := ⟨rfl, by simp [numbersFrom]⟩

mutual
theorem noteS_after (lang : Lang) : ∀ (d : Stmt V) (s : St), After (localsS d) s (noteS lang d s).2
  | .assign l r, s => After.nil s.err
  | .decl x e a, s => ⟨rfl, by simp [noteS, localsS, numbersFrom, List.range'_succ]⟩
  | .ite c t e, s => (note_after lang t s).trans (note_after lang e _)
  | .cases e ms b, s => (noteM_after lang ms s).trans (note_after lang b _)
  | .fors e ms, s => After.nil true
  | .forin x e b, s => by
    cases lang with
    | cpp => exact After.nil true
    | scala => exact After.nil s.err
theorem note_after (lang : Lang) : ∀ (b : List (Stmt V)) (s : St), After (locals b) s (note lang b s).2
  | [], s => After.nil s.err
  | d :: ds, s => (noteS_after lang d s).trans (note_after lang ds _)
theorem noteM_after (lang : Lang) : ∀ (ms : List (Pat V × List (Stmt V))) (s : St), After (localsM ms) s (noteM lang ms s).2
  | [], s => After.nil s.err
  | (p, b) :: ms, s => (note_after lang b s).trans (noteM_after lang ms _)
end

theorem noteRules_after (lang : Lang) : ∀ (ts : List (Tlm V)) (s : St), After (programLocals ts) s (noteRules lang ts s).2
  | [], s => After.nil s.err
  | t :: ts, s => (note_after lang t.body s).trans (noteRules_after lang ts _)

theorem numbersFrom_fst (u : Nat) (l : List Nat) : (numbersFrom u l).map (·.1) = l := by
  simp only [numbersFrom]
  rw [List.map_fst_zip]
  simp

theorem numbersFrom_snd (u : Nat) (l : List Nat) : (numbersFrom u l).map (·.2) = List.range' (u + 1) l.length := by
  simp only [numbersFrom]
  rw [List.map_snd_zip]
  simp

/-! ### Names -/

theorem decimal_sep (n : Nat) : ∀ c ∈ Ast.decimal n, c ≠ '_' := by
  induction n using Nat.strongRecOn with
  | _ n ih =>
    intro c hc
    unfold Ast.decimal at hc
    have dig : ∀ d, d < 10 → Nat.digitChar d ≠ '_' := by decide
    split at hc
    · rw [List.mem_singleton] at hc
      subst hc
      exact dig _ (by assumption)
    · rcases List.mem_append.1 hc with hc | hc
      · exact ih _ (by omega) c hc
      · rw [List.mem_singleton] at hc
        subst hc
        exact dig _ (Nat.mod_lt _ (by omega))

theorem sep_inj {a b x y : List Char} (ha : ∀ c ∈ a, c ≠ '_') (hb : ∀ c ∈ b, c ≠ '_') (h : a ++ '_' :: x = b ++ '_' :: y) :
    a = b ∧ x = y := by
  induction a generalizing b with
  | nil =>
    cases b with
    | nil => simpa using h
    | cons c b =>
      simp only [List.nil_append, List.cons_append, List.cons.injEq] at h
      exact absurd h.1.symm (hb c (by simp))
  | cons c a ih =>
    cases b with
    | nil =>
      simp only [List.nil_append, List.cons_append, List.cons.injEq] at h
      exact absurd h.1 (ha c (by simp))
    | cons d b =>
      simp only [List.cons_append, List.cons.injEq] at h
      obtain ⟨rfl, h⟩ := h
      obtain ⟨rfl, rfl⟩ := ih (fun c hc => ha c (by simp [hc])) (fun c hc => hb c (by simp [hc])) h
      exact ⟨rfl, rfl⟩

theorem decimal_ne (n : Nat) : Ast.decimal n ≠ [] := by
  unfold Ast.decimal
  split <;> simp

/-! ### Contexts -/

theorem walk_append (pr : Printer V) : ∀ (fs gs : List (Frame V)) (acc : List (Bound V)),
    walk pr (fs ++ gs) acc = (walk pr fs acc).bind (walk pr gs)
  | [], gs, acc => rfl
  | .branch :: fs, gs, acc => walk_append pr fs gs acc
  | .arm e p :: fs, gs, acc => by
    simp only [List.cons_append, walk]
    cases pr p with
    | none => rfl
    | some cb => exact walk_append pr fs gs _

/-- Entering a match that applies. -/
def Enters (W : World V) (lang : Lang) (native : Pat V → V → Env V → Option (Env V)) (pr : Printer V) (P : Pat V → Prop) : Prop :=
  ∀ p c b, pr p = some (c, b) → P p → ∀ n ρ ρ', pmatch W p n ρ = some ρ' →
    ∀ anchor h bs, subject anchor h ρ = n → enter W lang native anchor ((h, p, b) :: bs) ρ = enter W lang native anchor bs ρ'

theorem cpp_enters {W : World V} {ar : Nat → Nat} (L : Lawful W ar) (native : Pat V → V → Env V → Option (Env V)) :
    Enters W .cpp native (cppPrinter ar) (patOk ar) := by
  intro p c b hpr hk n ρ ρ' hm anchor h bs hs
  have a := cppArm (native := native) L hk hpr n ρ
  rw [hm] at a
  simp only [armMatch] at a
  have : evalBinds W n b ρ = .ok ρ' := by
    cases hc : evalCond W n ρ c with
    | ok x =>
      rw [hc] at a
      cases x with
      | false => simp [Res.bind] at a
      | true =>
        cases hb : evalBinds W n b ρ with
        | ok y => rw [hb] at a; simpa [Res.bind] using a
        | ub => rw [hb] at a; simp [Res.bind] at a
        | stop => rw [hb] at a; simp [Res.bind] at a
        | nofuel => rw [hb] at a; simp [Res.bind] at a
    | ub => rw [hc] at a; simp [Res.bind] at a
    | stop => rw [hc] at a; simp [Res.bind] at a
    | nofuel => rw [hc] at a; simp [Res.bind] at a
  simp only [enter, hs, this, Res.bind]

theorem scala_enters (W : World V) (pr : Printer V) : Enters W .scala (pmatch W) pr (fun _ => True) := by
  intro p c b hpr hk n ρ ρ' hm anchor h bs hs
  simp only [enter, hs, hm, Res.bind]

theorem walk_enter {W : World V} {lang : Lang} {native : Pat V → V → Env V → Option (Env V)} {pr : Printer V} {P : Pat V → Prop}
    (E : Enters W lang native pr P) (anchor : V) {b b' : List (Stmt V)} {ρ ρ' : Env V} {fs : List (Frame V)}
    (h : Reach W b ρ fs b' ρ') : patsB P b → ∀ acc0 acc, walk pr fs acc0 = some acc →
    enter W lang native anchor acc ρ = enter W lang native anchor acc0 ρ' := by
  have mem : ∀ {s : Stmt V} {b : List (Stmt V)}, patsB P b → s ∈ b → patsS P s := by
    intro s b
    induction b with
    | nil => intro _ h; cases h
    | cons t b ih =>
      intro hp hs
      rcases List.mem_cons.1 hs with rfl | hs
      · exact hp.1
      · exact ih hp.2 hs
  have memM : ∀ {pre post : List (Pat V × List (Stmt V))} {p : Pat V} {body : List (Stmt V)}, patsM P (pre ++ (p, body) :: post) →
      P p ∧ patsB P body := by
    intro pre
    induction pre with
    | nil => intro post p body h; exact ⟨h.1, h.2.1⟩
    | cons q pre ih => intro post p body h; obtain ⟨q1, q2⟩ := q; exact ih h.2.2
  induction h with
  | here b ρ =>
    intro _ acc0 acc hw
    simp only [walk, Option.some.injEq] at hw
    rw [hw]
  | yes hm ht hr ih =>
    intro hp acc0 acc hw
    rw [walk_append, Option.bind_eq_some_iff] at hw
    obtain ⟨acc1, h1, h2⟩ := hw
    simp only [walk, Option.some.injEq] at h2
    subst h2
    exact ih (mem hp hm).1 _ _ h1
  | no hm ht hr ih =>
    intro hp acc0 acc hw
    rw [walk_append, Option.bind_eq_some_iff] at hw
    obtain ⟨acc1, h1, h2⟩ := hw
    simp only [walk, Option.some.injEq] at h2
    subst h2
    exact ih (mem hp hm).2 _ _ h1
  | arm hm hpre hpm hr ih =>
    intro hp acc0 acc hw
    rw [walk_append, Option.bind_eq_some_iff] at hw
    obtain ⟨acc1, h1, h2⟩ := hw
    simp only [walk, Option.bind_eq_some_iff, Option.some.injEq] at h2
    obtain ⟨cb, h3, rfl⟩ := h2
    obtain ⟨hP, hB⟩ := memM (mem hp hm).1
    rw [E _ cb.1 cb.2 h3 hP _ _ _ hpm anchor (some _) acc1 rfl]
    exact ih hB _ _ h1
  | dflt hm hpre hr ih =>
    intro hp acc0 acc hw
    rw [walk_append, Option.bind_eq_some_iff] at hw
    obtain ⟨acc1, h1, h2⟩ := hw
    simp only [walk, Option.some.injEq] at h2
    subst h2
    exact ih (mem hp hm).2 _ _ h1

theorem context_enter {W : World V} {lang : Lang} {native : Pat V → V → Env V → Option (Env V)} {pr : Printer V} {P : Pat V → Prop}
    (E : Enters W lang native pr P) {t : Tlm V} {n : V} {ρ ρ0 ρ1 : Env V} {fs : List (Frame V)} {b : List (Stmt V)}
    (ht : P t.pat) (hb : patsB P t.body) (hm : pmatch W t.pat n ρ = some ρ0) (hr : Reach W t.body ρ0 fs b ρ1)
    {bs : List (Bound V)} (hc : context pr t.pat fs = some bs) : enter W lang native n bs ρ = .ok ρ1 := by
  simp only [context, Option.bind_eq_some_iff, Option.map_eq_some_iff] at hc
  obtain ⟨acc, h1, cb, h2, rfl⟩ := hc
  rw [E _ cb.1 cb.2 h2 ht n ρ ρ0 hm n none acc rfl, walk_enter E n hr hb [] acc h1]
  rfl

theorem block_value {W : World V} {lang : Lang} {native : Pat V → V → Env V → Option (Env V)} {pr : Printer V} {P : Pat V → Prop}
    (R : Right W lang native pr P) {b : List (Stmt V)} {d : Nat} (hp : patsB P b) (hc : covered lang d b)
    (he : (dumpBlock lang pr d b Gen.start).err = false) {cs : List (Code V)}
    (h' : (dumpBlock lang pr d b Gen.start).out = renders cs) (col : Bool) (anode : V) (deft : Option V) (ρ : Env V)
    (hd : col = true → deft.isSome = true) :
    ((execs W lang native ⟨col, anode⟩ cs ρ (deft.getD anode)).bind (finish ⟨col, anode⟩ deft)) =
      match value W col deft (active W d anode b ρ) with
      | some v => .ok v
      | none => .stop := by
  obtain ⟨cs0, h1, h2⟩ := dumpBlock_emits b Gen.start (Nat.le_refl _) he
  have h2' : (dumpBlock lang pr d b Gen.start).out = renders cs0 := by
    rcases h2 with ⟨e, e'⟩ | ⟨_, os, e, e'⟩
    · rw [e', e]; rfl
    · rw [e']
      simp only [Gen.start, List.drop_nil, toksOf, Option.some.injEq] at e
      subst e; rfl
  rw [h2'] at h'
  obtain ⟨rfl, -⟩ := renders_inj cs0 cs [] [] (by rw [h'])
  rw [run (j := ⟨col, anode⟩) R b cs0 h1 hp hc ρ _]
  simp only [Res.bind]
  cases col with
  | true =>
    obtain ⟨v, rfl⟩ := Option.isSome_iff_exists.1 (hd rfl)
    simp [flow, finish, value]
  | false =>
    cases active W d anode b ρ with
    | nil => simp only [flow, finish, value]; cases deft <;> rfl
    | cons v l => simp [flow, finish, value]

/-- Patterns of the blocks inside. -/
theorem reach_pats {W : World V} {P : Pat V → Prop} {b b' : List (Stmt V)} {ρ ρ' : Env V} {fs : List (Frame V)}
    (h : Reach W b ρ fs b' ρ') : patsB P b → patsB P b' := by
  have mem : ∀ {s : Stmt V} {b : List (Stmt V)}, patsB P b → s ∈ b → patsS P s := by
    intro s b
    induction b with
    | nil => intro _ h; cases h
    | cons t b ih =>
      intro hp hs
      rcases List.mem_cons.1 hs with rfl | hs
      · exact hp.1
      · exact ih hp.2 hs
  have memM : ∀ {pre post : List (Pat V × List (Stmt V))} {p : Pat V} {body : List (Stmt V)}, patsM P (pre ++ (p, body) :: post) →
      P p ∧ patsB P body := by
    intro pre
    induction pre with
    | nil => intro post p body h; exact ⟨h.1, h.2.1⟩
    | cons q pre ih => intro post p body h; obtain ⟨q1, q2⟩ := q; exact ih h.2.2
  induction h with
  | here b ρ => exact id
  | yes hm _ _ ih => exact fun hp => ih (mem hp hm).1
  | no hm _ _ ih => exact fun hp => ih (mem hp hm).2
  | arm hm _ _ _ ih => exact fun hp => ih (memM (mem hp hm).1).2
  | dflt hm _ _ ih => exact fun hp => ih (mem hp hm).2

/-! ### Names declared -/

theorem bindings_sub (p : Pat V) (σ : List (Nat × Path)) : ((bindings p σ).map (·.1)).Sublist (patVars p) := by
  simp only [bindings]
  induction patVars p with
  | nil => exact List.Sublist.slnil
  | cons x xs ih =>
    cases h : σ.find? (fun b => b.1 == x) with
    | none =>
      simp only [List.filterMap_cons, h]
      exact ih.cons _
    | some y =>
      simp only [List.filterMap_cons, h, List.map_cons]
      have : y.1 = x := by simpa using List.find?_some h
      rw [this]
      exact ih.cons_cons _

theorem cpp_sub {ar : Nat → Nat} {p : Pat V} {cb : Cond V × List (Nat × Path)} (h : cppPrinter ar p = some cb) :
    (cb.2.map (·.1)).Sublist (patVars p) := by
  simp only [cppPrinter, Option.map_eq_some_iff] at h
  obtain ⟨r, _, rfl⟩ := h
  exact bindings_sub p r.2

/-- The variables bound. -/
def vars (bs : List (Bound V)) : List Nat := bs.flatMap fun b => b.2.2.map (·.1)

theorem walk_vars {ar : Nat → Nat} : ∀ (fs : List (Frame V)) (acc bs : List (Bound V)), walk (cppPrinter ar) fs acc = some bs →
    (vars bs).Sublist ((fs.reverse.flatMap fun
      | .branch => []
      | .arm _ q => patVars q) ++ vars acc)
  | [], acc, bs, h => by
    simp only [walk, Option.some.injEq] at h
    subst h
    exact List.Sublist.refl _
  | .branch :: fs, acc, bs, h => by
    simpa using walk_vars fs acc bs h
  | .arm e p :: fs, acc, bs, h => by
    simp only [walk, Option.bind_eq_some_iff] at h
    obtain ⟨cb, h1, h2⟩ := h
    have ih := walk_vars fs _ bs h2
    simp only [List.reverse_cons, List.flatMap_append, List.flatMap_cons, List.flatMap_nil, List.append_nil, List.append_assoc]
    refine ih.trans ((List.append_sublist_append_left _).2 ?_)
    exact List.Sublist.append (cpp_sub h1) (List.Sublist.refl _)

theorem context_vars {ar : Nat → Nat} {p : Pat V} {fs : List (Frame V)} {bs : List (Bound V)}
    (h : context (cppPrinter ar) p fs = some bs) : (vars bs).Sublist (around p fs) := by
  simp only [context, Option.bind_eq_some_iff, Option.map_eq_some_iff] at h
  obtain ⟨acc, h1, cb, h2, rfl⟩ := h
  have := walk_vars fs [] acc h1
  simp only [vars, List.flatMap_nil, List.append_nil] at this
  exact List.Sublist.append (cpp_sub h2) this

theorem declared_eq (nm : Nat → Name) (bs : List (Bound V)) : declared nm bs = (vars bs).map nm := by
  simp only [declared, vars, List.map_flatMap, List.map_map]
  rfl

end Aps.Locals
