import Verif.Proofs.DynGenEmit
set_option linter.unusedVariables false
/-! What the printed program computes. -/
namespace Aps.DynGen
variable {V : Type}

/-! ### What is printed has to do with the declaration -/

mutual
theorem pruneS_touches {lang : Lang} {pr : Printer V} {d : Nat} : ∀ (s : Stmt V) (cs : List (Code V)), pruneS lang pr d s = some cs →
    cs.isEmpty = !touchesS d s
  | .assign (.value d') rhs, cs, h => by
    simp only [pruneS, Option.some.injEq] at h; subst h
    by_cases hd : d' = d <;> simp [touchesS, hd]
  | .assign (.attr d' a) rhs, cs, h => by
    simp only [pruneS, Option.some.injEq] at h; subst h
    by_cases hd : d' = d <;> simp [touchesS, hd]
  | .ite c t e, cs, h => by
    simp only [pruneS, Option.bind_eq_some_iff, Option.map_eq_some_iff] at h
    obtain ⟨t', h1, e', h2, rfl⟩ := h
    have a := prune_touches t t' h1
    have b := prune_touches e e' h2
    simp only [touchesS, a, b]
    cases touches d t <;> cases touches d e <;> rfl
  | .cases e ms b, cs, h => by
    simp only [pruneS, Option.bind_eq_some_iff, Option.map_eq_some_iff] at h
    obtain ⟨t', h1, e', h2, rfl⟩ := h
    have a := pruneM_touches ms t' h1
    have c := prune_touches b e' h2
    simp only [touchesS, a, c]
    cases touchesM d ms <;> cases touches d b <;> rfl
  | .fors e ms, cs, h => by
    simp only [pruneS, Option.map_eq_some_iff] at h
    obtain ⟨arms, h1, rfl⟩ := h
    have a := pruneM_touches ms arms h1
    simp only [touchesS, a]
    cases touchesM d ms <;> rfl
  | .forin x e b, cs, h => by
    cases lang with
    | cpp => simp [pruneS] at h
    | scala =>
      simp only [pruneS, Option.map_eq_some_iff] at h
      obtain ⟨b', h1, rfl⟩ := h
      have a := prune_touches b b' h1
      simp only [touchesS, a]
      cases touches d b <;> rfl
  | .decl x e attr, cs, h => by
    simp only [pruneS, Option.some.injEq] at h; subst h
    cases attr <;> rfl
theorem prune_touches {lang : Lang} {pr : Printer V} {d : Nat} : ∀ (b : List (Stmt V)) (cs : List (Code V)), prune lang pr d b = some cs →
    cs.isEmpty = !touches d b
  | [], cs, h => by
    simp only [prune, Option.some.injEq] at h; subst h; rfl
  | s :: ss, cs, h => by
    simp only [prune, Option.bind_eq_some_iff, Option.map_eq_some_iff] at h
    obtain ⟨c, h1, cs', h2, rfl⟩ := h
    have a := pruneS_touches s c h1
    have b := prune_touches ss cs' h2
    rw [show (c ++ cs').isEmpty = (c.isEmpty && cs'.isEmpty) by cases c <;> rfl, a, b]
    simp only [touches]
    cases touchesS d s <;> cases touches d ss <;> rfl
theorem pruneM_touches {lang : Lang} {pr : Printer V} {d : Nat} : ∀ (ms : List (Pat V × List (Stmt V))) (arms : List (Arm V)),
    pruneM lang pr d ms = some arms → arms.isEmpty = !touchesM d ms
  | [], arms, h => by
    simp only [pruneM, Option.some.injEq] at h; subst h; rfl
  | (p, b) :: ms, arms, h => by
    simp only [pruneM, Option.bind_eq_some_iff] at h
    obtain ⟨body, h1, arms', h2, h3⟩ := h
    have a := prune_touches b body h1
    have c := pruneM_touches ms arms' h2
    cases hb : body.isEmpty
    · simp only [hb, Bool.false_eq_true, if_false, Option.map_eq_some_iff] at h3
      obtain ⟨cb, _, rfl⟩ := h3
      rw [hb] at a
      simp only [touchesM, List.isEmpty_cons]
      cases ht : touches d b
      · rw [ht] at a; cases a
      · rfl
    · simp only [hb, if_true, Option.some.injEq] at h3
      subst h3
      rw [hb] at a
      simp only [touchesM, c]
      cases ht : touches d b
      · rfl
      · rw [ht] at a; cases a
end

mutual
theorem activeS_untouched {W : World V} {d : Nat} {a : V} : ∀ (s : Stmt V), touchesS d s = false → ∀ ρ, activeS W d a s ρ = ([], ρ)
  | .assign (.value d') rhs, h, ρ => by simp only [touchesS] at h; simp [activeS, hits, h]
  | .assign (.attr d' e) rhs, h, ρ => by simp only [touchesS] at h; simp [activeS, hits, h]
  | .ite c t e, h, ρ => by
    simp only [touchesS, Bool.or_eq_false_iff] at h
    simp [activeS, active_untouched t h.1 ρ, active_untouched e h.2 ρ]
  | .cases e ms b, h, ρ => by
    simp only [touchesS, Bool.or_eq_false_iff] at h
    simp only [activeS, active_untouched b h.2 ρ]
    cases hm : activeM W d a ms (e ρ) ρ with
    | none => rfl
    | some l => rw [activeM_untouched ms h.1 _ _ l hm]
  | .fors e ms, h, ρ => by
    simp only [touchesS] at h
    simp [activeS, activeF_untouched ms h]
  | .forin x e b, h, ρ => by
    simp only [touchesS] at h
    simp [activeS, active_untouched b h]
  | .decl x e attr, h, ρ => by
    simp only [touchesS, Bool.not_eq_false'] at h
    simp [activeS, h]
theorem active_untouched {W : World V} {d : Nat} {a : V} : ∀ (b : List (Stmt V)), touches d b = false → ∀ ρ, active W d a b ρ = []
  | [], h, ρ => rfl
  | s :: ss, h, ρ => by
    simp only [touches, Bool.or_eq_false_iff] at h
    simp [active, activeS_untouched s h.1 ρ, active_untouched ss h.2]
theorem activeM_untouched {W : World V} {d : Nat} {a : V} : ∀ (ms : List (Pat V × List (Stmt V))), touchesM d ms = false →
    ∀ n ρ l, activeM W d a ms n ρ = some l → l = []
  | [], h, n, ρ, l, hl => by cases hl
  | (p, b) :: ms, h, n, ρ, l, hl => by
    simp only [touchesM, Bool.or_eq_false_iff] at h
    simp only [activeM] at hl
    cases hp : pmatch W p n ρ with
    | none => rw [hp] at hl; exact activeM_untouched ms h.2 n ρ l hl
    | some ρ' =>
      rw [hp] at hl
      simp only [Option.some.injEq] at hl
      rw [← hl, active_untouched b h.1]
theorem activeF_untouched {W : World V} {d : Nat} {a : V} : ∀ (ms : List (Pat V × List (Stmt V))), touchesM d ms = false →
    ∀ n ρ, activeF W d a ms n ρ = []
  | [], h, n, ρ => rfl
  | (p, b) :: ms, h, n, ρ => by
    simp only [touchesM, Bool.or_eq_false_iff] at h
    simp only [activeF, activeF_untouched ms h.2, List.append_nil]
    cases pmatch W p n ρ with
    | none => rfl
    | some ρ' => exact active_untouched b h.1 ρ'
end

/-! ### Running it -/

/-- How the function goes on after the values `l` have been given. -/
def flow (W : World V) (col : Bool) (acc : V) (l : List V) : Flow V :=
  if col then .go (l.foldl W.combine acc)
  else
    match l with
    | [] => .go acc
    | v :: _ => .ret v

theorem flow_nil (W : World V) (col : Bool) (acc : V) : flow W col acc [] = .go acc := by cases col <;> rfl

theorem flow_append (W : World V) (col : Bool) (acc : V) (l l' : List V) :
    flow W col acc (l ++ l') = match flow W col acc l with
      | .ret v => .ret v
      | .go acc' => flow W col acc' l' := by
  cases col
  · cases l <;> rfl
  · simp [flow]

/-- Printed matches do what the patterns say. -/
def Right (W : World V) (lang : Lang) (native : Pat V → V → Env V → Option (Env V)) (pr : Printer V) (P : Pat V → Prop) : Prop :=
  ∀ p c b, pr p = some (c, b) → P p → ∀ n ρ, armMatch W lang native n ρ p c b = .ok (pmatch W p n ρ)

theorem loop_run {W : World V} {col : Bool} {f : V → V → Res (Flow V)} {g : V → List V}
    (h : ∀ v acc, f v acc = .ok (flow W col acc (g v))) : ∀ vs acc, loop f vs acc = .ok (flow W col acc (vs.flatMap g))
  | [], acc => by simp only [loop, List.flatMap_nil, flow_nil]
  | v :: vs, acc => by
    simp only [loop, h, Res.bind, List.flatMap_cons, flow_append]
    cases flow W col acc (g v) with
    | ret w => rfl
    | go acc => exact loop_run h vs acc

section run
variable {W : World V} {lang : Lang} {native : Pat V → V → Env V → Option (Env V)} {pr : Printer V} {P : Pat V → Prop} {d : Nat}
  {j : Job V}

mutual
theorem runS (R : Right W lang native pr P) : ∀ (s : Stmt V) (cs : List (Code V)), pruneS lang pr d s = some cs →
    patsS P s → coveredS lang d s → ∀ ρ acc k,
    execs W lang native j (cs ++ k) ρ acc =
      match flow W j.col acc (activeS W d j.anode s ρ).1 with
      | .ret v => .ok (.ret v)
      | .go acc' => execs W lang native j k (activeS W d j.anode s ρ).2 acc'
  | .assign (.value d') rhs, cs, h, hp, hc, ρ, acc, k => by
    simp only [pruneS, Option.some.injEq] at h; subst h
    by_cases hd : d' = d
    · cases hcol : j.col <;> simp [hd, activeS, hits, execs, exec, hcol, flow]
    · simp [hd, activeS, hits, flow_nil]
  | .assign (.attr d' a) rhs, cs, h, hp, hc, ρ, acc, k => by
    simp only [pruneS, Option.some.injEq] at h; subst h
    by_cases hd : d' = d
    · cases hs : W.same j.anode (a ρ) <;> cases hcol : j.col <;> simp [hd, activeS, hits, execs, exec, hcol, flow, hs]
    · simp [hd, activeS, hits, flow_nil]
  | .decl x e attr, cs, h, hp, hc, ρ, acc, k => by
    simp only [pruneS, Option.some.injEq] at h; subst h
    cases attr <;> simp [activeS, flow_nil, execs, exec]
  | .ite c t e, cs, h, hp, hc, ρ, acc, k => by
    have ht := pruneS_touches (.ite c t e) cs h
    cases hu : touchesS d (.ite c t e) with
    | false =>
      rw [hu] at ht
      rw [List.isEmpty_iff.1 ht, activeS_untouched _ hu, flow_nil]
      rfl
    | true =>
      rw [hu] at ht
      simp only [pruneS, Option.bind_eq_some_iff, Option.map_eq_some_iff] at h
      obtain ⟨t', h1, e', h2, h3⟩ := h
      have hn : (t'.isEmpty && e'.isEmpty) = false := by
        cases hb : (t'.isEmpty && e'.isEmpty)
        · rfl
        · rw [hb, if_pos rfl] at h3; rw [← h3] at ht; cases ht
      rw [hn] at h3
      simp only [Bool.false_eq_true, if_false] at h3
      subst h3
      have r1 := run R t t' h1 hp.1 hc.1 ρ acc
      have r2 := run R e e' h2 hp.2 hc.2 ρ acc
      simp only [List.cons_append, List.nil_append, execs, exec, r1, r2, activeS]
      cases W.truth (c ρ)
      · simp only [if_false, Bool.false_eq_true, Res.bind]
        cases flow W j.col acc (active W d j.anode e ρ) <;> rfl
      · simp only [if_true, Res.bind]
        cases flow W j.col acc (active W d j.anode t ρ) <;> rfl
  | .cases e ms b, cs, h, hp, hc, ρ, acc, k => by
    have ht := pruneS_touches (.cases e ms b) cs h
    cases hu : touchesS d (.cases e ms b) with
    | false =>
      rw [hu] at ht
      rw [List.isEmpty_iff.1 ht, activeS_untouched _ hu, flow_nil]
      rfl
    | true =>
      rw [hu] at ht
      simp only [pruneS, Option.bind_eq_some_iff, Option.map_eq_some_iff] at h
      obtain ⟨arms, h1, b', h2, h3⟩ := h
      have hn : (arms.isEmpty && b'.isEmpty) = false := by
        cases hb : (arms.isEmpty && b'.isEmpty)
        · rfl
        · rw [hb, if_pos rfl] at h3; rw [← h3] at ht; cases ht
      rw [hn] at h3
      simp only [Bool.false_eq_true, if_false] at h3
      subst h3
      have tb := prune_touches b b' h2
      have tm := pruneM_touches ms arms h1
      have r2 := run R b b' h2 hp.2 hc.2.1 ρ acc
      have hsc : (b'.isEmpty && lang == .scala) = false := by
        cases hb : b'.isEmpty with
        | false => rfl
        | true =>
          rw [hb] at tb hn
          cases lang with
          | cpp => rfl
          | scala =>
            have tb' : touches d b = false := by simpa using tb.symm
            have : touchesM d ms = false := by
              cases h : touchesM d ms
              · rfl
              · rw [hc.2.2 rfl h] at tb'; cases tb'
            rw [this] at tm
            simp [tm] at hn
      have rm := runM R ms arms h1 hp.1 (touches d b) hc.1 (e ρ) ρ acc
      obtain ⟨m, e1, e2⟩ := rm
      simp only [List.cons_append, List.nil_append, execs, exec, e1, Res.bind, activeS]
      cases m with
      | some r =>
        obtain ⟨l, e3, e4⟩ := e2
        subst e4
        simp only [e3]
        cases flow W j.col acc l <;> rfl
      | none =>
        simp only [hsc, Bool.false_eq_true, if_false, r2]
        rcases e2 with e3 | ⟨e3, e4⟩
        · simp only [e3]
          cases flow W j.col acc (active W d j.anode b ρ) <;> rfl
        · simp only [e3, active_untouched b e4, flow_nil]
  | .fors e ms, cs, h, hp, hc, ρ, acc, k => by
    have ht := pruneS_touches (.fors e ms) cs h
    cases hu : touchesS d (.fors e ms) with
    | false =>
      rw [hu] at ht
      rw [List.isEmpty_iff.1 ht, activeS_untouched _ hu, flow_nil]
      rfl
    | true =>
      rw [hu] at ht
      simp only [pruneS, Option.map_eq_some_iff] at h
      obtain ⟨arms, h1, h3⟩ := h
      have hn : arms.isEmpty = false := by
        cases hb : arms.isEmpty
        · rfl
        · rw [hb, if_pos rfl] at h3; rw [← h3] at ht; cases ht
      rw [hn] at h3
      simp only [Bool.false_eq_true, if_false] at h3
      subst h3
      have hl : (lang == .scala) = false := by
        cases lang with
        | cpp => rfl
        | scala => rw [show touchesS d (.fors e ms) = touchesM d ms from rfl, hc.2 rfl] at hu; cases hu
      simp only [List.cons_append, List.nil_append, execs, exec, hl, Bool.false_eq_true, if_false,
        runF R ms arms h1 hp hc.1 (e ρ) ρ acc, Res.bind, activeS]
      cases flow W j.col acc (activeF W d j.anode ms (e ρ) ρ) <;> rfl
  | .forin x e b, cs, h, hp, hc, ρ, acc, k => by
    have ht := pruneS_touches (.forin x e b) cs h
    cases hu : touchesS d (.forin x e b) with
    | false =>
      rw [hu] at ht
      rw [List.isEmpty_iff.1 ht, activeS_untouched _ hu, flow_nil]
      rfl
    | true =>
      rw [hu] at ht
      have h : ∃ b', prune lang pr d b = some b' ∧ (if b'.isEmpty then [] else [.forinb x e b']) = cs := by
        cases lang with
        | cpp => simp [pruneS] at h
        | scala => simpa only [pruneS, Option.map_eq_some_iff] using h
      obtain ⟨b', h1, h3⟩ := h
      have hn : b'.isEmpty = false := by
        cases hb : b'.isEmpty
        · rfl
        · rw [hb, if_pos rfl] at h3; rw [← h3] at ht; cases ht
      rw [hn] at h3
      simp only [Bool.false_eq_true, if_false] at h3
      subst h3
      simp only [List.cons_append, List.nil_append, execs, exec,
        loop_run (W := W) (col := j.col) (g := fun v => active W d j.anode b fun y => if y = x then v else ρ y)
          (fun v acc => run R b b' h1 hp hc _ acc), Res.bind, activeS]
      cases flow W j.col acc _ <;> rfl
theorem run (R : Right W lang native pr P) : ∀ (b : List (Stmt V)) (cs : List (Code V)), prune lang pr d b = some cs →
    patsB P b → covered lang d b → ∀ ρ acc,
    execs W lang native j cs ρ acc = .ok (flow W j.col acc (active W d j.anode b ρ))
  | [], cs, h, hp, hc, ρ, acc => by
    simp only [prune, Option.some.injEq] at h; subst h
    simp only [execs, active, flow_nil]
  | s :: ss, cs, h, hp, hc, ρ, acc => by
    simp only [prune, Option.bind_eq_some_iff, Option.map_eq_some_iff] at h
    obtain ⟨c, h1, cs', h2, rfl⟩ := h
    rw [runS R s c h1 hp.1 hc.1 ρ acc cs', active, flow_append]
    cases flow W j.col acc (activeS W d j.anode s ρ).1 with
    | ret v => rfl
    | go acc' => exact run R ss cs' h2 hp.2 hc.2 _ _
theorem runM (R : Right W lang native pr P) : ∀ (ms : List (Pat V × List (Stmt V))) (arms : List (Arm V)), pruneM lang pr d ms = some arms →
    patsM P ms → ∀ dt, coveredM lang d dt ms → ∀ n ρ acc, ∃ m, execArms W lang native j arms n ρ acc = .ok m ∧
      match m with
      | some r => ∃ l, activeM W d j.anode ms n ρ = some l ∧ r = flow W j.col acc l
      | none => activeM W d j.anode ms n ρ = none ∨ (activeM W d j.anode ms n ρ = some [] ∧ dt = false)
  | [], arms, h, hp, dt, hc, n, ρ, acc => by
    simp only [pruneM, Option.some.injEq] at h; subst h
    exact ⟨none, rfl, .inl rfl⟩
  | (p, b) :: ms, arms, h, hp, dt, hc, n, ρ, acc => by
    simp only [pruneM, Option.bind_eq_some_iff] at h
    obtain ⟨body, h1, arms', h2, h3⟩ := h
    have tb := prune_touches b body h1
    have tm := pruneM_touches ms arms' h2
    cases hb : body.isEmpty
    · simp only [hb, Bool.false_eq_true, if_false, Option.map_eq_some_iff] at h3
      obtain ⟨cb, h4, rfl⟩ := h3
      have hr := R p cb.1 cb.2 h4 hp.1 n ρ
      simp only [execArms, hr, Res.bind, activeM]
      cases hm : pmatch W p n ρ with
      | none => exact runM R ms arms' h2 hp.2.2 dt hc.2.2 n ρ acc
      | some ρ' =>
        simp only [run R b body h1 hp.2.1 hc.1 ρ' acc]
        exact ⟨_, rfl, _, rfl, rfl⟩
    · simp only [hb, if_true, Option.some.injEq] at h3
      subst h3
      rw [hb] at tb
      have tb' : touches d b = false := by simpa using tb.symm
      have hd : dt = false := by
        cases hh : dt
        · rfl
        · rw [hc.2.1 (.inr hh)] at tb'; cases tb'
      have hms : touchesM d ms = false := by
        cases hh : touchesM d ms
        · rfl
        · rw [hc.2.1 (.inl hh)] at tb'; cases tb'
      rw [hms] at tm
      rw [List.isEmpty_iff.1 tm]
      refine ⟨none, rfl, ?_⟩
      simp only [activeM]
      cases hm : pmatch W p n ρ with
      | some ρ' => exact .inr ⟨by show some (active W d j.anode b ρ') = _; rw [active_untouched b tb'], hd⟩
      | none =>
        cases ha : activeM W d j.anode ms n ρ with
        | none => exact .inl rfl
        | some l => exact .inr ⟨by rw [activeM_untouched ms hms n ρ l ha], hd⟩
theorem runF (R : Right W lang native pr P) : ∀ (ms : List (Pat V × List (Stmt V))) (arms : List (Arm V)),
    pruneM lang pr d ms = some arms → patsM P ms → coveredF lang d ms → ∀ n ρ acc,
    execFor W lang native j arms n ρ acc = .ok (flow W j.col acc (activeF W d j.anode ms n ρ))
  | [], arms, h, hp, hc, n, ρ, acc => by
    simp only [pruneM, Option.some.injEq] at h; subst h
    simp only [execFor, activeF, flow_nil]
  | (p, b) :: ms, arms, h, hp, hc, n, ρ, acc => by
    simp only [pruneM, Option.bind_eq_some_iff] at h
    obtain ⟨body, h1, arms', h2, h3⟩ := h
    have tb := prune_touches b body h1
    cases hb : body.isEmpty
    · simp only [hb, Bool.false_eq_true, if_false, Option.map_eq_some_iff] at h3
      obtain ⟨cb, h4, rfl⟩ := h3
      have hr := R p cb.1 cb.2 h4 hp.1 n ρ
      simp only [execFor, hr, Res.bind, activeF]
      cases hm : pmatch W p n ρ with
      | none => exact runF R ms arms' h2 hp.2.2 hc.2 n ρ acc
      | some ρ' =>
        simp only [run R b body h1 hp.2.1 hc.1 ρ' acc, flow_append]
        cases flow W j.col acc (active W d j.anode b ρ') with
        | ret v => rfl
        | go acc' => exact runF R ms arms' h2 hp.2.2 hc.2 n ρ acc'
    · simp only [hb, if_true, Option.some.injEq] at h3
      subst h3
      rw [hb] at tb
      have tb' : touches d b = false := by simpa using tb.symm
      have ih := runF R ms arms' h2 hp.2.2 hc.2 n ρ acc
      simp only [activeF]
      cases pmatch W p n ρ with
      | none => exact ih
      | some ρ' =>
        simp only [active_untouched b tb', List.nil_append]
        exact ih
end

/-- The values one top-level match gives at one node. -/
def tlmValues (W : World V) (d : Nat) (a : V) (ρ : Env V) (t : Tlm V) (n : V) : List V :=
  match pmatch W t.pat n ρ with
  | some ρ' => active W d a t.body ρ'
  | none => []

theorem run_nodes (R : Right W lang native pr P) {t : Tlm V} {body : List (Code V)} {c : Cond V} {b : List (Nat × Path)}
    (h : prune lang pr d t.body = some body) (hpr : pr t.pat = some (c, b)) (hp : P t.pat) (hb : patsB P t.body)
    (hc : covered lang d t.body) : ∀ (ns : List V) (ρ : Env V) (acc : V),
    execNodes W lang native j (t.pat, c, b, body) ns ρ acc =
      .ok (flow W j.col acc (ns.flatMap (tlmValues W d j.anode ρ t)))
  | [], ρ, acc => by simp only [execNodes, List.flatMap_nil, flow_nil]
  | n :: ns, ρ, acc => by
    have hr := R _ _ _ hpr hp n ρ
    have e : execTlm W lang native j (t.pat, c, b, body) n ρ acc = .ok (flow W j.col acc (tlmValues W d j.anode ρ t n)) := by
      simp only [execTlm, hr, Res.bind, tlmValues]
      cases pmatch W t.pat n ρ with
      | none => simp only [flow_nil]
      | some ρ' => exact run R _ _ h hb hc _ _
    simp only [execNodes, e, Res.bind, List.flatMap_cons, flow_append]
    cases flow W j.col acc (tlmValues W d j.anode ρ t n) with
    | ret v => rfl
    | go acc' => exact run_nodes R h hpr hp hb hc ns ρ acc'

theorem run_fun (R : Right W lang native pr P) (nodes : Nat → List V) : ∀ (ts : List (Tlm V)) (f : List (Nat × Arm V)),
    pruneFun lang pr d ts = some f → (∀ t ∈ ts, P t.pat ∧ patsB P t.body ∧ covered lang d t.body) → ∀ ρ acc,
    execFun W lang native j nodes f ρ acc = .ok (flow W j.col acc (actives W d j.anode nodes ρ ts))
  | [], f, h, hp, ρ, acc => by
    simp only [pruneFun, Option.some.injEq] at h; subst h
    simp only [execFun, actives, List.flatMap_nil, flow_nil]
  | t :: ts, f, h, hp, ρ, acc => by
    simp only [pruneFun, Option.bind_eq_some_iff] at h
    obtain ⟨body, h1, f', h2, h3⟩ := h
    obtain ⟨p1, p2, p3⟩ := hp t (by simp)
    have ih := run_fun R nodes ts f' h2 fun t ht => hp t (by simp [ht])
    have ea : actives W d j.anode nodes ρ (t :: ts) =
        (nodes t.ph).flatMap (tlmValues W d j.anode ρ t) ++ actives W d j.anode nodes ρ ts := by
      simp only [actives, List.flatMap_cons]; rfl
    rw [ea, flow_append]
    cases hb : body.isEmpty
    · simp only [hb, Bool.false_eq_true, if_false, Option.map_eq_some_iff] at h3
      obtain ⟨cb, h4, rfl⟩ := h3
      simp only [execFun, run_nodes R h1 h4 p1 p2 p3, Res.bind]
      cases flow W j.col acc ((nodes t.ph).flatMap (tlmValues W d j.anode ρ t)) with
      | ret v => rfl
      | go acc' => exact ih ρ acc'
    · simp only [hb, if_true, Option.some.injEq] at h3
      subst h3
      have tb := prune_touches t.body body h1
      rw [hb] at tb
      have tb' : touches d t.body = false := by simpa using tb.symm
      have : (nodes t.ph).flatMap (tlmValues W d j.anode ρ t) = [] := by
        rw [List.flatMap_eq_nil_iff]
        intro n _
        simp only [tlmValues]
        cases pmatch W t.pat n ρ with
        | none => rfl
        | some ρ' => exact active_untouched _ tb' _
      rw [this, flow_nil]
      exact ih ρ acc

theorem run_call (R : Right W lang native pr P) (nodes : Nat → List V) (ts : List (Tlm V)) (f : List (Nat × Arm V))
    (h : pruneFun lang pr d ts = some f) (hp : ∀ t ∈ ts, P t.pat ∧ patsB P t.body ∧ covered lang d t.body) (ρ : Env V)
    (deft : Option V) (hd : j.col = true → deft.isSome = true) :
    call W lang native j deft nodes f ρ =
      match value W j.col deft (actives W d j.anode nodes ρ ts) with
      | some v => .ok v
      | none => .stop := by
  simp only [call, run_fun R nodes ts f h hp, Res.bind]
  cases hcol : j.col with
  | true =>
    rw [hcol] at hd
    obtain ⟨v, rfl⟩ := Option.isSome_iff_exists.1 (hd rfl)
    simp [flow, finish, value, hcol]
  | false =>
    cases actives W d j.anode nodes ρ ts with
    | nil => simp only [flow, finish, value, hcol]; cases deft <;> rfl
    | cons v l => simp [flow, finish, value]

end run
end Aps.DynGen
