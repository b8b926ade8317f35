import Verif.Proofs.EdgeGenEx
set_option linter.unusedVariables false
/-! The dependencies recorded for the declarations of a rule. -/
namespace Aps.Gen
open Aps.Dnc Aps.Oag

/-- the kind of dependency of an equation -/
def Eqn.kind (ε : Eqn) : Dep := if ε.test then controlDependency else dependency

/-- the recorded calls cover the equation, as far as the code does -/
structure Covers (env : Env) (ε : Eqn) (c : Cond) (cs : List Call) : Prop where
  guard : ε.loc = false → ∀ x ∈ recordCond env ε.target c, x ∈ cs
  reads : (ε.loc && ε.init) = false → HasReads ε.target c ε.kind ε.rhs.reads cs
  flows : (ε.loc && ε.init) = false → HasFlows ε.target c ε.kind (ε.rhs.flows []) cs

theorem Covers.mono {env ε c cs cs'} (h : Covers env ε c cs) (hs : ∀ x ∈ cs, x ∈ cs') : Covers env ε c cs' :=
  ⟨fun hl x hx => hs x (h.guard hl x hx), fun hl => (h.reads hl).mono hs, fun hl => (h.flows hl).mono hs⟩

/-- the call is for the equation -/
def For (env : Env) (ε : Eqn) (c : Cond) (x : Call) : Prop :=
  x.snk = ε.target ∧ (x ∈ recordCond env ε.target c ∨ ∃ r, ExOnly ε.target c ε.kind ε.rhs.reads (ε.rhs.flows []) r ∧ x ∈ r)

/-- the calls are those of the equations -/
structure Good (env : Env) (es : List Eqn) (cs : List Call) : Prop where
  full : ∀ ε ∈ es, ∃ c, (∃ used, OnWay ε.way c used) ∧ Covers env ε c cs
  only : ∀ x ∈ cs, x.src.mods = [] → x.snk.mods = [] → ∃ ε ∈ es, ∃ c, (∃ used, OnWay ε.way c used) ∧ For env ε c x
  ok : ∀ x ∈ cs, CallOk x

theorem Good.nil (env : Env) : Good env [] [] := ⟨by simp, by simp, by simp⟩

theorem Good.append {env es es' cs cs'} (h1 : Good env es cs) (h2 : Good env es' cs') : Good env (es ++ es') (cs ++ cs') := by
  refine ⟨?_, ?_, ?_⟩
  · intro ε hε
    rcases List.mem_append.1 hε with hε | hε
    · obtain ⟨c, hc, h⟩ := h1.full ε hε; exact ⟨c, hc, h.mono fun x hx => List.mem_append_left _ hx⟩
    · obtain ⟨c, hc, h⟩ := h2.full ε hε; exact ⟨c, hc, h.mono fun x hx => List.mem_append_right _ hx⟩
  · intro x hx hm hm'
    rcases List.mem_append.1 hx with hx | hx
    · obtain ⟨ε, hε, h⟩ := h1.only x hx hm hm'; exact ⟨ε, List.mem_append_left _ hε, h⟩
    · obtain ⟨ε, hε, h⟩ := h2.only x hx hm hm'; exact ⟨ε, List.mem_append_right _ hε, h⟩
  · intro x hx
    rcases List.mem_append.1 hx with hx | hx
    · exact h1.ok x hx
    · exact h2.ok x hx

theorem Good.congr {env es es' cs cs'} (h : Good env es cs) (he : ∀ x, x ∈ es ↔ x ∈ es') (hc : ∀ x, x ∈ cs ↔ x ∈ cs') : Good env es' cs' := by
  refine ⟨?_, ?_, ?_⟩
  · intro ε hε
    obtain ⟨c, hc', h'⟩ := h.full ε ((he ε).2 hε); exact ⟨c, hc', h'.mono fun x hx => (hc x).1 hx⟩
  · intro x hx hm hm'
    obtain ⟨ε, hε, h'⟩ := h.only x ((hc x).2 hx) hm hm'; exact ⟨ε, (he ε).1 hε, h'⟩
  · intro x hx; exact h.ok x ((hc x).2 hx)

/-- calls for fields -/
theorem Good.extra {env es cs cs'} (h : Good env es cs) (hm : ∀ x ∈ cs', (x.src.mods ≠ [] ∨ x.snk.mods ≠ []) ∧ CallOk x) :
    Good env es (cs ++ cs') := by
  refine ⟨?_, ?_, ?_⟩
  · intro ε hε
    obtain ⟨c, hc', h'⟩ := h.full ε hε; exact ⟨c, hc', h'.mono fun x hx => List.mem_append_left _ hx⟩
  · intro x hx h1 h2
    rcases List.mem_append.1 hx with hx | hx
    · exact h.only x hx h1 h2
    · rcases (hm x hx).1 with h' | h'
      · exact absurd h1 h'
      · exact absurd h2 h'
  · intro x hx
    rcases List.mem_append.1 hx with hx | hx
    · exact h.ok x hx
    · exact (hm x hx).2

theorem kind_zero (b : Bool) : (if b then controlDependency else dependency : Dep).getLsbD 0 = true := by
  cases b <;> decide

theorem recordCond_ok {env : Env} (ok : env.Ok) {v : Vertex} {c : Cond} : ∀ x ∈ recordCond env v c, CallOk x := by
  intro x hx
  obtain ⟨j, r, h1, h2, rfl⟩ := recordCond_mem.1 hx
  exact ⟨ok.conds r (List.mem_of_getElem? h1), (by decide : controlDependency.getLsbD 0 = true)⟩

theorem recordCond_snk {env : Env} {v : Vertex} {c : Cond} : ∀ x ∈ recordCond env v c, x.snk = v := by
  intro x hx
  obtain ⟨j, r, h1, h2, rfl⟩ := recordCond_mem.1 hx
  rfl

theorem ExOnly.ok {sink c k reads flows r} (h : ExOnly sink c k reads flows r) (hc : ∃ σ, Sat σ c) (hk : k.getLsbD 0 = true) :
    ∀ x ∈ r, CallOk x := by
  intro x hx
  exact ⟨by rw [h.cond x hx]; exact hc, h.keep x hx 0 (by decide) hk⟩

/-- an equation and its calls -/
theorem Good.one {env : Env} (ok : env.Ok) {ε : Eqn} {c : Cond} {used : List Nat} (hw : OnWay ε.way c used) {r : List Call}
    (h1 : ExOnly ε.target c ε.kind ε.rhs.reads (ε.rhs.flows []) r) (h2 : HasReads ε.target c ε.kind ε.rhs.reads r)
    (h3 : HasFlows ε.target c ε.kind (ε.rhs.flows []) r) : Good env [ε] (recordCond env ε.target c ++ r) := by
  refine ⟨?_, ?_, ?_⟩
  · intro ε' hε; simp only [List.mem_singleton] at hε; subst hε
    exact ⟨c, ⟨used, hw⟩, fun _ x hx => List.mem_append_left _ hx, fun _ => h2.mono fun x hx => List.mem_append_right _ hx,
      fun _ => h3.mono fun x hx => List.mem_append_right _ hx⟩
  · intro x hx _ _
    refine ⟨ε, by simp, c, ⟨used, hw⟩, ?_⟩
    rcases List.mem_append.1 hx with hx | hx
    · exact ⟨recordCond_snk x hx, .inl hx⟩
    · exact ⟨h1.snk x hx, .inr ⟨r, h1, hx⟩⟩
  · intro x hx
    rcases List.mem_append.1 hx with hx | hx
    · exact recordCond_ok ok x hx
    · exact h1.ok hw.exists_sat (kind_zero _) x hx

theorem Good.eqn {env : Env} (ok : env.Ok) {ε : Eqn} {c : Cond} {used : List Nat} (hw : OnWay ε.way c used) {r : List Call}
    (h : recordExpr env ε.target c ε.kind [] ε.rhs = .ok r) : Good env [ε] (recordCond env ε.target c ++ r) :=
  .one ok hw (recordExpr_only _ _ _ _ h) (recordExpr_reads _ _ _ h) (recordExpr_flows _ _ _ _ h)

mutual
theorem recordLhs_good {env : Env} (ok : env.Ok) {w : Way} {c : Cond} {used : List Nat} (hw : OnWay w c used) :
    ∀ (lhs : Ex) (test : Bool) (path : List Nat) (rhs : Ex) (r : List Call),
    recordLhs env c (if test then controlDependency else dependency) path rhs lhs = .ok r →
    Good env (lhs.assigned env.reverseField w test path rhs) r
  | .const, test, path, rhs, r, h => by
    simp only [recordLhs, Res.ok.injEq] at h; subst h; simp only [Ex.assigned]; exact .nil env
  | .rep _, test, path, rhs, r, h => by simp only [recordLhs] at h; cases h
  | .use u, test, path, rhs, r, h => by
    cases u with
    | unbound => simp only [recordLhs] at h; cases h
    | shared d resp info b =>
      simp only [recordLhs, recordSink, Res.bind_eq_ok, Res.pure_eq, Res.ok.injEq] at h
      obtain ⟨r1, h1, rfl⟩ := h
      simp only [Ex.assigned]
      exact (Good.eqn (ε := ⟨_, w, rhs, test, false, false⟩) ok hw h1).congr (fun _ => .rfl) (fun x => by simp [or_comm])
    | param d rule =>
      simp only [recordLhs, recordSink, Res.bind_eq_ok, Res.pure_eq, Res.ok.injEq] at h
      obtain ⟨r1, h1, rfl⟩ := h
      simp only [Ex.assigned]
      exact (Good.eqn (ε := ⟨_, w, rhs, test, false, false⟩) ok hw h1).congr (fun _ => .rfl) (fun x => by simp [or_comm])
    | plain d =>
      simp only [recordLhs, recordSink, Res.bind_eq_ok, Res.pure_eq, Res.ok.injEq] at h
      obtain ⟨r1, h1, rfl⟩ := h
      simp only [Ex.assigned]
      exact (Good.eqn (ε := ⟨_, w, rhs, test, false, false⟩) ok hw h1).congr (fun _ => .rfl) (fun x => by simp [or_comm])
  | .attrRef a node, test, path, rhs, r, h => by
    cases node with
    | none => simp only [recordLhs] at h; cases h
    | some n =>
      simp only [recordLhs, recordSink, Res.bind_eq_ok, Res.pure_eq, Res.ok.injEq] at h
      obtain ⟨r1, h1, rfl⟩ := h
      simp only [Ex.assigned]
      exact (Good.eqn (ε := ⟨_, w, rhs, test, false, false⟩) ok hw h1).congr (fun _ => .rfl) (fun x => by simp [or_comm])
  | .fieldRef f b o, test, path, rhs, r, h => by
    simp only [recordLhs, Res.bind_eq_ok, Res.pure_eq, Res.ok.injEq] at h
    obtain ⟨r1, h1, r2, h2, rfl⟩ := h
    simp only [Ex.assigned]
    exact .append (recordLhs_good ok hw o test _ rhs r1 h1) (recordLhs_good ok hw o true _ o r2 h2)
  | .localCall _ _, test, path, rhs, r, h => by simp only [recordLhs] at h; cases h
  | .call args, test, path, rhs, r, h => by
    simp only [recordLhs] at h
    simp only [Ex.assigned]
    exact recordLhsArgs_good ok hw args test path rhs r h
  | .other, test, path, rhs, r, h => by simp only [recordLhs] at h; cases h
theorem recordLhsArgs_good {env : Env} (ok : env.Ok) {w : Way} {c : Cond} {used : List Nat} (hw : OnWay w c used) :
    ∀ (args : Exs) (test : Bool) (path : List Nat) (rhs : Ex) (r : List Call),
    recordLhsArgs env c (if test then controlDependency else dependency) path rhs args = .ok r →
    Good env (args.assigned env.reverseField w test path rhs) r
  | .nil, test, path, rhs, r, h => by
    simp only [recordLhsArgs, Res.ok.injEq] at h; subst h; simp only [Exs.assigned]; exact .nil env
  | .cons e es, test, path, rhs, r, h => by
    simp only [recordLhsArgs, Res.bind_eq_ok, Res.pure_eq, Res.ok.injEq] at h
    obtain ⟨r1, h1, r2, h2, rfl⟩ := h
    simp only [Exs.assigned]
    exact .append (recordLhs_good ok hw e test _ rhs r1 h1) (recordLhsArgs_good ok hw es test _ rhs r2 h2)
end

theorem formalCalls_good {env : Env} (ok : env.Ok) {w : Way} {c : Cond} {used : List Nat} (hw : OnWay w c used) {proxy : Nat} :
    ∀ (fs : List Nat) (args : Exs) (r : List Call), formalCalls env c proxy fs args = .ok r → Good env (passed w proxy fs args) r
  | [], args, r, h => by
    simp only [formalCalls, Res.ok.injEq] at h; subst h
    cases args <;> exact .nil env
  | f :: fs, .nil, r, h => by simp only [formalCalls] at h; cases h
  | f :: fs, .cons a es, r, h => by
    simp only [formalCalls, Res.bind_eq_ok, Res.pure_eq, Res.ok.injEq] at h
    obtain ⟨r1, h1, r2, h2, rfl⟩ := h
    simp only [passed]
    have g1 := Good.eqn (ε := ⟨⟨f, some proxy, []⟩, w, a, false, false, false⟩) ok hw h1
    have g2 := formalCalls_good ok hw fs es r2 h2
    exact (g1.append g2).congr (fun _ => by simp) (fun x => by simp; tauto)

/-- shared info passed along -/
theorem Good.info {env : Env} (ok : env.Ok) {w : Way} {c : Cond} {used : List Nat} (hw : OnWay w c used) (a n : Nat) (v : Vertex) :
    Good env [⟨v, w, .attrRef a (some n), false, false, false⟩] (recordCond env v c ++ [⟨⟨a, some n, []⟩, v, c, dependency⟩]) := by
  refine Good.one (ε := ⟨v, w, .attrRef a (some n), false, false, false⟩) ok hw ?_ ?_ ?_
  · exact .plain (by simp [Ex.reads]) (by simp [Ex.flows])
  · intro p hp
    simp only [Ex.reads, List.mem_singleton] at hp; subst hp
    exact ⟨_, List.mem_singleton.2 rfl, rfl, rfl, rfl, fun t _ h => h⟩
  · intro p hp
    simp only [Ex.flows, List.mem_singleton] at hp; subst hp
    exact ⟨_, List.mem_singleton.2 rfl, rfl, rfl, rfl, fun t h => h⟩

mutual
theorem exprCalls_good {env : Env} (ok : env.Ok) {w : Way} {c : Cond} {used : List Nat} (hw : OnWay w c used) :
    ∀ (e : Ex) (r : List Call), exprCalls env c e = .ok r → Good env (e.inner w) r
  | .const, r, h => by simp only [exprCalls, Res.ok.injEq] at h; subst h; simp only [Ex.inner]; exact .nil env
  | .rep e, r, h => by simp only [exprCalls] at h; simp only [Ex.inner]; exact exprCalls_good ok hw e r h
  | .use _, r, h => by simp only [exprCalls, Res.ok.injEq] at h; subst h; simp only [Ex.inner]; exact .nil env
  | .attrRef _ _, r, h => by simp only [exprCalls, Res.ok.injEq] at h; subst h; simp only [Ex.inner]; exact .nil env
  | .fieldRef _ _ o, r, h => by simp only [exprCalls] at h; simp only [Ex.inner]; exact exprCalls_good ok hw o r h
  | .localCall f args, r, h => by
    simp only [exprCalls, Res.bind_eq_ok, Res.pure_eq] at h
    obtain ⟨r1, h1, h⟩ := h
    cases hr : f.resp with
    | none => simp only [hr] at h; cases h
    | some n =>
      simp only [hr, Res.bind_eq_ok, Res.ok.injEq] at h
      obtain ⟨q, h2, rfl⟩ := h
      simp only [Ex.inner]
      have g0 := Good.eqn (ε := ⟨⟨f.result, some f.proxy, []⟩, w, .const, false, false, false⟩) (r := []) ok hw (by simp [recordExpr])
      have g1 := formalCalls_good ok hw f.formals args r1 h1
      have g2 := Good.info ok hw f.infoHere n ⟨f.infoThere, some f.proxy, []⟩
      have g3 := argsCalls_good ok hw args q h2
      rw [hr]
      exact (g0.append (g2.append (g1.append g3))).congr (fun x => by simp) (fun x => by simp; tauto)
  | .call args, r, h => by simp only [exprCalls] at h; simp only [Ex.inner]; exact argsCalls_good ok hw args r h
  | .other, r, h => by simp only [exprCalls, Res.ok.injEq] at h; subst h; simp only [Ex.inner]; exact .nil env
theorem argsCalls_good {env : Env} (ok : env.Ok) {w : Way} {c : Cond} {used : List Nat} (hw : OnWay w c used) :
    ∀ (es : Exs) (r : List Call), argsCalls env c es = .ok r → Good env (es.inner w) r
  | .nil, r, h => by simp only [argsCalls, Res.ok.injEq] at h; subst h; simp only [Exs.inner]; exact .nil env
  | .cons e es, r, h => by
    simp only [argsCalls, Res.bind_eq_ok, Res.pure_eq, Res.ok.injEq] at h
    obtain ⟨r1, h1, r2, h2, rfl⟩ := h
    simp only [Exs.inner]
    exact .append (exprCalls_good ok hw e r1 h1) (argsCalls_good ok hw es r2 h2)
end

theorem listCalls_good {env : Env} (ok : env.Ok) {w : Way} {c : Cond} {used : List Nat} (hw : OnWay w c used) :
    ∀ (es : List Ex) (r : List Call), listCalls env c es = .ok r → Good env (es.flatMap (·.inner w)) r
  | [], r, h => by simp only [listCalls, Res.ok.injEq] at h; subst h; exact .nil env
  | e :: es, r, h => by
    simp only [listCalls, Res.bind_eq_ok, Res.pure_eq, Res.ok.injEq] at h
    obtain ⟨r1, h1, r2, h2, rfl⟩ := h
    rw [List.flatMap_cons]
    exact .append (exprCalls_good ok hw e r1 h1) (listCalls_good ok hw es r2 h2)

theorem fieldCalls_ok {env : Env} {d : Nat} {c : Cond} (hc : ∃ σ, Sat σ c) : ∀ (fs : List Nat), ∀ x ∈ fieldCalls env d c fs,
    (x.src.mods ≠ [] ∨ x.snk.mods ≠ []) ∧ CallOk x
  | [], x, hx => by simp [fieldCalls] at hx
  | f :: fs, x, hx => by
    rcases List.mem_cons.1 hx with rfl | hx
    · refine ⟨.inl (by simp), hc, ?_⟩
      simp only
      split <;> decide
    · exact fieldCalls_ok hc fs x hx

/-- the calls of a declared value -/
theorem Good.declared {env : Env} (ok : env.Ok) {w : Way} {c : Cond} {used : List Nat} (hw : OnWay w c used) {d : Nat} {resp : Option Nat}
    {init : Bool} {e : Ex} {r1 r2 : List Call} (h1 : recordExpr env ⟨d, resp, []⟩ c dependency [] e = .ok r1)
    (h2 : (resp.isSome && init) = true ∧ r2 = [] ∨ recordExpr env ⟨d, none, []⟩ c dependency [] e = .ok r2) :
    Good env (declared w d resp init e) (recordCond env ⟨d, resp, []⟩ c ++ (r1 ++ r2)) := by
  have g2 := Good.eqn (ε := ⟨⟨d, resp, []⟩, w, e, false, false, init⟩) ok hw h1
  refine ⟨?_, ?_, ?_⟩
  · intro ε hε
    simp only [Gen.declared, List.mem_cons, List.not_mem_nil, or_false] at hε
    rcases hε with rfl | rfl
    · refine ⟨c, ⟨used, hw⟩, ?_, ?_, ?_⟩
      · intro hl x hx
        simp only at hl hx
        cases resp with
        | none => exact List.mem_append_left _ hx
        | some n => cases hl
      · intro hl
        simp only at hl ⊢
        rcases h2 with ⟨h2, _⟩ | h2
        · rw [h2] at hl; cases hl
        · exact (recordExpr_reads (env := env) _ _ _ h2).mono fun x hx => by simp [hx]
      · intro hl
        simp only at hl ⊢
        rcases h2 with ⟨h2, _⟩ | h2
        · rw [h2] at hl; cases hl
        · exact (recordExpr_flows (env := env) _ _ _ _ h2).mono fun x hx => by simp [hx]
    · obtain ⟨c', hc', h⟩ := g2.full _ (List.mem_singleton.2 rfl)
      exact ⟨c', hc', h.mono fun x hx => by
        rcases List.mem_append.1 hx with hx | hx
        · exact List.mem_append_left _ hx
        · exact List.mem_append_right _ (List.mem_append_left _ hx)⟩
  · intro x hx hm hm'
    rcases List.mem_append.1 hx with hx | hx
    · obtain ⟨ε, hε, h⟩ := g2.only x (List.mem_append_left _ hx) hm hm'
      exact ⟨ε, by simp [Gen.declared]; right; simpa using hε, h⟩
    rcases List.mem_append.1 hx with hx | hx
    · obtain ⟨ε, hε, h⟩ := g2.only x (List.mem_append_right _ hx) hm hm'
      exact ⟨ε, by simp [Gen.declared]; right; simpa using hε, h⟩
    · rcases h2 with ⟨_, h2⟩ | h2
      · subst h2; cases hx
      · refine ⟨⟨⟨d, none, []⟩, w, e, false, resp.isSome, init⟩, by simp [Gen.declared], c, ⟨used, hw⟩, ?_, ?_⟩
        · exact (recordExpr_only (env := env) _ _ _ _ h2).snk x hx
        · exact .inr ⟨r2, recordExpr_only (env := env) _ _ _ _ h2, hx⟩
  · intro x hx
    rcases List.mem_append.1 hx with hx | hx
    · exact recordCond_ok ok x hx
    rcases List.mem_append.1 hx with hx | hx
    · exact (recordExpr_only (env := env) _ _ _ _ h1).ok hw.exists_sat (by decide) x hx
    · rcases h2 with ⟨_, h2⟩ | h2
      · subst h2; cases hx
      · exact (recordExpr_only (env := env) _ _ _ _ h2).ok hw.exists_sat (by decide) x hx

theorem sharedCalls_ok {env : Env} {d : Nat} {c : Cond} (hc : ∃ σ, Sat σ c) (shared : Option (Nat × Nat)) : ∀ x ∈ sharedCalls env c d shared,
    (x.src.mods ≠ [] ∨ x.snk.mods ≠ []) ∧ CallOk x := by
  intro x hx
  cases shared with
  | none => cases hx
  | some y =>
    simp only [sharedCalls, List.mem_cons, List.not_mem_nil, or_false] at hx
    rcases hx with rfl | rfl
    · exact ⟨.inl (by simp), hc, (by decide : (dependency).getLsbD 0 = true)⟩
    · exact ⟨.inr (by simp), hc, (by decide : (dependency).getLsbD 0 = true)⟩

theorem valueCalls_good {env : Env} (ok : env.Ok) {w : Way} {c : Cond} {used : List Nat} (hw : OnWay w c used) {d : Nat} {resp : Option Nat}
    {shared : Option (Nat × Nat)} {dflt : Dflt} {r q : List Call} (h : valueCalls env c d resp shared dflt = .ok r)
    (hq : dfltInner env c dflt = .ok q) : Good env ((St.value d resp shared dflt).eqns env.reverseField w) (r ++ q) := by
  simp only [valueCalls, Res.bind_eq_ok, Res.pure_eq, Res.ok.injEq] at h
  obtain ⟨r1, h1, rfl⟩ := h
  have hs := sharedCalls_ok (env := env) (d := d) hw.exists_sat shared
  cases dflt with
  | none =>
    simp only [dfltCalls, Res.ok.injEq] at h1; subst h1
    simp only [dfltInner, Res.ok.injEq] at hq; subst hq
    simp only [St.eqns]
    have g := Good.declared ok hw (d := d) (resp := resp) (init := false) (e := .const) (r1 := []) (r2 := []) (by simp [recordExpr])
      (.inr (by simp [recordExpr]))
    exact (g.extra hs).congr (fun _ => .rfl) (fun x => by simp)
  | simple e fields =>
    simp only [dfltCalls, Res.bind_eq_ok, Res.pure_eq, Res.ok.injEq] at h1
    obtain ⟨r2, h2, r3, h3, rfl⟩ := h1
    simp only [dfltInner] at hq
    simp only [St.eqns]
    have g := Good.declared ok hw (init := false) h2 (.inr h3)
    have g2 := (g.append (exprCalls_good ok hw e q hq)).extra hs
    have g3 := g2.extra (fieldCalls_ok (env := env) (d := d) hw.exists_sat (fields.getD []))
    exact g3.congr (fun _ => .rfl) (fun x => by simp; tauto)
  | composite e =>
    simp only [dfltCalls] at h1
    simp only [dfltInner] at hq
    simp only [St.eqns]
    have g : Good env (Gen.declared w d resp true e) (recordCond env ⟨d, resp, []⟩ c ++ r1) := by
      cases resp with
      | none =>
        exact (Good.declared ok hw (init := true) h1 (.inr h1)).congr (fun _ => .rfl) (fun x => by simp)
      | some n =>
        exact (Good.declared ok hw (init := true) h1 (.inl ⟨rfl, rfl⟩)).congr (fun _ => .rfl) (fun x => by simp)
    exact ((g.append (exprCalls_good ok hw e q hq)).extra hs).congr (fun _ => .rfl) (fun x => by simp; tauto)

theorem formalsCalls_good {env : Env} (ok : env.Ok) {e : Ex} : ∀ (fs : List Nat) (r : List Call), formalsCalls env e fs = .ok r →
    Good env (fs.map (fun f => ⟨⟨f, none, []⟩, [], e, false, false, false⟩)) r
  | [], r, h => by simp only [formalsCalls, Res.ok.injEq] at h; subst h; exact .nil env
  | f :: fs, r, h => by
    simp only [formalsCalls, Res.bind_eq_ok, Res.pure_eq, Res.ok.injEq] at h
    obtain ⟨r1, h1, r2, h2, rfl⟩ := h
    have g := Good.eqn (ε := ⟨⟨f, none, []⟩, [], e, false, false, false⟩) ok (OnWay.nil []) h1
    exact (g.append (formalsCalls_good ok fs r2 h2)).congr (fun x => by simp) (fun x => by simp)

theorem testCalls_good {env : Env} (ok : env.Ok) {w : Way} {c : Cond} {used : List Nat} (hw : OnWay w c used) {id : Nat} :
    ∀ (es : List Ex) (r : List Call), testCalls env ⟨id, none, []⟩ c es = .ok r →
    Good env (es.map (fun e => ⟨⟨id, none, []⟩, w, e, true, false, false⟩)) (if es = [] then [] else recordCond env ⟨id, none, []⟩ c ++ r)
  | [], r, h => by simp only [testCalls, Res.ok.injEq] at h; subst h; exact .nil env
  | e :: es, r, h => by
    simp only [testCalls, Res.bind_eq_ok, Res.pure_eq, Res.ok.injEq] at h
    obtain ⟨r1, h1, r2, h2, rfl⟩ := h
    have g := Good.eqn (ε := ⟨⟨id, none, []⟩, w, e, true, false, false⟩) ok hw h1
    have ih := testCalls_good ok hw es r2 h2
    rw [if_neg (by simp)]
    cases es with
    | nil =>
      simp only [testCalls, Res.ok.injEq] at h2; subst h2
      exact g.congr (fun x => by simp) (fun x => by simp)
    | cons e' es =>
      rw [if_neg (by simp)] at ih
      exact (g.append ih).congr (fun x => by simp) (fun x => by simp; tauto)

theorem matchCalls_good {env : Env} (ok : env.Ok) {w : Way} {c : Cond} {used : List Nat} (hw : OnWay w c used) :
    ∀ (ms : Mts) (tests tests' : List Ex) (r : List Call), tests ≠ [] → (∀ e, e ∈ tests ↔ e ∈ tests') → matchCalls env c tests ms = .ok r →
    Good env (ms.tests w tests') r
  | .nil, tests, tests', r, hne, ht, h => by
    simp only [matchCalls, Res.ok.injEq] at h; subst h; simp only [Mts.tests]; exact .nil env
  | .cons id _ _ conds _ rest, tests, tests', r, hne, ht, h => by
    simp only [matchCalls, Res.bind_eq_ok, Res.pure_eq, Res.ok.injEq] at h
    obtain ⟨r1, h1, r2, h2, rfl⟩ := h
    have hne' : conds.reverse ++ tests ≠ [] := by simp [hne]
    have ht' : ∀ e, e ∈ conds.reverse ++ tests ↔ e ∈ conds ++ tests' := fun e => by simp [ht e]
    have g := testCalls_good ok hw _ _ h1
    rw [if_neg hne'] at g
    simp only [Mts.tests]
    have ih := matchCalls_good ok hw rest _ (conds ++ tests') r2 hne' ht' h2
    refine (g.append ih).congr (fun x => ?_) (fun x => .rfl)
    simp only [List.mem_append, List.mem_map, ← ht', List.mem_reverse, ht]

theorem callsCase_cond {env : Env} {e : Ex} {c0 : Cond} : ∀ (ms : Mts) (w : Way) (c : Cond) (used : List Nat) (r : List Call × Cond),
    OnWay w c used → ms.FreshCase used → callsCase env e c0 c ms = .ok r → OnWay (w ++ ms.failed) r.2 (ms.failed.map (·.1) ++ used)
  | .nil, w, c, used, r, hw, hf, h => by
    simp only [callsCase, Res.ok.injEq] at h; subst h; simpa [Mts.failed] using hw
  | .cons _ ix formals conds body rest, w, c, used, r, hw, hf, h => by
    simp only [callsCase, Res.bind_eq_ok, Res.pure_eq, Res.ok.injEq] at h
    obtain ⟨r1, _, r2, _, r3, _, r4, h4, rfl⟩ := h
    obtain ⟨hi, hn, _, hr⟩ := hf
    rw [hw.clear hi hn] at h4
    have := callsCase_cond rest (w ++ [(ix, false)]) _ (ix :: used) r4 (hw.no hi hn) hr h4
    simp only [Mts.failed]
    rw [show w ++ (ix, false) :: rest.failed = w ++ [(ix, false)] ++ rest.failed by simp]
    exact this.mono fun x hx => by
      simp only [List.map_cons, List.mem_append, List.mem_cons] at hx ⊢
      tauto

mutual
theorem callsD_good {env : Env} (ok : env.Ok) : ∀ (s : St) (w : Way) (c : Cond) (used : List Nat) (r : List Call),
    OnWay w c used → s.Fresh used → callsD env c s = .ok r → Good env (s.eqns env.reverseField w) r
  | .value d resp shared dflt, w, c, used, r, hw, hf, h => by
    simp only [callsD, Res.bind_eq_ok, Res.pure_eq, Res.ok.injEq] at h
    obtain ⟨r1, h1, r2, h2, rfl⟩ := h
    exact valueCalls_good ok hw h1 h2
  | .assign lhs rhs, w, c, used, r, hw, hf, h => by
    simp only [callsD, Res.bind_eq_ok, Res.pure_eq, Res.ok.injEq] at h
    obtain ⟨r1, h1, r2, h2, r3, h3, rfl⟩ := h
    simp only [St.eqns]
    exact ((recordLhs_good ok hw lhs false [] rhs r1 h1).append (exprCalls_good ok hw lhs r2 h2)).append (exprCalls_good ok hw rhs r3 h3)
  | .ifS id ix test t f, w, c, used, r, hw, hf, h => by
    simp only [callsD, Res.bind_eq_ok, Res.pure_eq, Res.ok.injEq] at h
    obtain ⟨r1, h1, r2, h2, r3, h3, r4, h4, rfl⟩ := h
    obtain ⟨hi, hn, ht, hff⟩ := hf
    have g1 := Good.eqn (ε := ⟨⟨id, none, []⟩, w, test, true, false, false⟩) ok hw h1
    have g2 := exprCalls_good ok hw test r2 h2
    have g3 := callsB_good ok t _ _ (ix :: used) r3 (hw.yes hi hn) ht h3
    have g4 := callsB_good ok f _ _ (ix :: used) r4 (hw.no hi hn) hff h4
    simp only [St.eqns]
    exact (((g1.append g2).append g3).append g4).congr (fun x => by simp) (fun x => .rfl)
  | .caseS e ms dflt, w, c, used, r, hw, hf, h => by
    simp only [callsD, Res.bind_eq_ok, Res.pure_eq, Res.ok.injEq] at h
    obtain ⟨r1, h1, r2, h2, r3, h3, r4, h4, rfl⟩ := h
    have g1 := matchCalls_good ok hw ms [e] [e] r1 (by simp) (fun _ => .rfl) h1
    have g2 := exprCalls_good ok hw e r2 h2
    have g3 := callsCase_good ok e ms w c used w c used r3 hw hw hf.1 h3
    have g4 := callsB_good ok dflt _ _ _ r4 (callsCase_cond ms w c used r3 hw hf.1 h3) hf.2 h4
    simp only [St.eqns]
    exact ((g1.append g2).append g3).append g4
  | .forS e ms, w, c, used, r, hw, hf, h => by
    simp only [callsD, Res.bind_eq_ok, Res.pure_eq, Res.ok.injEq] at h
    obtain ⟨r1, h1, r2, h2, r3, h3, rfl⟩ := h
    have g1 := matchCalls_good ok hw ms [e] [e] r1 (by simp) (fun _ => .rfl) h1
    have g2 := exprCalls_good ok hw e r2 h2
    have g3 := callsFor_good ok e ms w c used r3 hw hf h3
    simp only [St.eqns]
    exact (g1.append g2).append g3
  | .forIn formal seq body, w, c, used, r, hw, hf, h => by
    simp only [callsD, Res.bind_eq_ok, Res.pure_eq, Res.ok.injEq] at h
    obtain ⟨r1, h1, r2, h2, r3, h3, rfl⟩ := h
    have g1 := Good.eqn (ε := ⟨⟨formal, none, []⟩, w, seq, false, false, false⟩) ok hw h1
    have g2 := exprCalls_good ok hw seq r2 h2
    have g3 := callsB_good ok body w c used r3 hw hf h3
    simp only [St.eqns]
    exact ((g1.append g2).append g3).congr (fun x => by simp) (fun x => .rfl)
  | .skip, w, c, used, r, hw, hf, h => by
    simp only [callsD, Res.ok.injEq] at h; subst h; simp only [St.eqns]; exact .nil env
theorem callsB_good {env : Env} (ok : env.Ok) : ∀ (b : Sts) (w : Way) (c : Cond) (used : List Nat) (r : List Call),
    OnWay w c used → b.Fresh used → callsB env c b = .ok r → Good env (b.eqns env.reverseField w) r
  | .nil, w, c, used, r, hw, hf, h => by
    simp only [callsB, Res.ok.injEq] at h; subst h; simp only [Sts.eqns]; exact .nil env
  | .cons s rest, w, c, used, r, hw, hf, h => by
    simp only [callsB, Res.bind_eq_ok, Res.pure_eq, Res.ok.injEq] at h
    obtain ⟨r1, h1, r2, h2, rfl⟩ := h
    simp only [Sts.eqns]
    exact .append (callsD_good ok s w c used r1 hw hf.1 h1) (callsB_good ok rest w c used r2 hw hf.2 h2)
theorem callsCase_good {env : Env} (ok : env.Ok) (e : Ex) : ∀ (ms : Mts) (w : Way) (c : Cond) (used : List Nat) (w' : Way) (c' : Cond)
    (used' : List Nat) (r : List Call × Cond),
    OnWay w c used → OnWay w' c' used' → ms.FreshCase used' → callsCase env e c c' ms = .ok r → Good env (ms.eqnsCase env.reverseField e w w') r.1
  | .nil, w, c, used, w', c', used', r, hw, hw', hf, h => by
    simp only [callsCase, Res.ok.injEq] at h; subst h; simp only [Mts.eqnsCase]; exact .nil env
  | .cons _ ix formals conds body rest, w, c, used, w', c', used', r, hw, hw', hf, h => by
    simp only [callsCase, Res.bind_eq_ok, Res.pure_eq, Res.ok.injEq] at h
    obtain ⟨r1, h1, r2, h2, r3, h3, r4, h4, rfl⟩ := h
    obtain ⟨hi, hn, hb, hr⟩ := hf
    rw [hw'.clear hi hn] at h4
    have g1 := formalsCalls_good ok (e := e) formals r1 h1
    have g2 := listCalls_good ok hw conds r2 h2
    have g3 := callsB_good ok body _ _ (ix :: used') r3 (hw'.yes hi hn) hb h3
    have g4 := callsCase_good ok e rest w c used _ _ (ix :: used') r4 hw (hw'.no hi hn) hr h4
    simp only [Mts.eqnsCase]
    exact ((g1.append g2).append g3).append g4
theorem callsFor_good {env : Env} (ok : env.Ok) (e : Ex) : ∀ (ms : Mts) (w : Way) (c : Cond) (used : List Nat) (r : List Call),
    OnWay w c used → ms.FreshFor used → callsFor env e c c ms = .ok r → Good env (ms.eqnsFor env.reverseField e w) r
  | .nil, w, c, used, r, hw, hf, h => by
    simp only [callsFor, Res.ok.injEq] at h; subst h; simp only [Mts.eqnsFor]; exact .nil env
  | .cons _ ix formals conds body rest, w, c, used, r, hw, hf, h => by
    simp only [callsFor, Res.bind_eq_ok, Res.pure_eq, Res.ok.injEq] at h
    obtain ⟨r1, h1, r2, h2, r3, h3, r4, h4, rfl⟩ := h
    obtain ⟨hi, hn, hb, hr⟩ := hf
    rw [hw.clear hi hn] at h4
    have g1 := formalsCalls_good ok (e := e) formals r1 h1
    have g2 := listCalls_good ok hw conds r2 h2
    have g3 := callsB_good ok body _ _ (ix :: used) r3 (hw.yes hi hn) hb h3
    have g4 := callsFor_good ok e rest w c used r4 hw hr h4
    simp only [Mts.eqnsFor]
    exact ((g1.append g2).append g3).append g4
end

theorem infoCalls_good {env : Env} (ok : env.Ok) (lhs : Nat × Nat) : ∀ (kids : List (Nat × Nat)),
    Good env (kids.map fun k => ⟨⟨k.2, some k.1, []⟩, [], .attrRef lhs.2 (some lhs.1), false, false, false⟩) (infoCalls lhs kids)
  | [] => .nil env
  | k :: ks => by
    have g := Good.info ok (OnWay.nil []) lhs.2 lhs.1 ⟨k.2, some k.1, []⟩
    have hz : recordCond env ⟨k.2, some k.1, []⟩ ⟨0, 0⟩ = [] := by
      apply List.eq_nil_iff_forall_not_mem.2
      intro x hx
      obtain ⟨j, r, _, h, _⟩ := recordCond_mem.1 hx
      rcases h with h | h <;> simp at h
    rw [hz] at g
    exact (g.append (infoCalls_good ok lhs ks)).congr (fun x => by simp) (fun x => by simp [infoCalls])

/-- the calls of a rule -/
theorem ruleEdges_good {env : Env} (ok : env.Ok) {body results : Sts} {lhs : Nat × Nat} {kids : List (Nat × Nat)} {g g' : Aug}
    (hb : body.Fresh []) (hr : results.Fresh []) (h : ruleEdges env body results lhs kids g = .ok g') :
    ∃ cs, Good env (ruleEqns env.reverseField body results lhs kids) cs ∧ runCalls env cs g = .ok g' := by
  simp only [ruleEdges, Res.bind_eq_ok] at h
  obtain ⟨r, h1, q, h2, h3⟩ := h
  exact ⟨_, .append (.append (callsB_good ok body [] _ [] r (OnWay.nil []) hb h1) (callsB_good ok results [] _ [] q (OnWay.nil []) hr h2))
    (infoCalls_good ok lhs kids), h3⟩

end Aps.Gen
