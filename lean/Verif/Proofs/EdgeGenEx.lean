import Verif.Proofs.EdgeGenRun
set_option linter.unusedVariables false
/-! The dependencies recorded for an expression and a left-hand side. -/
namespace Aps.Gen
open Aps.Dnc Aps.Oag

theorem simpleKind_bit {env : Env} {d : Nat} {k : Dep} {t : Nat} (h : k.getLsbD t = true) : (simpleKind env d k).getLsbD t = true := by
  unfold simpleKind
  split
  · exact h
  · simp [h]

theorem simpleKind_inv {env : Env} {d : Nat} {k : Dep} {t : Nat} (ht : t ≠ 4) : (simpleKind env d k).getLsbD t = k.getLsbD t := by
  unfold simpleKind
  split
  · rfl
  · have := bit16 (i := t)
    cases h : MAYBE_SIMPLE.getLsbD t
    · simp [h]
    · exact absurd (this.1 h) ht

theorem noCarry_bit {k : Dep} {t : Nat} (ht : t ≠ 2) : (noCarry k).getLsbD t = k.getLsbD t := by
  unfold noCarry
  rw [andnot_getLsbD]
  have := bit4 (i := t)
  cases h : MAYBE_CARRYING.getLsbD t
  · simp
  · exact absurd (this.1 h) ht

theorem noCarry_two {k : Dep} : (noCarry k).getLsbD 2 = false := by
  unfold noCarry
  rw [andnot_getLsbD, bit4.2 rfl]
  simp

/-- What is recorded is about reads. -/
structure ExOnly (sink : Vertex) (c : Cond) (k : Dep) (reads : List Place) (flows : List Vertex) (r : List Call) : Prop where
  snk : ∀ x ∈ r, x.snk = sink
  cond : ∀ x ∈ r, x.cond = c
  keep : ∀ x ∈ r, ∀ t, t ≠ 2 → k.getLsbD t = true → x.kind.getLsbD t = true
  gain : ∀ x ∈ r, ∀ t, t ≠ 4 → x.kind.getLsbD t = true → k.getLsbD t = true
  read : ∀ x ∈ r, x.src.mods = [] → (x.src.attr, x.src.node) ∈ reads
  flow : ∀ x ∈ r, x.kind.getLsbD 2 = true → x.src ∈ flows

theorem ExOnly.nil {sink c k reads flows} : ExOnly sink c k reads flows [] :=
  ⟨by simp, by simp, by simp, by simp, by simp, by simp⟩

theorem ExOnly.append {sink c k reads flows r q} (h1 : ExOnly sink c k reads flows r) (h2 : ExOnly sink c k reads flows q) :
    ExOnly sink c k reads flows (r ++ q) := by
  constructor <;> intro x hx <;> rcases List.mem_append.1 hx with hx | hx
  · exact h1.snk x hx
  · exact h2.snk x hx
  · exact h1.cond x hx
  · exact h2.cond x hx
  · exact h1.keep x hx
  · exact h2.keep x hx
  · exact h1.gain x hx
  · exact h2.gain x hx
  · exact h1.read x hx
  · exact h2.read x hx
  · exact h1.flow x hx
  · exact h2.flow x hx

theorem ExOnly.mono {sink c k reads flows reads' flows' r} (h1 : ExOnly sink c k reads flows r) (hr : ∀ p ∈ reads, p ∈ reads')
    (hf : ∀ p ∈ flows, p ∈ flows') : ExOnly sink c k reads' flows' r :=
  ⟨h1.snk, h1.cond, h1.keep, h1.gain, fun x hx hm => hr _ (h1.read x hx hm), fun x hx hm => hf _ (h1.flow x hx hm)⟩

/-- a stronger kind by `simpleKind` -/
theorem ExOnly.simple {env : Env} {d : Nat} {sink c k reads flows r} (h : ExOnly sink c (simpleKind env d k) reads flows r) :
    ExOnly sink c k reads flows r :=
  ⟨h.snk, h.cond, fun x hx t ht hk => h.keep x hx t ht (simpleKind_bit hk),
    fun x hx t ht hk => by have := h.gain x hx t ht hk; rwa [simpleKind_inv ht] at this, h.read, h.flow⟩

/-- not carrying -/
theorem ExOnly.carry {sink c k reads flows flows' r} (h : ExOnly sink c (noCarry k) reads flows r) : ExOnly sink c k reads flows' r :=
  ⟨h.snk, h.cond, fun x hx t ht hk => h.keep x hx t ht (by rwa [noCarry_bit ht]),
    fun x hx t ht hk => by
      have := h.gain x hx t ht hk
      by_cases h2 : t = 2
      · subst h2; rw [noCarry_two] at this; cases this
      · rwa [noCarry_bit h2] at this,
    h.read, fun x hx hm => by
      have := h.gain x hx 2 (by decide) hm
      rw [noCarry_two] at this; cases this⟩

theorem ExOnly.one {env : Env} {d : Nat} {sink : Vertex} {c : Cond} {k : Dep} {v : Vertex} {reads : List Place} {flows : List Vertex}
    (hr : v.mods = [] → (v.attr, v.node) ∈ reads) (hf : v ∈ flows) :
    ExOnly sink c k reads flows [⟨v, sink, c, simpleKind env d k⟩] := by
  apply ExOnly.simple (env := env) (d := d)
  constructor <;> intro x hx <;> simp only [List.mem_singleton] at hx <;> subst hx
  · rfl
  · rfl
  · exact fun t _ h => h
  · exact fun t _ h => h
  · exact hr
  · exact fun _ => hf

theorem ExOnly.plain {sink : Vertex} {c : Cond} {k : Dep} {v : Vertex} {reads : List Place} {flows : List Vertex}
    (hr : v.mods = [] → (v.attr, v.node) ∈ reads) (hf : v ∈ flows) :
    ExOnly sink c k reads flows [⟨v, sink, c, k⟩] := by
  constructor <;> intro x hx <;> simp only [List.mem_singleton] at hx <;> subst hx
  · rfl
  · rfl
  · exact fun t _ h => h
  · exact fun t _ h => h
  · exact hr
  · exact fun _ => hf

mutual
theorem recordExpr_only {env : Env} {sink : Vertex} {c : Cond} : ∀ (e : Ex) (k : Dep) (mods : List Nat) (r : List Call),
    recordExpr env sink c k mods e = .ok r → ExOnly sink c k e.reads (e.flows mods) r
  | .const, k, mods, r, h => by
    simp only [recordExpr, Res.ok.injEq] at h; subst h; exact .nil
  | .rep e, k, mods, r, h => by
    simp only [recordExpr] at h
    exact recordExpr_only e k mods r h
  | .use u, k, mods, r, h => by
    cases u with
    | unbound => simp only [recordExpr] at h; cases h
    | shared d resp info _ =>
      simp only [recordExpr, Res.ok.injEq] at h; subst h
      refine ExOnly.append (r := [_]) ?_ ?_
      · refine ExOnly.simple (env := env) (d := d) (ExOnly.carry (flows := [⟨info, some resp, []⟩]) (.plain ?_ ?_))
        · intro _; simp [Ex.reads]
        · simp
      · refine .one ?_ ?_
        · intro h; cases h
        · simp [Ex.flows]
    | param d rule =>
      simp only [recordExpr, Res.ok.injEq] at h; subst h
      exact .one (by simp [Ex.reads]) (by simp [Ex.flows])
    | plain d =>
      simp only [recordExpr, Res.ok.injEq] at h; subst h
      exact .one (by simp [Ex.reads]) (by simp [Ex.flows])
  | .attrRef a node, k, mods, r, h => by
    cases node with
    | none => simp only [recordExpr] at h; cases h
    | some n =>
      simp only [recordExpr, Res.ok.injEq] at h; subst h
      exact .one (by simp [Ex.reads]) (by simp [Ex.flows])
  | .fieldRef f b o, k, mods, r, h => by
    simp only [recordExpr, Res.bind_eq_ok, Res.pure_eq, Res.ok.injEq] at h
    obtain ⟨r1, h1, r2, h2, rfl⟩ := h
    have i1 := recordExpr_only o _ _ r1 h1
    have i2 := recordExpr_only o _ _ r2 h2
    simp only [Ex.reads, Ex.flows]
    exact .append (ExOnly.simple (ExOnly.carry i1)) i2.simple
  | .localCall f args, k, mods, r, h => by
    have last : ExOnly sink c k (Ex.localCall f args).reads ((Ex.localCall f args).flows mods) [⟨⟨f.result, some f.proxy, mods⟩, sink, c, k⟩] :=
      .plain (by intro _; simp [Ex.reads]) (by simp [Ex.flows])
    simp only [recordExpr] at h
    split at h
    · simp only [Res.bind_eq_ok, Res.pure_eq, Res.ok.injEq] at h
      obtain ⟨r1, h1, rfl⟩ := h
      exact .append (ExOnly.simple (ExOnly.carry ((recordArgs_only args _ _ r1 h1).mono
          (fun p hp => by rw [Ex.reads]; exact List.mem_append_left _ hp) (fun p hp => hp)))) last
    · simp only [Res.ok.injEq] at h; subst h; exact last
  | .call args, k, mods, r, h => by
    simp only [recordExpr] at h
    simp only [Ex.reads, Ex.flows]
    exact recordArgs_only args k mods r h
  | .other, k, mods, r, h => by simp only [recordExpr] at h; cases h
theorem recordArgs_only {env : Env} {sink : Vertex} {c : Cond} : ∀ (es : Exs) (k : Dep) (mods : List Nat) (r : List Call),
    recordArgs env sink c k mods es = .ok r → ExOnly sink c k es.reads (es.flows mods) r
  | .nil, k, mods, r, h => by simp only [recordArgs, Res.ok.injEq] at h; subst h; exact .nil
  | .cons e es, k, mods, r, h => by
    simp only [recordArgs, Res.bind_eq_ok, Res.pure_eq, Res.ok.injEq] at h
    obtain ⟨r1, h1, r2, h2, rfl⟩ := h
    simp only [Exs.reads, Exs.flows]
    exact .append ((recordExpr_only e _ _ _ h1).mono (fun p hp => List.mem_append_left _ hp) (fun p hp => List.mem_append_left _ hp))
      ((recordArgs_only es _ _ _ h2).mono (fun p hp => List.mem_append_right _ hp) (fun p hp => List.mem_append_right _ hp))
end

/-- All reads are recorded. -/
def HasReads (sink : Vertex) (c : Cond) (k : Dep) (reads : List Place) (r : List Call) : Prop :=
  ∀ p ∈ reads, ∃ x ∈ r, x.src = vx p ∧ x.snk = sink ∧ x.cond = c ∧ ∀ t, t ≠ 2 → k.getLsbD t = true → x.kind.getLsbD t = true

/-- All flows are recorded. -/
def HasFlows (sink : Vertex) (c : Cond) (k : Dep) (flows : List Vertex) (r : List Call) : Prop :=
  ∀ v ∈ flows, ∃ x ∈ r, x.src = v ∧ x.snk = sink ∧ x.cond = c ∧ ∀ t, k.getLsbD t = true → x.kind.getLsbD t = true

theorem HasReads.mono {sink c k reads r r'} (h : HasReads sink c k reads r) (hr : ∀ x ∈ r, x ∈ r') : HasReads sink c k reads r' :=
  fun p hp => by obtain ⟨x, hx, h'⟩ := h p hp; exact ⟨x, hr x hx, h'⟩

theorem HasFlows.mono {sink c k flows r r'} (h : HasFlows sink c k flows r) (hr : ∀ x ∈ r, x ∈ r') : HasFlows sink c k flows r' :=
  fun p hp => by obtain ⟨x, hx, h'⟩ := h p hp; exact ⟨x, hr x hx, h'⟩

theorem HasReads.kind {sink c k k' reads r} (h : HasReads sink c k reads r) (hr : ∀ t, t ≠ 2 → k'.getLsbD t = true → k.getLsbD t = true) :
    HasReads sink c k' reads r :=
  fun p hp => by
    obtain ⟨x, hx, h1, h2, h3, h4⟩ := h p hp
    exact ⟨x, hx, h1, h2, h3, fun t ht hk => h4 t ht (hr t ht hk)⟩

theorem HasFlows.kind {sink c k k' flows r} (h : HasFlows sink c k flows r) (hr : ∀ t, k'.getLsbD t = true → k.getLsbD t = true) :
    HasFlows sink c k' flows r :=
  fun p hp => by
    obtain ⟨x, hx, h1, h2, h3, h4⟩ := h p hp
    exact ⟨x, hx, h1, h2, h3, fun t hk => h4 t (hr t hk)⟩

theorem HasReads.append {sink c k a b r q} (h1 : HasReads sink c k a r) (h2 : HasReads sink c k b q) : HasReads sink c k (a ++ b) (r ++ q) := by
  intro p hp
  rcases List.mem_append.1 hp with hp | hp
  · exact h1.mono (fun x hx => List.mem_append_left _ hx) p hp
  · exact h2.mono (fun x hx => List.mem_append_right _ hx) p hp

theorem HasFlows.append {sink c k a b r q} (h1 : HasFlows sink c k a r) (h2 : HasFlows sink c k b q) : HasFlows sink c k (a ++ b) (r ++ q) := by
  intro p hp
  rcases List.mem_append.1 hp with hp | hp
  · exact h1.mono (fun x hx => List.mem_append_left _ hx) p hp
  · exact h2.mono (fun x hx => List.mem_append_right _ hx) p hp

theorem HasReads.one {env : Env} {d : Nat} {sink : Vertex} {c : Cond} {k : Dep} {p : Place} :
    HasReads sink c k [p] [⟨vx p, sink, c, simpleKind env d k⟩] := by
  intro q hq
  simp only [List.mem_singleton] at hq; subst hq
  exact ⟨_, List.mem_singleton.2 rfl, rfl, rfl, rfl, fun t _ h => simpleKind_bit h⟩

theorem HasFlows.one {env : Env} {d : Nat} {sink : Vertex} {c : Cond} {k : Dep} {v : Vertex} :
    HasFlows sink c k [v] [⟨v, sink, c, simpleKind env d k⟩] := by
  intro q hq
  simp only [List.mem_singleton] at hq; subst hq
  exact ⟨_, List.mem_singleton.2 rfl, rfl, rfl, rfl, fun t h => simpleKind_bit h⟩

mutual
theorem recordExpr_reads {env : Env} {sink : Vertex} {c : Cond} : ∀ (e : Ex) (k : Dep) (r : List Call),
    recordExpr env sink c k [] e = .ok r → HasReads sink c k e.reads r
  | .const, k, r, h => by intro p hp; simp [Ex.reads] at hp
  | .rep e, k, r, h => by
    simp only [recordExpr] at h
    exact recordExpr_reads e k r h
  | .use u, k, r, h => by
    cases u with
    | unbound => simp only [recordExpr] at h; cases h
    | shared d resp info _ =>
      simp only [recordExpr, Res.ok.injEq] at h; subst h
      intro q hq
      simp only [Ex.reads, List.mem_singleton] at hq; subst hq
      exact ⟨_, List.mem_cons_self, rfl, rfl, rfl, fun t ht h => by rw [noCarry_bit ht]; exact simpleKind_bit h⟩
    | param d rule =>
      simp only [recordExpr, Res.ok.injEq] at h; subst h; exact .one
    | plain d =>
      simp only [recordExpr, Res.ok.injEq] at h; subst h; exact .one
  | .attrRef a node, k, r, h => by
    cases node with
    | none => simp only [recordExpr] at h; cases h
    | some n => simp only [recordExpr, Res.ok.injEq] at h; subst h; exact .one
  | .fieldRef f b o, k, r, h => by
    simp only [recordExpr, Res.bind_eq_ok, Res.pure_eq, Res.ok.injEq] at h
    obtain ⟨r1, h1, r2, h2, rfl⟩ := h
    have i1 := recordExpr_reads o _ r1 h1
    simp only [Ex.reads]
    exact (i1.kind fun t ht hk => by rw [noCarry_bit ht]; exact simpleKind_bit hk).mono (fun x hx => List.mem_append_left _ hx)
  | .localCall f args, k, r, h => by
    simp only [recordExpr, Res.bind_eq_ok, Res.pure_eq, Res.ok.injEq, if_true] at h
    obtain ⟨r1, h1, rfl⟩ := h
    simp only [Ex.reads]
    refine .append ((recordArgs_reads args _ r1 h1).kind fun t ht hk => by rw [noCarry_bit ht]; exact simpleKind_bit hk) ?_
    intro q hq
    simp only [List.mem_singleton] at hq; subst hq
    exact ⟨_, List.mem_cons_self, rfl, rfl, rfl, fun t ht h => h⟩
  | .call args, k, r, h => by
    simp only [recordExpr] at h
    simp only [Ex.reads]
    exact recordArgs_reads args k r h
  | .other, k, r, h => by simp only [recordExpr] at h; cases h
theorem recordArgs_reads {env : Env} {sink : Vertex} {c : Cond} : ∀ (es : Exs) (k : Dep) (r : List Call),
    recordArgs env sink c k [] es = .ok r → HasReads sink c k es.reads r
  | .nil, k, r, h => by intro p hp; simp [Exs.reads] at hp
  | .cons e es, k, r, h => by
    simp only [recordArgs, Res.bind_eq_ok, Res.pure_eq, Res.ok.injEq] at h
    obtain ⟨r1, h1, r2, h2, rfl⟩ := h
    simp only [Exs.reads]
    exact .append (recordExpr_reads e _ _ h1) (recordArgs_reads es _ _ h2)
end

mutual
theorem recordExpr_flows {env : Env} {sink : Vertex} {c : Cond} : ∀ (e : Ex) (k : Dep) (mods : List Nat) (r : List Call),
    recordExpr env sink c k mods e = .ok r → HasFlows sink c k (e.flows mods) r
  | .const, k, mods, r, h => by intro p hp; simp [Ex.flows] at hp
  | .rep e, k, mods, r, h => by
    simp only [recordExpr] at h
    exact recordExpr_flows e k mods r h
  | .use u, k, mods, r, h => by
    cases u with
    | unbound => simp only [recordExpr] at h; cases h
    | shared d resp info _ =>
      simp only [recordExpr, Res.ok.injEq] at h; subst h
      intro q hq
      simp only [Ex.flows, List.mem_singleton] at hq; subst hq
      exact ⟨_, List.mem_cons_of_mem _ List.mem_cons_self, rfl, rfl, rfl, fun t h => simpleKind_bit h⟩
    | param d rule =>
      simp only [recordExpr, Res.ok.injEq] at h; subst h; exact .one
    | plain d =>
      simp only [recordExpr, Res.ok.injEq] at h; subst h; exact .one
  | .attrRef a node, k, mods, r, h => by
    cases node with
    | none => simp only [recordExpr] at h; cases h
    | some n => simp only [recordExpr, Res.ok.injEq] at h; subst h; exact .one
  | .fieldRef f b o, k, mods, r, h => by
    simp only [recordExpr, Res.bind_eq_ok, Res.pure_eq, Res.ok.injEq] at h
    obtain ⟨r1, h1, r2, h2, rfl⟩ := h
    have i2 := recordExpr_flows o _ _ r2 h2
    simp only [Ex.flows]
    exact (i2.kind fun t hk => simpleKind_bit hk).mono (fun x hx => List.mem_append_right _ hx)
  | .localCall f args, k, mods, r, h => by
    intro q hq
    simp only [Ex.flows, List.mem_singleton] at hq; subst hq
    simp only [recordExpr] at h
    split at h
    · simp only [Res.bind_eq_ok, Res.pure_eq, Res.ok.injEq] at h
      obtain ⟨r1, h1, rfl⟩ := h
      exact ⟨_, List.mem_append_right _ List.mem_cons_self, rfl, rfl, rfl, fun t h => h⟩
    · simp only [Res.ok.injEq] at h; subst h
      exact ⟨_, List.mem_cons_self, rfl, rfl, rfl, fun t h => h⟩
  | .call args, k, mods, r, h => by
    simp only [recordExpr] at h
    simp only [Ex.flows]
    exact recordArgs_flows args k mods r h
  | .other, k, mods, r, h => by simp only [recordExpr] at h; cases h
theorem recordArgs_flows {env : Env} {sink : Vertex} {c : Cond} : ∀ (es : Exs) (k : Dep) (mods : List Nat) (r : List Call),
    recordArgs env sink c k mods es = .ok r → HasFlows sink c k (es.flows mods) r
  | .nil, k, mods, r, h => by intro p hp; simp [Exs.flows] at hp
  | .cons e es, k, mods, r, h => by
    simp only [recordArgs, Res.bind_eq_ok, Res.pure_eq, Res.ok.injEq] at h
    obtain ⟨r1, h1, r2, h2, rfl⟩ := h
    simp only [Exs.flows]
    exact .append (recordExpr_flows e _ _ _ h1) (recordArgs_flows es _ _ _ h2)
end

end Aps.Gen
