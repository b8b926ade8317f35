import Verif.Proofs.EdgeGenNum
set_option linter.unusedVariables false
/-! Accepted rules are processed. -/
namespace Aps.Gen
open Aps.Dnc Aps.Oag

/-- ends normally -/
def Ends {α : Type _} (r : Res α) : Prop := ∃ a, r = .ok a

theorem Ends.ok {α : Type _} (a : α) : Ends (Res.ok a) := ⟨a, rfl⟩

theorem Ends.bind {α β : Type _} {r : Res α} {f : α → Res β} (h : Ends r) (hf : ∀ a, r = .ok a → Ends (f a)) : Ends (r >>= f) := by
  obtain ⟨a, rfl⟩ := h
  exact hf a rfl

mutual
theorem recordExpr_ends {env : Env} {v : Vertex} {c : Cond} : ∀ (e : Ex) (k : Dep) (m : List Nat), e.Bound → Ends (recordExpr env v c k m e)
  | .const, k, m, h => by simp only [recordExpr]; exact .ok _
  | .rep e, k, m, h => by simp only [recordExpr]; exact recordExpr_ends e k m h
  | .use u, k, m, h => by
    cases u with
    | unbound => exact absurd rfl h
    | shared => simp only [recordExpr]; exact .ok _
    | param => simp only [recordExpr]; exact .ok _
    | plain => simp only [recordExpr]; exact .ok _
  | .attrRef a n, k, m, h => by
    cases n with
    | none => exact absurd rfl h
    | some n => simp only [recordExpr]; exact .ok _
  | .fieldRef f b o, k, m, h => by
    simp only [recordExpr]
    exact (recordExpr_ends o _ _ h).bind fun _ _ => (recordExpr_ends o _ _ h).bind fun _ _ => .ok _
  | .localCall f args, k, m, h => by
    simp only [recordExpr]
    split
    · exact (recordArgs_ends args _ _ h.2.2).bind fun _ _ => .ok _
    · exact .ok _
  | .call args, k, m, h => by simp only [recordExpr]; exact recordArgs_ends args k m h
  | .other, k, m, h => absurd h (by simp [Ex.Bound])
theorem recordArgs_ends {env : Env} {v : Vertex} {c : Cond} : ∀ (es : Exs) (k : Dep) (m : List Nat), es.Bound → Ends (recordArgs env v c k m es)
  | .nil, k, m, h => by simp only [recordArgs]; exact .ok _
  | .cons e es, k, m, h => by
    simp only [recordArgs]
    exact (recordExpr_ends e _ _ h.1).bind fun _ _ => (recordArgs_ends es _ _ h.2).bind fun _ _ => .ok _
end

theorem target_bound : ∀ (e : Ex), e.Target → e.Bound
  | .const, h => absurd h (by simp [Ex.Target])
  | .rep e, h => absurd h (by simp [Ex.Target])
  | .use u, h => h
  | .attrRef a n, h => h
  | .fieldRef f b o, h => by
    simp only [Ex.Bound]; exact target_bound o h
  | .localCall f args, h => absurd h (by simp [Ex.Target])
  | .call args, h => absurd h (by simp [Ex.Target])
  | .other, h => absurd h (by simp [Ex.Target])

theorem recordLhs_ends {env : Env} {c : Cond} : ∀ (e : Ex) (k : Dep) (m : List Nat) (rhs : Ex), e.Target → rhs.Bound →
    Ends (recordLhs env c k m rhs e)
  | .const, k, m, rhs, h, hr => absurd h (by simp [Ex.Target])
  | .rep e, k, m, rhs, h, hr => absurd h (by simp [Ex.Target])
  | .use u, k, m, rhs, h, hr => by
    cases u with
    | unbound => exact absurd rfl h
    | shared => simp only [recordLhs, recordSink]; exact (recordExpr_ends rhs _ _ hr).bind fun _ _ => .ok _
    | param => simp only [recordLhs, recordSink]; exact (recordExpr_ends rhs _ _ hr).bind fun _ _ => .ok _
    | plain => simp only [recordLhs, recordSink]; exact (recordExpr_ends rhs _ _ hr).bind fun _ _ => .ok _
  | .attrRef a n, k, m, rhs, h, hr => by
    cases n with
    | none => exact absurd rfl h
    | some n => simp only [recordLhs, recordSink]; exact (recordExpr_ends rhs _ _ hr).bind fun _ _ => .ok _
  | .fieldRef f b o, k, m, rhs, h, hr => by
    simp only [recordLhs]
    exact (recordLhs_ends o _ _ rhs h hr).bind fun _ _ => (recordLhs_ends o _ _ o h (target_bound o h)).bind fun _ _ => .ok _
  | .localCall f args, k, m, rhs, h, hr => absurd h (by simp [Ex.Target])
  | .call args, k, m, rhs, h, hr => absurd h (by simp [Ex.Target])
  | .other, k, m, rhs, h, hr => absurd h (by simp [Ex.Target])

theorem formalCalls_ends {env : Env} {c : Cond} {proxy : Nat} : ∀ (fs : List Nat) (es : Exs), fs.length ≤ es.length → es.Bound →
    Ends (formalCalls env c proxy fs es)
  | [], es, h, hb => by simp only [formalCalls]; exact .ok _
  | f :: fs, .nil, h, hb => by simp [Exs.length] at h
  | f :: fs, .cons a es, h, hb => by
    simp only [formalCalls]
    simp only [List.length_cons, Exs.length] at h
    exact (recordExpr_ends a _ _ hb.1).bind fun _ _ => (formalCalls_ends fs es (by omega) hb.2).bind fun _ _ => .ok _

mutual
theorem exprCalls_ends {env : Env} {c : Cond} : ∀ (e : Ex), e.Bound → Ends (exprCalls env c e)
  | .const, h => by simp only [exprCalls]; exact .ok _
  | .rep e, h => by simp only [exprCalls]; exact exprCalls_ends e h
  | .use u, h => by simp only [exprCalls]; exact .ok _
  | .attrRef a n, h => by simp only [exprCalls]; exact .ok _
  | .fieldRef f b o, h => by simp only [exprCalls]; exact exprCalls_ends o h
  | .localCall f args, h => by
    simp only [exprCalls]
    refine (formalCalls_ends _ _ h.2.1 h.2.2).bind fun _ _ => ?_
    cases hr : f.resp with
    | none => exact absurd hr h.1
    | some n =>
      simp only
      exact (argsCalls_ends args h.2.2).bind fun _ _ => .ok _
  | .call args, h => by simp only [exprCalls]; exact argsCalls_ends args h
  | .other, h => by simp only [exprCalls]; exact .ok _
theorem argsCalls_ends {env : Env} {c : Cond} : ∀ (es : Exs), es.Bound → Ends (argsCalls env c es)
  | .nil, h => by simp only [argsCalls]; exact .ok _
  | .cons e es, h => by
    simp only [argsCalls]
    exact (exprCalls_ends e h.1).bind fun _ _ => (argsCalls_ends es h.2).bind fun _ _ => .ok _
end

theorem listCalls_ends {env : Env} {c : Cond} : ∀ (es : List Ex), (∀ e ∈ es, e.Bound) → Ends (listCalls env c es)
  | [], h => by simp only [listCalls]; exact .ok _
  | e :: es, h => by
    simp only [listCalls]
    exact (exprCalls_ends e (h e (by simp))).bind fun _ _ => (listCalls_ends es fun x hx => h x (by simp [hx])).bind fun _ _ => .ok _

theorem testCalls_ends {env : Env} {v : Vertex} {c : Cond} : ∀ (es : List Ex), (∀ e ∈ es, e.Bound) → Ends (testCalls env v c es)
  | [], h => by simp only [testCalls]; exact .ok _
  | e :: es, h => by
    simp only [testCalls]
    exact (recordExpr_ends e _ _ (h e (by simp))).bind fun _ _ => (testCalls_ends es fun x hx => h x (by simp [hx])).bind fun _ _ => .ok _

theorem formalsCalls_ends {env : Env} {e : Ex} (he : e.Bound) : ∀ (fs : List Nat), Ends (formalsCalls env e fs)
  | [] => by simp only [formalsCalls]; exact .ok _
  | f :: fs => by
    simp only [formalsCalls]
    exact (recordExpr_ends e _ _ he).bind fun _ _ => (formalsCalls_ends he fs).bind fun _ _ => .ok _

theorem matchCalls_ends {env : Env} {c : Cond} : ∀ (ms : Mts) (ts : List Ex), ms.Bound → (∀ e ∈ ts, e.Bound) → Ends (matchCalls env c ts ms)
  | .nil, ts, h, ht => by simp only [matchCalls]; exact .ok _
  | .cons id _ _ conds _ rest, ts, h, ht => by
    simp only [matchCalls]
    have ht' : ∀ e ∈ conds.reverse ++ ts, e.Bound := by
      intro e he
      rcases List.mem_append.1 he with he | he
      · exact h.1 e (by simpa using he)
      · exact ht e he
    exact (testCalls_ends _ ht').bind fun _ _ => (matchCalls_ends rest _ h.2.2 ht').bind fun _ _ => .ok _

theorem dflt_ends {env : Env} {c : Cond} {d : Nat} {resp : Option Nat} : ∀ (x : Dflt), x.Bound → Ends (dfltCalls env c d resp x) ∧ Ends (dfltInner env c x)
  | .none, h => by simp only [dfltCalls, dfltInner]; exact ⟨.ok _, .ok _⟩
  | .simple e _, h => by
    simp only [dfltCalls, dfltInner]
    exact ⟨(recordExpr_ends e _ _ h).bind fun _ _ => (recordExpr_ends e _ _ h).bind fun _ _ => .ok _, exprCalls_ends e h⟩
  | .composite e, h => by
    simp only [dfltCalls, dfltInner]
    exact ⟨recordExpr_ends e _ _ h, exprCalls_ends e h⟩

mutual
theorem callsD_ends {env : Env} : ∀ (s : St) (c : Cond), s.Bound → Ends (callsD env c s)
  | .value d resp shared dflt, c, h => by
    simp only [callsD, valueCalls]
    exact ((dflt_ends dflt h).1.bind fun _ _ => .ok _).bind fun _ _ => (dflt_ends (d := d) (resp := resp) dflt h).2.bind fun _ _ => .ok _
  | .assign lhs rhs, c, h => by
    simp only [callsD]
    exact (recordLhs_ends lhs _ _ rhs h.1 h.2).bind fun _ _ => (exprCalls_ends lhs (target_bound lhs h.1)).bind fun _ _ =>
      (exprCalls_ends rhs h.2).bind fun _ _ => .ok _
  | .ifS id ix test t f, c, h => by
    simp only [callsD]
    exact (recordExpr_ends test _ _ h.1).bind fun _ _ => (exprCalls_ends test h.1).bind fun _ _ => (callsB_ends t _ h.2.1).bind fun _ _ =>
      (callsB_ends f _ h.2.2).bind fun _ _ => .ok _
  | .caseS e ms dflt, c, h => by
    simp only [callsD]
    exact (matchCalls_ends ms _ h.2.1 (by simpa using h.1)).bind fun _ _ => (exprCalls_ends e h.1).bind fun _ _ =>
      (callsCase_ends h.1 ms _ _ h.2.1).bind fun _ _ => (callsB_ends dflt _ h.2.2).bind fun _ _ => .ok _
  | .forS e ms, c, h => by
    simp only [callsD]
    exact (matchCalls_ends ms _ h.2 (by simpa using h.1)).bind fun _ _ => (exprCalls_ends e h.1).bind fun _ _ =>
      (callsFor_ends h.1 ms _ _ h.2).bind fun _ _ => .ok _
  | .forIn formal seq body, c, h => by
    simp only [callsD]
    exact (recordExpr_ends seq _ _ h.1).bind fun _ _ => (exprCalls_ends seq h.1).bind fun _ _ => (callsB_ends body _ h.2).bind fun _ _ => .ok _
  | .skip, c, h => by simp only [callsD]; exact .ok _
theorem callsB_ends {env : Env} : ∀ (b : Sts) (c : Cond), b.Bound → Ends (callsB env c b)
  | .nil, c, h => by simp only [callsB]; exact .ok _
  | .cons s rest, c, h => by
    simp only [callsB]
    exact (callsD_ends s c h.1).bind fun _ _ => (callsB_ends rest c h.2).bind fun _ _ => .ok _
theorem callsCase_ends {env : Env} {e : Ex} (he : e.Bound) : ∀ (ms : Mts) (c c' : Cond), ms.Bound → Ends (callsCase env e c c' ms)
  | .nil, c, c', h => by simp only [callsCase]; exact .ok _
  | .cons _ ix formals conds body rest, c, c', h => by
    simp only [callsCase]
    exact (formalsCalls_ends he formals).bind fun _ _ => (listCalls_ends conds h.1).bind fun _ _ => (callsB_ends body _ h.2.1).bind fun _ _ =>
      (callsCase_ends he rest _ _ h.2.2).bind fun _ _ => .ok _
theorem callsFor_ends {env : Env} {e : Ex} (he : e.Bound) : ∀ (ms : Mts) (c c' : Cond), ms.Bound → Ends (callsFor env e c c' ms)
  | .nil, c, c', h => by simp only [callsFor]; exact .ok _
  | .cons _ ix formals conds body rest, c, c', h => by
    simp only [callsFor]
    exact (formalsCalls_ends he formals).bind fun _ _ => (listCalls_ends conds h.1).bind fun _ _ => (callsB_ends body _ h.2.1).bind fun _ _ =>
      (callsFor_ends he rest _ _ h.2.2).bind fun _ _ => .ok _
end

end Aps.Gen
