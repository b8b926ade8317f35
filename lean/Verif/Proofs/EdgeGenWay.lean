import Verif.Proofs.EdgeGenSt
import Verif.Proofs.IfCond
set_option linter.unusedVariables false
/-! Ways and conditionals. -/
namespace Aps.Gen
open Aps.Dnc Aps.Oag

theorem passed_way {w : Way} {proxy : Nat} : ∀ (fs : List Nat) (args : Exs), ∀ ε ∈ passed w proxy fs args, ε.way = w
  | [], args, ε, h => by cases args <;> simp [passed] at h
  | f :: fs, .nil, ε, h => by simp [passed] at h
  | f :: fs, .cons a es, ε, h => by
    simp only [passed, List.mem_cons] at h
    rcases h with rfl | h
    · rfl
    · exact passed_way fs es ε h

mutual
theorem inner_way {w : Way} : ∀ (e : Ex), ∀ ε ∈ e.inner w, ε.way = w
  | .const, ε, h => by simp [Ex.inner] at h
  | .rep e, ε, h => inner_way e ε (by simpa [Ex.inner] using h)
  | .use _, ε, h => by simp [Ex.inner] at h
  | .attrRef _ _, ε, h => by simp [Ex.inner] at h
  | .fieldRef _ _ o, ε, h => inner_way o ε (by simpa [Ex.inner] using h)
  | .localCall f args, ε, h => by
    simp only [Ex.inner, List.mem_cons, List.mem_append] at h
    rcases h with rfl | rfl | h | h
    · rfl
    · rfl
    · exact passed_way _ _ ε h
    · exact inner_ways args ε h
  | .call args, ε, h => inner_ways args ε (by simpa [Ex.inner] using h)
  | .other, ε, h => by simp [Ex.inner] at h
theorem inner_ways {w : Way} : ∀ (es : Exs), ∀ ε ∈ es.inner w, ε.way = w
  | .nil, ε, h => by simp [Exs.inner] at h
  | .cons e es, ε, h => by
    simp only [Exs.inner, List.mem_append] at h
    rcases h with h | h
    · exact inner_way e ε h
    · exact inner_ways es ε h
end

mutual
theorem assigned_way {rev : Nat → Nat} {w : Way} : ∀ (e : Ex) (t : Bool) (path : List Nat) (rhs : Ex), ∀ ε ∈ e.assigned rev w t path rhs, ε.way = w
  | .const, t, p, rhs, ε, h => by simp [Ex.assigned] at h
  | .rep e, t, p, rhs, ε, h => by simp [Ex.assigned] at h
  | .use u, t, p, rhs, ε, h => by
    cases u <;> simp [Ex.assigned] at h <;> subst h <;> rfl
  | .attrRef _ n, t, p, rhs, ε, h => by
    cases n <;> simp [Ex.assigned] at h; subst h; rfl
  | .fieldRef _ _ o, t, p, rhs, ε, h => by
    simp only [Ex.assigned, List.mem_append] at h
    rcases h with h | h
    · exact assigned_way o _ _ _ ε h
    · exact assigned_way o _ _ _ ε h
  | .localCall f args, t, p, rhs, ε, h => by simp [Ex.assigned] at h
  | .call args, t, p, rhs, ε, h => assigned_ways args t p rhs ε (by simpa [Ex.assigned] using h)
  | .other, t, p, rhs, ε, h => by simp [Ex.assigned] at h
theorem assigned_ways {rev : Nat → Nat} {w : Way} : ∀ (es : Exs) (t : Bool) (path : List Nat) (rhs : Ex), ∀ ε ∈ es.assigned rev w t path rhs, ε.way = w
  | .nil, t, p, rhs, ε, h => by simp [Exs.assigned] at h
  | .cons e es, t, p, rhs, ε, h => by
    simp only [Exs.assigned, List.mem_append] at h
    rcases h with h | h
    · exact assigned_way e _ _ _ ε h
    · exact assigned_ways es _ _ _ ε h
end

theorem tests_way {w : Way} : ∀ (ms : Mts) (ts : List Ex), ∀ ε ∈ ms.tests w ts, ε.way = w
  | .nil, ts, ε, h => by simp [Mts.tests] at h
  | .cons id _ _ conds _ rest, ts, ε, h => by
    simp only [Mts.tests, List.mem_append, List.mem_map] at h
    rcases h with ⟨e, _, rfl⟩ | h
    · rfl
    · exact tests_way rest _ ε h

/-- every outcome on the way of the equation is on `w` or of one of these conditionals, which is on the way -/
def Led (w : Way) (l : List Cnd) (ε : Eqn) : Prop :=
  ∀ y ∈ ε.way, (∀ z ∈ w, z ∈ ε.way) ∧ (y ∈ w ∨ ∃ x ∈ l, x.ix = y.1 ∧ ∀ z ∈ x.way, z ∈ ε.way)

theorem Led.here {w : Way} {l : List Cnd} {ε : Eqn} (h : ε.way = w) : Led w l ε := by
  intro y hy; exact ⟨fun z hz => h ▸ hz, .inl (h ▸ hy)⟩

theorem Led.mono {w : Way} {l l' : List Cnd} {ε : Eqn} (h : Led w l ε) (hl : ∀ x ∈ l, x ∈ l') : Led w l' ε := by
  intro y hy
  obtain ⟨h1, h2⟩ := h y hy
  refine ⟨h1, h2.imp id ?_⟩
  rintro ⟨x, hx, h⟩; exact ⟨x, hl x hx, h⟩

theorem Led.under {w : Way} {l l' : List Cnd} {ε : Eqn} {id ix : Nat} {b : Bool} (h : Led (w ++ [(ix, b)]) l ε)
    (hx : ⟨w, id, ix⟩ ∈ l') (hl : ∀ x ∈ l, x ∈ l') : Led w l' ε := by
  intro y hy
  obtain ⟨h1, h2⟩ := h y hy
  refine ⟨fun z hz => h1 z (by simp [hz]), ?_⟩
  rcases h2 with h2 | ⟨x, hx', h2⟩
  · rcases List.mem_append.1 h2 with h2 | h2
    · exact .inl h2
    · simp only [List.mem_singleton] at h2; subst h2
      exact .inr ⟨_, hx, rfl, fun z hz => h1 z (by simp only at hz; simp [hz])⟩
  · exact .inr ⟨x, hl x hx', h2⟩

theorem failed_ifs : ∀ (ms : Mts) (w : Way), ∀ y ∈ ms.failed, ∃ x ∈ ms.ifsCase w, x.ix = y.1 ∧ ∀ z ∈ x.way, z ∈ w ++ ms.failed
  | .nil, w, y, h => by simp [Mts.failed] at h
  | .cons id ix _ _ body rest, w, y, h => by
    simp only [Mts.failed, List.mem_cons] at h
    rcases h with rfl | h
    · exact ⟨⟨w, id, ix⟩, by simp [Mts.ifsCase], rfl, fun z hz => by simp only at hz; simp [hz]⟩
    · obtain ⟨x, hx, h1, h2⟩ := failed_ifs rest (w ++ [(ix, false)]) y h
      refine ⟨x, by simp [Mts.ifsCase, hx], h1, fun z hz => ?_⟩
      have := h2 z hz
      simpa [Mts.failed] using this

mutual
theorem led_st {rev : Nat → Nat} : ∀ (s : St) (w : Way), ∀ ε ∈ s.eqns rev w, Led w (s.ifs w) ε
  | .value d resp shared dflt, w, ε, h => by
    apply Led.here
    cases dflt with
    | none =>
      simp only [St.eqns, declared, List.mem_cons, List.not_mem_nil, or_false] at h
      rcases h with rfl | rfl <;> rfl
    | simple e fs =>
      simp only [St.eqns, declared, List.mem_append, List.mem_cons, List.not_mem_nil, or_false] at h
      rcases h with (rfl | rfl) | h
      · rfl
      · rfl
      · exact inner_way e ε h
    | composite e =>
      simp only [St.eqns, declared, List.mem_append, List.mem_cons, List.not_mem_nil, or_false] at h
      rcases h with (rfl | rfl) | h
      · rfl
      · rfl
      · exact inner_way e ε h
  | .assign lhs rhs, w, ε, h => by
    apply Led.here
    simp only [St.eqns, List.mem_append] at h
    rcases h with (h | h) | h
    · exact assigned_way _ _ _ _ ε h
    · exact inner_way _ ε h
    · exact inner_way _ ε h
  | .ifS id ix test t f, w, ε, h => by
    simp only [St.eqns, List.mem_append, List.mem_cons] at h
    simp only [St.ifs]
    rcases h with rfl | (h | h) | h
    · exact .here rfl
    · exact .here (inner_way _ ε h)
    · exact (led_sts t _ ε h).under (id := id) (by simp) (fun x hx => by simp [hx])
    · exact (led_sts f _ ε h).under (id := id) (by simp) (fun x hx => by simp [hx])
  | .caseS e ms dflt, w, ε, h => by
    simp only [St.eqns, List.mem_append] at h
    simp only [St.ifs]
    rcases h with ((h | h) | h) | h
    · exact .here (tests_way _ _ ε h)
    · exact .here (inner_way _ ε h)
    · rcases led_case ms e w w ε h with h | h
      · exact .here h
      · exact h.mono fun x hx => by simp [hx]
    · have := led_sts dflt _ ε h
      intro y hy
      obtain ⟨h1, h2⟩ := this y hy
      refine ⟨fun z hz => h1 z (by simp [hz]), ?_⟩
      rcases h2 with h2 | ⟨x, hx, h2⟩
      · rcases List.mem_append.1 h2 with h2 | h2
        · exact .inl h2
        · obtain ⟨x, hx, h3, h4⟩ := failed_ifs ms w y h2
          exact .inr ⟨x, by simp [hx], h3, fun z hz => h1 z (h4 z hz)⟩
      · exact .inr ⟨x, by simp [hx], h2⟩
  | .forS e ms, w, ε, h => by
    simp only [St.eqns, List.mem_append] at h
    simp only [St.ifs]
    rcases h with (h | h) | h
    · exact .here (tests_way _ _ ε h)
    · exact .here (inner_way _ ε h)
    · exact led_for ms e w ε h
  | .forIn formal seq body, w, ε, h => by
    simp only [St.eqns, List.mem_append, List.mem_cons] at h
    simp only [St.ifs]
    rcases h with rfl | h | h
    · exact .here rfl
    · exact .here (inner_way _ ε h)
    · exact led_sts body w ε h
  | .skip, w, ε, h => by simp [St.eqns] at h
theorem led_sts {rev : Nat → Nat} : ∀ (b : Sts) (w : Way), ∀ ε ∈ b.eqns rev w, Led w (b.ifs w) ε
  | .nil, w, ε, h => by simp [Sts.eqns] at h
  | .cons s rest, w, ε, h => by
    simp only [Sts.eqns, List.mem_append] at h
    simp only [Sts.ifs]
    rcases h with h | h
    · exact (led_st s w ε h).mono fun x hx => by simp [hx]
    · exact (led_sts rest w ε h).mono fun x hx => by simp [hx]
theorem led_case {rev : Nat → Nat} : ∀ (ms : Mts) (e : Ex) (w w' : Way), ∀ ε ∈ ms.eqnsCase rev e w w', ε.way = w ∨ Led w' (ms.ifsCase w') ε
  | .nil, e, w, w', ε, h => by simp [Mts.eqnsCase] at h
  | .cons id ix formals conds body rest, e, w, w', ε, h => by
    simp only [Mts.eqnsCase, List.mem_append, List.mem_map, List.mem_flatMap] at h
    simp only [Mts.ifsCase]
    rcases h with ((⟨f, _, rfl⟩ | ⟨c, _, h⟩) | h) | h
    · right; intro y hy; cases hy
    · exact .inl (inner_way _ ε h)
    · exact .inr ((led_sts body _ ε h).under (id := id) (by simp) (fun x hx => by simp [hx]))
    · rcases led_case rest e w _ ε h with h | h
      · exact .inl h
      · exact .inr (h.under (id := id) (by simp) (fun x hx => by simp [hx]))
theorem led_for {rev : Nat → Nat} : ∀ (ms : Mts) (e : Ex) (w : Way), ∀ ε ∈ ms.eqnsFor rev e w, Led w (ms.ifsFor w) ε
  | .nil, e, w, ε, h => by simp [Mts.eqnsFor] at h
  | .cons id ix formals conds body rest, e, w, ε, h => by
    simp only [Mts.eqnsFor, List.mem_append, List.mem_map, List.mem_flatMap] at h
    simp only [Mts.ifsFor]
    rcases h with ((⟨f, _, rfl⟩ | ⟨c, _, h⟩) | h) | h
    · intro y hy; cases hy
    · exact .here (inner_way _ ε h)
    · exact (led_sts body _ ε h).under (id := id) (by simp) (fun x hx => by simp [hx])
    · exact (led_for rest e w ε h).mono fun x hx => by simp [hx]
end

theorem led_rule {rev : Nat → Nat} {body results : Sts} {lhs : Nat × Nat} {kids : List (Nat × Nat)} :
    ∀ ε ∈ ruleEqns rev body results lhs kids, ∀ y ∈ ε.way, ∃ x ∈ body.ifs [] ++ results.ifs [], x.ix = y.1 ∧ ∀ z ∈ x.way, z ∈ ε.way := by
  intro ε h y hy
  simp only [ruleEqns, List.mem_append, List.mem_map] at h
  rcases h with (h | h) | ⟨k, _, rfl⟩
  · rcases (led_sts body [] ε h y hy).2 with h | ⟨x, hx, h⟩
    · cases h
    · exact ⟨x, List.mem_append_left _ hx, h⟩
  · rcases (led_sts results [] ε h y hy).2 with h | ⟨x, hx, h⟩
    · cases h
    · exact ⟨x, List.mem_append_right _ hx, h⟩
  · cases hy

end Aps.Gen
