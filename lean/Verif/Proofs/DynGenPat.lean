import Verif.Spec.DynGen
import Mathlib.Tactic.Common
set_option linter.unusedVariables false
/-! Generated pattern conditions agree with matching. -/
namespace Aps.DynGen
variable {V : Type}

theorem Res.bind_ok_iff {α β : Type} {x : Res α} {f : α → Res β} {b : β} :
    x.bind f = .ok b ↔ ∃ a, x = .ok a ∧ f a = .ok b := by
  cases x <;> simp

/-- The paths of `σ` have values, and `ρ'` is what the variables are with them. -/
def Repr (W : World V) (n : V) (ρ : Env V) (σ : List (Nat × Path)) (ρ' : Env V) : Prop := evalSubst W n ρ σ = .ok ρ'

theorem Repr.cons {W : World V} {n : V} {ρ : Env V} {σ : List (Nat × Path)} {ρ' : Env V} (h : Repr W n ρ σ ρ')
    {p : Path} {v : V} (hp : evalPath W n p = .ok v) (x : Nat) :
    Repr W n ρ ((x, p) :: σ) (fun y => if y = x then v else ρ' y) := by
  show (evalSubst W n ρ σ).bind _ = _
  rw [show evalSubst W n ρ σ = _ from h]
  simp [hp]

mutual
theorem pcond_spec {W : World V} {ar : Nat → Nat} (L : Lawful W ar) (n : V) (ρ : Env V) :
    ∀ (p : Pat V) (e : Path) (σ : List (Nat × Path)) (c : Cond V) (σ' : List (Nat × Path)), patOk ar p →
      pcond ar p e σ = some (c, σ') → ∀ v, evalPath W n e = .ok v → ∀ ρ', Repr W n ρ σ ρ' →
      evalCond W n ρ c = .ok (pmatch W p v ρ').isSome ∧ ∀ ρ'', pmatch W p v ρ' = some ρ'' → Repr W n ρ σ' ρ''
  | .typed t p, e, σ, c, σ', hk, h, v, hv, ρ', hr => by
    simp only [pcond, Option.map_eq_some_iff] at h
    obtain ⟨⟨c1, σ1⟩, h1, h2⟩ := h
    cases h2
    obtain ⟨a, b⟩ := pcond_spec L n ρ p e σ c1 σ1 hk h1 v hv ρ' hr
    simp only [evalCond, hv, pmatch]
    by_cases ht : W.typeOf v = t
    · simpa [ht] using ⟨a, b⟩
    · simp [ht]
  | .call cc ps, e, σ, c, σ', hk, h, v, hv, ρ', hr => by
    simp only [pcond, Option.map_eq_some_iff] at h
    obtain ⟨⟨c1, σ1⟩, h1, h2⟩ := h
    cases h2
    simp only [evalCond, hv, pmatch]
    by_cases ht : W.consOf v = cc
    · subst ht
      obtain ⟨a, b⟩ := callCond_spec L n ρ ps e v hv 0 (ar (W.consOf v)) σ c1 σ1 hk.2 hk.1
        (by rw [L.arity]; omega) h1 ρ' hr
      simpa using ⟨a, b⟩
    · simp [ht]
  | .seq ps, e, σ, c, σ', hk, h, v, hv, ρ', hr => seqCond_spec L n ρ ps e σ c σ' hk h v hv ρ' hr
  | .and p q, e, σ, c, σ', hk, h, v, hv, ρ', hr => by
    simp only [pcond, Option.bind_eq_some_iff, Option.map_eq_some_iff] at h
    obtain ⟨⟨c1, σ1⟩, h1, ⟨c2, σ2⟩, h2, h3⟩ := h
    cases h3
    obtain ⟨a, b⟩ := pcond_spec L n ρ p e σ c1 σ1 hk.1 h1 v hv ρ' hr
    simp only [evalCond, a, pmatch]
    cases hm : pmatch W p v ρ' with
    | none => simp
    | some ρ1 =>
      obtain ⟨a', b'⟩ := pcond_spec L n ρ q e σ1 c2 σ2 hk.2 h2 v hv ρ1 (b ρ1 hm)
      simpa using ⟨a', b'⟩
  | .var x, e, σ, c, σ', hk, h, v, hv, ρ', hr => by
    simp only [pcond, Option.some.injEq, Prod.mk.injEq] at h
    obtain ⟨rfl, rfl⟩ := h
    refine ⟨rfl, fun ρ'' e' => ?_⟩
    simp only [pmatch, Option.some.injEq] at e'
    subst e'
    exact hr.cons hv x
  | .wild, e, σ, c, σ', hk, h, v, hv, ρ', hr => by
    simp only [pcond, Option.some.injEq, Prod.mk.injEq] at h
    obtain ⟨rfl, rfl⟩ := h
    refine ⟨rfl, fun ρ'' e' => ?_⟩
    simp only [pmatch, Option.some.injEq] at e'
    subst e'
    exact hr
  | .cond t, e, σ, c, σ', hk, h, v, hv, ρ', hr => by
    simp only [pcond, Option.some.injEq, Prod.mk.injEq] at h
    obtain ⟨rfl, rfl⟩ := h
    simp only [evalCond, pmatch, show evalSubst W n ρ σ = _ from hr, Res.bind]
    cases W.truth (t ρ')
    · simp
    · simp only [if_true, Option.isSome_some, true_and, Option.some.injEq]
      intro ρ'' e; subst e; exact hr
  | .rest, e, σ, c, σ', hk, h, v, hv, ρ', hr => by simp [pcond] at h

theorem callCond_spec {W : World V} {ar : Nat → Nat} (L : Lawful W ar) (n : V) (ρ : Env V) :
    ∀ (ps : List (Pat V)) (e : Path) (v : V) (hv : evalPath W n e = .ok v) (i k : Nat) (σ : List (Nat × Path)) (c : Cond V)
      (σ' : List (Nat × Path)), patsOk ar ps → ps.length = k → (W.fields v).length = i + k →
      callCond ar ps e (W.consOf v) i k σ = some (c, σ') → ∀ ρ', Repr W n ρ σ ρ' →
      evalCond W n ρ c = .ok (pmatchAll W ps ((W.fields v).drop i) ρ').isSome ∧
        ∀ ρ'', pmatchAll W ps ((W.fields v).drop i) ρ' = some ρ'' → Repr W n ρ σ' ρ''
  | [], e, v, hv, i, k, σ, c, σ', hk, hl, hf, h, ρ', hr => by
    simp only [callCond, Option.some.injEq, Prod.mk.injEq] at h
    obtain ⟨rfl, rfl⟩ := h
    have : (W.fields v).drop i = [] := List.drop_eq_nil_of_le (by simp at hl; omega)
    rw [this]
    refine ⟨rfl, fun ρ'' e' => ?_⟩
    simp only [pmatchAll, Option.some.injEq] at e'
    subst e'; exact hr
  | p :: ps, e, v, hv, i, 0, σ, c, σ', hk, hl, hf, h, ρ', hr => by simp at hl
  | p :: ps, e, v, hv, i, k + 1, σ, c, σ', hk, hl, hf, h, ρ', hr => by
    simp only [callCond, Option.bind_eq_some_iff, Option.map_eq_some_iff] at h
    obtain ⟨⟨c1, σ1⟩, h1, ⟨c2, σ2⟩, h2, h3⟩ := h
    cases h3
    have hi : i < (W.fields v).length := by omega
    have hp : evalPath W n (.field e (W.consOf v) i) = .ok (W.fields v)[i] := by
      simp [evalPath, hv, hi]
    obtain ⟨a, b⟩ := pcond_spec L n ρ p _ σ c1 σ1 hk.1 h1 _ hp ρ' hr
    rw [List.drop_eq_getElem_cons hi]
    simp only [evalCond, a, pmatchAll]
    cases hm : pmatch W p (W.fields v)[i] ρ' with
    | none => simp
    | some ρ1 =>
      obtain ⟨a', b'⟩ := callCond_spec L n ρ ps e v hv (i + 1) k σ1 c2 σ2 hk.2 (by simpa using hl) (by omega) h2 ρ1 (b ρ1 hm)
      simpa using ⟨a', b'⟩

theorem seqCond_spec {W : World V} {ar : Nat → Nat} (L : Lawful W ar) (n : V) (ρ : Env V) :
    ∀ (ps : List (Pat V)) (e : Path) (σ : List (Nat × Path)) (c : Cond V) (σ' : List (Nat × Path)), seqOk ar ps →
      seqCond ar ps e σ = some (c, σ') → ∀ v, evalPath W n e = .ok v → ∀ ρ', Repr W n ρ σ ρ' →
      evalCond W n ρ c = .ok (pmatchSeq W ps (W.elems v) ρ').isSome ∧
        ∀ ρ'', pmatchSeq W ps (W.elems v) ρ' = some ρ'' → Repr W n ρ σ' ρ''
  | [], e, σ, c, σ', hk, h, v, hv, ρ', hr => by
    simp only [seqCond, Option.some.injEq, Prod.mk.injEq] at h
    obtain ⟨rfl, rfl⟩ := h
    simp only [evalCond, hv, pmatchSeq]
    cases hl : W.elems v with
    | cons w ws => simp [hl]
    | nil =>
      simp only [Res.bind, hl, List.isEmpty_nil, if_true, Option.some.injEq]
      exact ⟨rfl, fun ρ'' e => e ▸ hr⟩
  | p :: ps, e, σ, c, σ', hk, h, v, hv, ρ', hr => by
    by_cases hrest : p = .rest
    · subst hrest
      simp only [seqOk] at hk
      subst hk
      simp only [seqCond, Option.some.injEq, Prod.mk.injEq] at h
      obtain ⟨rfl, rfl⟩ := h
      simp only [pmatchSeq, Option.some.injEq]
      exact ⟨rfl, fun ρ'' e => e ▸ hr⟩
    · have hk' : patOk ar p ∧ seqOk ar ps := by
        cases p <;> first | exact hk | exact absurd rfl hrest
      have h' : ((pcond ar p (.first e) σ).bind fun r => (seqCond ar ps (.butfirst e) r.2).map fun r' =>
          (Cond.and (.nonEmpty e) (.and r.1 r'.1), r'.2)) = some (c, σ') := by
        cases p <;> first | exact absurd rfl hrest | (rw [seqCond] at h; exact h; all_goals simp)
      simp only [Option.bind_eq_some_iff, Option.map_eq_some_iff] at h'
      obtain ⟨⟨c1, σ1⟩, h1, ⟨c2, σ2⟩, h2, h3⟩ := h'
      cases h3
      cases hl : W.elems v with
      | nil =>
        have : pmatchSeq W (p :: ps) [] ρ' = none := by
          cases p <;> first | exact absurd rfl hrest | (rw [pmatchSeq]; all_goals simp)
        rw [this]
        simp [evalCond, hv, hl]
      | cons w ws =>
        have hm : pmatchSeq W (p :: ps) (w :: ws) ρ' = (pmatch W p w ρ').bind fun ρ' => pmatchSeq W ps ws ρ' := by
          cases p <;> first | exact absurd rfl hrest | (rw [pmatchSeq]; all_goals simp)
        rw [hm]
        have hp : evalPath W n (.first e) = .ok w := by simp [evalPath, hv, hl]
        have hb : evalPath W n (.butfirst e) = .ok (W.mkseq ws) := by simp [evalPath, hv, hl]
        obtain ⟨a, b⟩ := pcond_spec L n ρ p _ σ c1 σ1 hk'.1 h1 _ hp ρ' hr
        simp only [evalCond, a, hv, Res.bind, hl, List.isEmpty_cons, Bool.not_false, if_true]
        cases hm : pmatch W p w ρ' with
        | none => simp
        | some ρ1 =>
          obtain ⟨a', b'⟩ := seqCond_spec L n ρ ps _ σ1 c2 σ2 hk'.2 h2 _ hb ρ1 (b ρ1 hm)
          rw [L.seq] at a' b'
          simpa using ⟨a', b'⟩
end

theorem step_keys {ar : Nat → Nat} (p : Pat V) (ps : List (Pat V)) (e : Path) (σ : List (Nat × Path)) (c : Cond V)
    (σ' : List (Nat × Path)) (h : ((pcond ar p (.first e) σ).bind fun r => (seqCond ar ps (.butfirst e) r.2).map fun r' =>
          (Cond.and (.nonEmpty e) (.and r.1 r'.1), r'.2)) = some (c, σ'))
    (h1 : ∀ c1 σ1, pcond ar p (.first e) σ = some (c1, σ1) → ∀ b ∈ σ1, b ∈ σ ∨ b.1 ∈ patVars p)
    (h2 : ∀ σ1 c2 σ2, seqCond ar ps (.butfirst e) σ1 = some (c2, σ2) → ∀ b ∈ σ2, b ∈ σ1 ∨ b.1 ∈ patsVars ps) :
    ∀ b ∈ σ', b ∈ σ ∨ b.1 ∈ patsVars (p :: ps) := by
  simp only [Option.bind_eq_some_iff, Option.map_eq_some_iff] at h
  obtain ⟨⟨c1, σ1⟩, e1, ⟨c2, σ2⟩, e2, h3⟩ := h
  cases h3
  intro b hb
  simp only [patsVars, List.mem_append]
  rcases h2 σ1 c2 σ2 e2 b hb with hb | hb
  · rcases h1 c1 σ1 e1 b hb with hb | hb
    · exact .inl hb
    · exact .inr (.inl hb)
  · exact .inr (.inr hb)

mutual
theorem pcond_keys {ar : Nat → Nat} : ∀ (p : Pat V) (e : Path) (σ : List (Nat × Path)) (c : Cond V) (σ' : List (Nat × Path)),
    pcond ar p e σ = some (c, σ') → ∀ b ∈ σ', b ∈ σ ∨ b.1 ∈ patVars p
  | .typed t p, e, σ, c, σ', h => by
    simp only [pcond, Option.map_eq_some_iff] at h
    obtain ⟨⟨c1, σ1⟩, h1, h2⟩ := h
    cases h2
    exact pcond_keys p e σ c1 σ1 h1
  | .call cc ps, e, σ, c, σ', h => by
    simp only [pcond, Option.map_eq_some_iff] at h
    obtain ⟨⟨c1, σ1⟩, h1, h2⟩ := h
    cases h2
    exact callCond_keys ps e cc 0 _ σ c1 σ1 h1
  | .seq ps, e, σ, c, σ', h => seqCond_keys ps e σ c σ' h
  | .and p q, e, σ, c, σ', h => by
    simp only [pcond, Option.bind_eq_some_iff, Option.map_eq_some_iff] at h
    obtain ⟨⟨c1, σ1⟩, h1, ⟨c2, σ2⟩, h2, h3⟩ := h
    cases h3
    intro b hb
    simp only [patVars, List.mem_append]
    rcases pcond_keys q e σ1 c2 σ2 h2 b hb with hb | hb
    · rcases pcond_keys p e σ c1 σ1 h1 b hb with hb | hb
      · exact .inl hb
      · exact .inr (.inl hb)
    · exact .inr (.inr hb)
  | .var x, e, σ, c, σ', h => by
    simp only [pcond, Option.some.injEq, Prod.mk.injEq] at h
    obtain ⟨rfl, rfl⟩ := h
    intro b hb
    rcases List.mem_cons.1 hb with rfl | hb
    · right; simp [patVars]
    · exact .inl hb
  | .wild, e, σ, c, σ', h => by
    simp only [pcond, Option.some.injEq, Prod.mk.injEq] at h
    obtain ⟨rfl, rfl⟩ := h
    exact fun b hb => .inl hb
  | .cond t, e, σ, c, σ', h => by
    simp only [pcond, Option.some.injEq, Prod.mk.injEq] at h
    obtain ⟨rfl, rfl⟩ := h
    exact fun b hb => .inl hb
  | .rest, e, σ, c, σ', h => by simp [pcond] at h
theorem callCond_keys {ar : Nat → Nat} : ∀ (ps : List (Pat V)) (e : Path) (cc i k : Nat) (σ : List (Nat × Path)) (c : Cond V)
    (σ' : List (Nat × Path)), callCond ar ps e cc i k σ = some (c, σ') → ∀ b ∈ σ', b ∈ σ ∨ b.1 ∈ patsVars ps
  | [], e, cc, i, k, σ, c, σ', h => by
    simp only [callCond, Option.some.injEq, Prod.mk.injEq] at h
    obtain ⟨rfl, rfl⟩ := h
    exact fun b hb => .inl hb
  | p :: ps, e, cc, i, 0, σ, c, σ', h => by
    simp only [callCond, Option.some.injEq, Prod.mk.injEq] at h
    obtain ⟨rfl, rfl⟩ := h
    exact fun b hb => .inl hb
  | p :: ps, e, cc, i, k + 1, σ, c, σ', h => by
    simp only [callCond, Option.bind_eq_some_iff, Option.map_eq_some_iff] at h
    obtain ⟨⟨c1, σ1⟩, h1, ⟨c2, σ2⟩, h2, h3⟩ := h
    cases h3
    intro b hb
    simp only [patsVars, List.mem_append]
    rcases callCond_keys ps e cc (i + 1) k σ1 c2 σ2 h2 b hb with hb | hb
    · rcases pcond_keys p _ σ c1 σ1 h1 b hb with hb | hb
      · exact .inl hb
      · exact .inr (.inl hb)
    · exact .inr (.inr hb)
theorem seqCond_keys {ar : Nat → Nat} : ∀ (ps : List (Pat V)) (e : Path) (σ : List (Nat × Path)) (c : Cond V)
    (σ' : List (Nat × Path)), seqCond ar ps e σ = some (c, σ') → ∀ b ∈ σ', b ∈ σ ∨ b.1 ∈ patsVars ps
  | [], e, σ, c, σ', h => by
    simp only [seqCond, Option.some.injEq, Prod.mk.injEq] at h
    obtain ⟨rfl, rfl⟩ := h
    exact fun b hb => .inl hb
  | [.rest], e, σ, c, σ', h => by
    simp only [seqCond, Option.some.injEq, Prod.mk.injEq] at h
    obtain ⟨rfl, rfl⟩ := h
    exact fun b hb => .inl hb
  | [.rest, q], e, σ, c, σ', h => by
    simp only [seqCond] at h
    intro b hb
    rcases pcond_keys q _ σ c σ' h b hb with hb | hb
    · exact .inl hb
    · right; simp [patsVars, hb]
  | .rest :: _ :: _ :: _, e, σ, c, σ', h => by simp [seqCond] at h
  | .typed t p :: ps, e, σ, c, σ', h => step_keys (.typed t p) ps e σ c σ' h
      (fun c1 σ1 => pcond_keys (.typed t p) _ σ c1 σ1) (fun σ1 c2 σ2 => seqCond_keys ps _ σ1 c2 σ2)
  | .call t p :: ps, e, σ, c, σ', h => step_keys (.call t p) ps e σ c σ' h
      (fun c1 σ1 => pcond_keys (.call t p) _ σ c1 σ1) (fun σ1 c2 σ2 => seqCond_keys ps _ σ1 c2 σ2)
  | .seq p :: ps, e, σ, c, σ', h => step_keys (.seq p) ps e σ c σ' h
      (fun c1 σ1 => pcond_keys (.seq p) _ σ c1 σ1) (fun σ1 c2 σ2 => seqCond_keys ps _ σ1 c2 σ2)
  | .and p q :: ps, e, σ, c, σ', h => step_keys (.and p q) ps e σ c σ' h
      (fun c1 σ1 => pcond_keys (.and p q) _ σ c1 σ1) (fun σ1 c2 σ2 => seqCond_keys ps _ σ1 c2 σ2)
  | .var x :: ps, e, σ, c, σ', h => step_keys (.var x) ps e σ c σ' h
      (fun c1 σ1 => pcond_keys (.var x) _ σ c1 σ1) (fun σ1 c2 σ2 => seqCond_keys ps _ σ1 c2 σ2)
  | .wild :: ps, e, σ, c, σ', h => step_keys .wild ps e σ c σ' h
      (fun c1 σ1 => pcond_keys .wild _ σ c1 σ1) (fun σ1 c2 σ2 => seqCond_keys ps _ σ1 c2 σ2)
  | .cond t :: ps, e, σ, c, σ', h => step_keys (.cond t) ps e σ c σ' h
      (fun c1 σ1 => pcond_keys (.cond t) _ σ c1 σ1) (fun σ1 c2 σ2 => seqCond_keys ps _ σ1 c2 σ2)
end

theorem subst_find {W : World V} {n : V} {ρ : Env V} : ∀ {σ : List (Nat × Path)} {ρ' : Env V}, Repr W n ρ σ ρ' → ∀ y,
    match σ.find? (fun b => b.1 == y) with
    | some b => evalPath W n b.2 = .ok (ρ' y)
    | none => ρ' y = ρ y
  | [], ρ', h, y => by cases h; rfl
  | (x, p) :: σ, ρ', h, y => by
    have h : ((evalSubst W n ρ σ).bind fun ρ' => (evalPath W n p).bind fun v =>
      .ok fun y => if y = x then v else ρ' y) = .ok ρ' := h
    rw [Res.bind_ok_iff] at h
    obtain ⟨ρ1, h1, h⟩ := h
    rw [Res.bind_ok_iff] at h
    obtain ⟨v, h2, h3⟩ := h
    cases h3
    by_cases e : x = y
    · subst e; simp [h2]
    · have : (x == y) = false := by simpa using e
      rw [List.find?_cons_of_neg (by simpa using e)]
      have := subst_find (show Repr W n ρ σ ρ1 from h1) y
      have hn : (y = x) = False := by simp; exact fun e' => e e'.symm
      simp only [hn, if_false]
      exact this

theorem binds_spec {W : World V} {n : V} {ρ : Env V} {σ : List (Nat × Path)} {ρ' : Env V} (hr : Repr W n ρ σ ρ') :
    ∀ (xs : List Nat) (ρ1 : Env V), (∀ y, ρ1 y = ρ' y ∨ (y ∈ xs ∧ (σ.find? (fun b => b.1 == y)).isSome)) →
      evalBinds W n (xs.filterMap fun x => σ.find? (fun b => b.1 == x)) ρ1 = .ok ρ'
  | [], ρ1, h => by
    have : ρ1 = ρ' := funext fun y => (h y).resolve_right fun e => by simp at e
    rw [this]; rfl
  | x :: xs, ρ1, h => by
    have hf := subst_find hr x
    cases e : σ.find? (fun b => b.1 == x) with
    | none =>
      rw [List.filterMap_cons_none (f := fun x => σ.find? (fun b => b.1 == x)) e]
      refine binds_spec hr xs ρ1 fun y => ?_
      rcases h y with h | ⟨h1, h2⟩
      · exact .inl h
      · rcases List.mem_cons.1 h1 with rfl | h1
        · rw [e] at h2; cases h2
        · exact .inr ⟨h1, h2⟩
    | some b =>
      rw [List.filterMap_cons_some (f := fun x => σ.find? (fun b => b.1 == x)) e]
      rw [e] at hf
      have hb : b.1 = x := by simpa using List.find?_some e
      obtain ⟨x', p⟩ := b
      cases hb
      simp only [evalBinds, hf, Res.bind]
      refine binds_spec hr xs _ fun y => ?_
      by_cases hy : y = x'
      · subst hy; left; simp
      · simp only [hy, if_false]
        rcases h y with h | ⟨h1, h2⟩
        · exact .inl h
        · rcases List.mem_cons.1 h1 with rfl | h1
          · exact absurd rfl hy
          · exact .inr ⟨h1, h2⟩

/-- The code of a match: whether it applies, and what the variables are. -/
theorem cppArm {W : World V} {ar : Nat → Nat} (L : Lawful W ar) {native : Pat V → V → Env V → Option (Env V)} {p : Pat V}
    (hk : patOk ar p) {c : Cond V} {b : List (Nat × Path)} (h : cppPrinter ar p = some (c, b)) (n : V) (ρ : Env V) :
    armMatch W .cpp native n ρ p c b = .ok (pmatch W p n ρ) := by
  simp only [cppPrinter, Option.map_eq_some_iff] at h
  obtain ⟨⟨c1, σ1⟩, h1, h2⟩ := h
  cases h2
  obtain ⟨a, r⟩ := pcond_spec L n ρ p .node [] c1 σ1 hk h1 n rfl ρ rfl
  simp only [armMatch, a, Res.bind]
  cases hm : pmatch W p n ρ with
  | none => simp
  | some ρ' =>
    have hr := r ρ' hm
    have : evalBinds W n (bindings p σ1) ρ = .ok ρ' := by
      refine binds_spec hr (patVars p) ρ fun y => ?_
      have hf := subst_find hr y
      cases e : σ1.find? (fun b => b.1 == y) with
      | none => rw [e] at hf; exact .inl hf.symm
      | some b =>
        right
        have hb : b.1 = y := by simpa using List.find?_some e
        refine ⟨?_, rfl⟩
        rcases pcond_keys p .node [] c1 σ1 h1 b (List.mem_of_find?_eq_some e) with h | h
        · cases h
        · rw [← hb]; exact h
    simp [this]

end Aps.DynGen
