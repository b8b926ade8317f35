import Verif.Spec.Consts
import Mathlib.Data.List.Basic
import Mathlib.Data.List.Induction
import Mathlib.Data.List.Nodup
import Mathlib.Data.List.Perm.Basic
import Mathlib.Tactic.Common
/-! # Proofs about constants -/
namespace Aps.Consts
variable {V : Type} {fns : Nat → Exp V}

/-- More names have values. -/
def Le (env env' : Env V) : Prop := ∀ n v, env n = some v → env' n = some v

theorem Means.mono {env env' : Env V} (h : Le env env') {e : Exp V} {v : V} (m : Means fns env e v) : Means fns env' e v := by
  induction m with
  | lit v => exact .lit v
  | use e => exact .use (h _ _ e)
  | op _ _ h1 h2 => exact .op h1 h2
  | call _ ih => exact .call ih

theorem eval_means {env : Env V} : ∀ (fuel : Nat) (e : Exp V) (v : V), eval fns .ub fuel env e = .ok v → Means fns env e v
  | 0, _, _, h => by simp [eval] at h
  | fuel + 1, .lit w, v, h => by simp [eval] at h; subst h; exact .lit _
  | fuel + 1, .use n, v, h => by
    rw [eval] at h
    cases hn : env n with
    | none => rw [hn] at h; cases h
    | some w => rw [hn] at h; cases h; exact .use hn
  | fuel + 1, .op f a b, v, h => by
    rw [eval] at h
    obtain ⟨x, hx, h⟩ := Res.bind_eq_ok.1 h
    obtain ⟨y, hy, h⟩ := Res.bind_eq_ok.1 h
    cases h
    exact .op (eval_means fuel a x hx) (eval_means fuel b y hy)
  | fuel + 1, .call g, v, h => .call (eval_means fuel (fns g) v (by rw [eval] at h; exact h))

/-- What is not there does not matter if it is not used. -/
theorem eval_bad {env : Env V} (bad bad' : Res V) : ∀ (fuel : Nat) (e : Exp V), (∀ n, Uses fns e n → ∃ v, env n = some v) →
    eval fns bad fuel env e = eval fns bad' fuel env e
  | 0, _, _ => by simp [eval]
  | fuel + 1, .lit w, _ => by simp [eval]
  | fuel + 1, .use n, h => by
    obtain ⟨v, hv⟩ := h n (.use n)
    simp [eval, hv]
  | fuel + 1, .op f a b, h => by
    rw [eval, eval, eval_bad bad bad' fuel a fun n u => h n (.left u), eval_bad bad bad' fuel b fun n u => h n (.right u)]
  | fuel + 1, .call g, h => by
    rw [eval, eval, eval_bad bad bad' fuel (fns g) fun n u => h n (.call u)]

theorem le_bind {env : Env V} {n : Nat} {v : V} (h : env n = none) : Le env (bindName env n v) := by
  intro k w hk
  show (if k = n then _ else _) = _
  rw [if_neg]
  · exact hk
  · rintro rfl; rw [h] at hk; cases hk

theorem init_sound : ∀ (fuel : Nat) (ms : List (Member V)) (env env' : Env V), Distinct env ms →
    initAll fns .ub fuel env ms = .ok env' → Solves fns env ms env'
  | fuel, [], env, env', _, h => by cases h; exact ⟨by simp, fun _ _ h => h⟩
  | fuel, m :: ms, env, env', hd, h => by
    obtain ⟨v, hv, h⟩ := Res.bind_eq_ok.1 h
    have hm : env m.name = none := hd.2 m (by simp)
    have hnd := List.nodup_cons.1 hd.1
    have hd' : Distinct (bindName env m.name v) ms := by
      refine ⟨hnd.2, fun m' h' => ?_⟩
      show (if m'.name = m.name then _ else _) = _
      rw [if_neg]
      · exact hd.2 m' (by simp [h'])
      · intro e; exact hnd.1 (List.mem_map.2 ⟨m', h', e⟩)
    obtain ⟨s1, s2⟩ := init_sound fuel ms _ env' hd' h
    have le : Le env env' := fun n w hn => s2 n w (le_bind hm n w hn)
    refine ⟨fun m' h' => ?_, le⟩
    rcases List.mem_cons.1 h' with rfl | h'
    · exact ⟨v, s2 _ _ (by simp [bindName]), (eval_means fuel _ v hv).mono le⟩
    · exact s1 m' h'

/-- In this order nothing that has no value is read. -/
theorem init_bad (bad bad' : Res V) (fuel : Nat) (formals : Env V) (ms : List (Member V)) (hb : Before fns formals ms) :
    ∀ (r l : List (Member V)) (env : Env V), ms = l ++ r → (∀ n, (∃ v, formals n = some v) ∨ (∃ m ∈ l, m.name = n) → ∃ v, env n = some v) →
    initAll fns bad fuel env r = initAll fns bad' fuel env r
  | [], l, env, _, _ => rfl
  | m :: r, l, env, e, he => by
    rw [initAll, initAll, eval_bad bad bad' fuel m.init fun n u => he n (hb l r m e n u)]
    congr 1
    funext v
    refine init_bad bad bad' fuel formals ms hb r (l ++ [m]) _ (by rw [e]; simp) fun n hn => ?_
    by_cases hm : n = m.name
    · exact ⟨v, by simp [bindName, hm]⟩
    · have : ∃ w, env n = some w := by
        refine he n (hn.imp id ?_)
        rintro ⟨m', h', rfl⟩
        rcases List.mem_append.1 h' with h' | h'
        · exact ⟨m', h', rfl⟩
        · rw [List.mem_singleton] at h'; subst h'; exact absurd rfl hm
      obtain ⟨w, hw⟩ := this
      exact ⟨w, by simp [bindName, hm, hw]⟩

theorem eval_ub {env : Env V} : ∀ (fuel : Nat) (e : Exp V), (∀ n, Uses fns e n → ∃ v, env n = some v) →
    (∃ v, eval fns .ub fuel env e = .ok v) ∨ eval fns .ub fuel env e = .nofuel
  | 0, _, _ => .inr (by simp [eval])
  | fuel + 1, .lit w, _ => .inl ⟨w, by simp [eval]⟩
  | fuel + 1, .use n, h => by
    obtain ⟨v, hv⟩ := h n (.use n)
    exact .inl ⟨v, by simp [eval, hv]⟩
  | fuel + 1, .op f a b, h => by
    rcases eval_ub fuel a fun n u => h n (.left u) with ⟨x, hx⟩ | hx
    · rcases eval_ub fuel b fun n u => h n (.right u) with ⟨y, hy⟩ | hy
      · exact .inl ⟨f x y, by rw [eval, hx, hy]; rfl⟩
      · exact .inr (by rw [eval, hx, hy]; rfl)
    · exact .inr (by rw [eval, hx]; rfl)
  | fuel + 1, .call g, h => by
    rw [eval]
    exact eval_ub fuel (fns g) fun n u => h n (.call u)

theorem init_ub (fuel : Nat) (formals : Env V) (ms : List (Member V)) (hb : Before fns formals ms) :
    ∀ (r l : List (Member V)) (env : Env V), ms = l ++ r → (∀ n, (∃ v, formals n = some v) ∨ (∃ m ∈ l, m.name = n) → ∃ v, env n = some v) →
    (∃ env', initAll fns .ub fuel env r = .ok env') ∨ initAll fns .ub fuel env r = .nofuel
  | [], l, env, _, _ => .inl ⟨env, rfl⟩
  | m :: r, l, env, e, he => by
    rcases eval_ub fuel m.init fun n u => he n (hb l r m e n u) with ⟨v, hv⟩ | hv
    · rw [initAll, hv]
      refine init_ub fuel formals ms hb r (l ++ [m]) _ (by rw [e]; simp) fun n hn => ?_
      by_cases hm : n = m.name
      · exact ⟨v, by simp [bindName, hm]⟩
      · have : ∃ w, env n = some w := by
          refine he n (hn.imp id ?_)
          rintro ⟨m', h', rfl⟩
          rcases List.mem_append.1 h' with h' | h'
          · exact ⟨m', h', rfl⟩
          · rw [List.mem_singleton] at h'; subst h'; exact absurd rfl hm
        obtain ⟨w, hw⟩ := this
        exact ⟨w, by simp [bindName, hm, hw]⟩
    · exact .inr (by rw [initAll, hv]; rfl)

theorem means_fun {env env' : Env V} {e : Exp V} {v v' : V} (h : Means fns env e v) (h' : Means fns env' e v')
    (hu : ∀ n, Uses fns e n → env n = env' n) : v = v' := by
  induction h generalizing v' with
  | lit v => cases h'; rfl
  | use e1 =>
    cases h' with
    | use e2 =>
      have := hu _ (.use _)
      rw [e1, e2] at this
      exact Option.some.inj this
  | op _ _ i1 i2 =>
    cases h' with
    | op a b => rw [i1 a fun n u => hu n (.left u), i2 b fun n u => hu n (.right u)]
  | call _ ih =>
    cases h' with
    | call a => exact ih a fun n u => hu n (.call u)

theorem solves_unique {formals : Env V} {ms : List (Member V)} (hb : Before fns formals ms) {env env' : Env V}
    (s : Solves fns formals ms env) (s' : Solves fns formals ms env') : ∀ (l r : List (Member V)), ms = l ++ r →
    ∀ m ∈ l, env m.name = env' m.name := by
  intro l
  induction l using List.reverseRecOn with
  | nil => intro r _ m hm; cases hm
  | append_singleton l m ih =>
    intro r e m' hm'
    have e1 : ms = l ++ m :: r := by rw [e]; simp
    rcases List.mem_append.1 hm' with hm' | hm'
    · exact ih (m :: r) e1 m' hm'
    · rw [List.mem_singleton] at hm'; subst hm'
      have hmem : m' ∈ ms := by rw [e1]; simp
      obtain ⟨v, hv, mv⟩ := s.1 m' hmem
      obtain ⟨v', hv', mv'⟩ := s'.1 m' hmem
      have : v = v' := means_fun mv mv' fun n u => by
        rcases hb l r m' e1 n u with ⟨w, hw⟩ | ⟨m2, h2, rfl⟩
        · rw [s.2 n w hw, s'.2 n w hw]
        · exact ih (m' :: r) e1 m2 h2
      rw [hv, hv', this]

theorem perm_order (ms : List (Member V)) : (cppOrder ms).Perm ms := List.filter_append_perm (fun m : Member V => m.isType) ms

theorem distinct_order {formals : Env V} {ms : List (Member V)} (h : Distinct formals ms) : Distinct formals (cppOrder ms) :=
  ⟨((perm_order ms).map _).nodup_iff.2 h.1, fun m hm => h.2 m ((perm_order ms).mem_iff.1 hm)⟩

theorem solves_order {formals : Env V} {ms : List (Member V)} {env : Env V} (h : Solves fns formals (cppOrder ms) env) :
    Solves fns formals ms env := ⟨fun m hm => h.1 m ((perm_order ms).mem_iff.2 hm), h.2⟩

end Aps.Consts

namespace Aps.Consts

/-! ### Ends -/

theorem eval_ends {V : Type} {fns : Nat → Exp V} {e : Exp V} (h : Finite fns e) : ∃ n, ∀ (bad : Res V) fuel env, bad ≠ .nofuel →
    n ≤ fuel → eval fns bad fuel env e ≠ .nofuel := by
  induction h with
  | lit v =>
    refine ⟨1, fun bad fuel env hb hf => ?_⟩
    obtain ⟨k, rfl⟩ : ∃ k, fuel = k + 1 := ⟨fuel - 1, by omega⟩
    intro e; rw [eval] at e; cases e
  | use n =>
    refine ⟨1, fun bad fuel env hb hf => ?_⟩
    obtain ⟨k, rfl⟩ : ∃ k, fuel = k + 1 := ⟨fuel - 1, by omega⟩
    intro e; rw [eval] at e
    split at e
    · cases e
    · exact hb e
  | @op f a b _ _ ha hb =>
    obtain ⟨n, hn⟩ := ha
    obtain ⟨m, hm⟩ := hb
    refine ⟨max n m + 1, fun bad fuel env hb hf => ?_⟩
    obtain ⟨k, rfl⟩ : ∃ k, fuel = k + 1 := ⟨fuel - 1, by omega⟩
    have h1 := hn bad k env hb (by omega)
    have h2 := hm bad k env hb (by omega)
    rw [eval]
    cases e1 : eval fns bad k env a with
    | nofuel => exact absurd e1 h1
    | ub => intro e; cases e
    | stop => intro e; cases e
    | ok x =>
      cases e2 : eval fns bad k env b with
      | nofuel => exact absurd e2 h2
      | ub => intro e; cases e
      | stop => intro e; cases e
      | ok y => intro e; cases e
  | call _ ih =>
    obtain ⟨n, hn⟩ := ih
    refine ⟨n + 1, fun bad fuel env hb hf => ?_⟩
    obtain ⟨k, rfl⟩ : ∃ k, fuel = k + 1 := ⟨fuel - 1, by omega⟩
    rw [eval]
    exact hn bad k env hb (by omega)

theorem init_ends {V : Type} {fns : Nat → Exp V} : ∀ {ms : List (Member V)}, (∀ m ∈ ms, Finite fns m.init) → ∃ n, ∀ (bad : Res V) fuel env,
    bad ≠ .nofuel → n ≤ fuel → initAll fns bad fuel env ms ≠ .nofuel
  | [], _ => ⟨0, fun _ _ _ _ _ e => (by cases e)⟩
  | m :: ms, h => by
    obtain ⟨n, hn⟩ := eval_ends (h m (.head _))
    obtain ⟨k, hk⟩ := init_ends fun x hx => h x (.tail _ hx)
    refine ⟨max n k, fun bad fuel env hb hf => ?_⟩
    have h1 := hn bad fuel env hb (by omega)
    rw [initAll]
    cases e1 : eval fns bad fuel env m.init with
    | nofuel => exact absurd e1 h1
    | ub => intro e; cases e
    | stop => intro e; cases e
    | ok x => exact hk bad fuel _ hb (by omega)

theorem eval_null {V : Type} {fns : Nat → Exp V} {null : V} : ∀ (fuel : Nat) (env : Env V) (e : Exp V),
    (∃ v, eval fns (.ok null) fuel env e = .ok v) ∨ eval fns (.ok null) fuel env e = .nofuel
  | 0, _, _ => .inr (by simp [eval])
  | fuel + 1, env, .lit v => .inl ⟨v, by simp [eval]⟩
  | fuel + 1, env, .use n => by
    rw [eval]; split
    · exact .inl ⟨_, rfl⟩
    · exact .inl ⟨_, rfl⟩
  | fuel + 1, env, .op f a b => by
    rw [eval]
    rcases eval_null fuel env a with ⟨x, h1⟩ | h1
    · rcases eval_null fuel env b with ⟨y, h2⟩ | h2
      · rw [h1, h2]; exact .inl ⟨_, rfl⟩
      · rw [h1, h2]; exact .inr rfl
    · rw [h1]; exact .inr rfl
  | fuel + 1, env, .call g => by rw [eval]; exact eval_null fuel env (fns g)

theorem init_null {V : Type} {fns : Nat → Exp V} {null : V} (fuel : Nat) : ∀ (ms : List (Member V)) (env : Env V),
    (∃ env', initAll fns (.ok null) fuel env ms = .ok env') ∨ initAll fns (.ok null) fuel env ms = .nofuel
  | [], env => .inl ⟨env, rfl⟩
  | m :: ms, env => by
    rw [initAll]
    rcases eval_null fuel env m.init with ⟨v, h⟩ | h
    · rw [h]; exact init_null fuel ms _
    · rw [h]; exact .inr rfl

end Aps.Consts
