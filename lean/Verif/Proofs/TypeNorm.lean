import Verif.Proofs.TypeSame
/-!
# Equality of types is decided
-/
set_option linter.unusedVariables false
namespace Aps.TyCk

variable {P : Prog}

mutual
/-- the type with every name replaced -/
inductive Norm (P : Prog) : Ty → Ty → Prop
  | use {d : Nat} : (∀ t : Ty, P.type d ≠ .alias t) → Norm P (.use d) (.use d)
  | name {d : Nat} {t v : Ty} : P.type d = .alias t → Norm P t v → Norm P (.use d) v
  | remote {t v : Ty} : Norm P t v → Norm P (.remote t) v
  | func {fs gs : Tys} {r s : Ty} : Norms P fs gs → Norm P r s → Norm P (.func fs r) (.func gs s)
  | other (n : Nat) : Norm P (.other n) (.other n)
inductive Norms (P : Prog) : Tys → Tys → Prop
  | nil : Norms P .nil .nil
  | seq {t v : Ty} : Norm P t v → Norms P (.seq t) (.seq v)
  | cons {t v : Ty} {fs gs : Tys} : Norm P t v → Norms P fs gs → Norms P (.cons t fs) (.cons v gs)
end

mutual
theorem norm_det : ∀ {t v w : Ty}, Norm P t v → Norm P t w → v = w
  | _, _, _, .use h, k => by
    cases k with
    | use _ => rfl
    | name h' _ => exact (h _ h').elim
  | _, _, _, .name h n, k => by
    cases k with
    | use h' => exact (h' _ h).elim
    | name h' n' =>
      rw [h] at h'
      cases h'
      exact norm_det n n'
  | _, _, _, .remote n, k => by
    cases k with
    | remote n' => exact norm_det n n'
  | _, _, _, .func hs h, k => by
    cases k with
    | func hs' h' => rw [norms_det hs hs', norm_det h h']
  | _, _, _, .other n, k => by cases k; rfl
theorem norms_det : ∀ {t v w : Tys}, Norms P t v → Norms P t w → v = w
  | _, _, _, .nil, k => by cases k; rfl
  | _, _, _, .seq n, k => by
    cases k with
    | seq n' => rw [norm_det n n']
  | _, _, _, .cons n ns, k => by
    cases k with
    | cons n' ns' => rw [norm_det n n', norms_det ns ns']
end

mutual
theorem same_norm : ∀ {t s : Ty}, Same P t s → ∀ v : Ty, Norm P t v ↔ Norm P s v
  | _, _, .refl _, v => Iff.rfl
  | _, _, .symm h, v => (same_norm h v).symm
  | _, _, .trans h k, v => (same_norm h v).trans (same_norm k v)
  | _, _, .alias h, v => by
    constructor
    · intro n
      cases n with
      | use h' => exact (h' _ h).elim
      | name h' n => rw [h] at h'; cases h'; exact n
    · intro n; exact .name h n
  | _, _, .remote t, v => by
    constructor
    · intro n; cases n; assumption
    · intro n; exact .remote n
  | _, _, .func hs h, v => by
    constructor
    · intro n
      cases n with
      | func a b => exact .func ((sames_norm hs _).1 a) ((same_norm h _).1 b)
    · intro n
      cases n with
      | func a b => exact .func ((sames_norm hs _).2 a) ((same_norm h _).2 b)
theorem sames_norm : ∀ {t s : Tys}, Sames P t s → ∀ v : Tys, Norms P t v ↔ Norms P s v
  | _, _, .nil, v => Iff.rfl
  | _, _, .seq h, v => by
    constructor
    · intro n
      cases n with
      | seq a => exact .seq ((same_norm h _).1 a)
    · intro n
      cases n with
      | seq a => exact .seq ((same_norm h _).2 a)
  | _, _, .cons h hs, v => by
    constructor
    · intro n
      cases n with
      | cons a b => exact .cons ((same_norm h _).1 a) ((sames_norm hs _).1 b)
    · intro n
      cases n with
      | cons a b => exact .cons ((same_norm h _).2 a) ((sames_norm hs _).2 b)
end

mutual
theorem norm_same : ∀ {t v : Ty}, Norm P t v → Same P t v
  | _, _, .use _ => .refl _
  | _, _, .name h n => .trans (.alias h) (norm_same n)
  | _, _, .remote n => .trans (.remote _) (norm_same n)
  | _, _, .func ns n => .func (norms_same ns) (norm_same n)
  | _, _, .other n => .refl _
theorem norms_same : ∀ {t v : Tys}, Norms P t v → Sames P t v
  | _, _, .nil => .nil
  | _, _, .seq n => .seq (norm_same n)
  | _, _, .cons n ns => .cons (norm_same n) (norms_same ns)
end

mutual
theorem norm_names (rank : Nat → Nat) (k : Nat) (hk : ∀ d, rank d < k → ∃ v : Ty, Norm P (.use d) v) :
    ∀ t : Ty, (∀ e ∈ t.names, rank e < k) → ∃ v : Ty, Norm P t v
  | .use d, h => hk d (h d (by simp [Ty.names]))
  | .remote t, h => by
    obtain ⟨v, hv⟩ := norm_names rank k hk t (fun e he => h e (by simpa [Ty.names] using he))
    exact ⟨v, .remote hv⟩
  | .func fs r, h => by
    obtain ⟨v, hv⟩ := norm_names rank k hk r (fun e he => h e (by simp [Ty.names, he]))
    obtain ⟨w, hw⟩ := norms_names rank k hk fs (fun e he => h e (by simp [Ty.names, he]))
    exact ⟨_, .func hw hv⟩
  | .other n, h => ⟨_, .other n⟩
theorem norms_names (rank : Nat → Nat) (k : Nat) (hk : ∀ d, rank d < k → ∃ v : Ty, Norm P (.use d) v) :
    ∀ t : Tys, (∀ e ∈ t.names, rank e < k) → ∃ v : Tys, Norms P t v
  | .nil, h => ⟨_, .nil⟩
  | .seq t, h => by
    obtain ⟨v, hv⟩ := norm_names rank k hk t (fun e he => h e (by simpa [Tys.names] using he))
    exact ⟨_, .seq hv⟩
  | .cons t fs, h => by
    obtain ⟨v, hv⟩ := norm_names rank k hk t (fun e he => h e (by simp [Tys.names, he]))
    obtain ⟨w, hw⟩ := norms_names rank k hk fs (fun e he => h e (by simp [Tys.names, he]))
    exact ⟨_, .cons hv hw⟩
end

theorem norm_use (rank : Nat → Nat) (hr : ∀ (d : Nat) (t : Ty), P.type d = .alias t → ∀ e ∈ t.names, rank e < rank d) :
    ∀ (k d : Nat), rank d < k → ∃ v : Ty, Norm P (.use d) v := by
  intro k
  induction k with
  | zero => intro d h; omega
  | succ k ih =>
    intro d h
    cases hd : P.type d with
    | nominal e => exact ⟨_, .use (by intro t ht; rw [hd] at ht; cases ht)⟩
    | formal p i es => exact ⟨_, .use (by intro t ht; rw [hd] at ht; cases ht)⟩
    | «alias» t =>
      obtain ⟨v, hv⟩ := norm_names rank k ih t (fun e he => by have := hr d t hd e he; omega)
      exact ⟨v, .name hd hv⟩

theorem le_foldr_max (f : Nat → Nat) : ∀ (l : List Nat) (e : Nat), e ∈ l → f e < (l.map f).foldr max 0 + 1
  | [], e, h => by simp at h
  | a :: l, e, h => by
    simp only [List.map_cons, List.foldr_cons]
    rcases List.mem_cons.1 h with rfl | h
    · omega
    · have := le_foldr_max f l e h; omega

theorem norm_all (hP : P.Acyclic) (t : Ty) : ∃ v : Ty, Norm P t v := by
  obtain ⟨rank, hr⟩ := hP
  exact norm_names rank _ (norm_use rank hr _) t (fun e he => le_foldr_max rank t.names e he)

/-- types whose names are out of the way -/
def Head (P : Prog) : Ty → Prop
  | .use d => ∀ t : Ty, P.type d ≠ .alias t
  | .remote _ => False
  | _ => True

theorem base_norm : ∀ {t v : Ty}, Norm P t v → ∃ (N : Nat) (b : Ty), Head P b ∧ Norm P b v ∧ ∀ n ≥ N, base P n t = .ok b
  | .use d, _, .use h => by
    refine ⟨1, .use d, h, .use h, ?_⟩
    intro n hn
    obtain ⟨m, rfl⟩ := Nat.exists_eq_add_of_le' hn
    simp only [base]
  | .use d, v, .name (t := t) h k => by
    obtain ⟨N, b, hb, hv, hN⟩ := base_norm k
    refine ⟨N + 1, b, hb, hv, ?_⟩
    intro n hn
    obtain ⟨m, rfl⟩ := Nat.exists_eq_add_of_le' (Nat.le_trans (Nat.succ_le_succ (Nat.zero_le N)) hn)
    simp only [base, h]
    exact hN m (by omega)
  | .remote t, v, .remote k => by
    obtain ⟨N, b, hb, hv, hN⟩ := base_norm k
    refine ⟨N + 1, b, hb, hv, ?_⟩
    intro n hn
    obtain ⟨m, rfl⟩ := Nat.exists_eq_add_of_le' (Nat.le_trans (Nat.succ_le_succ (Nat.zero_le N)) hn)
    simp only [base]
    exact hN m (by omega)
  | .func fs r, .func _ _, .func a b => by
    refine ⟨1, .func fs r, trivial, .func a b, ?_⟩
    intro n hn
    obtain ⟨m, rfl⟩ := Nat.exists_eq_add_of_le' hn
    simp only [base]
  | .other k, .other _, .other _ => by
    refine ⟨1, .other k, trivial, .other k, ?_⟩
    intro n hn
    obtain ⟨m, rfl⟩ := Nat.exists_eq_add_of_le' hn
    simp only [base]

open Classical in
/-- `checkEq` before its verdict -/
def eqB (P : Prog) (n : Nat) (t s : Ty) : Res Bool := do
  let t' ← base P n t
  let s' ← base P n s
  baseEqual P n t' s'

theorem eqB_of {v w t s : Ty} {q : Bool} (ht : Norm P t v) (hs : Norm P s w)
    (h : ∀ b c : Ty, Head P b → Head P c → Norm P b v → Norm P c w → ∃ N : Nat, ∀ n ≥ N, baseEqual P n b c = .ok q) :
    ∃ N : Nat, ∀ n ≥ N, eqB P n t s = .ok q := by
  obtain ⟨N1, b, hb, hbv, h1⟩ := base_norm ht
  obtain ⟨N2, c, hc, hcw, h2⟩ := base_norm hs
  obtain ⟨N3, h3⟩ := h b c hb hc hbv hcw
  refine ⟨N1 + N2 + N3, ?_⟩
  intro n hn
  simp only [eqB]
  rw [h1 n (by omega), Res.ok_bind, h2 n (by omega), Res.ok_bind, h3 n (by omega)]

theorem shift {f : Nat → Res Bool} {q : Bool} (h : ∃ N : Nat, ∀ n ≥ N, f (n + 1) = .ok q) : ∃ N : Nat, ∀ n ≥ N, f n = .ok q := by
  obtain ⟨N, hN⟩ := h
  refine ⟨N + 1, ?_⟩
  intro n hn
  obtain ⟨m, rfl⟩ := Nat.exists_eq_add_of_le' (Nat.le_trans (Nat.succ_le_succ (Nat.zero_le N)) hn)
  exact hN m (by omega)

open Classical in
mutual
theorem equal_norm : ∀ (v w b c : Ty), Head P b → Head P c → Norm P b v → Norm P c w →
    ∃ N : Nat, ∀ n ≥ N, baseEqual P n b c = .ok (decide (v = w))
  | .use d, w, b, c, hb, hc, hv, hw => by
    refine shift ⟨0, ?_⟩
    intro n _
    cases hv with
    | use _ =>
      cases hw
      case use e _ => simp only [baseEqual]; congr 1; by_cases h : d = e <;> simp [h]
      case name h' _ => exact (hc _ h').elim
      case remote => exact hc.elim
      case func => simp [baseEqual]
      case other => simp [baseEqual]
    | name h _ => exact (hb _ h).elim
    | remote _ => exact hb.elim
  | .other d, w, b, c, hb, hc, hv, hw => by
    refine shift ⟨0, ?_⟩
    intro n _
    cases hv with
    | other _ =>
      cases hw
      case use => simp [baseEqual]
      case name h' _ => exact (hc _ h').elim
      case remote => exact hc.elim
      case func => simp [baseEqual]
      case other e => simp only [baseEqual]; congr 1; by_cases h : d = e <;> simp [h]
    | name h _ => exact (hb _ h).elim
    | remote _ => exact hb.elim
  | .remote v, w, b, c, hb, hc, hv, hw => by
    cases hv with
    | name h _ => exact (hb _ h).elim
    | remote _ => exact hb.elim
  | .func fs r, w, b, c, hb, hc, hv, hw => by
    cases hv with
    | name h _ => exact (hb _ h).elim
    | remote _ => exact hb.elim
    | @func fs1 _ r1 _ a1 a2 =>
      cases hw
      case use => exact shift ⟨0, fun n _ => by simp [baseEqual]⟩
      case name h' _ => exact (hc _ h').elim
      case remote => exact hc.elim
      case other => exact shift ⟨0, fun n _ => by simp [baseEqual]⟩
      case func gs2 gs r2 s b1 b2 =>
        obtain ⟨N1, h1⟩ := equals_norm fs gs fs1 gs2 a1 b1
        obtain ⟨N2, h2⟩ := eqB_of a2 b2 (equal_norm r s)
        refine shift ⟨N1 + N2, ?_⟩
        intro n hn
        simp only [baseEqual]
        rw [h1 n (by omega), Res.ok_bind]
        by_cases e : fs = gs
        · subst e
          simp only [decide_true, if_true]
          have := h2 n (by omega)
          simp only [eqB] at this
          rw [this]
          simp
        · simp [e]
theorem equals_norm : ∀ (v w b c : Tys), Norms P b v → Norms P c w →
    ∃ N : Nat, ∀ n ≥ N, formalsEqual P n b c = .ok (decide (v = w))
  | .nil, w, b, c, hv, hw => by
    cases hv
    cases hw <;> exact shift ⟨0, fun n _ => by simp [formalsEqual]⟩
  | .seq v, w, b, c, hv, hw => by
    cases hv with
    | seq a =>
      cases hw
      case nil => exact shift ⟨0, fun n _ => by simp [formalsEqual]⟩
      case cons => exact shift ⟨0, fun n _ => by simp [formalsEqual]⟩
      case seq t2 w' b =>
        obtain ⟨N, h⟩ := eqB_of a b (equal_norm v w')
        refine shift ⟨N, ?_⟩
        intro n hn
        simp only [formalsEqual]
        have := h n hn
        simp only [eqB] at this
        rw [this]; simp
  | .cons v vs, w, b, c, hv, hw => by
    cases hv with
    | cons a as =>
      cases hw
      case nil => exact shift ⟨0, fun n _ => by simp [formalsEqual]⟩
      case seq => exact shift ⟨0, fun n _ => by simp [formalsEqual]⟩
      case cons t2 w' fs2 ws b bs =>
        obtain ⟨N1, h1⟩ := eqB_of a b (equal_norm v w')
        obtain ⟨N2, h2⟩ := equals_norm vs ws _ _ as bs
        refine shift ⟨N1 + N2, ?_⟩
        intro n hn
        have h3 := h1 n (by omega)
        simp only [eqB] at h3
        obtain ⟨t', ht, h3⟩ := Res.bind_eq_ok.1 h3
        obtain ⟨s', hs, h3⟩ := Res.bind_eq_ok.1 h3
        simp only [formalsEqual]
        rw [ht, Res.ok_bind, hs, Res.ok_bind, h3, Res.ok_bind, h2 n (by omega)]
        by_cases e : v = w'
        · subst e; simp
        · simp [e]
end

/-- With enough fuel, `checkEq` passes for types that are the same and reports all others. -/
theorem checkEq_decides (hP : P.Acyclic) (t s : Ty) : ∃ N : Nat, ∀ n ≥ N,
    (Same P t s → checkEq P n t s = .ok ()) ∧ (¬ Same P t s → checkEq P n t s = .stop) := by
  obtain ⟨v, hv⟩ := norm_all hP t
  obtain ⟨w, hw⟩ := norm_all hP s
  obtain ⟨N, h⟩ := eqB_of hv hw (equal_norm v w)
  refine ⟨N, ?_⟩
  intro n hn
  have h1 := h n hn
  simp only [eqB] at h1
  obtain ⟨t', ht, h1⟩ := Res.bind_eq_ok.1 h1
  obtain ⟨s', hs, h1⟩ := Res.bind_eq_ok.1 h1
  simp only [checkEq]
  rw [ht, Res.ok_bind, hs, Res.ok_bind, h1, Res.ok_bind]
  constructor
  · intro k
    have : v = w := norm_det ((same_norm k v).1 hv) hw
    simp [this]
  · intro k
    have : ¬ v = w := by
      rintro rfl
      exact k (.trans (norm_same hv) (.symm (norm_same hw)))
    simp [this]

end Aps.TyCk
