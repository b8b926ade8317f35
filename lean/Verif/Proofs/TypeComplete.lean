import Verif.Proofs.TypeNorm
import Verif.Proofs.TypeSoundSt
/-!
# Monomorphic expressions that are well typed are accepted
-/
set_option linter.unusedVariables false
namespace Aps.TyCk

variable {P : Prog}

theorem same_elem : ∀ {t s : Ty}, Same P t s → ∀ e : Ty, Elem P t e ↔ Elem P s e
  | _, _, .refl _, e => Iff.rfl
  | _, _, .symm h, e => (same_elem h e).symm
  | _, _, .trans h k, e => (same_elem h e).trans (same_elem k e)
  | _, _, .alias h, e => by
    constructor
    · intro k
      cases k with
      | inst h' => rw [h] at h'; cases h'
      | sig h' _ => rw [h] at h'; cases h'
      | «alias» h' k => rw [h] at h'; cases h'; exact k
    · exact .alias h
  | _, _, .remote t, e => by
    constructor
    · intro k; cases k; assumption
    · exact .remote
  | _, _, .func _ _, e => by constructor <;> (intro k; cases k)

theorem elem_complete (h1 : P.OneSig) : ∀ {t e : Ty}, Elem P t e → ∃ N : Nat, ∀ n ≥ N, elemType P n t = .ok e
  | _, _, .inst h => by
    refine ⟨1, ?_⟩
    intro n hn
    obtain ⟨m, rfl⟩ := Nat.exists_eq_add_of_le' hn
    simp only [elemType, h]
  | _, _, .sig (es := es) h hm => by
    refine ⟨1, ?_⟩
    intro n hn
    obtain ⟨m, rfl⟩ := Nat.exists_eq_add_of_le' hn
    have := h1 _ _ _ _ h
    match es, this, hm with
    | [a], _, hm =>
      simp only [List.mem_singleton] at hm
      subst hm
      simp only [elemType, h]
  | _, _, .alias h k => by
    obtain ⟨N, hN⟩ := elem_complete h1 k
    refine ⟨N + 1, ?_⟩
    intro n hn
    obtain ⟨m, rfl⟩ := Nat.exists_eq_add_of_le' (Nat.le_trans (Nat.succ_le_succ (Nat.zero_le N)) hn)
    simp only [elemType, h]
    exact hN m (by omega)
  | _, _, .remote k => by
    obtain ⟨N, hN⟩ := elem_complete h1 k
    refine ⟨N + 1, ?_⟩
    intro n hn
    obtain ⟨m, rfl⟩ := Nat.exists_eq_add_of_le' (Nat.le_trans (Nat.succ_le_succ (Nat.zero_le N)) hn)
    simp only [elemType]
    exact hN m (by omega)

/-- from some fuel on -/
def Ev (Q : Nat → Prop) : Prop := ∃ N : Nat, ∀ n ≥ N, Q n

theorem Ev.and {Q R : Nat → Prop} (h : Ev Q) (k : Ev R) : Ev fun n => Q n ∧ R n := by
  obtain ⟨N, hN⟩ := h
  obtain ⟨M, hM⟩ := k
  exact ⟨N + M, fun n hn => ⟨hN n (by omega), hM n (by omega)⟩⟩
theorem Ev.mono {Q R : Nat → Prop} (h : Ev Q) (k : ∀ n, Q n → R n) : Ev R := by
  obtain ⟨N, hN⟩ := h
  exact ⟨N, fun n hn => k n (hN n hn)⟩
theorem Ev.all {Q : Nat → Prop} (h : ∀ n, Q n) : Ev Q := ⟨0, fun n _ => h n⟩
theorem Ev.succ {Q : Nat → Prop} (h : Ev fun n => Q (n + 1)) : Ev Q := by
  obtain ⟨N, hN⟩ := h
  refine ⟨N + 1, ?_⟩
  intro n hn
  obtain ⟨m, rfl⟩ := Nat.exists_eq_add_of_le' (Nat.le_trans (Nat.succ_le_succ (Nat.zero_le N)) hn)
  exact hN m (by omega)

theorem checkEq_ev (hP : P.Acyclic) {t s : Ty} (h : Same P t s) : Ev fun n => checkEq P n t s = .ok () := by
  obtain ⟨N, hN⟩ := checkEq_decides hP t s
  exact ⟨N, fun n hn => (hN n hn).1 h⟩

mutual
theorem norm_idem_names : ∀ {t v : Ty}, Norm P t v → Norm P v v
  | _, _, .use h => .use h
  | _, _, .name _ n => norm_idem_names n
  | _, _, .remote n => norm_idem_names n
  | _, _, .func ns n => .func (norms_idem_names ns) (norm_idem_names n)
  | _, _, .other n => .other n
theorem norms_idem_names : ∀ {t v : Tys}, Norms P t v → Norms P v v
  | _, _, .nil => .nil
  | _, _, .seq n => .seq (norm_idem_names n)
  | _, _, .cons n ns => .cons (norm_idem_names n) (norms_idem_names ns)
end

theorem Sames.symm : ∀ {fs gs : Tys}, Sames P fs gs → Sames P gs fs
  | _, _, .nil => .nil
  | _, _, .seq h => .seq (.symm h)
  | _, _, .cons h hs => .cons (.symm h) hs.symm
theorem Sames.trans : ∀ {fs gs hs : Tys}, Sames P fs gs → Sames P gs hs → Sames P fs hs
  | _, _, _, .nil, .nil => .nil
  | _, _, _, .seq h, .seq k => .seq (.trans h k)
  | _, _, _, .cons h hs, .cons k ks => .cons (.trans h k) (hs.trans ks)

/-- What is the same as a function type has one as its base type, formal by formal the same. -/
theorem base_func (hP : P.Acyclic) {t r : Ty} {fs : Tys} (h : Same P t (.func fs r)) :
    ∃ (gs : Tys) (s : Ty), Sames P fs gs ∧ Same P r s ∧ Ev fun n => base P n t = .ok (.func gs s) := by
  obtain ⟨v, hv⟩ := norm_all hP t
  obtain ⟨N, b, hb, hbv, hN⟩ := base_norm hv
  have hf := (same_norm h v).1 hv
  cases hf with
  | @func _ fs' _ r' a1 a2 =>
    cases b with
    | use d =>
      cases hbv with
      | name h' _ => exact (hb _ h').elim
    | remote t => exact hb.elim
    | other k => cases hbv
    | func gs s =>
      cases hbv with
      | func b1 b2 =>
        exact ⟨gs, s, (norms_same a1).trans (norms_same b1).symm, .trans (norm_same a2) (.symm (norm_same b2)), N, hN⟩

theorem decl_ev (h1 : P.OneSig) {st : St} {Γ : Nat → Option Ty} (hk : Knows P st Γ) {u : Nat} {t : Ty} {polys : List Nat}
    (h : Declared P Γ u t polys) : ∃ s : Ty, Same P s t ∧ Ev fun n => declTy P n u st = .ok s := by
  cases h with
  | value hb => exact ⟨t, .refl t, .all fun n => by simp [declTy, hb]⟩
  | formal hb => exact ⟨t, .refl t, .all fun n => by simp [declTy, hb, formalTy]⟩
  | @var x _ hb hx =>
    rcases hk x t hx with ⟨s, hs, hq⟩ | ⟨s, hs, he⟩
    · exact ⟨s, hq, .all fun n => by simp [declTy, hb, formalTy, hs]⟩
    · obtain ⟨N, hN⟩ := elem_complete h1 he
      refine ⟨t, .refl t, N, fun n hn => ?_⟩
      simp only [declTy, hb, formalTy, hs]
      exact hN n hn

theorem declared_mono {Γ : Nat → Option Ty} {u : Nat} {t : Ty} {polys : List Nat} (h : Declared P Γ u t polys) (hm : Mono P u) :
    polys = [] := by
  cases h with
  | value hb => exact hm _ _ hb
  | formal hb => rfl
  | var hb _ => rfl

theorem unify_ev (hP : P.Acyclic) {st : St} {u : Nat} (hu : st.env u = []) {t s : Ty} (h : Same P t s) :
    Ev fun n => unify P n (some t) u s st = .ok st := by
  refine .succ ((checkEq_ev hP h).mono fun n hn => ?_)
  simp only [unify, hu]
  simp only [complete, List.all_nil, if_true, tsubst, List.isEmpty_nil, Res.ok_bind, checkEqO]
  rw [hn]
  simp

section
variable (hP : P.Acyclic) (h1 : P.OneSig) {st : St} {Γ : Nat → Option Ty} (hs : ∀ u : Nat, Mono P u → st.env u = []) (hk : Knows P st Γ)
include hP h1 hs hk

mutual
theorem complete_ex : ∀ {e : Ex} {t : Ty}, HasTy P Γ e t →
    (e.Ground P false → ∀ t' : Ty, Same P t t' → Ev fun n => check P n e t' st = .ok st) ∧
    (e.Ground P true → ∃ s : Ty, Same P s t ∧ Ev fun n => infer P n e st = .ok (s, st))
  | _, _, .use (u := u) (t' := t1) hd hl hr => by
    have key : Mono P u → ∃ s : Ty, Same P s t1 ∧ Ev fun n => declTy P n u st = .ok s := by
      intro hm
      obtain ⟨s, h2, h3⟩ := decl_ev h1 hk hd
      have e := declared_mono hd hm
      rw [e] at hr
      rw [replace_nil_eq hr]
      exact ⟨s, h2, h3⟩
    constructor
    · intro g t' ht
      obtain ⟨s, h2, h3⟩ := key g
      refine (h3.and (unify_ev hP (hs u g) (Same.trans (Same.symm ht) (Same.symm h2)))).mono fun n hn => ?_
      simp only [check, hn.1, Res.ok_bind, hn.2]
    · intro g
      obtain ⟨s, h2, h3⟩ := key g
      refine ⟨s, h2, h3.mono fun n hn => ?_⟩
      simp only [infer, hn, Res.ok_bind, hs u g, tsubst, List.isEmpty_nil, if_true]
  | _, _, .lit k => by
    constructor
    · intro g t' ht
      refine (checkEq_ev hP (Same.symm ht)).mono fun n hn => ?_
      simp only [check, hn, Res.ok_bind]
    · intro g
      exact ⟨_, .refl _, .all fun n => by simp only [infer]⟩
  | _, _, .typed (t := t) k => by
    have ih := complete_ex k
    constructor
    · intro g t' ht
      refine ((ih.1 g t (.refl t)).and (checkEq_ev hP (Same.symm ht))).mono fun n hn => ?_
      simp only [check, hn.1, hn.2, Res.ok_bind]
    · intro g
      refine ⟨t, .refl t, (ih.1 g t (.refl t)).mono fun n hn => ?_⟩
      simp only [infer, hn, Res.ok_bind]
  | _, _, .call (u := u) (as := as) (fs := fs) (r := r) (r' := r1) hd hl hq ha hr => by
    have key : Mono P u → ∃ (s r0 : Ty) (fs0 : Tys), Sames P fs fs0 ∧ Same P r0 r1 ∧
        (Ev fun n => declTy P n u st = .ok s ∧ base P n s = .ok (.func fs0 r0)) := by
      intro hm
      obtain ⟨s, h2, h3⟩ := decl_ev h1 hk hd
      obtain ⟨gs, r0, k1, k2, k3⟩ := base_func hP (Same.trans h2 hq)
      have e := declared_mono hd hm
      rw [e] at hr
      rw [replace_nil_eq hr]
      exact ⟨s, r0, gs, k1, .symm k2, h3.and k3⟩
    constructor
    · intro g t' ht
      obtain ⟨s, r0, fs0, k1, k2, k3⟩ := key g.1
      have ih := complete_args ha (declared_mono hd g.1) fs0 k1 g.2 (some u) (fun v hv => by cases hv; exact hs u g.1)
      have hu := unify_ev hP (hs u g.1) (Same.trans (Same.symm ht) (Same.symm k2))
      refine ((k3.and ih).and hu).mono fun n hn => ?_
      simp only [check, hn.1.1.1, hn.1.1.2, Res.ok_bind, asFunc, hn.2, hn.1.2]
    · intro g
      obtain ⟨s, r0, fs0, k1, k2, k3⟩ := key g.1
      have ih := complete_args ha (declared_mono hd g.1) fs0 k1 g.2 (some u) (fun v hv => by cases hv; exact hs u g.1)
      refine ⟨r0, k2, (k3.and ih).mono fun n hn => ?_⟩
      simp only [infer, hn.1.1, hn.1.2, Res.ok_bind, asFunc, hn.2, tsubstO, hs u g.1, tsubst, List.isEmpty_nil, if_true]
  | _, _, .callT (t := t) (fs := fs) (r := r) (as := as) k hq ha => by
    have ih := complete_ex k
    obtain ⟨gs, r0, k1, k2, k3⟩ := base_func hP hq
    constructor
    · intro g t' ht
      have ia := complete_args ha rfl gs k1 g.2 none (fun v hv => by cases hv)
      refine (((ih.1 g.1 t (.refl t)).and k3).and (ia.and (checkEq_ev hP (Same.trans (Same.symm ht) k2)))).mono fun n hn => ?_
      simp only [check, hn.1.1, hn.1.2, hn.2.1, hn.2.2, Res.ok_bind, asFunc]
    · intro g
      have ia := complete_args ha rfl gs k1 g.2 none (fun v hv => by cases hv)
      refine ⟨r0, .symm k2, (((ih.1 g.1 t (.refl t)).and k3).and ia).mono fun n hn => ?_⟩
      simp only [infer, hn.1.1, hn.1.2, hn.2, Res.ok_bind, asFunc]
  | _, _, .callE (t := t) (fs := fs) (r := r) (as := as) k hq ha => by
    have ih := complete_ex k
    constructor
    · intro g t' ht
      obtain ⟨s, h2, h3⟩ := ih.2 g.1
      obtain ⟨gs, r0, k1, k2, k3⟩ := base_func hP (Same.trans h2 hq)
      have ia := complete_args ha rfl gs k1 g.2 none (fun v hv => by cases hv)
      refine ((h3.and k3).and (ia.and (checkEq_ev hP (Same.trans (Same.symm ht) k2)))).mono fun n hn => ?_
      simp only [check, hn.1.1, hn.1.2, hn.2.1, hn.2.2, Res.ok_bind, asFunc]
    · intro g
      obtain ⟨s, h2, h3⟩ := ih.2 g.1
      obtain ⟨gs, r0, k1, k2, k3⟩ := base_func hP (Same.trans h2 hq)
      have ia := complete_args ha rfl gs k1 g.2 none (fun v hv => by cases hv)
      refine ⟨r0, .symm k2, ((h3.and k3).and ia).mono fun n hn => ?_⟩
      simp only [infer, hn.1.1, hn.1.2, hn.2, Res.ok_bind, asFunc]
  | _, _, .append (t := t) ka kb => by
    have ia := complete_ex ka
    have ib := complete_ex kb
    constructor
    · intro g t' ht
      refine ((ia.1 g.1 t' ht).and (ib.1 g.2 t' ht)).mono fun n hn => ?_
      simp only [check, hn.1, hn.2, Res.ok_bind]
    · intro g
      obtain ⟨s, h2, h3⟩ := ia.2 g.1
      refine ⟨s, h2, (h3.and (ib.1 g.2 s (.symm h2))).mono fun n hn => ?_⟩
      simp only [infer, hn.1, hn.2, Res.ok_bind]
  | _, _, .rep (t := t) (el := el) k he => by
    have ih := complete_ex k
    constructor
    · intro g t' ht
      obtain ⟨s, h2, h3⟩ := ih.2 g
      have h4 := elem_complete h1 ((same_elem h2 el).2 he)
      refine ((h3.and h4).and (checkEq_ev hP (Same.symm ht))).mono fun n hn => ?_
      simp only [check, hn.1.1, hn.1.2, hn.2, Res.ok_bind]
    · intro g
      obtain ⟨s, h2, h3⟩ := ih.2 g
      have h4 := elem_complete h1 ((same_elem h2 el).2 he)
      refine ⟨el, .refl el, (h3.and h4).mono fun n hn => ?_⟩
      simp only [infer, hn.1, hn.2, Res.ok_bind]
  | _, _, .guarded (t := t) ke kc => by
    have ie := complete_ex ke
    have ic := complete_ex kc
    constructor
    · intro g t' ht
      refine ((ie.1 g.1 t' ht).and (ic.1 g.2 _ (.refl _))).mono fun n hn => ?_
      simp only [check, hn.1, hn.2, Res.ok_bind]
    · intro g
      obtain ⟨s, h2, h3⟩ := ie.2 g.1
      refine ⟨s, h2, (h3.and (ic.1 g.2 _ (.refl _))).mono fun n hn => ?_⟩
      simp only [infer, hn.1, hn.2, Res.ok_bind]
  | _, _, .controlled _ _ _ _ _ => ⟨fun g => g.elim, fun g => g.elim⟩
  | _, _, .empty t => ⟨fun g t' _ => .all fun n => by simp only [check], fun g => by cases g⟩
  | _, _, .same k hq => by
    have ih := complete_ex k
    constructor
    · intro g t' ht
      exact ih.1 g t' (.trans hq ht)
    · intro g
      obtain ⟨s, h2, h3⟩ := ih.2 g
      exact ⟨s, .trans h2 hq, h3⟩

theorem complete_args : ∀ {polys : List Nat} {σ : Nat → Option Ty} {as : Exs} {fs : Tys}, ArgsTy P Γ polys σ as fs → polys = [] →
    ∀ gs : Tys, Sames P fs gs → as.Ground P → ∀ ou : Option Nat, (∀ u : Nat, ou = some u → st.env u = []) →
      Ev fun n => args P n as gs ou st = .ok st
  | _, _, _, _, .nil, hp, gs, hq, g, ou, ho => by
    cases hq
    exact .all fun n => by simp [args, noneLeft]
  | _, _, _, _, .none t, hp, gs, hq, g, ou, ho => by
    cases hq
    exact .all fun n => by simp [args, noneLeft]
  | _, _, _, _, .seq (e := e) (as := as) hr he ha, hp, gs, hq, g, ou, ho => by
    have i0 := complete_ex he
    have i3 := complete_args ha hp
    rw [hp] at hr
    have e0 := replace_nil_eq hr
    cases hq with
    | @seq _ s hts =>
      have i1 := i0.1 g.1 s (by rw [e0]; exact hts)
      have i2 := i3 (.seq s) (.seq hts) g.2 ou ho
      refine (i1.and i2).mono fun n hn => ?_
      have hkn : known ou st = true := by
        cases ou with
        | none => rfl
        | some u => simp [known, ho u rfl, complete]
      have hts : tsubstO P ou st s = .ok s := by
        cases ou with
        | none => rfl
        | some u => simp [tsubstO, ho u rfl, tsubst]
      simp only [args, nextFormal, hkn, if_true, hts, Res.ok_bind, hn.1, hn.2]
  | _, _, _, _, .cons (e := e) (as := as) hr he ha, hp, gs, hq, g, ou, ho => by
    have i0 := complete_ex he
    have i3 := complete_args ha hp
    rw [hp] at hr
    have e0 := replace_nil_eq hr
    cases hq with
    | @cons _ s _ gs hts hq =>
      have i1 := i0.1 g.1 s (by rw [e0]; exact hts)
      have i2 := i3 gs hq g.2 ou ho
      refine (i1.and i2).mono fun n hn => ?_
      have hkn : known ou st = true := by
        cases ou with
        | none => rfl
        | some u => simp [known, ho u rfl, complete]
      have hts : tsubstO P ou st s = .ok s := by
        cases ou with
        | none => rfl
        | some u => simp [tsubstO, ho u rfl, tsubst]
      simp only [args, nextFormal, hkn, if_true, hts, Res.ok_bind, hn.1, hn.2]
end

end
end Aps.TyCk
