import Verif.Proofs.TypeUnify
/-!
# What the checker accepts is well typed
-/
set_option linter.unusedVariables false
namespace Aps.TyCk

variable {P : Prog}

/-- a state at the end: later than the start, and the signatures of everything found hold -/
structure Fin (P : Prog) (F : St) : Prop where
  le : Le P (start P) F
  ok : ∀ (u d p i : Nat) (es : List Ty) (t : Ty), P.type d = .formal p i es → look P (F.env u) d = some t → Cons P F u es t

/-- the types of variables -/
def gam (P : Prog) (n : Nat) (F : St) (x : Nat) : Option Ty :=
  match F.vars x with
  | some (.pat t) => some t
  | some (.seq t) =>
    match elemType P n t with
    | .ok e => some e
    | _ => none
  | none => none

/-- more is known, and with all that is known at the end `Q` holds -/
def Does (P : Prog) (a b : St) (Q : St → Prop) : Prop := Step P a b ∧ ∀ F : St, Le P b F → Fin P F → Q F

theorem Does.here {a : St} {Q : St → Prop} (h : ∀ F : St, Le P a F → Fin P F → Q F) : Does P a a Q := ⟨.refl a, h⟩
theorem Does.mono {a b : St} {Q R : St → Prop} (h : Does P a b Q) (g : ∀ F : St, Le P b F → Fin P F → Q F → R F) : Does P a b R :=
  ⟨h.1, fun F hF hf => g F hF hf (h.2 F hF hf)⟩
theorem Does.seq {a b c : St} {Q R S : St → Prop} (h : Does P a b Q) (k : Does P b c R)
    (g : ∀ F : St, Le P c F → Fin P F → Q F → R F → S F) : Does P a c S :=
  ⟨h.1.trans k.1, fun F hF hf => g F hF hf (h.2 F (k.1.le.trans hF) hf) (k.2 F hF hf)⟩

theorem fin_legal {F : St} (h : Fin P F) (u : Nat) : Legal P (srcs (F.env u)) (look P (F.env u)) := by
  intro d p i es t hd hp hs e he
  exact h.ok u d p i es t hd hs e he

theorem srcs_start (u : Nat) : srcs ((start P).env u) = match P.bound u with
    | .value _ polys => polys
    | .formal _ _ => [] := by
  simp only [start]
  cases P.bound u with
  | value t polys =>
    simp only [instantiate, srcs, List.map_map]
    induction polys with
    | nil => rfl
    | cons p ps ih => simp only [List.map_cons, Function.comp]; rw [ih]
  | formal x t => rfl

theorem formalTy_gam {n x : Nat} {st F : St} {t : Ty} (h : formalTy P n x none st = .ok t) (hF : Le P st F) :
    gam P n F x = some t := by
  simp only [formalTy] at h
  split at h
  · rename_i s hs
    cases h
    simp [gam, hF.vars _ _ hs]
  · rename_i s hs
    simp [gam, hF.vars _ _ hs, h]
  · simp at h

theorem declTy_ok {n u : Nat} {st F : St} {t : Ty} (h : declTy P n u st = .ok t) (hF : Le P st F) (hf : Fin P F) :
    Declared P (gam P n F) u t (srcs (F.env u)) := by
  have hs := (hf.le.src u).trans (srcs_start u)
  unfold declTy at h
  cases hb : P.bound u with
  | value s polys =>
    rw [hb] at h hs
    simp only at h hs
    cases h
    rw [hs]; exact .value hb
  | formal x s =>
    rw [hb] at h hs
    simp only at h hs
    rw [hs]
    cases s with
    | some s => simp only [formalTy] at h; cases h; exact .formal hb
    | none => exact .var hb (formalTy_gam h hF)

theorem unify_does (hP : P.Params) {n : Nat} {t : Ty} {u : Nat} {t2 : Ty} {st st' : St} (h : unify P n (some t) u t2 st = .ok st') :
    Does P st st' fun F => ∃ t' : Ty, Replace P (srcs (F.env u)) (look P (F.env u)) t2 t' ∧ Same P t t' := by
  obtain ⟨h1, h2⟩ := (unify_ok hP n).1 t u t2 st st' h
  exact ⟨h1, fun F hF _ => h2 F hF⟩

/-- whose parameters are replaced -/
def pz (ou : Option Nat) (F : St) : List Nat :=
  match ou with
  | none => []
  | some u => srcs (F.env u)
/-- and with what -/
def lk (P : Prog) (ou : Option Nat) (F : St) : Nat → Option Ty :=
  match ou with
  | none => fun _ => none
  | some u => look P (F.env u)

theorem tsubstO_ok {ou : Option Nat} {st F : St} {t t' : Ty} (h : tsubstO P ou st t = .ok t') (hF : Le P st F) :
    Replace P (pz ou F) (lk P ou F) t t' := by
  cases ou with
  | none => simp only [tsubstO] at h; cases h; exact replace_nil _ _
  | some u => exact replace_le hF (tsubst_replace h)

theorem unifyO_does (hP : P.Params) {n : Nat} {t : Ty} {ou : Option Nat} {t2 : Ty} {st st' : St}
    (h : unifyO P n (some t) ou t2 st = .ok st') :
    Does P st st' fun F => ∃ t' : Ty, Replace P (pz ou F) (lk P ou F) t2 t' ∧ Same P t t' := by
  cases ou with
  | none =>
    simp only [unifyO] at h
    obtain ⟨_, he, h⟩ := Res.bind_eq_ok.1 h
    cases h
    exact .here fun F hF hf => ⟨t2, replace_nil _ _, checkEq_same he⟩
  | some u => exact unify_does hP h

theorem setSeq_does {n x : Nat} {t : Ty} {st st' : St} (h : setSeq x t st = .ok st') :
    Does P st st' fun F => F.vars x = some (.seq t) := by
  unfold setSeq at h
  split at h
  · rename_i hx
    cases h
    refine ⟨⟨⟨fun _ => rfl, fun _ _ _ k => k, ?_⟩, ?_⟩, ?_⟩
    · intro y s hy
      simp only
      split
      · rename_i e; subst e; rw [hx] at hy; cases hy
      · exact hy
    · intro u d p i es t hd h1 h2
      rw [h1] at h2; cases h2
    · intro F hF _
      exact hF.vars _ _ (by simp)
  · simp at h

theorem gam_seq {n x : Nat} {F : St} {t s : Ty} (h : F.vars x = some (.seq t)) (g : gam P n F x = some s) : Elem P t s := by
  simp only [gam, h] at g
  split at g
  · rename_i e he
    cases g
    exact elemType_elem n _ _ he
  · cases g

theorem asFunc_eq {t : Ty} {f : Tys × Ty} (h : asFunc t = .ok f) : t = .func f.1 f.2 := by
  cases t <;> simp [asFunc] at h
  subst h; rfl

theorem args_none {Γ : Nat → Option Ty} {polys : List Nat} {σ : Nat → Option Ty} {fs : Tys} (h : noneLeft fs = true) :
    ArgsTy P Γ polys σ .nil fs := by
  cases fs with
  | nil => exact .nil
  | seq t => exact .none t
  | cons t fs => simp [noneLeft] at h

theorem args_next {Γ : Nat → Option Ty} {polys : List Nat} {σ : Nat → Option Ty} {fs : Tys} {f : Ty × Tys} {e : Ex} {as : Exs}
    {t' : Ty} (h : nextFormal fs = some f) (r : Replace P polys σ f.1 t') (he : HasTy P Γ e t')
    (ha : ArgsTy P Γ polys σ as f.2) : ArgsTy P Γ polys σ (.cons e as) fs := by
  cases fs with
  | nil => simp [nextFormal] at h
  | seq t => simp only [nextFormal] at h; cases h; exact .seq r he ha
  | cons t fs => simp only [nextFormal] at h; cases h; exact .cons r he ha

mutual
theorem infer_ok (hP : P.Params) {n : Nat} : ∀ (e : Ex) (st st' : St) (t : Ty), e.Plain → infer P n e st = .ok (t, st') →
    Does P st st' fun F => HasTy P (gam P n F) e t
  | .use u, st, st', t, hp, h => by
    simp only [infer] at h
    obtain ⟨s, hs, h⟩ := Res.bind_eq_ok.1 h
    obtain ⟨s', hs', h⟩ := Res.bind_eq_ok.1 h
    cases h
    exact .here fun F hF hf => .use (declTy_ok hs hF hf) (fin_legal hf u) (replace_le hF (tsubst_replace hs'))
  | .lit k, st, st', t, hp, h => by
    simp only [infer] at h
    cases h
    exact .here fun F hF hf => .lit k
  | .typed e s, st, st', t, hp, h => by
    simp only [infer] at h
    obtain ⟨st1, h1, h⟩ := Res.bind_eq_ok.1 h
    cases h
    exact (check_ok hP e _ st _ hp h1).mono fun F _ _ k => .typed k
  | .call u as, st, st', t, hp, h => by
    simp only [infer] at h
    obtain ⟨s, hs, h⟩ := Res.bind_eq_ok.1 h
    obtain ⟨b, hb, h⟩ := Res.bind_eq_ok.1 h
    obtain ⟨f, hf, h⟩ := Res.bind_eq_ok.1 h
    obtain ⟨st1, h1, h⟩ := Res.bind_eq_ok.1 h
    obtain ⟨r, hr, h⟩ := Res.bind_eq_ok.1 h
    cases h
    rw [asFunc_eq hf] at hb
    have d := args_ok hP as f.1 (some u) st _ hp h1
    exact d.mono fun F hF hfin k => .call (declTy_ok hs (d.1.le.trans hF) hfin) (fin_legal hfin u) (base_same n _ _ hb) k
      (tsubstO_ok hr hF)
  | .callT e s as, st, st', t, hp, h => by
    simp only [infer] at h
    obtain ⟨st1, h1, h⟩ := Res.bind_eq_ok.1 h
    obtain ⟨b, hb, h⟩ := Res.bind_eq_ok.1 h
    obtain ⟨f, hf, h⟩ := Res.bind_eq_ok.1 h
    obtain ⟨st2, h2, h⟩ := Res.bind_eq_ok.1 h
    cases h
    rw [asFunc_eq hf] at hb
    exact (check_ok hP e s st st1 hp.1 h1).seq (args_ok hP as f.1 none st1 _ hp.2 h2) fun F _ _ k1 k2 =>
      .callT k1 (base_same n _ _ hb) k2
  | .callE e as, st, st', t, hp, h => by
    simp only [infer] at h
    obtain ⟨⟨s, st1⟩, h1, h⟩ := Res.bind_eq_ok.1 h
    obtain ⟨b, hb, h⟩ := Res.bind_eq_ok.1 h
    obtain ⟨f, hf, h⟩ := Res.bind_eq_ok.1 h
    obtain ⟨st2, h2, h⟩ := Res.bind_eq_ok.1 h
    cases h
    rw [asFunc_eq hf] at hb
    exact (infer_ok hP e st st1 s hp.1 h1).seq (args_ok hP as f.1 none st1 _ hp.2 h2) fun F _ _ k1 k2 =>
      .callE k1 (base_same n _ _ hb) k2
  | .append a b, st, st', t, hp, h => by
    simp only [infer] at h
    obtain ⟨⟨s, st1⟩, h1, h⟩ := Res.bind_eq_ok.1 h
    obtain ⟨st2, h2, h⟩ := Res.bind_eq_ok.1 h
    cases h
    exact (infer_ok hP a st st1 _ hp.1 h1).seq (check_ok hP b _ st1 _ hp.2 h2) fun F _ _ k1 k2 => .append k1 k2
  | .rep e, st, st', t, hp, h => by
    simp only [infer] at h
    obtain ⟨⟨s, st1⟩, h1, h⟩ := Res.bind_eq_ok.1 h
    obtain ⟨el, he, h⟩ := Res.bind_eq_ok.1 h
    cases h
    exact (infer_ok hP e st st1 s hp h1).mono fun F _ _ k => .rep k (elemType_elem n _ _ he)
  | .guarded e c, st, st', t, hp, h => by
    simp only [infer] at h
    obtain ⟨⟨s, st1⟩, h1, h⟩ := Res.bind_eq_ok.1 h
    obtain ⟨st2, h2, h⟩ := Res.bind_eq_ok.1 h
    cases h
    exact (infer_ok hP e st st1 _ hp.1 h1).seq (check_ok hP c P.bool st1 _ hp.2 h2) fun F _ _ k1 k2 => .guarded k1 k2
  | .controlled e x xt set, st, st', t, hp, h => by
    simp only [infer] at h
    obtain ⟨⟨s, st1⟩, h1, h⟩ := Res.bind_eq_ok.1 h
    obtain ⟨el, he, h⟩ := Res.bind_eq_ok.1 h
    obtain ⟨st2, h2, h⟩ := Res.bind_eq_ok.1 h
    have hx : xt = none := hp.1
    have d1 := infer_ok hP set st st1 s hp.2.2 h1
    have d2 := setSeq_does (P := P) (n := n) h2
    have d3 := infer_ok hP e st2 st' t hp.2.1 h
    exact (d1.seq d2 (S := fun F => HasTy P (gam P n F) set s ∧ F.vars x = some (.seq s)) fun F _ _ k1 k2 => ⟨k1, k2⟩).seq d3
      fun F _ _ k1 k2 => .controlled k1.1 (elemType_elem n _ _ he) (fun s' e' => by rw [hx] at e'; cases e')
        (fun s' _ g => gam_seq k1.2 g) k2
  | .empty, st, st', t, hp, h => by simp [infer] at h

theorem check_ok (hP : P.Params) {n : Nat} : ∀ (e : Ex) (t : Ty) (st st' : St), e.Plain → check P n e t st = .ok st' →
    Does P st st' fun F => HasTy P (gam P n F) e t
  | .use u, t, st, st', hp, h => by
    simp only [check] at h
    obtain ⟨s, hs, h⟩ := Res.bind_eq_ok.1 h
    have d := unify_does hP h
    refine d.mono fun F hF hf k => ?_
    obtain ⟨t', h1, h2⟩ := k
    exact .same (.use (declTy_ok hs (d.1.le.trans hF) hf) (fin_legal hf u) h1) (.symm h2)
  | .lit k, t, st, st', hp, h => by
    simp only [check] at h
    obtain ⟨_, he, h⟩ := Res.bind_eq_ok.1 h
    cases h
    exact .here fun F hF hf => .same (.lit k) (.symm (checkEq_same he))
  | .typed e s, t, st, st', hp, h => by
    simp only [check] at h
    obtain ⟨st1, h1, h⟩ := Res.bind_eq_ok.1 h
    obtain ⟨_, he, h⟩ := Res.bind_eq_ok.1 h
    cases h
    exact (check_ok hP e s st st' hp h1).mono fun F _ _ k => .same (.typed k) (.symm (checkEq_same he))
  | .call u as, t, st, st', hp, h => by
    simp only [check] at h
    obtain ⟨s, hs, h⟩ := Res.bind_eq_ok.1 h
    obtain ⟨b, hb, h⟩ := Res.bind_eq_ok.1 h
    obtain ⟨f, hf, h⟩ := Res.bind_eq_ok.1 h
    obtain ⟨st1, h1, h⟩ := Res.bind_eq_ok.1 h
    rw [asFunc_eq hf] at hb
    have d1 := unify_does hP h1
    have d2 := args_ok hP as f.1 (some u) st1 st' hp h
    refine d1.seq d2 fun F hF hfin k1 k2 => ?_
    obtain ⟨r', hr, hr'⟩ := k1
    exact .same (.call (declTy_ok hs ((d1.1.le.trans d2.1.le).trans hF) hfin) (fin_legal hfin u) (base_same n _ _ hb) k2 hr)
      (.symm hr')
  | .callT e s as, t, st, st', hp, h => by
    simp only [check] at h
    obtain ⟨st1, h1, h⟩ := Res.bind_eq_ok.1 h
    obtain ⟨b, hb, h⟩ := Res.bind_eq_ok.1 h
    obtain ⟨f, hf, h⟩ := Res.bind_eq_ok.1 h
    obtain ⟨st2, h2, h⟩ := Res.bind_eq_ok.1 h
    obtain ⟨_, he, h⟩ := Res.bind_eq_ok.1 h
    cases h
    rw [asFunc_eq hf] at hb
    exact (check_ok hP e s st st1 hp.1 h1).seq (args_ok hP as f.1 none st1 _ hp.2 h2) fun F _ _ k1 k2 =>
      .same (.callT k1 (base_same n _ _ hb) k2) (.symm (checkEq_same he))
  | .callE e as, t, st, st', hp, h => by
    simp only [check] at h
    obtain ⟨⟨s, st1⟩, h1, h⟩ := Res.bind_eq_ok.1 h
    obtain ⟨b, hb, h⟩ := Res.bind_eq_ok.1 h
    obtain ⟨f, hf, h⟩ := Res.bind_eq_ok.1 h
    obtain ⟨st2, h2, h⟩ := Res.bind_eq_ok.1 h
    obtain ⟨_, he, h⟩ := Res.bind_eq_ok.1 h
    cases h
    rw [asFunc_eq hf] at hb
    exact (infer_ok hP e st st1 s hp.1 h1).seq (args_ok hP as f.1 none st1 _ hp.2 h2) fun F _ _ k1 k2 =>
      .same (.callE k1 (base_same n _ _ hb) k2) (.symm (checkEq_same he))
  | .append a b, t, st, st', hp, h => by
    simp only [check] at h
    obtain ⟨st1, h1, h⟩ := Res.bind_eq_ok.1 h
    exact (check_ok hP a t st st1 hp.1 h1).seq (check_ok hP b t st1 st' hp.2 h) fun F _ _ k1 k2 => .append k1 k2
  | .rep e, t, st, st', hp, h => by
    simp only [check] at h
    obtain ⟨⟨s, st1⟩, h1, h⟩ := Res.bind_eq_ok.1 h
    obtain ⟨el, he, h⟩ := Res.bind_eq_ok.1 h
    obtain ⟨_, hq, h⟩ := Res.bind_eq_ok.1 h
    cases h
    exact (infer_ok hP e st st1 s hp h1).mono fun F _ _ k => .same (.rep k (elemType_elem n _ _ he)) (.symm (checkEq_same hq))
  | .guarded e c, t, st, st', hp, h => by
    simp only [check] at h
    obtain ⟨st1, h1, h⟩ := Res.bind_eq_ok.1 h
    exact (check_ok hP e t st st1 hp.1 h1).seq (check_ok hP c P.bool st1 st' hp.2 h) fun F _ _ k1 k2 => .guarded k1 k2
  | .controlled e x xt set, t, st, st', hp, h => by
    simp only [check] at h
    obtain ⟨⟨s, st1⟩, h1, h⟩ := Res.bind_eq_ok.1 h
    obtain ⟨el, he, h⟩ := Res.bind_eq_ok.1 h
    obtain ⟨st2, h2, h⟩ := Res.bind_eq_ok.1 h
    have hx : xt = none := hp.1
    have d1 := infer_ok hP set st st1 s hp.2.2 h1
    have d2 := setSeq_does (P := P) (n := n) h2
    have d3 := check_ok hP e t st2 st' hp.2.1 h
    exact (d1.seq d2 (S := fun F => HasTy P (gam P n F) set s ∧ F.vars x = some (.seq s)) fun F _ _ k1 k2 => ⟨k1, k2⟩).seq d3
      fun F _ _ k1 k2 => .controlled k1.1 (elemType_elem n _ _ he) (fun s' e' => by rw [hx] at e'; cases e')
        (fun s' _ g => gam_seq k1.2 g) k2
  | .empty, t, st, st', hp, h => by
    simp only [check] at h
    cases h
    exact .here fun F hF hf => .empty t

theorem args_ok (hP : P.Params) {n : Nat} : ∀ (as : Exs) (fs : Tys) (ou : Option Nat) (st st' : St), as.Plain →
    args P n as fs ou st = .ok st' → Does P st st' fun F => ArgsTy P (gam P n F) (pz ou F) (lk P ou F) as fs
  | .nil, fs, ou, st, st', hp, h => by
    simp only [args] at h
    split at h
    · rename_i hn
      cases h
      exact .here fun F hF hf => args_none hn
    · simp at h
  | .cons e as, fs, ou, st, st', hp, h => by
    simp only [args] at h
    split at h
    · simp at h
    · rename_i f hf
      by_cases hk : known ou st = true
      · simp only [hk, if_true] at h
        obtain ⟨t, ht, h⟩ := Res.bind_eq_ok.1 h
        obtain ⟨st1, h1, h⟩ := Res.bind_eq_ok.1 h
        have d1 := check_ok hP e t st st1 hp.1 h1
        have d2 := args_ok hP as f.2 ou st1 st' hp.2 h
        exact d1.seq d2 fun F hF _ k1 k2 => args_next hf (tsubstO_ok ht ((d1.1.le.trans d2.1.le).trans hF)) k1 k2
      · simp only [hk] at h
        obtain ⟨⟨t, st1⟩, h1, h⟩ := Res.bind_eq_ok.1 h
        obtain ⟨st2, h2, h⟩ := Res.bind_eq_ok.1 h
        have d1 := infer_ok hP e st st1 t hp.1 h1
        have d2 := unifyO_does hP h2
        have d3 := args_ok hP as f.2 ou st2 st' hp.2 h
        refine (d1.seq d2 (S := fun F => HasTy P (gam P n F) e t ∧ ∃ t' : Ty, Replace P (pz ou F) (lk P ou F) f.1 t' ∧ Same P t t')
          fun F _ _ k1 k2 => ⟨k1, k2⟩).seq d3 fun F hF _ k1 k2 => ?_
        obtain ⟨k, t', h3, h4⟩ := k1
        exact args_next hf h3 (.same k h4) k2
end

end Aps.TyCk
