import Verif.Proofs.TypeSound
/-!
# Patterns and statements
-/
set_option linter.unusedVariables false
namespace Aps.TyCk

variable {P : Prog}

mutual
theorem replace_nil_eq {σ : Nat → Option Ty} : ∀ {t t' : Ty}, Replace P [] σ t t' → t' = t
  | _, _, .param hp _ => by obtain ⟨_, _, _, _, h⟩ := hp; simp at h
  | _, _, .use _ => rfl
  | _, _, .remote r => by rw [replace_nil_eq r]
  | _, _, .func rs r => by rw [replaces_nil_eq rs, replace_nil_eq r]
  | _, _, .other n => rfl
theorem replaces_nil_eq {σ : Nat → Option Ty} : ∀ {fs fs' : Tys}, Replaces P [] σ fs fs' → fs' = fs
  | _, _, .nil => rfl
  | _, _, .seq r => by rw [replace_nil_eq r]
  | _, _, .cons r rs => by rw [replace_nil_eq r, replaces_nil_eq rs]
end

theorem mono_env {u : Nat} {st : St} (h : Mono P u) (hs : Le P (start P) st) : st.env u = [] := by
  have := (hs.src u).trans (srcs_start u)
  cases hb : P.bound u with
  | value t polys =>
    rw [hb] at this
    simp only [h t polys hb] at this
    simpa [srcs] using this
  | formal x t =>
    rw [hb] at this
    simpa [srcs] using this

/-- `ou` is a use without type parameters -/
def noEnv (ou : Option Nat) (st : St) : Prop :=
  match ou with
  | some u => st.env u = []
  | none => False

theorem setPat_does {n x : Nat} {t : Ty} {st st' : St} (h : setPat P n x t st = .ok st') :
    Does P st st' fun F => PatTy P (gam P n F) (.var x none) t := by
  unfold setPat at h
  split at h
  · rename_i hx
    cases h
    refine ⟨⟨⟨fun _ => rfl, fun _ _ _ k => k, ?_⟩, ?_⟩, ?_⟩
    · intro y s hy
      simp only
      split
      · rename_i e; subst e; rw [hx] at hy; cases hy
      · exact hy
    · intro u d p i es t hd h1 h2
      rw [h1] at h2; cases h2
    · intro F hF _
      refine .var ?_
      have : F.vars x = some (.pat t) := hF.vars _ _ (by simp)
      simp [gam, this]
  · rename_i s hs
    obtain ⟨_, he, h⟩ := Res.bind_eq_ok.1 h
    cases h
    exact .here fun F hF _ => .same (.var (by simp [gam, hF.vars _ _ hs])) (.symm (checkEq_same he))
  · simp at h

theorem pats_none {Γ : Nat → Option Ty} {polys : List Nat} {σ : Nat → Option Ty} {fs : Tys} (h : noneLeft fs = true) :
    ArgsPat P Γ polys σ .nil fs := by
  cases fs with
  | nil => exact .nil
  | seq t => exact .none t
  | cons t fs => simp [noneLeft] at h

theorem pats_next {Γ : Nat → Option Ty} {polys : List Nat} {σ : Nat → Option Ty} {fs : Tys} {f : Ty × Tys} {p : Pat} {as : Pats}
    {t' : Ty} (h : nextFormal fs = some f) (r : Replace P polys σ f.1 t') (he : PatTy P Γ p t')
    (ha : ArgsPat P Γ polys σ as f.2) : ArgsPat P Γ polys σ (.cons p as) fs := by
  cases fs with
  | nil => simp [nextFormal] at h
  | seq t => simp only [nextFormal] at h; cases h; exact .seq r he ha
  | cons t fs => simp only [nextFormal] at h; cases h; exact .cons r he ha

mutual
theorem inferP_ok (hP : P.Params) {n : Nat} : ∀ (p : Pat) (st st' : St) (o : Option Ty), p.Plain P true → Le P (start P) st →
    inferP P n p st = .ok (o, st') → ∃ t : Ty, o = some t ∧ Does P st st' fun F => PatTy P (gam P n F) p t
  | .use u, st, st', o, hp, h0, h => by
    simp only [inferP] at h
    obtain ⟨s, hs, h⟩ := Res.bind_eq_ok.1 h
    obtain ⟨s', hs', h⟩ := Res.bind_eq_ok.1 h
    cases h
    exact ⟨_, rfl, .here fun F hF hf => .use (declTy_ok hs hF hf) (fin_legal hf u) (replace_le hF (tsubst_replace hs'))⟩
  | .typed p s, st, st', o, hp, h0, h => by
    simp only [inferP] at h
    obtain ⟨st1, h1, h⟩ := Res.bind_eq_ok.1 h
    cases h
    exact ⟨_, rfl, (checkP_ok hP p s st _ hp.2 h0 h1).mono fun F _ _ k => .typed k⟩
  | .call u as, st, st', o, hp, h0, h => by
    simp only [inferP] at h
    obtain ⟨s, hs, h⟩ := Res.bind_eq_ok.1 h
    obtain ⟨s', hs', h⟩ := Res.bind_eq_ok.1 h
    obtain ⟨f, hf, h⟩ := Res.bind_eq_ok.1 h
    obtain ⟨st1, h1, h⟩ := Res.bind_eq_ok.1 h
    obtain ⟨r, hr, h⟩ := Res.bind_eq_ok.1 h
    cases h
    have hm : Mono P u := by
      rcases hp.2 with hm | ⟨hm, _⟩
      · exact hm
      · cases hm
    have he := mono_env hm h0
    have : s' = s := by
      have := tsubst_replace hs'
      rw [he] at this
      exact replace_nil_eq this
    subst this
    rw [asFunc_eq hf] at hs
    have d := argsP_ok hP as f.1 (some u) st _ hp.1 (.inl he) h0 h1
    exact ⟨_, rfl, d.mono fun F hF hfin k => .call (declTy_ok hs (d.1.le.trans hF) hfin) (fin_legal hfin u) (.refl _) k
      (tsubstO_ok hr hF)⟩
  | .callE p as, st, st', o, hp, h0, h => by
    simp only [inferP] at h
    obtain ⟨⟨o1, st1⟩, h1, h⟩ := Res.bind_eq_ok.1 h
    obtain ⟨s, hs, h⟩ := Res.bind_eq_ok.1 h
    obtain ⟨f, hf, h⟩ := Res.bind_eq_ok.1 h
    obtain ⟨st2, h2, h⟩ := Res.bind_eq_ok.1 h
    cases h
    obtain ⟨t1, e1, d1⟩ := inferP_ok hP p st st1 o1 hp.1 h0 h1
    subst e1
    simp only [notNull] at hs
    cases hs
    have d2 := argsP_ok hP as f.1 none st1 _ hp.2 (.inr (.inl rfl)) (h0.trans d1.1.le) h2
    exact ⟨_, rfl, d1.seq d2 fun F _ _ k1 k2 => .callE k1 (by rw [asFunc_eq hf]; exact .refl _) k2⟩
  | .rest p, st, st', o, hp, h0, h => by
    simp only [inferP] at h
    obtain ⟨t, e, d⟩ := inferP_ok hP p st st' o hp h0 h
    exact ⟨t, e, d.mono fun F _ _ k => .rest k⟩
  | .and p q, st, st', o, hp, h0, h => by
    simp only [inferP] at h
    obtain ⟨⟨o1, st1⟩, h1, h⟩ := Res.bind_eq_ok.1 h
    obtain ⟨t, e, d1⟩ := inferP_ok hP q st st1 o1 hp.2 h0 h1
    subst e
    simp only at h
    obtain ⟨st2, h2, h⟩ := Res.bind_eq_ok.1 h
    cases h
    have d2 := checkP_ok hP p t st1 _ hp.1 (h0.trans d1.1.le) h2
    exact ⟨t, rfl, d1.seq d2 fun F _ _ k1 k2 => .and k2 k1⟩
  | .var x t, st, st', o, hp, h0, h => by
    have ht : t = none := hp rfl
    simp only [inferP] at h
    rw [ht]
    rw [ht] at h
    simp only [inferVar] at h
    split at h
    · rename_i s hs
      cases h
      exact ⟨s, rfl, .here fun F hF _ => .var (by simp [gam, hF.vars _ _ hs])⟩
    · simp at h
  | .cond e, st, st', o, hp, h0, h => by simp [inferP] at h
  | .none, st, st', o, hp, h0, h => by simp [inferP] at h

theorem checkP_ok (hP : P.Params) {n : Nat} : ∀ (p : Pat) (t : Ty) (st st' : St), p.Plain P false → Le P (start P) st →
    checkP P n p t st = .ok st' → Does P st st' fun F => PatTy P (gam P n F) p t
  | .use u, t, st, st', hp, h0, h => by
    simp only [checkP] at h
    obtain ⟨s, hs, h⟩ := Res.bind_eq_ok.1 h
    have d := unify_does hP h
    refine d.mono fun F hF hf k => ?_
    obtain ⟨t', h1, h2⟩ := k
    exact .same (.use (declTy_ok hs (d.1.le.trans hF) hf) (fin_legal hf u) h1) (.symm h2)
  | .typed p s, t, st, st', hp, h0, h => by cases hp.1
  | .call u as, t, st, st', hp, h0, h => by
    simp only [checkP] at h
    obtain ⟨s, hs, h⟩ := Res.bind_eq_ok.1 h
    obtain ⟨b, hb, h⟩ := Res.bind_eq_ok.1 h
    obtain ⟨f, hf, h⟩ := Res.bind_eq_ok.1 h
    obtain ⟨st1, h1, h⟩ := Res.bind_eq_ok.1 h
    rw [asFunc_eq hf] at hb
    have d1 := unify_does hP h1
    have hm : st1.env u = [] ∨ (some u = none ∨ as.Plain P true) := by
      rcases hp.2 with hm | ⟨_, hm⟩
      · exact .inl (mono_env hm (h0.trans d1.1.le))
      · exact .inr (.inr hm)
    have d2 := argsP_ok hP as f.1 (some u) st1 st' hp.1 hm (h0.trans d1.1.le) h
    refine d1.seq d2 fun F hF hfin k1 k2 => ?_
    obtain ⟨r', hr, hr'⟩ := k1
    exact .same (.call (declTy_ok hs ((d1.1.le.trans d2.1.le).trans hF) hfin) (fin_legal hfin u) (base_same n _ _ hb) k2 hr)
      (.symm hr')
  | .callE p as, t, st, st', hp, h0, h => by
    simp only [checkP] at h
    obtain ⟨⟨o1, st1⟩, h1, h⟩ := Res.bind_eq_ok.1 h
    obtain ⟨s, hs, h⟩ := Res.bind_eq_ok.1 h
    obtain ⟨f, hf, h⟩ := Res.bind_eq_ok.1 h
    obtain ⟨st2, h2, h⟩ := Res.bind_eq_ok.1 h
    obtain ⟨_, hq, h⟩ := Res.bind_eq_ok.1 h
    cases h
    obtain ⟨t1, e1, d1⟩ := inferP_ok hP p st st1 o1 hp.1 h0 h1
    subst e1
    simp only [notNull] at hs
    cases hs
    have d2 := argsP_ok hP as f.1 none st1 _ hp.2 (.inr (.inl rfl)) (h0.trans d1.1.le) h2
    exact d1.seq d2 fun F _ _ k1 k2 => .same (.callE k1 (by rw [asFunc_eq hf]; exact .refl _) k2) (.symm (checkEq_same hq))
  | .rest p, t, st, st', hp, h0, h => by
    simp only [checkP] at h
    exact (checkP_ok hP p t st st' hp h0 h).mono fun F _ _ k => .rest k
  | .and p q, t, st, st', hp, h0, h => by
    simp only [checkP] at h
    obtain ⟨st1, h1, h⟩ := Res.bind_eq_ok.1 h
    have d1 := checkP_ok hP q t st st1 hp.2 h0 h1
    have d2 := checkP_ok hP p t st1 st' hp.1 (h0.trans d1.1.le) h
    exact d1.seq d2 fun F _ _ k1 k2 => .and k2 k1
  | .var x none, t, st, st', hp, h0, h => by
    simp only [checkP] at h
    exact setPat_does h
  | .var x (some s), t, st, st', hp, h0, h => by
    simp only [checkP] at h
    obtain ⟨_, he, h⟩ := Res.bind_eq_ok.1 h
    cases h
    exact .here fun F _ _ => .same (.tvar x s) (checkEq_same he)
  | .cond e, t, st, st', hp, h0, h => by
    simp only [checkP] at h
    exact (check_ok hP e P.bool st st' hp h).mono fun F _ _ k => .cond t k
  | .none, t, st, st', hp, h0, h => by
    simp only [checkP] at h
    cases h
    exact .here fun F _ _ => .none t

theorem argsP_ok (hP : P.Params) {n : Nat} : ∀ (as : Pats) (fs : Tys) (ou : Option Nat) (st st' : St), as.Plain P false →
    (noEnv ou st ∨ (ou = none ∨ as.Plain P true)) → Le P (start P) st →
    argsP P n as fs ou st = .ok st' → Does P st st' fun F => ArgsPat P (gam P n F) (pz ou F) (lk P ou F) as fs
  | .nil, fs, ou, st, st', hp, hq, h0, h => by
    simp only [argsP] at h
    split at h
    · rename_i hn
      cases h
      exact .here fun F hF hf => pats_none hn
    · simp at h
  | .cons p as, fs, ou, st, st', hp, hq, h0, h => by
    simp only [argsP] at h
    have next : ∀ st1 : St, Le P st st1 →
        (noEnv ou st1 ∨ (ou = none ∨ as.Plain P true)) := by
      intro st1 hle
      rcases hq with hq | hq | hq
      · cases ou with
        | none => exact hq.elim
        | some u =>
          left
          show st1.env u = []
          have := hle.src u
          have hq' : st.env u = [] := hq
          rw [hq'] at this
          simpa [srcs] using this
      · exact .inr (.inl hq)
      · exact .inr (.inr hq.2)
    split at h
    · simp at h
    · rename_i f hf
      by_cases hk : known ou st = true
      · simp only [hk, if_true] at h
        obtain ⟨t, ht, h⟩ := Res.bind_eq_ok.1 h
        obtain ⟨st1, h1, h⟩ := Res.bind_eq_ok.1 h
        have d1 := checkP_ok hP p t st st1 hp.1 h0 h1
        have d2 := argsP_ok hP as f.2 ou st1 st' hp.2 (next st1 d1.1.le) (h0.trans d1.1.le) h
        exact d1.seq d2 fun F hF _ k1 k2 => pats_next hf (tsubstO_ok ht ((d1.1.le.trans d2.1.le).trans hF)) k1 k2
      · have hpt : p.Plain P true := by
          rcases hq with hq | hq | hq
          · cases ou with
            | none => exact hq.elim
            | some u =>
              have hq' : st.env u = [] := hq
              exact (hk (by simp [known, hq', complete])).elim
          · subst hq; exact (hk rfl).elim
          · exact hq.1
        simp only [hk] at h
        obtain ⟨⟨o, st1⟩, h1, h⟩ := Res.bind_eq_ok.1 h
        obtain ⟨t, e, d1⟩ := inferP_ok hP p st st1 o hpt h0 h1
        subst e
        obtain ⟨st2, h2, h⟩ := Res.bind_eq_ok.1 h
        have d2 := unifyO_does hP h2
        have d3 := argsP_ok hP as f.2 ou st2 st' hp.2 (next st2 (d1.1.le.trans d2.1.le)) (h0.trans (d1.1.le.trans d2.1.le)) h
        refine (d1.seq d2 (S := fun F => PatTy P (gam P n F) p t ∧ ∃ t' : Ty, Replace P (pz ou F) (lk P ou F) f.1 t' ∧ Same P t t')
          fun F _ _ k1 k2 => ⟨k1, k2⟩).seq d3 fun F hF _ k1 k2 => ?_
        obtain ⟨k, t', h3, h4⟩ := k1
        exact pats_next hf h3 (.same k h4) k2
end

theorem dflt_ok (hP : P.Params) {n : Nat} {t : Ty} : ∀ (d : Dflt) (st st' : St), d.Plain → checkDflt P n t d st = .ok st' →
    Does P st st' fun F => DfltTy P (gam P n F) t d
  | .none, st, st', hp, h => by simp only [checkDflt] at h; cases h; exact .here fun F _ _ => .none
  | .simple e, st, st', hp, h => by
    simp only [checkDflt] at h
    exact (check_ok hP e t st st' hp h).mono fun F _ _ k => .simple k
  | .composite i c, st, st', hp, h => by
    simp only [checkDflt] at h
    obtain ⟨st1, h1, h⟩ := Res.bind_eq_ok.1 h
    exact (check_ok hP i t st st1 hp.1 h1).seq (check_ok hP c _ st1 st' hp.2 h) fun F _ _ k1 k2 => .composite k1 k2

mutual
theorem checkS_ok (hP : P.Params) {n : Nat} : ∀ (s : Stmt) (st st' : St), s.Plain P → Le P (start P) st →
    checkS P n s st = .ok st' → Does P st st' fun F => StmtTy P (gam P n F) s
  | .value t d, st, st', hp, h0, h => by
    simp only [checkS] at h
    exact (dflt_ok hP d st st' hp h).mono fun F _ _ k => .value k
  | .assign lhs rhs, st, st', hp, h0, h => by
    simp only [checkS] at h
    obtain ⟨⟨t, st1⟩, h1, h⟩ := Res.bind_eq_ok.1 h
    exact (infer_ok hP lhs st st1 t hp.1 h1).seq (check_ok hP rhs t st1 st' hp.2 h) fun F _ _ k1 k2 => .assign k1 k2
  | .ifs c t f, st, st', hp, h0, h => by
    simp only [checkS] at h
    obtain ⟨st1, h1, h⟩ := Res.bind_eq_ok.1 h
    obtain ⟨st2, h2, h⟩ := Res.bind_eq_ok.1 h
    have d1 := check_ok hP c P.bool st st1 hp.1 h1
    have d2 := checkB_ok hP t st1 st2 hp.2.1 (h0.trans d1.1.le) h2
    have d3 := checkB_ok hP f st2 st' hp.2.2 (h0.trans (d1.1.le.trans d2.1.le)) h
    exact (d1.seq d2 (S := fun F => HasTy P (gam P n F) c P.bool ∧ BlkTy P (gam P n F) t) fun F _ _ k1 k2 => ⟨k1, k2⟩).seq d3
      fun F _ _ k1 k2 => .ifs k1.1 k1.2 k2
  | .cases e ms d, st, st', hp, h0, h => by
    simp only [checkS] at h
    obtain ⟨⟨t, st1⟩, h1, h⟩ := Res.bind_eq_ok.1 h
    obtain ⟨st2, h2, h⟩ := Res.bind_eq_ok.1 h
    have d1 := infer_ok hP e st st1 t hp.1 h1
    have d2 := checkM_ok hP ms t st1 st2 hp.2.1 (h0.trans d1.1.le) h2
    have d3 := checkB_ok hP d st2 st' hp.2.2 (h0.trans (d1.1.le.trans d2.1.le)) h
    exact (d1.seq d2 (S := fun F => HasTy P (gam P n F) e t ∧ MatsTy P (gam P n F) t ms) fun F _ _ k1 k2 => ⟨k1, k2⟩).seq d3
      fun F _ _ k1 k2 => .cases k1.1 k1.2 k2
  | .fors e ms, st, st', hp, h0, h => by
    simp only [checkS] at h
    obtain ⟨⟨t, st1⟩, h1, h⟩ := Res.bind_eq_ok.1 h
    have d1 := infer_ok hP e st st1 t hp.1 h1
    have d2 := checkM_ok hP ms t st1 st' hp.2 (h0.trans d1.1.le) h
    exact d1.seq d2 fun F _ _ k1 k2 => .fors k1 k2
  | .forIn x xt e body, st, st', hp, h0, h => by
    simp only [checkS] at h
    obtain ⟨⟨t, st1⟩, h1, h⟩ := Res.bind_eq_ok.1 h
    obtain ⟨st2, h2, h⟩ := Res.bind_eq_ok.1 h
    have hx : xt = none := hp.1
    have d1 := infer_ok hP e st st1 t hp.2.1 h1
    have d2 := setSeq_does (P := P) (n := n) h2
    have d3 := checkB_ok hP body st2 st' hp.2.2 (h0.trans (d1.1.le.trans d2.1.le)) h
    exact (d1.seq d2 (S := fun F => HasTy P (gam P n F) e t ∧ F.vars x = some (.seq t)) fun F _ _ k1 k2 => ⟨k1, k2⟩).seq d3
      fun F _ _ k1 k2 => .forIn k1.1 (fun s' e' => by rw [hx] at e'; cases e') (fun s' _ g => gam_seq k1.2 g) k2
  | .top p body, st, st', hp, h0, h => by
    simp only [checkS] at h
    obtain ⟨⟨o, st1⟩, h1, h⟩ := Res.bind_eq_ok.1 h
    obtain ⟨t, e, d1⟩ := inferP_ok hP p st st1 o hp.1 h0 h1
    have d2 := checkB_ok hP body st1 st' hp.2 (h0.trans d1.1.le) h
    exact d1.seq d2 fun F _ _ k1 k2 => .top k1 k2

theorem checkB_ok (hP : P.Params) {n : Nat} : ∀ (b : Blk) (st st' : St), b.Plain P → Le P (start P) st →
    checkB P n b st = .ok st' → Does P st st' fun F => BlkTy P (gam P n F) b
  | .nil, st, st', hp, h0, h => by simp only [checkB] at h; cases h; exact .here fun F _ _ => .nil
  | .cons s rest, st, st', hp, h0, h => by
    simp only [checkB] at h
    obtain ⟨st1, h1, h⟩ := Res.bind_eq_ok.1 h
    have d1 := checkS_ok hP s st st1 hp.1 h0 h1
    have d2 := checkB_ok hP rest st1 st' hp.2 (h0.trans d1.1.le) h
    exact d1.seq d2 fun F _ _ k1 k2 => .cons k1 k2

theorem checkM_ok (hP : P.Params) {n : Nat} : ∀ (ms : Mats) (t : Ty) (st st' : St), ms.Plain P → Le P (start P) st →
    checkM P n ms t st = .ok st' → Does P st st' fun F => MatsTy P (gam P n F) t ms
  | .nil, t, st, st', hp, h0, h => by simp only [checkM] at h; cases h; exact .here fun F _ _ => .nil t
  | .cons p body rest, t, st, st', hp, h0, h => by
    simp only [checkM] at h
    obtain ⟨st1, h1, h⟩ := Res.bind_eq_ok.1 h
    obtain ⟨st2, h2, h⟩ := Res.bind_eq_ok.1 h
    have d1 := checkP_ok hP p t st st1 hp.1 h0 h1
    have d2 := checkB_ok hP body st1 st2 hp.2.1 (h0.trans d1.1.le) h2
    have d3 := checkM_ok hP rest t st2 st' hp.2.2 (h0.trans (d1.1.le.trans d2.1.le)) h
    exact (d1.seq d2 (S := fun F => PatTy P (gam P n F) p t ∧ BlkTy P (gam P n F) body) fun F _ _ k1 k2 => ⟨k1, k2⟩).seq d3
      fun F _ _ k1 k2 => .cons k1.1 k1.2 k2
end

/-- nothing is known at the start -/
theorem look_start (u d : Nat) : look P ((start P).env u) d = none := by
  unfold look
  split
  · rename_i p i es hd
    split
    · rename_i c hc
      have hm : c ∈ (start P).env u := List.mem_of_find?_eq_some hc
      simp only [start] at hm
      split at hm
      · simp only [instantiate, List.mem_map] at hm
        obtain ⟨q, _, rfl⟩ := hm
        simp only
        cases hi : (List.replicate (P.arity q) (none : Option Ty))[i]? with
        | none => rfl
        | some o =>
          have := List.mem_of_getElem? hi
          rw [List.eq_of_mem_replicate this]; rfl
      · simp at hm
    · rfl
  · rfl

theorem check_sound (hP : P.Params) {n : Nat} {b : Blk} {st' : St} (hp : b.Plain P) (h : checkB P n b (start P) = .ok st') :
    ∃ Γ : Nat → Option Ty, BlkTy P Γ b := by
  have d := checkB_ok hP b (start P) st' hp (.refl _) h
  refine ⟨gam P n st', d.2 st' (.refl _) ⟨d.1.le, ?_⟩⟩
  intro u d' p i es t hd hs
  exact d.1.new u d' p i es t hd (look_start u d') hs st' (.refl _)

end Aps.TyCk
