import Verif.Proofs.TypeSame
/-!
# What `unify` finds stays true: slots are filled once
-/
set_option linter.unusedVariables false
namespace Aps.TyCk

variable {P : Prog}

def srcs (env : Env) : List Nat := env.map Contour.source

/-- only more is known -/
structure Le (P : Prog) (a b : St) : Prop where
  src : ∀ u : Nat, srcs (b.env u) = srcs (a.env u)
  look : ∀ (u d : Nat) (t : Ty), look P (a.env u) d = some t → look P (b.env u) d = some t
  vars : ∀ (x : Nat) (s : Src), a.vars x = some s → b.vars x = some s

theorem Le.refl (a : St) : Le P a a := ⟨fun _ => rfl, fun _ _ _ h => h, fun _ _ h => h⟩
theorem Le.trans {a b c : St} (h : Le P a b) (g : Le P b c) : Le P a c :=
  ⟨fun u => (g.src u).trans (h.src u), fun u d t k => g.look u d t (h.look u d t k), fun x s k => g.vars x s (h.vars x s k)⟩

/-- the signatures of a parameter replaced by `t` -/
def Cons (P : Prog) (F : St) (u : Nat) (es : List Ty) (t : Ty) : Prop :=
  ∀ e ∈ es, ∃ el e' : Ty, Elem P t el ∧ Replace P (srcs (F.env u)) (look P (F.env u)) e e' ∧ Same P el e'

/-- more is known, and the signatures of what is new hold -/
structure Step (P : Prog) (a b : St) : Prop where
  le : Le P a b
  new : ∀ (u d p i : Nat) (es : List Ty) (t : Ty), P.type d = .formal p i es → look P (a.env u) d = none →
    look P (b.env u) d = some t → ∀ F : St, Le P b F → Cons P F u es t

theorem Step.refl (a : St) : Step P a a := ⟨.refl a, fun u d p i es t _ h g => by rw [h] at g; cases g⟩
theorem Step.trans {a b c : St} (h : Step P a b) (g : Step P b c) : Step P a c := by
  refine ⟨h.le.trans g.le, ?_⟩
  intro u d p i es t hd ha hc F hF
  cases hb : look P (b.env u) d with
  | none => exact g.new u d p i es t hd hb hc F hF
  | some s =>
    have hcs := g.le.look u d s hb
    rw [hcs] at hc
    cases hc
    exact h.new u d p i es _ hd ha hb F (g.le.trans hF)

theorem contour_mem : ∀ (env : Env) (p : Nat), (∃ c, contour env p = some c) ↔ p ∈ srcs env
  | [], p => by simp [contour, srcs]
  | c :: env, p => by
    have ih := contour_mem env p
    by_cases h : c.source = p
    · simp [contour, srcs, h]
    · have h' : ¬ p = c.source := fun e => h e.symm
      simp only [contour, List.find?_cons, srcs, List.map_cons, List.mem_cons, h', false_or]
      rw [show (c.source == p) = false by simpa using h]
      exact ih

theorem param_iff (env : Env) (d : Nat) :
    Param P (srcs env) d ↔ ∃ (p i : Nat) (es : List Ty) (c : Contour), P.type d = .formal p i es ∧ contour env p = some c := by
  constructor
  · rintro ⟨p, i, es, hd, hp⟩
    obtain ⟨c, hc⟩ := (contour_mem env p).2 hp
    exact ⟨p, i, es, c, hd, hc⟩
  · rintro ⟨p, i, es, c, hd, hc⟩
    exact ⟨p, i, es, hd, (contour_mem env p).1 ⟨c, hc⟩⟩

mutual
theorem subst_replace (env : Env) : ∀ (t t' : Ty), substTy P env t = .ok t' → Replace P (srcs env) (look P env) t t'
  | .use d, t', h => by
    simp only [substTy] at h
    split at h
    · rename_i p i es hd
      split at h
      · rename_i hc
        cases h
        refine .use ?_
        rw [param_iff]
        rintro ⟨p', i', es', c, hd', hc'⟩
        rw [hd] at hd'; cases hd'
        rw [hc] at hc'; cases hc'
      · rename_i c hc
        split at h
        · rename_i t ht
          cases h
          refine .param ((param_iff env d).2 ⟨p, i, es, c, hd, hc⟩) ?_
          simp [look, hd, hc, ht]
        · simp at h
        · simp at h
    · rename_i hd
      cases h
      refine .use ?_
      rintro ⟨p, i, es, hd', _⟩
      exact hd p i es hd'
  | .remote t, t', h => by
    simp only [substTy] at h
    obtain ⟨s, hs, h⟩ := Res.bind_eq_ok.1 h
    cases h
    exact .remote (subst_replace env t s hs)
  | .func fs r, t', h => by
    simp only [substTy] at h
    obtain ⟨gs, hg, h⟩ := Res.bind_eq_ok.1 h
    obtain ⟨s, hs, h⟩ := Res.bind_eq_ok.1 h
    cases h
    exact .func (substs_replace env fs gs hg) (subst_replace env r s hs)
  | .other n, t', h => by simp [substTy] at h

theorem substs_replace (env : Env) : ∀ (fs fs' : Tys), substTys P env fs = .ok fs' →
    Replaces P (srcs env) (look P env) fs fs'
  | .nil, fs', h => by simp only [substTys] at h; cases h; exact .nil
  | .seq t, fs', h => by
    simp only [substTys] at h
    obtain ⟨s, hs, h⟩ := Res.bind_eq_ok.1 h
    cases h
    exact .seq (subst_replace env t s hs)
  | .cons t fs, fs', h => by
    simp only [substTys] at h
    obtain ⟨s, hs, h⟩ := Res.bind_eq_ok.1 h
    obtain ⟨gs, hg, h⟩ := Res.bind_eq_ok.1 h
    cases h
    exact .cons (subst_replace env t s hs) (substs_replace env fs gs hg)
end

mutual
theorem replace_nil (σ : Nat → Option Ty) : ∀ t : Ty, Replace P [] σ t t
  | .use d => .use (by rintro ⟨_, _, _, _, h⟩; simp at h)
  | .remote t => .remote (replace_nil σ t)
  | .func fs r => .func (replaces_nil σ fs) (replace_nil σ r)
  | .other n => .other n
theorem replaces_nil (σ : Nat → Option Ty) : ∀ fs : Tys, Replaces P [] σ fs fs
  | .nil => .nil
  | .seq t => .seq (replace_nil σ t)
  | .cons t fs => .cons (replace_nil σ t) (replaces_nil σ fs)
end

mutual
theorem Replace.mono {polys : List Nat} {σ τ : Nat → Option Ty} (h : ∀ d t, σ d = some t → τ d = some t) :
    ∀ {t t' : Ty}, Replace P polys σ t t' → Replace P polys τ t t'
  | _, _, .param hp hs => .param hp (h _ _ hs)
  | _, _, .use hp => .use hp
  | _, _, .remote r => .remote (Replace.mono h r)
  | _, _, .func rs r => .func (Replaces.mono h rs) (Replace.mono h r)
  | _, _, .other n => .other n
theorem Replaces.mono {polys : List Nat} {σ τ : Nat → Option Ty} (h : ∀ d t, σ d = some t → τ d = some t) :
    ∀ {fs fs' : Tys}, Replaces P polys σ fs fs' → Replaces P polys τ fs fs'
  | _, _, .nil => .nil
  | _, _, .seq r => .seq (Replace.mono h r)
  | _, _, .cons r rs => .cons (Replace.mono h r) (Replaces.mono h rs)
end

theorem replace_le {a F : St} (h : Le P a F) {u : Nat} {t t' : Ty}
    (r : Replace P (srcs (a.env u)) (look P (a.env u)) t t') : Replace P (srcs (F.env u)) (look P (F.env u)) t t' := by
  rw [h.src u]
  exact r.mono (h.look u)

theorem tsubst_replace {env : Env} {t t' : Ty} (h : tsubst P env t = .ok t') : Replace P (srcs env) (look P env) t t' := by
  unfold tsubst at h
  split at h
  · rename_i he
    cases h
    have : env = [] := by simpa using he
    subst this
    exact replace_nil _ t
  · exact subst_replace env t t' h

/-! ## filling a slot -/

theorem contour_set : ∀ (env : Env) (p i q : Nat) (t : Option Ty),
    contour (setSlot env p i t) q =
      if q = p then (contour env p).map (fun c => { c with inferred := c.inferred.set i t }) else contour env q
  | [], p, i, q, t => by simp [contour, setSlot]
  | c :: env, p, i, q, t => by
    have ih := contour_set env p i q t
    by_cases h : c.source = p
    · by_cases hq : q = p
      · subst hq; simp [contour, setSlot, h]
      · have : ¬ c.source = q := fun e => hq (e.symm.trans h)
        have hpq : ¬ p = q := fun e => hq e.symm
        simp [contour, setSlot, h, hq, hpq]
    · by_cases hq : q = p
      · subst hq
        simp only [if_true] at ih ⊢
        simpa [contour, setSlot, h, List.find?_cons] using ih
      · simp only [hq, if_false] at ih ⊢
        by_cases hcq : c.source = q
        · simp [contour, setSlot, hcq, hq]
        · simpa [contour, setSlot, h, hcq, List.find?_cons] using ih

theorem srcs_set : ∀ (env : Env) (p i : Nat) (t : Option Ty), srcs (setSlot env p i t) = srcs env
  | [], _, _, _ => rfl
  | c :: env, p, i, t => by
    unfold setSlot
    split
    · simp [srcs]
    · have := srcs_set env p i t
      simp only [srcs, List.map_cons] at this ⊢
      rw [this]

section
variable (hP : P.Params)
include hP

theorem look_set {env : Env} {d p i : Nat} {es : List Ty} {c : Contour} (hd : P.type d = .formal p i es)
    (hc : contour env p = some c) (hs : c.inferred[i]? = some none) (t : Ty) (e : Nat) :
    look P (setSlot env p i (some t)) e = if e = d then some t else look P env e := by
  have hlt : i < c.inferred.length := by
    rcases Nat.lt_or_ge i c.inferred.length with h | h
    · exact h
    · rw [List.getElem?_eq_none h] at hs; cases hs
  unfold look
  cases he : P.type e with
  | nominal _ =>
    have : ¬ e = d := by rintro rfl; rw [he] at hd; cases hd
    simp [this]
  | «alias» _ =>
    have : ¬ e = d := by rintro rfl; rw [he] at hd; cases hd
    simp [this]
  | formal q j fs =>
    simp only [contour_set]
    by_cases hq : q = p
    · subst hq
      simp only [if_true, hc, Option.map_some]
      by_cases hj : j = i
      · subst hj
        have : e = d := hP e d q j fs es he hd
        simp [this, hlt]
      · have hne : ¬ e = d := by rintro rfl; rw [he] at hd; cases hd; exact hj rfl
        have hji : ¬ i = j := fun e => hj e.symm
        simp [hne, List.getElem?_set, hji]
    · have hne : ¬ e = d := by rintro rfl; rw [he] at hd; cases hd; exact hq rfl
      simp [hq, hne]

theorem look_slot {st : St} {u d p i : Nat} {es : List Ty} {c : Contour} (hd : P.type d = .formal p i es)
    (hc : contour (st.env u) p = some c) (hs : c.inferred[i]? = some none) (t : Ty) (v e : Nat) :
    look P ((st.slot u p i (some t)).env v) e = if v = u ∧ e = d then some t else look P (st.env v) e := by
  by_cases hv : v = u
  · subst hv
    have : (st.slot v p i (some t)).env v = setSlot (st.env v) p i (some t) := by simp [St.slot]
    rw [this, look_set hP hd hc hs t e]
    simp
  · have : (st.slot u p i (some t)).env v = st.env v := by simp [St.slot, hv]
    rw [this]; simp [hv]

theorem slot_le {st : St} {u d p i : Nat} {es : List Ty} {c : Contour} (hd : P.type d = .formal p i es)
    (hc : contour (st.env u) p = some c) (hs : c.inferred[i]? = some none) (t : Ty) :
    Le P st (st.slot u p i (some t)) := by
  refine ⟨?_, ?_, fun _ _ h => h⟩
  · intro v
    by_cases hv : v = u
    · subst hv
      simp [St.slot, srcs_set]
    · simp [St.slot, hv]
  · intro v e s h
    rw [look_slot hP hd hc hs t v e]
    split
    · rename_i k
      obtain ⟨rfl, rfl⟩ := k
      simp [look, hd, hc, hs] at h
    · exact h

/-- What `unify` accepts is the same, now and whatever is found later. -/
theorem unify_ok : ∀ n : Nat,
    (∀ (t : Ty) (u : Nat) (t2 : Ty) (st st' : St), unify P n (some t) u t2 st = .ok st' → Step P st st' ∧
      ∀ F : St, Le P st' F → ∃ t' : Ty, Replace P (srcs (F.env u)) (look P (F.env u)) t2 t' ∧ Same P t t') ∧
    (∀ (gs : Tys) (u : Nat) (fs : Tys) (st st' : St), unifyFormals P n gs u fs st = .ok st' → Step P st st' ∧
      ∀ F : St, Le P st' F → ∃ fs' : Tys, Replaces P (srcs (F.env u)) (look P (F.env u)) fs fs' ∧ Sames P gs fs') ∧
    (∀ (t : Ty) (u : Nat) (es : List Ty) (st st' : St), unifySigs P n (some t) u es st = .ok st' → Step P st st' ∧
      ∀ F : St, Le P st' F → Cons P F u es t) := by
  intro n
  induction n with
  | zero =>
    refine ⟨?_, ?_, ?_⟩
    · intro t u t2 st st' h; simp [unify] at h
    · intro gs u fs st st' h; simp [unifyFormals] at h
    · intro t u es st st' h; simp [unifySigs] at h
  | succ n ih =>
    obtain ⟨ih1, ih2, ih3⟩ := ih
    refine ⟨?_, ?_, ?_⟩
    · intro t u t2 st st' h
      unfold unify at h
      split at h
      · obtain ⟨s, hs, h⟩ := Res.bind_eq_ok.1 h
        obtain ⟨_, he, h⟩ := Res.bind_eq_ok.1 h
        cases h
        refine ⟨.refl _, ?_⟩
        intro F hF
        exact ⟨s, replace_le hF (tsubst_replace hs), checkEq_same he⟩
      · split at h
        · rename_i s
          obtain ⟨hst, hr⟩ := ih1 t u s st st' h
          refine ⟨hst, ?_⟩
          intro F hF
          obtain ⟨t', h1, h2⟩ := hr F hF
          exact ⟨.remote t', .remote h1, .trans h2 (.symm (.remote t'))⟩
        · simp at h
        · rename_i fs r
          simp only at h
          obtain ⟨b, hb, h⟩ := Res.bind_eq_ok.1 h
          split at h
          · rename_i gs s
            obtain ⟨st1, h1, h⟩ := Res.bind_eq_ok.1 h
            obtain ⟨s1, k1⟩ := ih2 gs u fs st st1 h1
            obtain ⟨s2, k2⟩ := ih1 s u r st1 st' h
            refine ⟨s1.trans s2, ?_⟩
            intro F hF
            obtain ⟨fs', hf, hf'⟩ := k1 F (s2.le.trans hF)
            obtain ⟨r', hr, hr'⟩ := k2 F hF
            exact ⟨.func fs' r', .func hf hr, .trans (base_same n _ _ hb) (.func hf' hr')⟩
          · simp at h
        · rename_i d
          split at h
          · rename_i p i es hd
            split at h
            · obtain ⟨_, _, h⟩ := Res.bind_eq_ok.1 h
              simp at h
            · rename_i c hc
              split at h
              · rename_i hs
                obtain ⟨s1, k1⟩ := ih3 t u es _ st' h
                have hle := slot_le hP hd hc hs t
                have hnew : look P ((st.slot u p i (some t)).env u) d = some t := by
                  rw [look_slot hP hd hc hs t u d]; simp
                refine ⟨⟨hle.trans s1.le, ?_⟩, ?_⟩
                · intro v e p' i' es' s he h0 h1 F hF
                  by_cases k : v = u ∧ e = d
                  · obtain ⟨rfl, rfl⟩ := k
                    rw [hd] at he; cases he
                    have := s1.le.look _ _ _ hnew
                    rw [this] at h1; cases h1
                    exact k1 F hF
                  · refine s1.new v e p' i' es' s he ?_ h1 F hF
                    rw [look_slot hP hd hc hs t v e, if_neg k]
                    exact h0
                · intro F hF
                  have hk := hF.look _ _ _ (s1.le.look _ _ _ hnew)
                  refine ⟨t, .param ?_ hk, .refl t⟩
                  rw [hF.src u, s1.le.src u, hle.src u]
                  exact (param_iff _ d).2 ⟨p, i, es, c, hd, hc⟩
              · rename_i s hs
                obtain ⟨_, he, h⟩ := Res.bind_eq_ok.1 h
                cases h
                refine ⟨.refl _, ?_⟩
                intro F hF
                refine ⟨s, replace_le hF (.param ((param_iff _ d).2 ⟨p, i, es, c, hd, hc⟩) ?_), checkEq_same he⟩
                simp [look, hd, hc, hs]
              · cases h
          · rename_i hd
            obtain ⟨_, he, h⟩ := Res.bind_eq_ok.1 h
            cases h
            refine ⟨.refl _, ?_⟩
            intro F hF
            refine ⟨.use d, .use ?_, checkEq_same he⟩
            rintro ⟨p, i, es, hd', _⟩
            exact hd p i es hd'
    · intro gs u fs st st' h
      cases gs <;> cases fs <;> simp only [unifyFormals] at h
      case nil.nil => cases h; exact ⟨.refl _, fun F _ => ⟨.nil, .nil, .nil⟩⟩
      case seq.seq t s =>
        obtain ⟨s1, k1⟩ := ih1 t u s st st' h
        refine ⟨s1, ?_⟩
        intro F hF
        obtain ⟨t', h1, h2⟩ := k1 F hF
        exact ⟨.seq t', .seq h1, .seq h2⟩
      case cons.cons t gs s fs =>
        obtain ⟨st1, h1, h⟩ := Res.bind_eq_ok.1 h
        obtain ⟨s1, k1⟩ := ih1 t u s st st1 h1
        obtain ⟨s2, k2⟩ := ih2 gs u fs st1 st' h
        refine ⟨s1.trans s2, ?_⟩
        intro F hF
        obtain ⟨t', h1, h2⟩ := k1 F (s2.le.trans hF)
        obtain ⟨fs', h3, h4⟩ := k2 F hF
        exact ⟨.cons t' fs', .cons h1 h3, .cons h2 h4⟩
      all_goals simp at h
    · intro t u es st st' h
      cases es with
      | nil =>
        simp only [unifySigs] at h
        cases h
        exact ⟨.refl _, fun F _ e he => by simp at he⟩
      | cons e es =>
        simp only [unifySigs] at h
        obtain ⟨el, he, h⟩ := Res.bind_eq_ok.1 h
        obtain ⟨st1, h1, h⟩ := Res.bind_eq_ok.1 h
        obtain ⟨s1, k1⟩ := ih1 el u e st st1 h1
        obtain ⟨s2, k2⟩ := ih3 t u es st1 st' h
        refine ⟨s1.trans s2, ?_⟩
        intro F hF e' he'
        rcases List.mem_cons.1 he' with rfl | hm
        · obtain ⟨t', h1, h2⟩ := k1 F (s2.le.trans hF)
          exact ⟨el, t', elemType_elem n _ _ he, h1, h2⟩
        · exact k2 F hF e' hm

end
end Aps.TyCk
