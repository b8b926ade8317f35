import Verif.Spec.SigInfer
import Verif.Proofs.CanonTyMono
/-! Lemmas on the signatures of types. -/
namespace Aps.SigInfer
open Aps.CType Aps.CanonTy
set_option linter.unusedVariables false

variable {P : SProg}

theorem baseOf_mono {n : Nat} (t : TExp) : Le (baseOf P n t) (baseOf P (n + 1) t) :=
  (mono n).canon t |>.bind fun _ => (mono n).base _

theorem basesOf_mono {n : Nat} : ∀ ts, Le (basesOf P n ts) (basesOf P (n + 1) ts)
  | [] => Le.refl _
  | t :: ts => (baseOf_mono t).bind fun _ => (basesOf_mono ts).bind fun _ => Le.refl _

theorem pickActual_mono {n : Nat} (c : Ty) : ∀ (j : Nat) (as : List TExp), Le (pickActual P n c j as) (pickActual P (n + 1) c j as)
  | _, [] => by simp only [pickActual]; exact Le.refl _
  | 0, t :: _ => by simp only [pickActual]; exact baseOf_mono t
  | j + 1, _ :: ts => by simp only [pickActual]; exact pickActual_mono c j ts

theorem pickFormal_mono {n : Nat} (as : List TExp) (f : Nat) : ∀ (j : Nat) (fs : List Nat) (c : Ty),
    Le (pickFormal P n as f j fs c) (pickFormal P (n + 1) as f j fs c)
  | _, [], _ => Le.refl _
  | j, g :: fs, c => by
    simp only [pickFormal]
    split
    · exact (pickActual_mono c j as).bind fun _ => pickFormal_mono as f (j + 1) fs _
    · exact pickFormal_mono as f (j + 1) fs c

theorem joinActuals_mono {n : Nat} (source : Ty) (fs : List Nat) (as : List TExp) : ∀ cs,
    Le (joinActuals P n source fs as cs) (joinActuals P (n + 1) source fs as cs)
  | [] => Le.refl _
  | c :: cs => ((mono n).join _ _ _).bind fun _ => (Le.refl _).bind fun _ => (pickFormal_mono as _ 0 fs _).bind fun _ =>
      (joinActuals_mono source fs as cs).bind fun _ => Le.refl _

theorem substActuals_mono {n : Nat} (fs : List Nat) (as : List TExp) : ∀ cs,
    Le (substActuals P n fs as cs) (substActuals P (n + 1) fs as cs)
  | [] => Le.refl _
  | c :: cs => (Le.refl _).bind fun _ => (pickFormal_mono as _ 0 fs _).bind fun _ =>
      (substActuals_mono fs as cs).bind fun _ => Le.refl _

theorem joinUse_mono {n : Nat} (T : Nat) (s : Sig) : Le (joinUse P n T s) (joinUse P (n + 1) T s) := by
  unfold joinUse
  cases instanceOf P T with
  | none => exact Le.refl _
  | some x => exact (joinActuals_mono _ _ _ _).bind fun _ => Le.refl _

theorem joinSig_mono {n : Nat} : ∀ (c : Ty) (s : Sig), Le (joinSig P n c s) (joinSig P (n + 1) c s)
  | .func .., s => by simp only [joinSig]; exact Le.refl _
  | .use T, s => by simp only [joinSig]; exact joinUse_mono T s
  | .qual c T, s => by simp only [joinSig]; exact (joinUse_mono T s).bind fun _ => joinSig_mono c _

theorem joinSet_mono {n : Nat} (c : Ty) : ∀ ss, Le (joinSet P n c ss) (joinSet P (n + 1) c ss)
  | [] => Le.refl _
  | s :: ss => (joinSig_mono c s).bind fun _ => (joinSet_mono c ss).bind fun _ => Le.refl _

theorem substSig_mono {n : Nat} (T : Nat) (s : Sig) : Le (substSig P n T s) (substSig P (n + 1) T s) := by
  unfold substSig
  cases instanceOf P T with
  | none => exact Le.refl _
  | some x => exact (substActuals_mono _ _ _).bind fun _ => Le.refl _

theorem substSet_mono {n : Nat} (T : Nat) : ∀ ss, Le (substSet P n T ss) (substSet P (n + 1) T ss)
  | [] => Le.refl _
  | s :: ss => (substSig_mono T s).bind fun _ => (substSet_mono T ss).bind fun _ => Le.refl _

/-- one more unit of fuel -/
structure MonoS (P : SProg) (n : Nat) : Prop where
  decl : ∀ d, Le (fromDecl P n d) (fromDecl P (n + 1) d)
  type : ∀ b t, Le (fromType P n b t) (fromType P (n + 1) b t)
  sig : ∀ s, Le (fromSig P n s) (fromSig P (n + 1) s)
  infer : ∀ c, Le (SigInfer.infer P n c) (SigInfer.infer P (n + 1) c)

theorem monoS_succ {n : Nat} (m : MonoS P n) : MonoS P (n + 1) where
  decl d := by
    simp only [fromDecl]
    cases P.decl d with
    | type t =>
      refine Le.bind (f := fun re => _) (g := fun re => _) ?_ fun re => ?_
      · cases P.sig d <;> simp only [] <;> first | exact m.type _ _ | exact (m.sig _).bind fun _ => (m.type _ _).bind fun _ => Le.refl _
      · cases t <;> simp only [] <;> first | exact Le.refl _ | exact substSet_mono d re
    | formal b => exact m.sig _
    | «renaming» t => exact Le.refl _
    | module_ => exact Le.refl _
    | other => exact Le.refl _
  type b t := by
    cases t with
    | use d => simp only [fromType]; exact ((mono n).canon _).bind fun _ => m.infer _
    | qual t d => simp only [fromType]; exact ((mono n).canon _).bind fun _ => m.infer _
    | inst mm as =>
      simp only [fromType]
      refine (basesOf_mono as).bind fun bs => ?_
      cases P.cls mm with
      | none => exact Le.refl _
      | some x => exact (m.decl _).bind fun _ => Le.refl _
    | opq => simp only [fromType]; exact Le.refl _
    | func => simp only [fromType]; exact Le.refl _
    | remote => simp only [fromType]; exact Le.refl _
  sig s := by
    cases s with
    | inst i v mm as =>
      simp only [fromSig]
      refine (basesOf_mono as).bind fun bs => ?_
      cases P.cls mm with
      | none => exact Le.refl _
      | some x => exact (m.decl _).bind fun _ => Le.refl _
    | mult a b => simp only [fromSig]; exact (m.sig a).bind fun _ => (m.sig b).bind fun _ => Le.refl _
    | use d => simp only [fromSig]; exact m.decl d
    | qual t => simp only [fromSig]; exact m.type _ _
    | none_ => simp only [fromSig]; exact Le.refl _
    | fixed => simp only [fromSig]; exact Le.refl _
  infer c := by
    simp only [SigInfer.infer]
    refine Le.bind ?_ fun r => ((mono n).base c).bind fun b => ?_
    · cases c with
      | use d => exact m.decl d
      | qual s d => exact (m.decl d).bind fun _ => joinSet_mono s _
      | func => exact Le.refl _
    · cases c with
      | use d =>
        simp only []
        split
        · exact Le.refl _
        · exact (m.infer _).bind fun _ => Le.refl _
      | qual s d =>
        simp only []
        split
        · exact Le.refl _
        · exact (m.infer _).bind fun _ => Le.refl _
      | func => exact Le.refl _

theorem monoS : ∀ n, MonoS P n
  | 0 => by
    constructor
    · intro d c h; simp [fromDecl] at h
    · intro b d c h; simp [fromType] at h
    · intro d c h; simp [fromSig] at h
    · intro d c h; simp [infer] at h
  | n + 1 => monoS_succ (monoS n)

/-- what does not change with one more unit of fuel does not depend on it -/
theorem det_of_mono {α : Type} {f : Nat → Res α} (h : ∀ n, Le (f n) (f (n + 1))) {n n' : Nat} {a a' : α} (h1 : f n = .ok a) (h2 : f n' = .ok a') : a = a' := by
  have le : ∀ n n', n ≤ n' → Le (f n) (f n') := by
    intro n n' hn
    induction hn with
    | refl => exact Le.refl _
    | step _ ih => exact fun c hc => h _ c (ih c hc)
  rcases Nat.le_total n n' with k | k
  · have := le _ _ k a h1; rw [this] at h2; cases h2; rfl
  · have := le _ _ k a' h2; rw [this] at h1; cases h1; rfl

theorem fromDecl_det {n n' d : Nat} {l l' : List Sig} (h : fromDecl P n d = .ok l) (h' : fromDecl P n' d = .ok l') : l = l' :=
  det_of_mono (fun n => (monoS n).decl d) h h'
theorem fromSig_det {n n' : Nat} {d : SigExp} {l l' : List Sig} (h : fromSig P n d = .ok l) (h' : fromSig P n' d = .ok l') : l = l' :=
  det_of_mono (fun n => (monoS n).sig d) h h'
theorem infer_det {n n' : Nat} {d : Ty} {l l' : List Sig} (h : infer P n d = .ok l) (h' : infer P n' d = .ok l') : l = l' :=
  det_of_mono (fun n => (monoS n).infer d) h h'
theorem basesOf_det {n n' : Nat} {d : List TExp} {l l' : List Ty} (h : basesOf P n d = .ok l) (h' : basesOf P n' d = .ok l') : l = l' :=
  det_of_mono (f := fun n => basesOf P n d) (fun n => basesOf_mono d) h h'
theorem baseOf_det {n n' : Nat} {d : TExp} {l l' : Ty} (h : baseOf P n d = .ok l) (h' : baseOf P n' d = .ok l') : l = l' :=
  det_of_mono (f := fun n => baseOf P n d) (fun n => baseOf_mono d) h h'

/-! ## replacing -/

theorem basesOf_get {n : Nat} : ∀ {as : List TExp} {bs : List Ty}, basesOf P n as = .ok bs → as.length = bs.length ∧
    ∀ (i : Nat) a, as[i]? = some a → ∃ b, bs[i]? = some b ∧ baseOf P n a = .ok b
  | [], bs, h => by simp only [basesOf, Res.ok.injEq] at h; subst h; simp
  | a :: as, bs, h => by
    simp only [basesOf, Res.bind_eq_ok] at h
    obtain ⟨b, h1, bs', h2, h3⟩ := h
    simp only [Res.pure_eq, Res.ok.injEq] at h3
    subst h3
    obtain ⟨k1, k2⟩ := basesOf_get h2
    refine ⟨by simp [k1], fun i x hx => ?_⟩
    cases i with
    | zero => simp only [List.getElem?_cons_zero, Option.some.injEq] at hx ⊢; subst hx; exact ⟨b, rfl, h1⟩
    | succ i => simp only [List.getElem?_cons_succ] at hx ⊢; exact k2 i x hx

theorem pickActual_get {n : Nat} {c : Ty} : ∀ {j : Nat} {as : List TExp} {a : TExp}, as[j]? = some a → pickActual P n c j as = baseOf P n a
  | 0, a :: as, x, h => by simp only [List.getElem?_cons_zero, Option.some.injEq] at h; subst h; simp [pickActual]
  | j + 1, a :: as, x, h => by simp only [List.getElem?_cons_succ] at h; simp [pickActual, pickActual_get h]
  | _, [], _, h => by simp at h

theorem pickFormal_none {n : Nat} {as : List TExp} {f : Nat} : ∀ {j : Nat} {fs : List Nat} {c : Ty}, f ∉ fs → pickFormal P n as f j fs c = .ok c
  | _, [], _, _ => rfl
  | j, g :: fs, c, h => by
    rw [List.mem_cons, not_or] at h
    simp only [pickFormal, h.1, if_false]
    exact pickFormal_none h.2

theorem pickFormal_some {n : Nat} {as : List TExp} {f : Nat} : ∀ {i j : Nat} {fs : List Nat} {c : Ty} {a : TExp}, fs.Nodup → fs[i]? = some f →
    as[j + i]? = some a → pickFormal P n as f j fs c = baseOf P n a
  | i, j, [], c, a, _, h, _ => by simp at h
  | 0, j, g :: fs, c, a, nd, h, ha => by
    simp only [List.getElem?_cons_zero, Option.some.injEq] at h
    subst h
    rw [List.nodup_cons] at nd
    simp only [pickFormal, if_true, pickActual_get (by simpa using ha : as[j]? = some a)]
    cases hb : baseOf P n a with
    | ok b => simp [pickFormal_none nd.1]
    | ub => rfl
    | stop => rfl
    | nofuel => rfl
  | i + 1, j, g :: fs, c, a, nd, h, ha => by
    simp only [List.getElem?_cons_succ] at h
    rw [List.nodup_cons] at nd
    have : f ≠ g := by rintro rfl; exact nd.1 (List.mem_of_getElem? h)
    simp only [pickFormal, this, if_false]
    exact pickFormal_some nd.2 h (by rwa [Nat.add_assoc, Nat.add_comm 1 i])

theorem typeDecl_names {c : Ty} {d : Nat} (h : typeDecl c = .ok d) : Names c d := by
  cases c <;> simp [typeDecl] at h
  · subst h; exact .inl rfl
  · subst h; exact .inr ⟨_, rfl⟩

theorem Names.fun {c : Ty} {d e : Nat} (h : Names c d) (h' : Names c e) : d = e := by
  rcases h with rfl | ⟨s, rfl⟩ <;> rcases h' with h' | ⟨_, h'⟩ <;> cases h' <;> rfl

theorem substActuals_spec {n k : Nat} {fs : List Nat} {as : List TExp} {bs : List Ty} (nd : fs.Nodup) (hl : as.length = fs.length)
    (hb : basesOf P k as = .ok bs) : ∀ {cs xs : List Ty}, Plain fs cs → substActuals P n fs as cs = .ok xs → List.Forall₂ (Replaced fs bs) cs xs
  | [], xs, _, h => by simp only [substActuals, Res.ok.injEq] at h; subst h; exact .nil
  | c :: cs, xs, hp, h => by
    simp only [substActuals, Res.bind_eq_ok] at h
    obtain ⟨d, h1, x, h2, xs', h3, h4⟩ := h
    simp only [Res.pure_eq, Res.ok.injEq] at h4
    subst h4
    refine .cons ?_ (substActuals_spec nd hl hb (fun c hc => hp c (by simp [hc])) h3)
    have hn := typeDecl_names h1
    by_cases hd : d ∈ fs
    · have hc : c = .use d := by
        rcases hn with hn | ⟨s, hn⟩
        · exact hn
        · exact absurd hn (hp c (by simp) d hd s)
      subst hc
      obtain ⟨i, hi⟩ := List.mem_iff_getElem?.1 hd
      have li : i < as.length := by rw [hl]; exact (List.getElem?_eq_some_iff.1 hi).1
      have ha := List.getElem?_eq_getElem li
      rw [pickFormal_some (j := 0) nd hi (by rw [Nat.zero_add]; exact ha)] at h2
      obtain ⟨b, k1, k2⟩ := (basesOf_get hb).2 i _ ha
      cases baseOf_det h2 k2
      exact .formal hi k1
    · rw [pickFormal_none hd] at h2
      cases h2
      exact .other (fun f hf hn' => hd (hn.fun hn' ▸ hf))

theorem Replaced.apart {fs : List Nat} {bs : List Ty} {c x : Ty} (h : Replaced fs bs c x) (ha : ∀ f ∈ fs, ¬ Names c f) : x = c := by
  cases h with
  | formal hi _ => exact absurd (.inl rfl) (ha _ (List.mem_of_getElem? hi))
  | other => rfl

theorem replaced_apart {fs : List Nat} {bs : List Ty} {cs xs : List Ty} (h : List.Forall₂ (Replaced fs bs) cs xs) (ha : Apart fs cs) : xs = cs := by
  induction h with
  | nil => rfl
  | cons h _ ih => rw [h.apart (ha _ (by simp)), ih (fun c hc => ha c (by simp [hc]))]

theorem Replaced.fun {fs : List Nat} {bs : List Ty} (nd : fs.Nodup) {c x y : Ty} (h : Replaced fs bs c x) (h' : Replaced fs bs c y) : x = y := by
  cases h with
  | formal hi hb =>
    cases h' with
    | formal hi' hb' =>
      have : _ = _ := (List.Nodup.getElem_inj_iff nd (hi := (List.getElem?_eq_some_iff.1 hi).1) (hj := (List.getElem?_eq_some_iff.1 hi').1)).1
        (by rw [(List.getElem?_eq_some_iff.1 hi).2, (List.getElem?_eq_some_iff.1 hi').2])
      subst this
      rw [hb] at hb'; cases hb'; rfl
    | other ha => exact absurd (.inl rfl) (ha _ (List.mem_of_getElem? hi))
  | other ha => exact (h'.apart ha).symm

theorem replaced_fun {fs : List Nat} {bs : List Ty} (nd : fs.Nodup) {cs xs : List Ty} (h : List.Forall₂ (Replaced fs bs) cs xs) :
    ∀ {ys}, List.Forall₂ (Replaced fs bs) cs ys → xs = ys := by
  induction h with
  | nil => intro ys h'; cases h'; rfl
  | cons h _ ih => intro ys h'; cases h' with | cons k ks => rw [h.fun nd k, ih ks]

theorem SigReplaced.fun {fs : List Nat} {bs : List Ty} (nd : fs.Nodup) {s x y : Sig} (h : SigReplaced fs bs s x) (h' : SigReplaced fs bs s y) : x = y := by
  obtain ⟨a1, a2, a3, a4⟩ := h
  obtain ⟨b1, b2, b3, b4⟩ := h'
  have e := replaced_fun nd a4 b4
  cases x; cases y
  simp_all

theorem SigReplaced.apart {fs : List Nat} {bs : List Ty} {s x : Sig} (h : SigReplaced fs bs s x) (ha : Apart fs s.actuals) : x = s := by
  obtain ⟨a1, a2, a3, a4⟩ := h
  have e := replaced_apart a4 ha
  cases x; cases s
  simp_all

theorem substSet_spec {n T : Nat} : ∀ {ss l : List Sig}, substSet P n T ss = .ok l → List.Forall₂ (fun s x => substSig P n T s = .ok x) ss l
  | [], l, h => by simp only [substSet, Res.ok.injEq] at h; subst h; exact .nil
  | s :: ss, l, h => by
    simp only [substSet, Res.bind_eq_ok] at h
    obtain ⟨x, h1, xs, h2, h3⟩ := h
    simp only [Res.pure_eq, Res.ok.injEq] at h3
    subst h3
    exact .cons h1 (substSet_spec h2)

theorem forall₂_left {α β : Type} {R : α → β → Prop} {l : List α} {m : List β} (h : List.Forall₂ R l m) {a : α} (ha : a ∈ l) : ∃ b ∈ m, R a b := by
  induction h with
  | nil => simp at ha
  | cons h _ ih =>
    rcases List.mem_cons.1 ha with rfl | ha
    · exact ⟨_, by simp, h⟩
    · obtain ⟨b, hb, hr⟩ := ih ha; exact ⟨b, by simp [hb], hr⟩

theorem forall₂_right {α β : Type} {R : α → β → Prop} {l : List α} {m : List β} (h : List.Forall₂ R l m) {b : β} (hb : b ∈ m) : ∃ a ∈ l, R a b := by
  induction h with
  | nil => simp at hb
  | cons h _ ih =>
    rcases List.mem_cons.1 hb with rfl | hb
    · exact ⟨_, by simp, h⟩
    · obtain ⟨a, ha, hr⟩ := ih hb; exact ⟨a, by simp [ha], hr⟩

theorem plain_of_apart {fs : List Nat} {cs : List Ty} (h : Apart fs cs) : Plain fs cs := fun c hc f hf s e => h c hc f hf (.inr ⟨s, e⟩)

theorem instance_sigs {n k T m r : Nat} {as : List TExp} {fs : List Nat} {bs : List Ty} {ds rs l : List Sig}
    (hd : P.decl T = .type (.inst m as)) (hc : P.cls m = some (r, fs)) (nd : fs.Nodup) (hl : as.length = fs.length)
    (hb : basesOf P k as = .ok bs) (hs : fromSig P k (P.sig T) = .ok ds) (hr : fromDecl P k r = .ok rs)
    (ab : Apart fs bs) (ad : ∀ s ∈ ds, Apart fs s.actuals) (pr : ∀ s ∈ rs, Plain fs s.actuals)
    (h : fromDecl P n T = .ok l) (s : Sig) : s ∈ l ↔ s = ⟨true, true, m, bs⟩ ∨ s ∈ ds ∨ ∃ s0 ∈ rs, SigReplaced fs bs s0 s := by
  cases n with
  | zero => simp [fromDecl] at h
  | succ n =>
    simp only [fromDecl, hd] at h
    obtain ⟨re, h1, h2⟩ := Res.bind_eq_ok.1 h
    have key : ∃ r2, fromType P n (P.phylum T) (.inst m as) = .ok r2 ∧ re = ds ++ r2 := by
      cases hsig : P.sig T with
      | none_ =>
        rw [hsig] at h1 hs
        have : fromSig P 1 (.none_) = .ok [] := by simp [fromSig]
        cases fromSig_det hs this
        exact ⟨re, h1, rfl⟩
      | inst i v mm aa =>
        rw [hsig] at h1 hs
        simp only [Res.bind_eq_ok, Res.pure_eq, Res.ok.injEq] at h1
        obtain ⟨r1, k1, r2, k2, rfl⟩ := h1
        exact ⟨r2, k2, by rw [fromSig_det hs k1]⟩
      | mult a b =>
        rw [hsig] at h1 hs
        simp only [Res.bind_eq_ok, Res.pure_eq, Res.ok.injEq] at h1
        obtain ⟨r1, k1, r2, k2, rfl⟩ := h1
        exact ⟨r2, k2, by rw [fromSig_det hs k1]⟩
      | use d =>
        rw [hsig] at h1 hs
        simp only [Res.bind_eq_ok, Res.pure_eq, Res.ok.injEq] at h1
        obtain ⟨r1, k1, r2, k2, rfl⟩ := h1
        exact ⟨r2, k2, by rw [fromSig_det hs k1]⟩
      | qual t =>
        rw [hsig] at h1 hs
        simp only [Res.bind_eq_ok, Res.pure_eq, Res.ok.injEq] at h1
        obtain ⟨r1, k1, r2, k2, rfl⟩ := h1
        exact ⟨r2, k2, by rw [fromSig_det hs k1]⟩
      | fixed =>
        rw [hsig] at h1 hs
        simp only [Res.bind_eq_ok, Res.pure_eq, Res.ok.injEq] at h1
        obtain ⟨r1, k1, r2, k2, rfl⟩ := h1
        exact ⟨r2, k2, by rw [fromSig_det hs k1]⟩
    obtain ⟨r2, h3, rfl⟩ := key
    have h4 : r2 = ⟨true, true, m, bs⟩ :: rs := by
      cases n with
      | zero => simp [fromType] at h3
      | succ n =>
        simp only [fromType, Res.bind_eq_ok, hc, Res.pure_eq, Res.ok.injEq] at h3
        obtain ⟨bs', k1, rs', k2, rfl⟩ := h3
        rw [basesOf_det k1 hb, fromDecl_det k2 hr]
    subst h4
    have f2 := substSet_spec h2
    have inst : instanceOf P T = some (fs, as) := by simp [instanceOf, hd, hc]
    have step : ∀ {s x : Sig}, Plain fs s.actuals → substSig P n T s = .ok x → SigReplaced fs bs s x := by
      intro s x hp hx
      simp only [substSig, inst, Res.bind_eq_ok, Res.pure_eq, Res.ok.injEq] at hx
      obtain ⟨xs, k1, rfl⟩ := hx
      exact ⟨rfl, rfl, rfl, substActuals_spec nd hl hb hp k1⟩
    constructor
    · intro hm
      obtain ⟨s0, h0, hx⟩ := forall₂_right f2 hm
      rcases List.mem_append.1 h0 with h0 | h0
      · right; left
        rw [(step (plain_of_apart (ad s0 h0)) hx).apart (ad s0 h0)]; exact h0
      · rcases List.mem_cons.1 h0 with rfl | h0
        · left; exact (step (plain_of_apart ab) hx).apart ab
        · right; right; exact ⟨s0, h0, step (pr s0 h0) hx⟩
    · rintro (rfl | h0 | ⟨s0, h0, hx⟩)
      · obtain ⟨x, hx, hr⟩ := forall₂_left f2 (a := ⟨true, true, m, bs⟩) (by simp)
        rw [← (step (plain_of_apart ab) hr).apart ab]; exact hx
      · obtain ⟨x, hx, hr⟩ := forall₂_left f2 (a := s) (by simp [h0])
        rw [← (step (plain_of_apart (ad s h0)) hr).apart (ad s h0)]; exact hx
      · obtain ⟨x, hy, hr⟩ := forall₂_left f2 (a := s0) (by simp [h0])
        rw [hx.fun nd (step (pr s0 h0) hr)]; exact hy

mutual
theorem tyEq_iff : ∀ {c b : Ty}, tyEq c b = true ↔ c = b
  | .use d, .use e => by simp [tyEq]
  | .qual s d, .qual u e => by simp [tyEq, tyEq_iff (c := s) (b := u)]
  | .func ps r, .func qs q => by simp [tyEq, tyEq_iff (c := r) (b := q), tysEq_iff (c := ps) (b := qs)]
  | .use .., .qual .. => by simp [tyEq]
  | .use .., .func .. => by simp [tyEq]
  | .qual .., .use .. => by simp [tyEq]
  | .qual .., .func .. => by simp [tyEq]
  | .func .., .use .. => by simp [tyEq]
  | .func .., .qual .. => by simp [tyEq]
theorem tysEq_iff : ∀ {c b : List Ty}, tysEq c b = true ↔ c = b
  | [], [] => by simp [tysEq]
  | [], _ :: _ => by simp [tysEq]
  | _ :: _, [] => by simp [tysEq]
  | p :: ps, q :: qs => by simp [tysEq, tyEq_iff (c := p) (b := q), tysEq_iff (c := ps) (b := qs)]
end

theorem infer_use {n k j i d : Nat} {b : Ty} {l own lb : List Sig} (h : infer P n (.use d) = .ok l) (ho : fromDecl P k d = .ok own)
    (hb : baseType P.toProg j (.use d) = .ok b) (hl : infer P i b = .ok lb) (s : Sig) : s ∈ l ↔ s ∈ own ∨ s ∈ lb := by
  cases n with
  | zero => simp [infer] at h
  | succ n =>
    have h0 := h
    simp only [infer] at h
    obtain ⟨r, h1, h⟩ := Res.bind_eq_ok.1 h
    obtain ⟨b', h2, h3⟩ := Res.bind_eq_ok.1 h
    cases fromDecl_det h1 ho
    cases base_det h2 hb
    split at h3
    · rename_i e
      rw [tyEq_iff] at e
      subst e
      simp only [Res.pure_eq, Res.ok.injEq] at h3
      subst h3
      cases infer_det h0 hl
      simp
    · simp only [Res.bind_eq_ok, Res.pure_eq, Res.ok.injEq] at h3
      obtain ⟨m, h4, rfl⟩ := h3
      rw [infer_det h4 hl, List.mem_append]

end Aps.SigInfer
