import Verif.Proofs.CanonTy
/-! Canonical types mean what the type expression means: the induction step, for C85. -/
namespace Aps.CanonTy
open Aps.CType
set_option linter.unusedVariables false
variable {P : Prog} {n : Nat}

theorem home_of_mem {T m d : Nat} {as : List TExp} {q : List Nat} (hT : P.decl T = .type (.inst m as)) (h : m ∈ P.encl d) :
    home P (T :: q) d = T :: q := by
  simp [home, hT, h]

theorem home_of_not_mem {T m d : Nat} {as : List TExp} {q : List Nat} (hT : P.decl T = .type (.inst m as)) (h : m ∉ P.encl d) :
    home P (T :: q) d = [] := by
  simp [home, hT, h]

/-- A formal of an instance: the actual. -/
theorem formal_den (wf : WellFormed P) {T m r d : Nat} {g b : Bool} {fs : List Nat} {as : List TExp} {q : List Nat} {S : Sem} {a : TExp}
    (hT : P.decl T = .type (.inst m as)) (hm : P.decl m = .module_ g r fs) (hin : m ∈ P.encl d) (hd : P.decl d = .formal b)
    (ha : getActualGivenFormal d fs as = .ok a) (h : DenD P (T :: q) d S) : DenT P q a S ∧ a ∈ as := by
  have hh := home_of_mem (q := q) hT hin
  obtain ⟨i, h1, h2⟩ := getActual_spec ha
  refine ⟨?_, List.mem_of_getElem? h2⟩
  cases h with
  | result h =>
    obtain ⟨T', q', m', r', fs', as', e1, ⟨e2, g', e3⟩, rfl⟩ := h
    obtain ⟨t, ht⟩ := (wf.result _ _ _ _ e3).2
    rw [hd] at ht; cases ht
  | @formal _ _ T' q' m' r' fs' as' j a' _ b' e1 e2 e3 e4 e5 e6 =>
    rw [hh] at e1
    simp only [List.cons.injEq] at e1
    obtain ⟨rfl, rfl⟩ := e1
    obtain ⟨e7, g', e8⟩ := e2
    rw [hT] at e7; cases e7
    rw [hm] at e8; cases e8
    have := nodup_get (wf.formals _ _ _ _ hm) h1 e4
    subst this
    rw [h2] at e5; cases e5
    exact e6
  | free e1 => rw [hh] at e1; cases e1
  | own e1 =>
    rcases e1 with e1 | ⟨_, _, e1⟩ <;> rw [hd] at e1 <;> cases e1
  | alias_ e1 => cases e1 <;> simp_all

theorem UnqC.nfr {res : Bool} {C : Ty} (h : UnqC P res C) : NFR P C := by
  induction h with
  | own h => exact .own h
  | formal h => exact .formal h
  | result h => exact .result h
  | func _ _ ih1 ih2 => exact .func ih1 ih2

theorem useUse_step (wf : WellFormed P) (fl : FlatProg P) (ih : IH P n)
    {T d p S C m as} (hT : PlainInst P T) (hd : P.decl T = .type (.inst m as)) (hf : Fit P p (P.encl T)) (hu : UnqC P true (.use d))
    (hs : P.encl d = [] ∨ P.encl d = [m]) (hden : DenD P (T :: home P p T) d S) (h : useUseJoin P (n + 1) T d false = .ok C) :
    DenT P p (toExp C) S ∧ Scoped P (P.encl T) (toExp C) ∧ NFR P C := by
  unfold useUseJoin at h
  split at h
  · cases h
  · rename_i m0 g r fs as0 hi
    obtain ⟨h1, h2⟩ := instance?_some hi
    rw [hd] at h1; cases h1
    by_cases hin : m ∈ P.encl d
    · have hin' : isInsideModule P m d = true := by simp [isInsideModule, hin]
      simp only [hin', Bool.not_true, Bool.false_eq_true, if_false, Bool.not_false, Bool.true_and] at h
      have hh := home_of_mem (q := home P p T) hd hin
      by_cases hr : r = d
      · subst hr
        simp only [beq_self_eq_true, if_true] at h
        cases h
        obtain ⟨t, ht⟩ := (wf.result _ _ _ _ h2).2
        have hres : ResultIn P (home P (T :: home P p T) r) r := ⟨T, home P p T, m, r, fs, as, hh, ⟨hd, g, h2⟩, rfl⟩
        refine ⟨?_, .use (.inr rfl), .own (.inr ⟨_, _, hd⟩)⟩
        cases hden with
        | result => rw [hh]; exact plain_den wf hT
        | formal _ _ e3 => rw [ht] at e3; cases e3
        | free _ e3 => rw [ht] at e3; cases e3
        | own _ e3 => exact absurd hres e3
        | alias_ _ e3 => exact absurd hres e3
      · have hr' : (r == d) = false := by simpa using hr
        have hr2 : (g && (d == r)) = false := by
          have : (d == r) = false := by simpa using fun e => hr e.symm
          simp [this]
        simp only [hr', hr2, Bool.false_eq_true, if_false] at h
        have ownCase : Own P d → C = .qual (.use T) d → DenT P p (toExp C) S ∧ Scoped P (P.encl T) (toExp C) ∧ NFR P C := by
          rintro ho rfl
          have hnr : isSomeResultDecl P d = false := by
            by_contra hx
            exact hr (result_of_some wf hin (by simpa using hx) h2)
          exact ⟨.qual (plain_den wf hT) ⟨hd, g, h2⟩ hin hden, .qual (.use (.inr rfl)), .qual (.own (.inr ⟨_, _, hd⟩)) ho hnr⟩
        cases hu with
        | own ho =>
          rcases id ho with ho' | ⟨m', as', ho'⟩
          · rw [ho'] at h; simp only at h; cases h; exact ownCase ho rfl
          · rw [ho'] at h; simp only at h; cases h; exact ownCase ho rfl
        | formal hfo =>
          rw [hfo] at h
          simp only at h
          rw [Res.bind_eq_ok] at h
          obtain ⟨a, ha, h⟩ := h
          obtain ⟨hda, hma⟩ := formal_den wf hd h2 hin hfo ha hden
          obtain ⟨k1, k2, k3⟩ := ih.canon (fl.actuals _ _ _ hd a hma) (wf.actuals _ _ _ hd a hma) hf.toHome h hda
          exact ⟨transport_home hf k2 k1, k2, k3⟩
        | result hres => exact absurd (result_of_some wf hin hres h2) hr
    · have hin' : isInsideModule P m d = false := by simp [isInsideModule, hin]
      simp only [hin', Bool.not_false, if_true] at h
      cases h
      have he : P.encl d = [] := by
        rcases hs with hs | hs
        · exact hs
        · rw [hs] at hin; simp at hin
      refine ⟨.use (hden.congr ?_), .use (.inl he), hu.nfr⟩
      rw [home_global he, home_global he]

theorem bind3 {α β γ : Type} {x : Res α} {f : α → Res β} {g : α → β → γ} {c : γ}
    (h : (do let a ← x; let b ← f a; return g a b) = .ok c) : ∃ a b, x = .ok a ∧ f a = .ok b ∧ c = g a b := by
  rw [Res.bind_eq_ok] at h
  obtain ⟨a, ha, h⟩ := h
  rw [Res.bind_eq_ok] at h
  obtain ⟨b, hb, h⟩ := h
  cases h
  exact ⟨a, b, ha, hb, rfl⟩

theorem joinAll_step (ih : IH P n) {T Is p Ss Cs m as} (hT : PlainInst P T) (hd : P.decl T = .type (.inst m as)) (hf : Fit P p (P.encl T))
    (hu : ∀ I ∈ Is, UnqC P true I) (hs : ∀ t ∈ toExps Is, Scoped P [m] t)
    (hden : DenL P (T :: home P p T) (toExps Is) Ss) (h : joinAll P (n + 1) (.use T) Is false = .ok Cs) :
    DenL P p (toExps Cs) Ss ∧ (∀ t ∈ toExps Cs, Scoped P (P.encl T) t) ∧ ∀ C ∈ Cs, NFR P C := by
  cases Is with
  | nil =>
    simp only [joinAll, Res.ok.injEq] at h; subst h
    have : Ss = [] := List.length_eq_zero_iff.1 hden.1.symm
    subst this
    exact ⟨.nil, by simp [toExps], by simp⟩
  | cons I Is =>
    simp only [joinAll] at h
    obtain ⟨a, as', h1, h2, rfl⟩ := bind3 h
    obtain ⟨S, Ss', rfl, h3, h4⟩ := hden.uncons
    obtain ⟨k1, k2, n1⟩ := ih.join hT hd hf (hu I (by simp)) (hs _ (by simp [toExps])) h3 h1
    obtain ⟨k3, k4, n2⟩ := ih.joinAll hT hd hf (fun I hI => hu I (by simp [hI])) (fun t ht => hs t (by simp [toExps, ht])) h4 h2
    refine ⟨.cons k1 k3, fun t ht => ?_, List.forall_mem_cons.2 ⟨n1, n2⟩⟩
    simp only [toExps, List.mem_cons] at ht
    rcases ht with rfl | ht
    · exact k2
    · exact k4 t ht

theorem join_step (ih : IH P n) {T I p S C m as} (hT : PlainInst P T) (hd : P.decl T = .type (.inst m as)) (hf : Fit P p (P.encl T))
    (hu : UnqC P true I) (hs : Scoped P [m] (toExp I)) (hden : DenT P (T :: home P p T) (toExp I) S)
    (h : join P (n + 1) (.use T) I false = .ok C) : DenT P p (toExp C) S ∧ Scoped P (P.encl T) (toExp C) ∧ NFR P C := by
  cases I with
  | use d =>
    simp only [join] at h
    cases hs with
    | use hs =>
      cases hden with
      | use hden => exact ih.useUse hT hd hf hu hs hden h
  | qual => cases hu
  | func ps r =>
    simp only [join] at h
    obtain ⟨r', ps', h1, h2, rfl⟩ := bind3 h
    cases hu with
    | func hu1 hu2 =>
      cases hs with
      | func hs1 hs2 =>
        cases hden with
        | func d1 d2 d3 =>
          obtain ⟨k1, k2, n1⟩ := ih.join hT hd hf hu2 hs2 d1 h1
          obtain ⟨k3, k4, n2⟩ := ih.joinAll hT hd hf hu1 hs1 ⟨d2, d3⟩ h2
          exact ⟨.func k1 k3.1 k3.2, .func k4 k2, .func n2 n1⟩

theorem unq_step (fl : FlatProg P) (ih : IH P n) {d C res} (hr : isSomeResultDecl P d = true → Own P d) (hu : Unqual P res d)
    (h : canonUse P (n + 1) d = .ok C) : UnqC P res C := by
  unfold canonUse at h
  cases hu with
  | own ho h2 =>
    rcases id ho with ho' | ⟨m', as', ho'⟩
    · rw [ho'] at h; cases h; exact .own ho h2
    · rw [ho'] at h; cases h; exact .own ho h2
  | formal hf =>
    rename_i b
    rw [hf] at h
    cases b <;> simp only at h <;> cases h
    exact .formal hf
  | result ha h1 h2 =>
    rw [ha] at h
    simp only [h1, if_true] at h
    cases h
    exact .result h1 h2
  | use ha h1 h2 =>
    cases ha with
    | use ha =>
      rw [ha] at h
      simp only [h1] at h
      exact ih.unqT (.use (by simp [h1]) h2) h
    | renamed ha =>
      rw [ha] at h
      exact ih.unqT (.use (by simp [h1]) h2) h
  | func ha h1 =>
    cases ha with
    | func ha => rw [ha] at h; exact ih.unqT h1 h
    | renamed ha => rw [ha] at h; exact ih.unqT h1 h

theorem unqT_step (ih : IH P n) {t C res} (hu : UnqualT P res t) (h : canon P (n + 1) t = .ok C) : UnqC P res C := by
  cases hu with
  | use hr hu => simp only [canon] at h; exact ih.unq hr hu h
  | func h1 h2 =>
    simp only [canon] at h
    obtain ⟨r', ps', e1, e2, rfl⟩ := bind3 h
    exact .func (ih.unqAll h1 e2) (ih.unqT h2 e1)

theorem unqAll_step (ih : IH P n) {ts Cs res} (hu : ∀ t ∈ ts, UnqualT P res t) (h : canonAll P (n + 1) ts = .ok Cs) :
    ∀ C ∈ Cs, UnqC P res C := by
  cases ts with
  | nil => simp only [canonAll, Res.ok.injEq] at h; subst h; simp
  | cons t ts =>
    simp only [canonAll] at h
    obtain ⟨a, as', e1, e2, rfl⟩ := bind3 h
    intro C hC
    rcases List.mem_cons.1 hC with rfl | hC
    · exact ih.unqT (hu t (by simp)) e1
    · exact ih.unqAll (fun t ht => hu t (by simp [ht])) e2 C hC

theorem canonAll_step (ih : IH P n) {ts p es Ss Cs} (hfl : ∀ t ∈ ts, Flat P t) (hs : ∀ t ∈ ts, Scoped P es t) (hf : Fit P p es)
    (h : canonAll P (n + 1) ts = .ok Cs) (hden : DenL P p ts Ss) :
    DenL P p (toExps Cs) Ss ∧ (∀ t ∈ toExps Cs, Scoped P es t) ∧ ∀ C ∈ Cs, NFR P C := by
  cases ts with
  | nil =>
    simp only [canonAll, Res.ok.injEq] at h; subst h
    have : Ss = [] := List.length_eq_zero_iff.1 hden.1.symm
    subst this
    exact ⟨.nil, by simp [toExps], by simp⟩
  | cons t ts =>
    simp only [canonAll] at h
    obtain ⟨a, as', h1, h2, rfl⟩ := bind3 h
    obtain ⟨S, Ss', rfl, h3, h4⟩ := hden.uncons
    obtain ⟨k1, k2, n1⟩ := ih.canon (hfl t (by simp)) (hs t (by simp)) hf h1 h3
    obtain ⟨k3, k4, n2⟩ := ih.canonAll (fun t ht => hfl t (by simp [ht])) (fun t ht => hs t (by simp [ht])) hf h2 h4
    refine ⟨.cons k1 k3, fun t ht => ?_, List.forall_mem_cons.2 ⟨n1, n2⟩⟩
    simp only [toExps, List.mem_cons] at ht
    rcases ht with rfl | ht
    · exact k2
    · exact k4 t ht

theorem Alias.unique {d : Nat} {t u : TExp} (h : Alias P d t) (h' : Alias P d u) : t = u := by
  cases h <;> cases h' <;> simp_all

/-- The definition of an alias, read where the alias is used. -/
theorem alias_den (wf : WellFormed P) {d p t S} (ha : Alias P d t) (hr : isSomeResultDecl P d = true → Own P d) (hf : Fit P p (P.encl d)) (h : DenD P p d S) :
    DenT P p t S := by
  cases h with
  | result h =>
    obtain ⟨T, q, m, r, fs, as, e1, ⟨e2, g, e3⟩, rfl⟩ := h
    have : isSomeResultDecl P d = true := by
      unfold isSomeResultDecl
      rw [(wf.result _ _ _ _ e3).1]
      simp [e3]
    rcases hr this with ho | ⟨_, _, ho⟩ <;> cases ha <;> simp_all
  | formal _ _ e => cases ha <;> simp_all
  | free _ e => cases ha <;> simp_all
  | own ho => rcases ho with ho | ⟨_, _, ho⟩ <;> cases ha <;> simp_all
  | alias_ ha' _ h3 =>
    rw [Alias.unique ha ha'] at *
    exact transport_home hf (wf.aliases d _ ha) h3

theorem canonUse_step (wf : WellFormed P) (fl : FlatProg P) (ih : IH P n) {d p S C} (hr : isSomeResultDecl P d = true → Own P d)
    (hf : Fit P p (P.encl d)) (h : canonUse P (n + 1) d = .ok C) (hden : DenD P p d S) :
    DenT P p (toExp C) S ∧ Scoped P (P.encl d) (toExp C) ∧ NFR P C := by
  have self : NFR P (.use d) → C = .use d → DenT P p (toExp C) S ∧ Scoped P (P.encl d) (toExp C) ∧ NFR P C := by
    rintro hn rfl
    exact ⟨.use hden, .use (.inr rfl), hn⟩
  have al : ∀ t, Alias P d t → Flat P t → canon P n t = .ok C → DenT P p (toExp C) S ∧ Scoped P (P.encl d) (toExp C) ∧ NFR P C :=
    fun t ha hfl hc => ih.canon hfl (wf.aliases d t ha) hf hc (alias_den wf ha hr hf hden)
  unfold canonUse at h
  split at h
  · rename_i he; cases h; exact self (.own (.inl he)) rfl
  · rename_i he; cases h; exact self (.own (.inr ⟨_, _, he⟩)) rfl
  · rename_i e he
    split at h
    · rename_i hre
      cases h
      have hd' := alias_den wf (.use he) hr hf hden
      exact ⟨hd', wf.aliases d _ (.use he), .result hre⟩
    · rename_i hne
      rcases fl.aliases d _ (.use he) with hfl | ⟨e', he', hre⟩
      · exact al _ (.use he) hfl h
      · rw [he] at he'; cases he'; exact absurd hre hne
  · rename_i t e he
    have hfl : Flat P (.qual t e) := by
      rcases fl.aliases d _ (.qual he) with hfl | ⟨e', he', hre⟩
      · exact hfl
      · rw [he] at he'; cases he'
    have hne : isSomeResultDecl P e = false := by cases hfl <;> assumption
    simp only [hne] at h
    exact al _ (.qual he) hfl h
  · rename_i ps r he
    rcases fl.aliases d _ (.func he) with hfl | ⟨e', he', hre⟩
    · exact al _ (.func he) hfl h
    · rw [he] at he'; cases he'
  · cases h
  · rename_i t he
    rcases fl.aliases d _ (.renamed he) with hfl | ⟨e', he', hre⟩
    · exact al _ (.renamed he) hfl h
    · rw [he] at he'; cases he'
  · rename_i he; cases h; exact self (.formal he) rfl
  · cases h
  · cases h

theorem canonUse_inst {T m C as} (hd : P.decl T = .type (.inst m as)) (h : canonUse P n T = .ok C) : C = .use T := by
  cases n with
  | zero => simp [canon, canonUse, join, useUseJoin] at h
  | succ n => unfold canonUse at h; rw [hd] at h; cases h; rfl

theorem canon_inst {T m C as} (hd : P.decl T = .type (.inst m as)) (h : canon P n (.use T) = .ok C) : C = .use T := by
  cases n with
  | zero => simp [canon, canonUse, join, useUseJoin] at h
  | succ n => simp only [canon] at h; exact canonUse_inst hd h

/-- Joining an instance and a type of its module's own. -/
theorem join_own {T d m r C g fs as} (hd : P.decl T = .type (.inst m as)) (hm : P.decl m = .module_ g r fs) (hin : m ∈ P.encl d) (hr : r ≠ d)
    (ho : Own P d) (h : join P n (.use T) (.use d) false = .ok C) : C = .qual (.use T) d := by
  cases n with
  | zero => simp [canon, canonUse, join, useUseJoin] at h
  | succ n =>
    simp only [join] at h
    cases n with
    | zero => simp [canon, canonUse, join, useUseJoin] at h
    | succ n =>
      unfold useUseJoin at h
      have hi : instance? P T = some (m, g, r, fs, as) := by simp [instance?, hd, hm]
      have hin' : isInsideModule P m d = true := by simp [isInsideModule, hin]
      have hr2 : (d == r) = false := by simpa using fun e => hr e.symm
      rw [hi] at h
      simp only [hin', Bool.not_true, Bool.false_eq_true, if_false, Bool.not_false, beq_eq_false_iff_ne.2 hr, hr2, Bool.and_false] at h
      rcases ho with ho | ⟨m', as', ho⟩ <;> rw [ho] at h <;> cases h <;> rfl

/-- Joining an instance and the result of its module. -/
theorem join_result {T m r C g fs as} (wf : WellFormed P) (hd : P.decl T = .type (.inst m as)) (hm : P.decl m = .module_ g r fs)
    (h : join P n (.use T) (.use r) false = .ok C) : C = .use T := by
  cases n with
  | zero => simp [canon, canonUse, join, useUseJoin] at h
  | succ n =>
    simp only [join] at h
    cases n with
    | zero => simp [canon, canonUse, join, useUseJoin] at h
    | succ n =>
      unfold useUseJoin at h
      have hi : instance? P T = some (m, g, r, fs, as) := by simp [instance?, hd, hm]
      have hin' : isInsideModule P m r = true := by simp [isInsideModule, (wf.result _ _ _ _ hm).1]
      rw [hi] at h
      simp only [hin', Bool.not_true, Bool.false_eq_true, if_false, Bool.not_false, Bool.true_and, beq_self_eq_true, if_true] at h
      cases h; rfl

theorem plain_ne (wf : WellFormed P) {T m r : Nat} {g fs} (h : isSomeResultDecl P T = false) (hm : P.decl m = .module_ g r fs) : r ≠ T := by
  rintro rfl
  unfold isSomeResultDecl at h
  rw [(wf.result _ _ _ _ hm).1] at h
  simp [hm] at h

theorem canon_qual {T U m C as} (wf : WellFormed P) (hT : PlainInst P T) (hU : PlainInst P U) (hd : P.decl T = .type (.inst m as)) (hin : m ∈ P.encl U)
    (h : canon P n (.qual (.use T) U) = .ok C) : C = .qual (.use T) U := by
  cases n with
  | zero => simp [canon, canonUse, join, useUseJoin] at h
  | succ n =>
    simp only [canon] at h
    rw [Res.bind_eq_ok] at h
    obtain ⟨o, ho, h⟩ := h
    rw [Res.bind_eq_ok] at h
    obtain ⟨i, hi, h⟩ := h
    obtain ⟨⟨m', r, fs, as', hU1, -⟩, hU2⟩ := hU
    obtain rfl := canon_inst hd ho
    obtain rfl := canonUse_inst hU1 hi
    obtain ⟨⟨m0, r0, fs0, as0, hT1, g0, hT2⟩, -⟩ := hT
    rw [hd] at hT1; cases hT1
    exact join_own hd hT2 hin (plain_ne wf hU2 hT2) (.inr ⟨_, _, hU1⟩) h

theorem join_qual {T U d C} (h : join P n (.use T) (.qual (.use U) d) false = .ok C) : C = .qual (.qual (.use T) U) d := by
  cases n with
  | zero => simp [canon, canonUse, join, useUseJoin] at h
  | succ n => simp only [join, leftRefactor, Res.ok_bind, Res.pure_eq] at h; cases h; rfl

/-- The meaning of `T$U`. -/
theorem plain_den2 (wf : WellFormed P) {p : List Nat} {T U m : Nat} {as : List TExp} (hT : PlainInst P T) (hU : PlainInst P U)
    (hd : P.decl T = .type (.inst m as)) (hin : m ∈ P.encl U) :
    DenT P p (.qual (.use T) U) (.named (U :: T :: home P p T)) := by
  obtain ⟨⟨m0, r0, fs0, as0, hT1, g0, hT2⟩, -⟩ := id hT
  rw [hd] at hT1; cases hT1
  have := plain_den wf (p := T :: home P p T) hU
  rw [home_of_mem hd hin] at this
  cases this with
  | use this => exact .qual (plain_den wf hT) ⟨hd, g0, hT2⟩ hin this

theorem qualUse_step (wf : WellFormed P) (fl : FlatProg P) (ih : IH P n)
    {T U d p S C m m' as as'} (hT : PlainInst P T) (hU : PlainInst P U) (hd : P.decl T = .type (.inst m as)) (hd' : P.decl U = .type (.inst m' as'))
    (hin2 : P.encl U = [m]) (hact : ∀ a ∈ as', UnqualT P true a) (hf : Fit P p (P.encl T)) (hu : UnqC P false (.use d))
    (hs : P.encl d = [] ∨ P.encl d = [m']) (hden : DenD P (U :: T :: home P p T) d S)
    (h : qualUseJoin P (n + 1) (.use T) U d false = .ok C) :
    DenT P p (toExp C) S ∧ Scoped P (P.encl T) (toExp C) ∧ NFR P C := by
  unfold qualUseJoin at h
  split at h
  · cases h
  · rename_i m0 g r fs as0 hi
    obtain ⟨h1, h2⟩ := instance?_some hi
    rw [hd'] at h1; cases h1
    by_cases hin : m' ∈ P.encl d
    · have hin' : isInsideModule P m' d = true := by simp [isInsideModule, hin]
      have hr : r ≠ d := by
        rintro rfl
        have hres : isSomeResultDecl P r = true := by
          unfold isSomeResultDecl
          rw [(wf.result _ _ _ _ h2).1]
          simp [h2]
        obtain ⟨t, ht⟩ := (wf.result _ _ _ _ h2).2
        cases hu with
        | own _ hx => simpa using hx hres
        | formal hx => rw [ht] at hx; cases hx
        | result _ hx => cases hx
      have hr2 : (d == r) = false := by simpa using fun e => hr e.symm
      simp only [hin', Bool.not_true, Bool.false_eq_true, if_false, Bool.not_false, beq_eq_false_iff_ne.2 hr, hr2, Bool.and_false] at h
      have ownCase : Own P d → C = .qual (.qual (.use T) U) d → DenT P p (toExp C) S ∧ Scoped P (P.encl T) (toExp C) ∧ NFR P C := by
        rintro ho rfl
        have hnr : isSomeResultDecl P d = false := by
          by_contra hx
          exact hr (result_of_some wf hin (by simpa using hx) h2)
        exact ⟨.qual (plain_den2 wf hT hU hd (by simp [hin2])) ⟨hd', g, h2⟩ hin hden, .qual (.qual (.use (.inr rfl))),
          .qual (.qual (.own (.inr ⟨_, _, hd⟩)) (.inr ⟨_, _, hd'⟩) hU.2) ho hnr⟩
      cases hu with
      | own ho _ =>
        rcases id ho with ho' | ⟨m1, as1, ho'⟩
        · rw [ho'] at h; simp only at h; cases h; exact ownCase ho rfl
        · rw [ho'] at h
          simp only at h
          split at h
          · cases h
          · rw [Res.bind_eq_ok] at h
            obtain ⟨f, hf1, h⟩ := h
            obtain rfl := join_own hd' h2 hin hr ho hf1
            exact ownCase ho (join_qual h)
          · rename_i m2 r2 fs2 as2 hi2
            obtain ⟨k1, k2⟩ := instance?_some hi2
            rw [Res.bind_eq_ok] at h
            obtain ⟨f, hf1, h⟩ := h
            obtain rfl := join_result wf k1 k2 hf1
            rw [Res.bind_eq_ok] at h
            obtain ⟨f, hf1, h⟩ := h
            obtain rfl := join_own hd' h2 hin hr ho hf1
            exact ownCase ho (join_qual h)
      | formal hfo =>
        rw [hfo] at h
        simp only at h
        rw [Res.bind_eq_ok] at h
        obtain ⟨a, ha, h⟩ := h
        rw [Res.bind_eq_ok] at h
        obtain ⟨I, hI, h⟩ := h
        obtain ⟨hda, hma⟩ := formal_den wf hd' h2 hin hfo ha hden
        have hsa := wf.actuals _ _ _ hd' a hma
        rw [hin2] at hsa
        obtain ⟨k1, k2, -⟩ := ih.canon (fl.actuals _ _ _ hd' a hma) hsa (.inr (.inr ⟨T, _, m, as, rfl, hd, rfl⟩)) hI hda
        exact ih.join hT hd hf (ih.unqT (hact a hma) hI) k2 k1 h
      | result _ hx => cases hx
    · have hin' : isInsideModule P m' d = false := by simp [isInsideModule, hin]
      simp only [hin', Bool.not_false, if_true] at h
      cases h
      have he : P.encl d = [] := by
        rcases hs with hs | hs
        · exact hs
        · rw [hs] at hin; simp at hin
      refine ⟨.use (hden.congr ?_), .use (.inl he), hu.nfr⟩
      rw [home_global he, home_global he]

theorem join2All_step (ih : IH P n) {T U Is p Ss Cs m m' as as'} (hT : PlainInst P T) (hU : PlainInst P U) (hd : P.decl T = .type (.inst m as))
    (hd' : P.decl U = .type (.inst m' as')) (hin2 : P.encl U = [m]) (hact : ∀ a ∈ as', UnqualT P true a) (hf : Fit P p (P.encl T))
    (hu : ∀ I ∈ Is, UnqC P false I) (hs : ∀ t ∈ toExps Is, Scoped P [m'] t)
    (hden : DenL P (U :: T :: home P p T) (toExps Is) Ss) (h : joinAll P (n + 1) (.qual (.use T) U) Is false = .ok Cs) :
    DenL P p (toExps Cs) Ss ∧ (∀ t ∈ toExps Cs, Scoped P (P.encl T) t) ∧ ∀ C ∈ Cs, NFR P C := by
  cases Is with
  | nil =>
    simp only [joinAll, Res.ok.injEq] at h; subst h
    have : Ss = [] := List.length_eq_zero_iff.1 hden.1.symm
    subst this
    exact ⟨.nil, by simp [toExps], by simp⟩
  | cons I Is =>
    simp only [joinAll] at h
    obtain ⟨a, as', h1, h2, rfl⟩ := bind3 h
    obtain ⟨S, Ss', rfl, h3, h4⟩ := hden.uncons
    obtain ⟨k1, k2, n1⟩ := ih.join2 hT hU hd hd' hin2 hact hf (hu I (by simp)) (hs _ (by simp [toExps])) h3 h1
    obtain ⟨k3, k4, n2⟩ := ih.join2All hT hU hd hd' hin2 hact hf (fun I hI => hu I (by simp [hI])) (fun t ht => hs t (by simp [toExps, ht])) h4 h2
    refine ⟨.cons k1 k3, fun t ht => ?_, List.forall_mem_cons.2 ⟨n1, n2⟩⟩
    simp only [toExps, List.mem_cons] at ht
    rcases ht with rfl | ht
    · exact k2
    · exact k4 t ht

theorem join2_step (ih : IH P n) {T U I p S C m m' as as'} (hT : PlainInst P T) (hU : PlainInst P U) (hd : P.decl T = .type (.inst m as))
    (hd' : P.decl U = .type (.inst m' as')) (hin2 : P.encl U = [m]) (hact : ∀ a ∈ as', UnqualT P true a) (hf : Fit P p (P.encl T))
    (hu : UnqC P false I) (hs : Scoped P [m'] (toExp I)) (hden : DenT P (U :: T :: home P p T) (toExp I) S)
    (h : join P (n + 1) (.qual (.use T) U) I false = .ok C) : DenT P p (toExp C) S ∧ Scoped P (P.encl T) (toExp C) ∧ NFR P C := by
  cases I with
  | use d =>
    simp only [join] at h
    cases hs with
    | use hs =>
      cases hden with
      | use hden => exact ih.qualUse hT hU hd hd' hin2 hact hf hu hs hden h
  | qual => cases hu
  | func ps r =>
    simp only [join] at h
    obtain ⟨r', ps', h1, h2, rfl⟩ := bind3 h
    cases hu with
    | func hu1 hu2 =>
      cases hs with
      | func hs1 hs2 =>
        cases hden with
        | func d1 d2 d3 =>
          obtain ⟨k1, k2, n1⟩ := ih.join2 hT hU hd hd' hin2 hact hf hu2 hs2 d1 h1
          obtain ⟨k3, k4, n2⟩ := ih.join2All hT hU hd hd' hin2 hact hf hu1 hs1 ⟨d2, d3⟩ h2
          exact ⟨.func k1 k3.1 k3.2, .func k4 k2, .func n2 n1⟩

theorem Scoped.mono {es : List Nat} {t : TExp} (h : Scoped P [] t) : Scoped P es t := by
  induction h with
  | opq => exact .opq
  | inst => exact .inst
  | use h => exact .use (.inl (by simpa using h))
  | qual _ ih => exact .qual ih
  | remote _ ih => exact .remote ih
  | func _ _ ih1 ih2 => exact .func ih1 ih2

theorem Scoped.lift {es : List Nat} {d : Nat} (h : P.encl d = [] ∨ P.encl d = es) {t : TExp} (ht : Scoped P (P.encl d) t) : Scoped P es t := by
  rcases h with h | h
  · rw [h] at ht; exact ht.mono
  · rwa [h] at ht

theorem Fit.lift {p es : List Nat} {d : Nat} (h : P.encl d = [] ∨ P.encl d = es) (hf : Fit P p es) : Fit P p (P.encl d) := by
  rcases h with h | h
  · exact .inl h
  · rwa [h]

theorem canon_step (wf : WellFormed P) (ih : IH P n) {t p es S C} (hfl : Flat P t) (hs : Scoped P es t) (hf : Fit P p es)
    (h : canon P (n + 1) t = .ok C) (hden : DenT P p t S) : DenT P p (toExp C) S ∧ Scoped P es (toExp C) ∧ NFR P C := by
  cases hfl with
  | opq => simp [canon] at h
  | inst => simp [canon] at h
  | use hr =>
    simp only [canon] at h
    cases hs with
    | use hs =>
      cases hden with
      | use hden =>
        obtain ⟨k1, k2, k5⟩ := ih.canonUse hr (hf.lift hs) h hden
        exact ⟨k1, k2.lift hs, k5⟩
  | remote hfl =>
    simp only [canon] at h
    cases hs with
    | remote hs =>
      cases hden with
      | remote hden => exact ih.canon hfl hs hf h hden
  | func f1 f2 =>
    simp only [canon] at h
    obtain ⟨r', ps', h1, h2, rfl⟩ := bind3 h
    cases hs with
    | func s1 s2 =>
      cases hden with
      | func d1 d2 d3 =>
        obtain ⟨k1, k2, n1⟩ := ih.canon f2 s2 hf h1 d1
        obtain ⟨k3, k4, n2⟩ := ih.canonAll f1 s1 hf h2 ⟨d2, d3⟩
        exact ⟨.func k1 k3.1 k3.2, .func k4 k2, .func n2 n1⟩
  | @qual T d hT hr hu =>
    simp only [canon] at h
    rw [Res.bind_eq_ok] at h
    obtain ⟨o, ho, h⟩ := h
    rw [Res.bind_eq_ok] at h
    obtain ⟨i, hi, h⟩ := h
    cases hs with
    | qual hs =>
      cases hs with
      | use hs =>
        cases hden with
        | @qual _ _ _ T' q m r fs as _ d1 d2 d3 d4 =>
          have e := plain_inv wf hT d1
          simp only [Sem.named.injEq, List.cons.injEq] at e
          obtain ⟨rfl, rfl⟩ := e
          obtain ⟨d5, g, d6⟩ := d2
          obtain rfl := canon_inst d5 ho
          have he := unnested_mem wf d3
          have hfit : Fit P (T' :: home P p T') (P.encl d) := .inr (.inr ⟨_, _, m, as, rfl, d5, he⟩)
          obtain ⟨k1, k2, -⟩ := ih.canonUse (by simp [hr]) hfit hi d4
          rw [he] at k2
          obtain ⟨k3, k4, k5⟩ := ih.join hT d5 (hf.lift hs) (ih.unq (by simp [hr]) hu hi) k2 k1 h
          exact ⟨k3, k4.lift hs, k5⟩
  | @qual2 T U d hT hU hr hu hact =>
    simp only [canon] at h
    rw [Res.bind_eq_ok] at h
    obtain ⟨o, ho, h⟩ := h
    rw [Res.bind_eq_ok] at h
    obtain ⟨i, hi, h⟩ := h
    cases hs with
    | qual hs =>
      cases hs with
      | qual hs =>
        cases hs with
        | use hs =>
          cases hden with
          | @qual _ _ _ U' q' m' r' fs' as' _ d1 d2 d3 d4 =>
            cases d1 with
            | @qual _ _ _ T' q m r fs as _ c1 c2 c3 c4 =>
              have e := plain_inv wf hT c1
              simp only [Sem.named.injEq, List.cons.injEq] at e
              obtain ⟨rfl, rfl⟩ := e
              obtain ⟨c5, g, c6⟩ := c2
              have e := plain_inv wf hU (.use c4)
              rw [home_of_mem c5 c3] at e
              simp only [Sem.named.injEq, List.cons.injEq] at e
              obtain ⟨rfl, rfl⟩ := e
              obtain ⟨d5, g', d6⟩ := d2
              obtain rfl := canon_qual wf hT hU c5 c3 ho
              have he := unnested_mem wf d3
              have hfit : Fit P (U' :: T' :: home P p T') (P.encl d) := .inr (.inr ⟨_, _, m', as', rfl, d5, he⟩)
              obtain ⟨k1, k2, -⟩ := ih.canonUse (by simp [hr]) hfit hi d4
              rw [he] at k2
              obtain ⟨k3, k4, k5⟩ := ih.join2 hT hU c5 d5 (unnested_mem wf c3) (hact _ _ d5) (hf.lift hs) (ih.unq (by simp [hr]) hu hi) k2 k1 h
              exact ⟨k3, k4.lift hs, k5⟩

theorem all (wf : WellFormed P) (fl : FlatProg P) : ∀ n, IH P n
  | 0 => by constructor <;> intros <;> simp_all [canon, canonUse, canonAll, join, joinAll, useUseJoin, qualUseJoin]
  | n + 1 =>
    have ih := all wf fl n
    { canon := canon_step wf ih
      canonUse := canonUse_step wf fl ih
      canonAll := canonAll_step ih
      unq := unq_step fl ih
      unqT := unqT_step ih
      unqAll := unqAll_step ih
      join := join_step ih
      joinAll := joinAll_step ih
      join2 := join2_step ih
      join2All := join2All_step ih
      useUse := useUse_step wf fl ih
      qualUse := qualUse_step wf fl ih }

end Aps.CanonTy
