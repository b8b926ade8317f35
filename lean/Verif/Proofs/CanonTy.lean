import Verif.Spec.CanonTy
/-! Canonical types mean what the type expression means: proofs for C85. -/
namespace Aps.CanonTy
open Aps.CType
set_option linter.unusedVariables false
variable {P : Prog}

/-- `DenD` depends on the context only through `home`. -/
theorem DenD.congr {p p' : List Nat} {d : Nat} {S : Sem} (h : home P p d = home P p' d) (hd : DenD P p d S) :
    DenD P p' d S := by
  cases hd with
  | result h1 => rw [h] at h1 ⊢; exact .result h1
  | formal h1 h2 h3 h4 h5 h6 => exact .formal (h ▸ h1) h2 h3 h4 h5 h6
  | free h1 h2 => exact .free (h ▸ h1) h2
  | own h1 h2 => rw [h] at h2 ⊢; exact .own h1 h2
  | alias_ h1 h2 h3 => rw [h] at h2 h3; exact .alias_ h1 h2 h3

theorem home_global {p : List Nat} {d : Nat} (h : P.encl d = []) : home P p d = [] := by
  unfold home; split
  · rfl
  · split
    · simp [h]
    · rfl

theorem home_congr {p : List Nat} {d e : Nat} (h : P.encl d = P.encl e) : home P p d = home P p e := by
  unfold home; split
  · rfl
  · split <;> simp [h]

theorem home_or {p : List Nat} {d : Nat} : home P p d = [] ∨ home P p d = p := by
  unfold home; split
  · simp
  · split
    · split <;> simp
    · simp

/-- The context fits the modules `es`. -/
def Fit (P : Prog) (p es : List Nat) : Prop := es = [] ∨ p = [] ∨ ∃ T q m as, p = T :: q ∧ P.decl T = .type (.inst m as) ∧ es = [m]

theorem Fit.home {p : List Nat} {d : Nat} (h : Fit P p (P.encl d)) : P.encl d = [] ∨ CanonTy.home P p d = p := by
  rcases h with h | h | ⟨T, q, m, as, h1, h2, h3⟩
  · exact .inl h
  · subst h; exact .inr rfl
  · subst h1; right; simp [CanonTy.home, h2, h3]

/-- Scoped expressions may be read in the context where they are visible. -/
theorem transport {p p' es : List Nat} (h : ∀ d, P.encl d = [] ∨ P.encl d = es → home P p d = home P p' d) :
    ∀ {t : TExp} {S : Sem}, Scoped P es t → DenT P p t S → DenT P p' t S := by
  intro t S hs hd
  induction hs generalizing S with
  | opq => cases hd
  | inst => cases hd
  | use hv => cases hd with | use hd => exact .use (hd.congr (h _ hv))
  | qual _ ih => cases hd with | qual h1 h2 h3 h4 => exact .qual (ih h1) h2 h3 h4
  | remote _ ih => cases hd with | remote h1 => exact .remote (ih h1)
  | func _ _ ih1 ih2 =>
    cases hd with
    | func h1 h2 h3 =>
      exact .func (ih2 h1) h2 (fun i t s ht hs' => ih1 t (List.mem_of_getElem? ht) (h3 i t s ht hs'))

theorem transport_home {p : List Nat} {d : Nat} (hf : Fit P p (P.encl d)) {t : TExp} {S : Sem}
    (hs : Scoped P (P.encl d) t) (hd : DenT P (home P p d) t S) : DenT P p t S := by
  rcases hf.home with h | h
  · refine transport (es := P.encl d) (fun e he => ?_) hs hd
    have : P.encl e = [] := by rcases he with he | he; exact he; rw [he, h]
    rw [home_global this, home_global this]
  · rwa [h] at hd

theorem Fit.toHome {p : List Nat} {d : Nat} (h : Fit P p (P.encl d)) : Fit P (CanonTy.home P p d) (P.encl d) := by
  rcases h.home with h' | h'
  · exact .inl h'
  · rw [h']; exact h

/-- Canonical types without `$`. -/
inductive UnqC (P : Prog) (res : Bool) : Ty → Prop
  | own {d} : Own P d → (isSomeResultDecl P d = true → res = true) → UnqC P res (.use d)
  | formal {d b} : P.decl d = .formal b → UnqC P res (.use d)
  | result {d} : isSomeResultDecl P d = true → res = true → UnqC P res (.use d)
  | func {ps r} : (∀ t ∈ ps, UnqC P res t) → UnqC P res r → UnqC P res (.func ps r)

theorem toExps_get (ts : List Ty) (i : Nat) : (toExps ts)[i]? = ts[i]?.map toExp := by
  induction ts generalizing i with
  | nil => simp [toExps]
  | cons t ts ih => cases i <;> simp [toExps, ih]

theorem toExps_length (ts : List Ty) : (toExps ts).length = ts.length := by
  induction ts with
  | nil => rfl
  | cons t ts ih => simp [toExps, ih]

theorem mem_toExps {ts : List Ty} {t : TExp} (h : t ∈ toExps ts) : ∃ c ∈ ts, t = toExp c := by
  induction ts with
  | nil => simp [toExps] at h
  | cons c ts ih =>
    simp only [toExps, List.mem_cons] at h
    rcases h with rfl | h
    · exact ⟨c, by simp, rfl⟩
    · obtain ⟨c', h1, h2⟩ := ih h; exact ⟨c', by simp [h1], h2⟩

/-- A list of expressions and the list of their meanings. -/
def DenL (P : Prog) (p : List Nat) (ts : List TExp) (Ss : List Sem) : Prop :=
  ts.length = Ss.length ∧ ∀ (i : Nat) t s, ts[i]? = some t → Ss[i]? = some s → DenT P p t s

theorem DenL.nil {p : List Nat} : DenL P p [] [] := ⟨rfl, by simp⟩

theorem DenL.cons {p : List Nat} {t : TExp} {ts : List TExp} {S : Sem} {Ss : List Sem} (h : DenT P p t S) (hs : DenL P p ts Ss) :
    DenL P p (t :: ts) (S :: Ss) := by
  refine ⟨by simp [hs.1], fun i t' s h1 h2 => ?_⟩
  cases i with
  | zero => simp at h1 h2; subst h1; subst h2; exact h
  | succ i => exact hs.2 i t' s (by simpa using h1) (by simpa using h2)

theorem DenL.uncons {p : List Nat} {t : TExp} {ts : List TExp} {Ss : List Sem} (h : DenL P p (t :: ts) Ss) :
    ∃ S Ss', Ss = S :: Ss' ∧ DenT P p t S ∧ DenL P p ts Ss' := by
  obtain ⟨h1, h2⟩ := h
  cases Ss with
  | nil => simp at h1
  | cons S Ss =>
    exact ⟨S, Ss, rfl, h2 0 t S rfl rfl, by simpa using h1, fun i t' s h3 h4 => h2 (i + 1) t' s (by simpa using h3) (by simpa using h4)⟩

theorem unnested_mem (wf : WellFormed P) {d m : Nat} (h : m ∈ P.encl d) : P.encl d = [m] := by
  have := wf.unnested d
  match he : P.encl d with
  | [] => rw [he] at h; simp at h
  | [x] => rw [he] at h; simp at h; rw [h]
  | _ :: _ :: _ => rw [he] at this; simp at this

theorem not_result_in {p : List Nat} (wf : WellFormed P) {d : Nat} (h : isSomeResultDecl P d = false) :
    ¬ ResultIn P (home P p d) d := by
  rintro ⟨T, q, m, r, fs, as, h1, ⟨h2, g, h3⟩, rfl⟩
  have := (wf.result m g d fs h3).1
  unfold isSomeResultDecl at h
  rw [this] at h
  simp [h3] at h

theorem result_of_some (wf : WellFormed P) {d m : Nat} (hm : m ∈ P.encl d) (h : isSomeResultDecl P d = true) {g : Bool} {r : Nat}
    {fs : List Nat} (hd : P.decl m = .module_ g r fs) : r = d := by
  unfold isSomeResultDecl at h
  rw [unnested_mem wf hm] at h
  simpa [hd] using h

/-- The meaning of a plain instance. -/
theorem plain_den (wf : WellFormed P) {p : List Nat} {T : Nat} (hT : PlainInst P T) : DenT P p (.use T) (.named (T :: home P p T)) := by
  obtain ⟨⟨m, r, fs, as, h1, -⟩, h2⟩ := hT
  exact .use (.own (.inr ⟨m, as, h1⟩) (not_result_in wf h2))

theorem plain_inv (wf : WellFormed P) {p : List Nat} {T : Nat} (hT : PlainInst P T) {S : Sem} (h : DenT P p (.use T) S) :
    S = .named (T :: home P p T) := by
  obtain ⟨⟨m, r, fs, as, h1, -⟩, h2⟩ := hT
  cases h with
  | use h =>
    cases h with
    | result h => exact absurd h (not_result_in wf h2)
    | formal _ _ h3 => rw [h1] at h3; cases h3
    | free _ h3 => rw [h1] at h3; cases h3
    | own => rfl
    | alias_ ha => cases ha <;> simp_all

theorem instance?_some {T m r : Nat} {g : Bool} {fs : List Nat} {as : List TExp}
    (h : instance? P T = some (m, g, r, fs, as)) : P.decl T = .type (.inst m as) ∧ P.decl m = .module_ g r fs := by
  unfold instance? at h
  split at h
  · split at h
    · simp at h; obtain ⟨rfl, rfl, rfl, rfl, rfl⟩ := h; exact ⟨by assumption, by assumption⟩
    · cases h
  · cases h

theorem getActual_spec {d : Nat} : ∀ {fs : List Nat} {as : List TExp} {a : TExp}, getActualGivenFormal d fs as = .ok a →
    ∃ i : Nat, fs[i]? = some d ∧ as[i]? = some a
  | [], as, a, h => by simp [getActualGivenFormal] at h
  | f :: fs, [], a, h => by simp only [getActualGivenFormal] at h; split at h <;> cases h
  | f :: fs, b :: as, a, h => by
    simp only [getActualGivenFormal] at h
    split at h
    · cases h; exact ⟨0, by simp_all⟩
    · obtain ⟨i, h1, h2⟩ := getActual_spec h; exact ⟨i + 1, by simpa using h1, by simpa using h2⟩

theorem nodup_get {l : List Nat} (hn : l.Nodup) {i j d : Nat} (hi : l[i]? = some d) (hj : l[j]? = some d) : i = j := by
  obtain ⟨h1, h2⟩ := List.getElem?_eq_some_iff.1 hi
  obtain ⟨h3, h4⟩ := List.getElem?_eq_some_iff.1 hj
  exact (List.Nodup.getElem_inj_iff hn).1 (h2.trans h4.symm)

/-- Canonical types in which every name is a type of its own (or a formal of the module being read). -/
inductive NFC (P : Prog) : Ty → Prop
  | own {d} : Own P d → NFC P (.use d)
  | formal {d b} : P.decl d = .formal b → NFC P (.use d)
  | qual {s d} : NFC P s → Own P d → isSomeResultDecl P d = false → NFC P (.qual s d)
  | func {ps r} : (∀ t ∈ ps, NFC P t) → NFC P r → NFC P (.func ps r)

/-- The same, but the unqualified results of modules may be aliases. -/
inductive NFR (P : Prog) : Ty → Prop
  | own {d} : Own P d → NFR P (.use d)
  | formal {d b} : P.decl d = .formal b → NFR P (.use d)
  | result {d} : isSomeResultDecl P d = true → NFR P (.use d)
  | qual {s d} : NFR P s → Own P d → isSomeResultDecl P d = false → NFR P (.qual s d)
  | func {ps r} : (∀ t ∈ ps, NFR P t) → NFR P r → NFR P (.func ps r)

/-- What the recursive calls with less fuel are known to do. -/
structure IH (P : Prog) (n : Nat) : Prop where
  canon : ∀ {t p es S C}, Flat P t → Scoped P es t → Fit P p es → CanonTy.canon P n t = .ok C → DenT P p t S →
    DenT P p (toExp C) S ∧ Scoped P es (toExp C) ∧ NFR P C
  canonUse : ∀ {d p S C}, (isSomeResultDecl P d = true → Own P d) → Fit P p (P.encl d) → CanonTy.canonUse P n d = .ok C → DenD P p d S →
    DenT P p (toExp C) S ∧ Scoped P (P.encl d) (toExp C) ∧ NFR P C
  canonAll : ∀ {ts p es Ss Cs}, (∀ t ∈ ts, Flat P t) → (∀ t ∈ ts, Scoped P es t) → Fit P p es → CanonTy.canonAll P n ts = .ok Cs →
    DenL P p ts Ss → DenL P p (toExps Cs) Ss ∧ (∀ t ∈ toExps Cs, Scoped P es t) ∧ ∀ C ∈ Cs, NFR P C
  unq : ∀ {d C res}, (isSomeResultDecl P d = true → Own P d) → Unqual P res d → CanonTy.canonUse P n d = .ok C → UnqC P res C
  unqT : ∀ {t C res}, UnqualT P res t → CanonTy.canon P n t = .ok C → UnqC P res C
  unqAll : ∀ {ts Cs res}, (∀ t ∈ ts, UnqualT P res t) → CanonTy.canonAll P n ts = .ok Cs → ∀ C ∈ Cs, UnqC P res C
  join : ∀ {T I p S C m as}, PlainInst P T → P.decl T = .type (.inst m as) → Fit P p (P.encl T) → UnqC P true I → Scoped P [m] (toExp I) →
    DenT P (T :: home P p T) (toExp I) S → CanonTy.join P n (.use T) I false = .ok C →
    DenT P p (toExp C) S ∧ Scoped P (P.encl T) (toExp C) ∧ NFR P C
  joinAll : ∀ {T Is p Ss Cs m as}, PlainInst P T → P.decl T = .type (.inst m as) → Fit P p (P.encl T) → (∀ I ∈ Is, UnqC P true I) →
    (∀ t ∈ toExps Is, Scoped P [m] t) →
    DenL P (T :: home P p T) (toExps Is) Ss → CanonTy.joinAll P n (.use T) Is false = .ok Cs →
    DenL P p (toExps Cs) Ss ∧ (∀ t ∈ toExps Cs, Scoped P (P.encl T) t) ∧ ∀ C ∈ Cs, NFR P C
  join2 : ∀ {T U I p S C m m' as as'}, PlainInst P T → PlainInst P U → P.decl T = .type (.inst m as) → P.decl U = .type (.inst m' as') →
    P.encl U = [m] → (∀ a ∈ as', UnqualT P true a) →
    Fit P p (P.encl T) → UnqC P false I → Scoped P [m'] (toExp I) →
    DenT P (U :: T :: home P p T) (toExp I) S → CanonTy.join P n (.qual (.use T) U) I false = .ok C →
    DenT P p (toExp C) S ∧ Scoped P (P.encl T) (toExp C) ∧ NFR P C
  join2All : ∀ {T U Is p Ss Cs m m' as as'}, PlainInst P T → PlainInst P U → P.decl T = .type (.inst m as) → P.decl U = .type (.inst m' as') →
    P.encl U = [m] → (∀ a ∈ as', UnqualT P true a) →
    Fit P p (P.encl T) → (∀ I ∈ Is, UnqC P false I) → (∀ t ∈ toExps Is, Scoped P [m'] t) →
    DenL P (U :: T :: home P p T) (toExps Is) Ss → CanonTy.joinAll P n (.qual (.use T) U) Is false = .ok Cs →
    DenL P p (toExps Cs) Ss ∧ (∀ t ∈ toExps Cs, Scoped P (P.encl T) t) ∧ ∀ C ∈ Cs, NFR P C
  useUse : ∀ {T d p S C m as}, PlainInst P T → P.decl T = .type (.inst m as) → Fit P p (P.encl T) → UnqC P true (.use d) →
    P.encl d = [] ∨ P.encl d = [m] →
    DenD P (T :: home P p T) d S → CanonTy.useUseJoin P n T d false = .ok C →
    DenT P p (toExp C) S ∧ Scoped P (P.encl T) (toExp C) ∧ NFR P C
  qualUse : ∀ {T U d p S C m m' as as'}, PlainInst P T → PlainInst P U → P.decl T = .type (.inst m as) → P.decl U = .type (.inst m' as') →
    P.encl U = [m] → (∀ a ∈ as', UnqualT P true a) →
    Fit P p (P.encl T) → UnqC P false (.use d) → P.encl d = [] ∨ P.encl d = [m'] →
    DenD P (U :: T :: home P p T) d S → CanonTy.qualUseJoin P n (.use T) U d false = .ok C →
    DenT P p (toExp C) S ∧ Scoped P (P.encl T) (toExp C) ∧ NFR P C

end Aps.CanonTy
