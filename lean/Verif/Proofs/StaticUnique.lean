import Verif.Proofs.StaticMain
set_option linter.unusedVariables false
/-!
# Static visit procedures: every solution of the equations agrees with what is computed
-/
namespace Aps.Static

open Aps.Oag

variable {V : Type} {ph : Phyla} {P : Prod V}

theorem path_prefix {σ τ : Nat → Bool} : ∀ {T : Cto} {pre : List Nat} {i : Nat} {post : List Nat}, P.Shaped T →
    T.path (fun i => some i) σ = pre ++ i :: post →
    (∀ r ∈ pre, P.IsRule r → r ∈ T.path (fun i => some i) τ → τ r = σ r) →
    ∃ post', T.path (fun i => some i) τ = pre ++ i :: post' := by
  intro T
  induction T with
  | nil => intro pre i post _ h; simp [Cto.path] at h
  | node j next ih =>
    intro pre i post hsh h hag
    cases pre with
    | nil => have := (List.cons.inj h).1; subst this; exact ⟨_, rfl⟩
    | cons k pre =>
      obtain ⟨rfl, h'⟩ := List.cons.inj h
      obtain ⟨post', hp⟩ := ih hsh.2 h' fun r hr hru hm => hag r (by simp [hr]) hru (by simp [Cto.path, hm])
      exact ⟨post', by simp [Cto.path, hp]⟩
  | ifs j f t ihf iht =>
    intro pre i post hsh h hag
    cases pre with
    | nil => have := (List.cons.inj h).1; subst this; exact ⟨_, rfl⟩
    | cons k pre =>
      obtain ⟨rfl, h'⟩ := List.cons.inj h
      have hj : τ j = σ j := hag j (by simp) hsh.1 (by simp [Cto.path])
      simp only [Option.map_some, Option.some.injEq] at h'
      cases hσ : σ j with
      | true =>
        rw [hσ] at hj
        rw [if_pos hσ] at h'
        obtain ⟨post', hp⟩ := iht hsh.2.2 h' fun r hr hru hm => hag r (by simp [hr]) hru (by simp [Cto.path, hj, hm])
        exact ⟨post', by simp [Cto.path, hj, hp]⟩
      | false =>
        rw [hσ] at hj
        rw [if_neg (by simp [hσ])] at h'
        obtain ⟨post', hp⟩ := ihf hsh.2.1 h' fun r hr hru hm => hag r (by simp [hr]) hru (by simp [Cto.path, hj, hm])
        exact ⟨post', by simp [Cto.path, hj, hp]⟩

theorem asg_congr_rules {σ τ : Nat → Bool} {l : List Nat} (h : ∀ r ∈ l, P.IsRule r → σ r = τ r) : P.asg σ l = P.asg τ l := by
  unfold Prod.asg Prod.owns
  congr 2
  induction l with
  | nil => rfl
  | cons r l ih =>
    simp only [List.flatMap_cons]
    rw [ih fun q hq => h q (by simp [hq])]
    congr 1
    cases hr : (P.insts[r]?).bind (·.rule) with
    | none => rfl
    | some rule =>
      obtain ⟨inst, hi, hru⟩ := Option.bind_eq_some_iff.1 hr
      simp only
      rw [h r (by simp) ⟨inst, hi, by rw [hru]; rfl⟩]

theorem mapM_mono {f g : Nat → Option V} (h : ∀ j v, f j = some v → g j = some v) : ∀ {js : List Nat} {vs : List V},
    js.mapM f = some vs → js.mapM g = some vs := by
  intro js
  induction js with
  | nil => intro vs h; exact h
  | cons j js ih =>
    intro vs hm
    cases hf : f j with
    | none => simp [List.mapM_cons, hf] at hm
    | some v =>
      cases hr : js.mapM f with
      | none => simp [List.mapM_cons, hf, hr] at hm
      | some ws =>
        simp [List.mapM_cons, hf, hr] at hm
        simp [List.mapM_cons, h j v hf, ih hr, hm]

theorem value_mono {u w : Slot → Option V} (h : ∀ s v, u s = some v → w s = some v) (a : Addr) (j : Nat) (v : V)
    (hv : P.value u a j = some v) : P.value w a j = some v := by
  unfold Prod.value at hv ⊢
  obtain ⟨inst, h1, h2⟩ := Option.bind_eq_some_iff.1 hv
  exact Option.bind_eq_some_iff.2 ⟨inst, h1, h _ _ h2⟩

theorem eval_mono {u w : Slot → Option V} (h : ∀ s v, u s = some v → w s = some v) (a : Addr) {e : Expr V} {v : V}
    (hv : P.eval u a e = some v) : P.eval w a e = some v := by
  unfold Prod.eval at hv ⊢
  obtain ⟨vs, h1, h2⟩ := Option.map_eq_some_iff.1 hv
  exact Option.map_eq_some_iff.2 ⟨vs, mapM_mono (value_mono h a) h1, h2⟩

theorem outcome_mono {u w : Slot → Option V} (h : ∀ s v, u s = some v → w s = some v) (a : Addr) {r : Nat} {b : Bool}
    (hv : P.outcome u a r = some b) : P.outcome w a r = some b := by
  unfold Prod.outcome at hv ⊢
  cases hr : (P.insts[r]?).bind (·.rule) with
  | none => rw [hr] at hv; cases hv
  | some rule =>
    rw [hr] at hv
    simp only at hv ⊢
    cases ht : rule.test with
    | ifs reads fn =>
      rw [ht] at hv
      simp only at hv ⊢
      obtain ⟨vs, h1, h2⟩ := Option.map_eq_some_iff.1 hv
      exact Option.map_eq_some_iff.2 ⟨vs, mapM_mono (value_mono h a) h1, h2⟩
    | mat first e pat =>
      rw [ht] at hv
      simp only at hv ⊢
      obtain ⟨x, h1, h2⟩ := Option.map_eq_some_iff.1 hv
      exact Option.map_eq_some_iff.2 ⟨x, eval_mono h a h1, h2⟩

/-- what is computed has the value it has in the solution -/
def Agree (val : Slot → Option V) (st : Store V) : Prop := ∀ s v, get st s = some v → val s = some v

theorem adds_agree (hd : Described ph P) (hs : Scheduled ph P) {val : Slot → Option V} {a : Addr} (hsol : P.Solved val a) :
    Adds (Agree val) P a := by
  intro st σ pre i post inst e vs hag hp hi hrn hout htests hrhs hread
  obtain ⟨τ, hτ, hval⟩ := hsol
  have hpre : ∀ r ∈ pre, P.IsRule r → r ∈ P.path τ → τ r = σ r := by
    intro r hr hru hm
    have h1 := hτ r ((hs.tested τ r).2 ⟨hm, hru⟩)
    obtain ⟨x, hx, hxr⟩ := hru
    obtain ⟨rule, hrule⟩ := Option.isSome_iff_exists.1 hxr
    have h2 := outcome_mono hag a (outcome_of_test hx hrule (htests r hr x rule hx hrule))
    rw [h1] at h2
    exact Option.some.inj h2
  obtain ⟨post', hp'⟩ := path_prefix (P := P) hs.shaped hp hpre
  have hpτ : P.path τ = pre ++ i :: post' := hp'
  have hnr : ¬ P.IsRule i := by
    rintro ⟨x, hx, hr⟩; rw [hi] at hx; cases hx; rw [hrn] at hr; cases hr
  have hrhs' : P.rhs τ i = some e := by
    rw [← asg_eq_rhs hd hs hpτ hnr, asg_congr_rules fun r hr hru => hpre r hr hru (by rw [hpτ]; simp [hr]), asg_eq_rhs hd hs hp hnr, hrhs]
  have hout' : P.Output τ i := by
    obtain ⟨x, hx, h⟩ := hout
    refine ⟨x, hx, ?_⟩
    rcases h with h | h | ⟨hk, hr, hl⟩
    · exact .inl h
    · exact .inr (.inl h)
    · refine .inr (.inr ⟨hk, hr, ?_⟩)
      exact (hs.locals τ i x hx hk hr).2 (by rw [hpτ]; simp)
  obtain ⟨e', v, h1, h2, h3⟩ := hval i hout'
  rw [hrhs'] at h1; cases h1
  have h4 : P.eval val a e = some (e.fn vs) := eval_mono hag a (by simp [Prod.eval, mapM_of_readAll hread])
  rw [h2] at h4
  have hv : v = e.fn vs := Option.some.inj h4
  subst hv
  intro s w hw
  by_cases hss : s = inst.slot a
  · subst hss
    rw [get_cons] at hw
    cases hw
    simpa [Prod.value, hi] using h3
  · refine hag s w ?_
    rw [← hw]
    exact (get_append (new := [(inst.slot a, e.fn vs)]) (by simp [keys]; exact hss)).symm

theorem le_sum_of_mem {l : List Nat} {x : Nat} (h : x ∈ l) : x ≤ l.sum := by
  induction l with
  | nil => cases h
  | cons y l ih =>
    simp only [List.sum_cons]
    rcases List.mem_cons.1 h with rfl | h
    · omega
    · have := ih h; omega

/-! ## The nodes of the start phylum -/

theorem nodesList_nil {prods : List (Prod V)} {sp : Nat} : ∀ {kids : List Tree} {c : Nat} {a : Addr},
    (∀ (d : Nat) (k : Tree), kids[d]? = some k → ∀ a, nodesOf prods sp k a = []) → nodesList prods sp kids c a = [] := by
  intro kids
  induction kids with
  | nil => intro c a _; rfl
  | cons k ks ih =>
    intro c a h
    simp only [nodesList]
    rw [h 0 k rfl, ih fun d k' hk => h (d + 1) k' (by simpa using hk)]
    rfl

theorem nodesOf_nil {prods : List (Prod V)} {sp : Nat} (hsp : ∀ P ∈ prods, some sp ∉ P.kidPhy) {t : Tree} {o : Option Nat}
    (h : HasTy prods t o) : o ≠ some sp → ∀ a, nodesOf prods sp t a = [] := by
  induction h with
  | leaf => intro _ a; rfl
  | @node p kids P hP hlen hk ih =>
    intro hne a
    simp only [nodesOf, hP, Option.map_some]
    rw [if_neg hne, List.append_nil]
    apply nodesList_nil
    intro d k hd a
    have : d < P.kidPhy.length := by
      rw [← hlen]
      by_contra hn
      rw [List.getElem?_eq_none (by omega)] at hd; cases hd
    refine ih d k _ hd (List.getElem?_eq_getElem this) ?_ a
    intro he
    exact hsp P (List.mem_of_getElem? hP) (by rw [← he]; exact List.getElem_mem this)

theorem nodesOf_root {prods : List (Prod V)} {sp : Nat} (hsp : ∀ P ∈ prods, some sp ∉ P.kidPhy) {t : Tree}
    (h : HasTy prods t (some sp)) (a : Addr) : nodesOf prods sp t a = [(t, a)] := by
  cases h with
  | @node p kids P hP hlen hk =>
    simp only [nodesOf, hP, Option.map_some, if_true]
    rw [nodesList_nil, List.nil_append]
    intro d k hd a
    have : d < P.kidPhy.length := by
      rw [← hlen]
      by_contra hn
      rw [List.getElem?_eq_none (by omega)] at hd; cases hd
    refine nodesOf_nil hsp (hk d k _ hd (List.getElem?_eq_getElem this)) ?_ a
    intro he
    exact hsp P (List.mem_of_getElem? hP) (by rw [← he]; exact List.getElem_mem this)

theorem visitAll_eq {prods : List (Prod V)} {codes : List (List (Code V))} {n sp : Nat} {t : Tree}
    (hn : nodesOf prods sp t [] = [(t, [])]) : ∀ (phs : List Nat) (st : Store V),
    visitAll prods codes n sp t phs st = visitRoot prods codes n t phs st := by
  intro phs
  induction phs with
  | nil => intro st; rfl
  | cons ph phs ih =>
    intro st
    simp only [visitAll, visitRoot, hn, visitEach]
    cases visitNode prods codes n t [] ph st with
    | ok s => simp [ih]
    | ub => rfl
    | stop => rfl
    | nofuel => rfl

end Aps.Static
