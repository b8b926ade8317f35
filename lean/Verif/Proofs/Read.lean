import Verif.Spec.Read
import Verif.Proofs.ParseMore
import Mathlib.Data.List.Nodup
import Mathlib.Data.List.Perm.Subperm
import Mathlib.Data.List.Range
import Mathlib.Tactic.Common
/-!
# Reading ends; each file once; which files
-/
set_option linter.unusedVariables false
namespace Aps.Read

/-! ## names -/

theorem base_plain {n : Name} (h : 47 ∉ n) : base n = n := by
  cases n with
  | nil => rfl
  | cons c cs => simp [base, h]

theorem needed_plain {W : Name → Option File} {args : List Name} (h : Plain W args) {n : Name} (hn : Needed W args n) : 47 ∉ n := by
  cases hn with
  | arg ha => exact h.1 n ha
  | basic _ => decide
  | «with» _ hW hw => exact h.2 _ _ hW n hw

/-! ## what is kept -/

/-- indices are of programs, none twice, at most 100 programs; what has been read is needed, and was read in this order -/
structure Ok (W : Name → Option File) (args : List Name) (F : Parse.Fix) (s : State) : Prop where
  len : s.progs.length ≤ 100
  bnd : s.bound.Nodup
  blt : ∀ i ∈ s.bound, i < s.progs.length
  typ : s.typed.Nodup
  tlt : ∀ i ∈ s.typed, i < s.progs.length
  tbd : ∀ i ∈ s.typed, i ∈ s.bound
  from_ : ∀ q : Prog, q ∈ s.progs → ∃ n, Needed W args n ∧ W n = some q.file ∧ q.name = base n
  once : Plain W args → (s.progs.map (·.name)).Nodup
  seq : Parse.file (s.progs.map (·.file.units)).flatten F = .ok ((s.progs.map (·.trees)).flatten, s.fix)
  each : ∀ (i : Nat) (q : Prog), s.progs[i]? = some q → q.trees.length = Parse.decls q.file.units

/-- nothing is undone -/
structure Le (s t : State) : Prop where
  progs : s.progs <+: t.progs
  bound : ∀ i ∈ s.bound, i ∈ t.bound
  typed : ∀ i ∈ s.typed, i ∈ t.typed

theorem Le.refl (s : State) : Le s s := ⟨List.prefix_refl _, fun _ h => h, fun _ h => h⟩
theorem Le.trans {s t u : State} (h1 : Le s t) (h2 : Le t u) : Le s u :=
  ⟨h1.progs.trans h2.progs, fun i h => h2.bound i (h1.bound i h), fun i h => h2.typed i (h1.typed i h)⟩
theorem Le.length {s t : State} (h : Le s t) : s.progs.length ≤ t.progs.length := h.progs.length_le
theorem Le.get {s t : State} (h : Le s t) {i : Nat} (hi : i < s.progs.length) : t.progs[i]? = s.progs[i]? := by
  obtain ⟨l, hl⟩ := h.progs
  rw [← hl, List.getElem?_append_left hi]
theorem Le.get' {s t : State} (h : Le s t) {i : Nat} {q : Prog} (hi : s.progs[i]? = some q) : t.progs[i]? = some q := by
  rw [h.get (List.getElem?_eq_some_iff.1 hi).1, hi]

theorem nodup_bound_length {l : List Nat} {n : Nat} (h : l.Nodup) (hl : ∀ i ∈ l, i < n) : l.length ≤ n := by
  have : l.Subperm (List.range n) := h.subperm fun i hi => List.mem_range.2 (hl i hi)
  simpa using this.length_le

/-- why reading may stop -/
def Reason (W : Name → Option File) (args : List Name) : Prop :=
  (∃ n, Needed W args n ∧ W n = none) ∨ (∃ n f F, Needed W args n ∧ W n = some f ∧ Parse.file f.units F = .stop) ∨
    (Plain W args → ∃ l : List Name, l.length = 101 ∧ l.Nodup ∧ ∀ n ∈ l, Needed W args n)

/-- neither undefined nor out of fuel, and if it ends well the state is fine and the result -/
def Good (W : Name → Option File) (args : List Name) (F : Parse.Fix) (s : State) (r : Res State) (Q : State → Prop) : Prop :=
  r ≠ .ub ∧ r ≠ .nofuel ∧ (r = .stop → Reason W args) ∧ ∀ t, r = .ok t → Ok W args F t ∧ Le s t ∧ Q t

theorem file_total : ∀ (us : List Parse.Unit) (F : Parse.Fix), Parse.file us F ≠ .ub ∧ Parse.file us F ≠ .nofuel
  | [], F => ⟨by simp [Parse.file], by simp [Parse.file]⟩
  | .fixity k l s :: us, F => by
    show (Parse.declare k l s F >>= _) ≠ _ ∧ (Parse.declare k l s F >>= _) ≠ _
    have : (∃ F', Parse.declare k l s F = .ok F') ∨ Parse.declare k l s F = .stop := by
      unfold Parse.declare
      split
      · exact .inr rfl
      · split
        · exact .inr rfl
        · exact .inl ⟨_, rfl⟩
    rcases this with ⟨F', h⟩ | h
    · rw [h]; exact file_total us F'
    · rw [h]; exact ⟨(by intro h; cases h), (by intro h; cases h)⟩
  | .decl ts :: us, F => by
    show (Parse.parse (ts.map (Parse.lookup F)) >>= _) ≠ _ ∧ (Parse.parse (ts.map (Parse.lookup F)) >>= _) ≠ _
    rcases Parse.parse_total (ts.map (Parse.lookup F)) with ⟨c, h⟩ | h
    · rw [h, Res.ok_bind]
      have := file_total us F
      cases hf : Parse.file us F with
      | ok x => exact ⟨(by intro h; cases h), (by intro h; cases h)⟩
      | ub => exact (this.1 hf).elim
      | stop => exact ⟨(by intro h; cases h), (by intro h; cases h)⟩
      | nofuel => exact (this.2 hf).elim
    · rw [h]; exact ⟨(by intro h; cases h), (by intro h; cases h)⟩

theorem find_cases (W : Name → Option File) (n : Name) (s : State) :
    (∃ i q, find W n s = .ok (i, s) ∧ s.progs[i]? = some q ∧ q.name = n) ∨
    (∃ f x, (∀ q ∈ s.progs, q.name ≠ n) ∧ s.progs.length ≠ 100 ∧ W n = some f ∧ Parse.file f.units s.fix = .ok x ∧
      find W n s = .ok (s.progs.length, { s with progs := s.progs ++ [⟨base n, f, x.1⟩], fix := x.2 })) ∨
    (find W n s = .stop ∧ (∀ q ∈ s.progs, q.name ≠ n) ∧
      (s.progs.length = 100 ∨ W n = none ∨ ∃ f, W n = some f ∧ Parse.file f.units s.fix = .stop)) := by
  unfold find
  cases hi : s.progs.findIdx? (fun p => decide (p.name = n)) with
  | some i =>
    left
    obtain ⟨h, hp, _⟩ := List.findIdx?_eq_some_iff_getElem.1 hi
    exact ⟨i, s.progs[i], rfl, List.getElem?_eq_getElem h, by simpa using hp⟩
  | none =>
    right
    have hne : ∀ q ∈ s.progs, q.name ≠ n := by
      intro q hq
      have := List.findIdx?_eq_none_iff.1 hi q hq
      simpa using this
    by_cases h100 : s.progs.length = 100
    · right; exact ⟨by simp [h100], hne, .inl h100⟩
    · cases hW : W n with
      | none => right; exact ⟨by simp [h100], hne, .inr (.inl rfl)⟩
      | some f =>
        have ht := file_total f.units s.fix
        cases hf : Parse.file f.units s.fix with
        | ok x =>
          left
          refine ⟨f, x, hne, h100, rfl, hf, ?_⟩
          simp only [h100, if_false, hf, Res.ok_bind]
        | stop =>
          right
          refine ⟨?_, hne, .inr (.inr ⟨f, rfl, hf⟩)⟩
          simp only [h100, if_false, hf]
          rfl
        | ub => exact (ht.1 hf).elim
        | nofuel => exact (ht.2 hf).elim


variable {W : Name → Option File} {args : List Name} {F : Parse.Fix}

theorem find_good (n : Name) (s : State) (h : Ok W args F s) (hn : Needed W args n) :
    find W n s ≠ .ub ∧ find W n s ≠ .nofuel ∧ (find W n s = .stop → Reason W args) ∧ ∀ i t, find W n s = .ok (i, t) → Ok W args F t ∧ Le s t ∧
      (∃ q, t.progs[i]? = some q ∧ (47 ∉ n → q.name = n)) ∧ t.bound = s.bound ∧ t.typed = s.typed := by
  rcases find_cases W n s with ⟨i, q, h1, h2, h3⟩ | ⟨f, x, hne, h100, hW, hf, h1⟩ | ⟨h1, hne, hr⟩
  · rw [h1]
    refine ⟨by simp, by simp, by simp, ?_⟩
    intro j t e
    cases e
    exact ⟨h, Le.refl _, ⟨q, h2, fun _ => h3⟩, rfl, rfl⟩
  · rw [h1]
    refine ⟨by simp, by simp, by simp, ?_⟩
    intro j t e
    cases e
    have hl := h.len
    refine ⟨⟨?_, h.bnd, ?_, h.typ, ?_, h.tbd, ?_, ?_, ?_, ?_⟩, ⟨List.prefix_append _ _, fun _ h => h, fun _ h => h⟩, ?_, rfl, rfl⟩
    · simp only [List.length_append, List.length_singleton]; omega
    · intro i hi; have := h.blt i hi; simp only [List.length_append]; omega
    · intro i hi; have := h.tlt i hi; simp only [List.length_append]; omega
    · intro q hq
      rcases List.mem_append.1 hq with hq | hq
      · exact h.from_ q hq
      · simp only [List.mem_singleton] at hq
        subst hq
        exact ⟨n, hn, hW, rfl⟩
    · intro hp
      have hb := base_plain (needed_plain hp hn)
      simp only [List.map_append, List.map_cons, List.map_nil, hb]
      refine (List.nodup_append.2 ⟨h.once hp, by simp, ?_⟩)
      intro a ha b hb e
      simp only [List.mem_singleton] at hb
      obtain ⟨q, hq, rfl⟩ := List.mem_map.1 ha
      exact hne q hq (e.trans hb)
    · simp only [List.map_append, List.map_cons, List.map_nil, List.flatten_append, List.flatten_cons, List.flatten_nil, List.append_nil]
      rw [Parse.file_append, h.seq, Res.ok_bind]
      simp only [hf, Res.ok_bind]
    · intro i q hi
      rw [List.getElem?_append] at hi
      split at hi
      · exact h.each i q hi
      · rw [List.getElem?_singleton] at hi
        split at hi
        · cases hi
          obtain ⟨es, F'⟩ := x
          exact (Parse.file_spec _ _ _ _ hf).2.1
        · cases hi
    · refine ⟨_, by rw [List.getElem?_append_right (Nat.le_refl _)]; simp; rfl, ?_⟩
      intro h47
      exact base_plain h47
  · rw [h1]
    refine ⟨by simp, by simp, fun _ => ?_, fun i t e => by cases e⟩
    rcases hr with hr | hr | ⟨f, hr, hf⟩
    · refine .inr (.inr fun hp => ⟨n :: s.progs.map (·.name), by simp [hr], List.nodup_cons.2 ⟨?_, h.once hp⟩, ?_⟩)
      · intro hm
        obtain ⟨q, hq, e⟩ := List.mem_map.1 hm
        exact hne q hq e
      · intro m hm
        rcases List.mem_cons.1 hm with rfl | hm
        · exact hn
        · obtain ⟨q, hq, rfl⟩ := List.mem_map.1 hm
          obtain ⟨k, k1, k2, k3⟩ := h.from_ q hq
          rw [k3, base_plain (needed_plain hp k1)]
          exact k1
    · exact .inl ⟨n, hn, hr⟩
    · exact .inr (.inl ⟨n, f, s.fix, hn, hr, hf⟩)

theorem Good.mono {s : State} {r : Res State} {Q Q' : State → Prop} (h : Good W args F s r Q) (hQ : ∀ t, Ok W args F t → Le s t → Q t → Q' t) :
    Good W args F s r Q' :=
  ⟨h.1, h.2.1, h.2.2.1, fun t e => by obtain ⟨a, b, c⟩ := h.2.2.2 t e; exact ⟨a, b, hQ t a b c⟩⟩
theorem Good.pre {s s' : State} {r : Res State} {Q : State → Prop} (hl : Le s s') (h : Good W args F s' r Q) : Good W args F s r Q :=
  ⟨h.1, h.2.1, h.2.2.1, fun t e => by obtain ⟨a, b, c⟩ := h.2.2.2 t e; exact ⟨a, hl.trans b, c⟩⟩
theorem Good.bind {s : State} {r : Res State} {f : State → Res State} {Q Q' : State → Prop} (h : Good W args F s r Q)
    (hf : ∀ t, Ok W args F t → Le s t → Q t → Good W args F t (f t) Q') : Good W args F s (r >>= f) Q' := by
  cases hr : r with
  | ok t =>
    obtain ⟨a, b, c⟩ := h.2.2.2 t hr
    exact (hf t a b c).pre b
  | ub => exact (h.1 hr).elim
  | nofuel => exact (h.2.1 hr).elim
  | stop => exact ⟨(by intro e; cases e), (by intro e; cases e), fun _ => h.2.2.1 hr, fun t e => by cases e⟩
theorem Good.ok {s : State} {Q : State → Prop} (h : Ok W args F s) (hq : Q s) : Good W args F s (.ok s) Q :=
  ⟨by simp, by simp, by simp, fun t e => by cases e; exact ⟨h, Le.refl _, hq⟩⟩

theorem find_bind {n : Name} {s : State} {f : Nat × State → Res State} {Q : State → Prop} (h : Ok W args F s) (hn : Needed W args n)
    (hf : ∀ i t q, Ok W args F t → Le s t → t.progs[i]? = some q → (47 ∉ n → q.name = n) → t.bound = s.bound → t.typed = s.typed →
      Good W args F t (f (i, t)) Q) :
    Good W args F s (find W n s >>= f) Q := by
  obtain ⟨h1, h2, h2', h3⟩ := find_good n s h hn
  cases hr : find W n s with
  | ok x =>
    obtain ⟨i, t⟩ := x
    obtain ⟨a, b, ⟨q, c, c'⟩, d, e⟩ := h3 i t hr
    exact (hf i t q a b c c' d e).pre b
  | ub => exact (h1 hr).elim
  | nofuel => exact (h2 hr).elim
  | stop => exact ⟨(by intro e; cases e), (by intro e; cases e), fun _ => h2' hr, fun t e => by cases e⟩

/-- `P` is kept, `Q n` comes true for every name and stays -/
theorem withs_good {go : Nat → State → Res State} (P : State → Prop) (Q : Name → State → Prop)
    (hP : ∀ s t : State, Ok W args F s → Ok W args F t → Le s t → P s → P t) (hQ : ∀ n (s t : State), Le s t → Q n s → Q n t)
    (R : State → State → Prop) (hR0 : ∀ s t : State, t.typed = s.typed → R s t) (hRt : ∀ s t u : State, Ok W args F t → Le t u → R s t → R t u → R s u)
    (hgo : ∀ n i t q, Ok W args F t → P t → t.progs[i]? = some q → (47 ∉ n → q.name = n) → Good W args F t (go i t) (fun u => Q n u ∧ R t u)) :
    ∀ (ns : List Name) (s : State), Ok W args F s → P s → (∀ n ∈ ns, Needed W args n) →
      Good W args F s (withs W go ns s) (fun u => (∀ n ∈ ns, Q n u) ∧ R s u)
  | [], s, h, _, _ => Good.ok h ⟨(by intro n hn; cases hn), hR0 s s rfl⟩
  | n :: ns, s, h, hs, hn => by
    refine find_bind h (hn n (by simp)) fun i t q ht hl hi hq hb hty => ?_
    refine (hgo n i t q ht (hP s t h ht hl hs) hi hq).bind fun u hu hlu hQu => ?_
    refine (withs_good P Q hP hQ R hR0 hRt hgo ns u hu (hP t u ht hu hlu (hP s t h ht hl hs)) (fun m hm => hn m (by simp [hm]))).mono ?_
    intro v hv hlv hr
    refine ⟨?_, ?_⟩
    · intro m hm
      rcases List.mem_cons.1 hm with rfl | hm
      · exact hQ _ u v hlv hQu.1
      · exact hr.1 m hm
    · exact hRt s t v ht (hlu.trans hlv) (hR0 s t hty) (hRt t u v hu hlv hQu.2 hr.2)

theorem withs_needed {s : State} {q : Prog} (h : Ok W args F s) (hq : q ∈ s.progs) : ∀ n ∈ q.file.withs, Needed W args n := by
  intro n hn
  obtain ⟨m, h1, h2, _⟩ := h.from_ q hq
  exact .with h1 h2 hn

theorem grows {s t : State} {n : Nat} (h : s.bound.Nodup) (hl : Le s t) (hn : 100 < n + s.bound.length) : 100 < n + t.bound.length := by
  have := (h.subperm hl.bound).length_le
  omega
theorem growsT {s t : State} {n : Nat} (h : s.typed.Nodup) (hl : Le s t) (hn : 100 < n + s.typed.length) : 100 < n + t.typed.length := by
  have := (h.subperm hl.typed).length_le
  omega

theorem bind_good (hbas : Needed W args basic) : ∀ (n p : Nat) (s : State), Ok W args F s → p < s.progs.length → 100 < n + s.bound.length →
    Good W args F s (bind W n p s) (fun t => p ∈ t.bound ∧ t.typed = s.typed)
  | 0, p, s, h, _, hn => by
    have := nodup_bound_length h.bnd h.blt
    have := h.len
    omega
  | n + 1, p, s, h, hp, hn => by
    refine find_bind h hbas fun b s1 qb h1 hl hb hname hbe hty => ?_
    simp only
    split
    · rename_i hm; exact Good.ok h1 ⟨hm, hty⟩
    · rename_i hm
      have hp1 : p < s1.progs.length := Nat.lt_of_lt_of_le hp hl.length
      generalize hs2 : ({ s1 with bound := p :: s1.bound } : State) = s2
      have e1 : s2.bound = p :: s1.bound := by rw [← hs2]
      have e2 : s2.progs = s1.progs := by rw [← hs2]
      have e3 : s2.typed = s1.typed := by rw [← hs2]
      have e4 : s2.fix = s1.fix := by rw [← hs2]
      have h2 : Ok W args F s2 := by
        refine ⟨by rw [e2]; exact h1.len, by rw [e1]; exact List.nodup_cons.2 ⟨hm, h1.bnd⟩, ?_, by rw [e3]; exact h1.typ,
          by rw [e2, e3]; exact h1.tlt, ?_, by rw [e2]; exact h1.from_, by rw [e2]; exact h1.once, by rw [e2, e4]; exact h1.seq,
          by rw [e2]; exact h1.each⟩
        · intro i hi
          rw [e1] at hi
          rw [e2]
          rcases List.mem_cons.1 hi with rfl | hi
          · exact hp1
          · exact h1.blt i hi
        · intro i hi
          rw [e3] at hi
          rw [e1]
          exact List.mem_cons_of_mem _ (h1.tbd i hi)
      have hl2 : Le s1 s2 := ⟨by rw [e2], fun i hi => by rw [e1]; exact List.mem_cons_of_mem _ hi, fun i hi => by rw [e3]; exact hi⟩
      have hn2 : 100 < n + s2.bound.length := by rw [e1, hbe]; simp only [List.length_cons]; omega
      refine Good.pre hl2 ?_
      have step : Good W args F s2 (ifOther b p (bind W n) s2) (fun t => t.typed = s2.typed) := by
        unfold ifOther
        split
        · exact (bind_good hbas n b s2 h2 (by rw [e2]; exact (List.getElem?_eq_some_iff.1 hb).1) hn2).mono fun _ _ _ h => h.2
        · exact Good.ok h2 rfl
      refine Good.bind step fun t ht hlt htt => ?_
      have hpt : p < t.progs.length := Nat.lt_of_lt_of_le (by rw [e2]; exact hp1) hlt.length
      rw [List.getElem?_eq_getElem hpt]
      simp only
      refine (withs_good (fun u => 100 < n + u.bound.length) (fun _ _ => True) (fun a b ha _ hab h => grows ha.bnd hab h) (fun _ _ _ _ _ => trivial)
        (fun a b => b.typed = a.typed) (fun _ _ h => h) (fun a b c _ _ h1 h2 => h2.trans h1)
        (fun m i u q hu hnu hi _ => (bind_good hbas n i u hu (List.getElem?_eq_some_iff.1 hi).1 hnu).mono fun _ _ _ h => ⟨trivial, h.2⟩)
        _ t ht (grows h2.bnd hlt hn2) (withs_needed ht (List.getElem_mem hpt))).mono ?_
      intro v hv hlv hr
      refine ⟨hlv.bound p (hlt.bound p (by rw [e1]; simp)), ?_⟩
      rw [hr.2, htt, e3, hty]

/-- what a typed program needs is typed -/
def Closed (s : State) (i : Nat) : Prop :=
  (∃ j ∈ s.typed, ∃ q, s.progs[j]? = some q ∧ q.name = basic) ∧
  ∀ q, s.progs[i]? = some q → ∀ n ∈ q.file.withs, 47 ∉ n → ∃ j ∈ s.typed, ∃ r, s.progs[j]? = some r ∧ r.name = n

theorem Closed.mono {s t : State} {i : Nat} (hi : i < s.progs.length) (h : Closed s i) (hl : Le s t) : Closed t i := by
  obtain ⟨⟨j, h1, q, h2, h3⟩, h4⟩ := h
  refine ⟨⟨j, hl.typed j h1, q, hl.get' h2, h3⟩, ?_⟩
  intro q hq n hn h47
  rw [hl.get hi] at hq
  obtain ⟨j, h1, r, h2, h3⟩ := h4 q hq n hn h47
  exact ⟨j, hl.typed j h1, r, hl.get' h2, h3⟩

theorem type_good (hbas : Needed W args basic) : ∀ (n p : Nat) (s : State), Ok W args F s → p < s.progs.length → 100 < n + s.typed.length →
    Good W args F s (type W n p s) (fun t => p ∈ t.typed ∧ ∀ i ∈ t.typed, i ∉ s.typed → Closed t i)
  | 0, p, s, h, _, hn => by
    have := nodup_bound_length h.typ h.tlt
    have := h.len
    omega
  | n + 1, p, s, h, hp, hn => by
    refine find_bind h hbas fun b s1 qb h1 hl hb hname hbe hty => ?_
    have hp1 : p < s1.progs.length := Nat.lt_of_lt_of_le hp hl.length
    refine (bind_good hbas 101 p s1 h1 hp1 (by omega)).bind fun s2 h2 hl2 hs2 => ?_
    simp only
    split
    · rename_i hm
      exact Good.ok h2 ⟨hm, fun i hi hni => (hni (by rw [hs2.2, hty] at hi; exact hi)).elim⟩
    · rename_i hm
      have hp2 : p < s2.progs.length := Nat.lt_of_lt_of_le hp1 hl2.length
      generalize hs3 : ({ s2 with typed := p :: s2.typed } : State) = s3
      have e1 : s3.typed = p :: s2.typed := by rw [← hs3]
      have e2 : s3.progs = s2.progs := by rw [← hs3]
      have e3 : s3.bound = s2.bound := by rw [← hs3]
      have e4 : s3.fix = s2.fix := by rw [← hs3]
      have h3 : Ok W args F s3 := by
        refine ⟨by rw [e2]; exact h2.len, by rw [e3]; exact h2.bnd, by rw [e2, e3]; exact h2.blt, by rw [e1]; exact List.nodup_cons.2 ⟨hm, h2.typ⟩, ?_, ?_,
          by rw [e2]; exact h2.from_, by rw [e2]; exact h2.once, by rw [e2, e4]; exact h2.seq, by rw [e2]; exact h2.each⟩
        · intro i hi
          rw [e1] at hi
          rw [e2]
          rcases List.mem_cons.1 hi with rfl | hi
          · exact hp2
          · exact h2.tlt i hi
        · intro i hi
          rw [e1] at hi
          rw [e3]
          rcases List.mem_cons.1 hi with rfl | hi
          · exact hs2.1
          · exact h2.tbd i hi
      have hl3 : Le s2 s3 := ⟨by rw [e2], fun i hi => by rw [e3]; exact hi, fun i hi => by rw [e1]; exact List.mem_cons_of_mem _ hi⟩
      have hn3 : 100 < n + s3.typed.length := by rw [e1, hs2.2, hty]; simp only [List.length_cons]; omega
      refine Good.pre hl3 ?_
      have hb3 : s3.progs[b]? = some qb := by rw [e2]; exact hl2.get' hb
      have hbname : qb.name = basic := hname (by decide)
      have step : Good W args F s3 (ifOther b p (type W n) s3)
          (fun t => b ∈ t.typed ∧ ∀ i ∈ t.typed, i ∉ s3.typed → Closed t i) := by
        unfold ifOther
        split
        · exact type_good hbas n b s3 h3 (List.getElem?_eq_some_iff.1 hb3).1 hn3
        · rename_i hbp
          have : b = p := by simpa using hbp
          exact Good.ok h3 ⟨by rw [e1, this]; simp, fun i hi hni => (hni hi).elim⟩
      refine Good.bind step fun t ht hlt htt => ?_
      have hpt : p < t.progs.length := Nat.lt_of_lt_of_le (by rw [e2]; exact hp2) hlt.length
      rw [List.getElem?_eq_getElem hpt]
      simp only
      have hw := withs_good (W := W) (args := args) (F := F) (go := type W n) (fun u => 100 < n + u.typed.length)
        (fun m u => 47 ∉ m → ∃ j ∈ u.typed, ∃ r, u.progs[j]? = some r ∧ r.name = m)
        (fun a b ha _ hab h => growsT ha.typ hab h)
        (fun m a b hab h h47 => by
          obtain ⟨j, j1, r, j2, j3⟩ := h h47
          exact ⟨j, hab.typed j j1, r, hab.get' j2, j3⟩)
        (fun a b => ∀ i ∈ b.typed, i ∉ a.typed → Closed b i)
        (fun a b e i hi hni => (hni (by rw [e] at hi; exact hi)).elim)
        (fun a b c hb hbc h1 h2 i hi hni => by
          by_cases hib : i ∈ b.typed
          · exact (h1 i hib hni).mono (hb.tlt i hib) hbc
          · exact h2 i hi hib)
        (fun m i u q hu hnu hi hq => (type_good hbas n i u hu (List.getElem?_eq_some_iff.1 hi).1 hnu).mono fun v hv hlv h =>
          ⟨fun h47 => ⟨i, h.1, q, hlv.get' hi, hq h47⟩, h.2⟩)
        t.progs[p].file.withs t ht (growsT h3.typ hlt hn3) (withs_needed ht (List.getElem_mem hpt))
      refine hw.mono ?_
      intro v hv hlv hr
      refine ⟨hlv.typed p (hlt.typed p (by rw [e1]; simp)), ?_⟩
      intro i hi hni
      by_cases hit : i ∈ t.typed
      · by_cases hi3 : i ∈ s3.typed
        · rw [e1] at hi3
          rcases List.mem_cons.1 hi3 with rfl | hi3
          · refine ⟨⟨b, hlv.typed b htt.1, qb, hlv.get' (hlt.get' hb3), hbname⟩, ?_⟩
            intro q hq m hm h47
            have : q = t.progs[i] := by
              rw [hlv.get hpt, List.getElem?_eq_getElem hpt] at hq
              exact (Option.some.inj hq).symm
            rw [this] at hm
            exact hr.1 m hm h47
          · exact (hni (by rw [hs2.2, hty] at hi3; exact hi3)).elim
        · exact (htt.2 i hit hi3).mono (ht.tlt i hit) hlv
      · exact hr.2 i hi hit

end Aps.Read

namespace Aps.Read

variable {W : Name → Option File} {args : List Name} {F : Parse.Fix}

theorem run_good : ∀ (ns : List Name) (s : State), Ok W args F s → (∀ n ∈ ns, n ∈ args) → (∀ i ∈ s.typed, Closed s i) →
    Good W args F s (run W ns s) (fun t => (∀ n ∈ ns, 47 ∉ n → ∃ j ∈ t.typed, ∃ q, t.progs[j]? = some q ∧ q.name = n) ∧ ∀ i ∈ t.typed, Closed t i)
  | [], s, h, _, hc => Good.ok h ⟨(by intro n hn; cases hn), hc⟩
  | n :: ns, s, h, hns, hc => by
    have hn := hns n (by simp)
    refine find_bind h (.arg hn) fun i t q ht hl hi hq hb hty => ?_
    refine (bind_good (.basic hn) 101 i t ht (List.getElem?_eq_some_iff.1 hi).1 (by omega)).bind fun u hu hlu hQu => ?_
    refine (type_good (.basic hn) 101 i u hu (List.getElem?_eq_some_iff.1 (hlu.get' hi)).1 (by omega)).bind fun v hv hlv hQv => ?_
    have hc' : ∀ i ∈ v.typed, Closed v i := by
      intro j hj
      by_cases hju : j ∈ u.typed
      · have hjs : j ∈ s.typed := by rw [hQu.2, hty] at hju; exact hju
        exact (hc j hjs).mono (h.tlt j hjs) (hl.trans (hlu.trans hlv))
      · exact hQv.2 j hj hju
    refine (run_good ns v hv (fun m hm => hns m (by simp [hm])) hc').mono ?_
    intro w hw hlw hr
    refine ⟨?_, hr.2⟩
    intro m hm h47
    rcases List.mem_cons.1 hm with rfl | hm
    · exact ⟨i, hlw.typed i hQv.1, q, (hlu.trans (hlv.trans hlw)).get' hi, hq h47⟩
    · exact hr.1 m hm h47

theorem start_ok (W : Name → Option File) (args : List Name) (F : Parse.Fix) : Ok W args F (start F) := by
  refine ⟨by simp [start], by simp [start], ?_, by simp [start], ?_, ?_, ?_, by simp [start], rfl, ?_⟩
  · intro i hi; cases hi
  · intro i hi; cases hi
  · intro i hi; cases hi
  · intro q hq; cases hq
  · intro i q hi; simp [start] at hi

theorem run_start (W : Name → Option File) (args : List Name) (F : Parse.Fix) :
    Good W args F (start F) (run W args (start F))
      (fun t => (∀ n ∈ args, 47 ∉ n → ∃ j ∈ t.typed, ∃ q, t.progs[j]? = some q ∧ q.name = n) ∧ ∀ i ∈ t.typed, Closed t i) :=
  run_good args (start F) (start_ok W args F) (fun _ h => h) (by intro i hi; cases hi)

theorem needed_typed {t : State} (hp : Plain W args) (ht : Ok W args F t)
    (h1 : ∀ n ∈ args, 47 ∉ n → ∃ j ∈ t.typed, ∃ q, t.progs[j]? = some q ∧ q.name = n) (h2 : ∀ i ∈ t.typed, Closed t i) {n : Name}
    (hn : Needed W args n) : ∃ j ∈ t.typed, ∃ q, t.progs[j]? = some q ∧ q.name = n := by
  induction hn with
  | arg ha => exact h1 _ ha (hp.1 _ ha)
  | basic ha =>
    obtain ⟨j, j1, _⟩ := h1 _ ha (hp.1 _ ha)
    exact (h2 j j1).1
  | @«with» m n f hm hW hw ih =>
    obtain ⟨j, j1, q, j2, j3⟩ := ih
    have hq : q ∈ t.progs := List.mem_of_getElem? j2
    obtain ⟨k, k1, k2, k3⟩ := ht.from_ q hq
    have : k = m := by rw [← j3, k3, base_plain (needed_plain hp k1)]
    subst this
    rw [hW] at k2
    cases k2
    exact (h2 j j1).2 q j2 n hw (hp.2 _ _ hW n hw)

theorem files_of_file : ∀ (fs : List (List Parse.Unit)) (F F' : Parse.Fix) (es : List Parse.Ast), Parse.file fs.flatten F = .ok (es, F') →
    ∃ xs, Parse.files fs F = .ok xs ∧ xs.flatten = es ∧ xs.map List.length = fs.map Parse.decls
  | [], F, F', es, h => by cases h; exact ⟨[], rfl, rfl, rfl⟩
  | f :: fs, F, F', es, h => by
    rw [List.flatten_cons, Parse.file_append] at h
    obtain ⟨x, h1, h⟩ := Res.bind_eq_ok.1 h
    obtain ⟨y, h2, h⟩ := Res.bind_eq_ok.1 h
    cases h
    obtain ⟨e1, F1⟩ := x
    obtain ⟨e2, F2⟩ := y
    obtain ⟨xs, k1, k2, k3⟩ := files_of_file fs F1 F2 e2 h2
    refine ⟨e1 :: xs, ?_, by simp [k2], by simp [k3, (Parse.file_spec _ _ _ _ h1).2.1]⟩
    show (Parse.file f F >>= _) = _
    rw [h1, Res.ok_bind]
    simp only [k1, Res.ok_bind]

theorem progs_files {t : State} (ht : Ok W args F t) : Parse.files (t.progs.map (·.file.units)) F = .ok (t.progs.map (·.trees)) := by
  obtain ⟨xs, h1, h2, h3⟩ := files_of_file _ _ _ _ ht.seq
  rw [h1]
  congr 1
  refine List.eq_iff_flatten_eq.2 ⟨h2, ?_⟩
  rw [h3, List.map_map, List.map_map]
  refine List.map_congr_left ?_
  intro q hq
  obtain ⟨i, hi⟩ := List.getElem?_of_mem hq
  exact (ht.each i q hi).symm

end Aps.Read
