import Verif.Spec.Parse
import Mathlib.Tactic.Common
/-!
# The parser of expressions and the precedence of operators
-/
set_option linter.unusedVariables false
namespace Aps.Parse

theorem resolve_reduce {p q : Prec} : resolve p q = .reduce ↔ LeftWins p q := by
  unfold resolve LeftWins
  split
  · simp; omega
  · split
    · simp; omega
    · have : p.level = q.level := by omega
      cases q.assoc <;> simp [this]
theorem resolve_shift {p q : Prec} : resolve p q = .shift ↔ RightWins p q := by
  unfold resolve RightWins
  split
  · simp; omega
  · split
    · simp; omega
    · have : p.level = q.level := by omega
      cases q.assoc <;> simp [this]

theorem after_succ (n : Nat) (S : List Frame) (e : Cst) (ts : List Tok) : after (n + 1) S e ts =
    match S, next ts with
    | [], none => .ok (e, ts)
    | F :: S, none => after n S (F.fill e) ts
    | [], some _ => shift n [] e ts
    | F :: S, some q =>
      match resolve F.prec q with
      | .reduce => after n S (F.fill e) ts
      | .shift => shift n (F :: S) e ts
      | .error => .stop := by
  simp only [after]
  rfl

/-! ## enough fuel -/

def Fine {α : Type} (k : Nat) (r : Res (α × List Tok)) : Prop :=
  (r ≠ .nofuel ∧ r ≠ .ub) ∧ ∀ a ts, r = .ok (a, ts) → ts.length ≤ k

theorem fine_mono {α : Type} {k k' : Nat} {r : Res (α × List Tok)} (h : Fine k r) (hk : k ≤ k') : Fine k' r :=
  ⟨h.1, fun a ts e => Nat.le_trans (h.2 a ts e) hk⟩
theorem fine_stop {α : Type} (k : Nat) : Fine (α := α) k .stop := ⟨⟨by simp, by simp⟩, fun a ts e => by cases e⟩
theorem fine_ok {α : Type} {k : Nat} {a : α} {ts : List Tok} (h : ts.length ≤ k) : Fine k (.ok (a, ts)) :=
  ⟨⟨by simp, by simp⟩, fun a ts e => by cases e; exact h⟩
theorem fine_bind {α β : Type} {k k' : Nat} {r : Res (α × List Tok)} {f : α × List Tok → Res (β × List Tok)} (h : Fine k r)
    (hf : ∀ a ts, r = .ok (a, ts) → ts.length ≤ k → Fine k' (f (a, ts))) : Fine k' (r >>= f) := by
  cases hr : r with
  | ok x => obtain ⟨a, ts⟩ := x; exact hf a ts hr (h.2 a ts hr)
  | ub => exact (h.1.2 hr).elim
  | stop => exact fine_stop k'
  | nofuel => exact (h.1.1 hr).elim

theorem fuel_enough : ∀ n,
    (∀ S ts, 4 * ts.length + S.length < n → Fine ts.length (before n S ts)) ∧
    (∀ S e ts, 4 * ts.length + S.length + 3 < n → Fine ts.length (suffix n S e ts)) ∧
    (∀ S e ts, 4 * ts.length + S.length + 2 < n → Fine ts.length (after n S e ts)) ∧
    (∀ S e ts, 4 * ts.length + S.length + 1 < n → Fine ts.length (shift n S e ts)) ∧
    (∀ ts, 4 * ts.length + 1 < n → Fine ts.length (list n ts)) := by
  intro n
  induction n with
  | zero => exact ⟨fun _ _ h => by omega, fun _ _ _ h => by omega, fun _ _ _ h => by omega, fun _ _ _ h => by omega, fun _ h => by omega⟩
  | succ n ih =>
    obtain ⟨ihB, ihS, ihA, ihH, ihL⟩ := ih
    refine ⟨?_, ?_, ?_, ?_, ?_⟩
    · intro S ts hn
      cases ts with
      | nil => exact fine_stop _
      | cons t ts =>
        simp only [List.length_cons] at hn
        have hpre : ∀ t : Tok, Fine (t :: ts).length (if (t.prefix).isSome then before n (.pre t :: S) ts else .stop) := by
          intro t
          split
          · exact fine_mono (ihB _ _ (by simp only [List.length_cons]; omega)) (by simp)
          · exact fine_stop _
        cases t <;> simp only [before] <;> first | (exact hpre _) | skip
        · exact fine_mono (ihS _ _ _ (by omega)) (by simp)
        · refine fine_bind (ihL ts (by omega)) ?_
          intro a ts' _ hl
          simp only
          split
          · rename_i ts2
            exact fine_mono (ihS _ _ _ (by simp only [List.length_cons] at hl; omega)) (by simp only [List.length_cons] at hl ⊢; omega)
          · exact fine_stop _
    · intro S e ts hn
      simp only [suffix]
      split
      · rename_i ts; simp only [List.length_cons] at hn
        exact fine_mono (ihS _ _ _ (by omega)) (by simp only [List.length_cons]; omega)
      · rename_i ts _; simp only [List.length_cons] at hn
        refine fine_bind (ihL ts (by omega)) ?_
        intro a ts' _ hl
        simp only
        split
        · rename_i ts2
          exact fine_mono (ihS _ _ _ (by simp only [List.length_cons] at hl; omega)) (by simp only [List.length_cons] at hl ⊢; omega)
        · exact fine_stop _
      · rename_i ts; simp only [List.length_cons] at hn
        exact fine_mono (ihS _ _ _ (by omega)) (by simp only [List.length_cons]; omega)
      · rename_i ts; simp only [List.length_cons] at hn
        refine fine_bind (ihL ts (by omega)) ?_
        intro a ts' _ hl
        simp only
        split
        · rename_i ts2
          exact fine_mono (ihS _ _ _ (by simp only [List.length_cons] at hl; omega)) (by simp only [List.length_cons] at hl ⊢; omega)
        · exact fine_stop _
      · exact fine_stop _
      · exact ihA _ _ _ (by omega)
    · intro S e ts hn
      rw [after_succ]
      cases S with
      | nil =>
        cases next ts with
        | none => exact fine_ok (Nat.le_refl _)
        | some q => exact ihH _ _ _ (by omega)
      | cons F S =>
        simp only [List.length_cons] at hn
        cases next ts with
        | none => exact ihA _ _ _ (by omega)
        | some q =>
          simp only
          cases resolve F.prec q with
          | reduce => exact ihA _ _ _ (by omega)
          | shift => exact ihH _ _ _ (by simp only [List.length_cons]; omega)
          | error => exact fine_stop _
    · intro S e ts hn
      simp only [shift]
      split
      · rename_i ts; simp only [List.length_cons] at hn
        exact fine_mono (ihA _ _ _ (by omega)) (by simp)
      · rename_i t ts _; simp only [List.length_cons] at hn
        exact fine_mono (ihB _ _ (by simp only [List.length_cons]; omega)) (by simp)
      · exact fine_stop _
    · intro ts hn
      simp only [list]
      refine fine_bind (ihB [] ts (by simp; omega)) ?_
      intro a ts' _ hl
      simp only
      split
      · rename_i ts2 _
        simp only [List.length_cons] at hl
        refine fine_bind (ihL ts2 (by omega)) ?_
        intro b ts3 _ hl3
        exact fine_ok (by show ts3.length ≤ _; omega)
      · exact fine_ok hl

/-! ## what is found respects precedence -/

/-- what waits is as it should be -/
def Waits : List Frame → Prop
  | [] => True
  | .bin l o :: S => Respects l ∧ Waits S ∧ ∃ p, o.infix = some p ∧ (∀ q ∈ rightEdge l, LeftWins q p) ∧
      ∀ F ∈ S.head?, ∀ q ∈ p :: leftEdge l, RightWins F.prec q
  | .pre o :: S => o.prefix.isSome = true ∧ Waits S

def stackYield : List Frame → List Tok
  | [] => []
  | .bin l o :: S => stackYield S ++ yield l ++ [o]
  | .pre o :: S => stackYield S ++ [o]

/-- an operand that fits -/
def Fits (S : List Frame) (e : Cst) (ts : List Tok) : Prop :=
  Respects e ∧ (∀ F ∈ S.head?, ∀ q ∈ leftEdge e, RightWins F.prec q) ∧ ∀ p ∈ next ts, ∀ q ∈ rightEdge e, LeftWins q p

theorem simple_edges {e : Cst} (h : Simple e) : leftEdge e = [] ∧ rightEdge e = [] := by
  cases e <;> first | exact ⟨rfl, rfl⟩ | cases h

theorem simple_fits {S : List Frame} {e : Cst} {ts : List Tok} (h : Simple e) (hr : Respects e) : Fits S e ts := by
  refine ⟨hr, ?_, ?_⟩
  · rw [(simple_edges h).1]; intro F _ q hq; cases hq
  · rw [(simple_edges h).2]; intro F _ q hq; cases hq

theorem fill_fits {F : Frame} {S : List Frame} {e : Cst} {ts : List Tok} (hw : Waits (F :: S)) (hf : Fits (F :: S) e ts)
    (hn : ∀ q ∈ next ts, LeftWins F.prec q) : Fits S (F.fill e) ts ∧ Waits S := by
  obtain ⟨h1, h2, h3⟩ := hf
  cases F with
  | bin l o =>
    obtain ⟨w1, w2, p, w3, w4, w5⟩ := hw
    have hp : (Frame.bin l o).prec = p := by simp [Frame.prec, w3]
    rw [hp] at hn
    refine ⟨⟨⟨w1, h1, p, w3, w4, ?_⟩, ?_, ?_⟩, w2⟩
    · intro q hq; rw [← hp]; exact h2 _ rfl q hq
    · intro G hG q hq
      simp only [Frame.fill, leftEdge, w3, Option.toList_some] at hq
      exact w5 G hG q hq
    · intro q hq r hr
      simp only [Frame.fill, rightEdge, w3, Option.toList_some, List.singleton_append, List.mem_cons] at hr
      rcases hr with rfl | hr
      · exact hn q hq
      · exact h3 q hq r hr
  | pre o =>
    obtain ⟨w1, w2⟩ := hw
    obtain ⟨p, w3⟩ := Option.isSome_iff_exists.1 w1
    have hp : (Frame.pre o).prec = p := by simp [Frame.prec, w3]
    rw [hp] at hn
    refine ⟨⟨⟨h1, p, w3, ?_⟩, ?_, ?_⟩, w2⟩
    · intro q hq; rw [← hp]; exact h2 _ rfl q hq
    · intro G hG q hq
      simp only [Frame.fill, leftEdge] at hq
      cases hq
    · intro q hq r hr
      simp only [Frame.fill, rightEdge, w3, Option.toList_some, List.singleton_append, List.mem_cons] at hr
      rcases hr with rfl | hr
      · exact hn q hq
      · exact h3 q hq r hr

theorem fill_yield (F : Frame) (S : List Frame) (e : Cst) : stackYield (F :: S) ++ yield e = stackYield S ++ yield (F.fill e) := by
  cases F <;> simp [stackYield, Frame.fill, yield]

theorem yields_cons (e : Cst) : ∀ es : Csts, es ≠ .nil → yields (.cons e es) = yield e ++ .comma :: yields es
  | .nil, h => (h rfl).elim
  | .cons _ _, _ => by simp only [yields]

theorem sound : ∀ n,
    (∀ S ts c rest, before n S ts = .ok (c, rest) → Waits S → Respects c ∧ stackYield S ++ ts = yield c ++ rest) ∧
    (∀ S e ts c rest, suffix n S e ts = .ok (c, rest) → Waits S → Simple e → Respects e →
      Respects c ∧ stackYield S ++ yield e ++ ts = yield c ++ rest) ∧
    (∀ S e ts c rest, after n S e ts = .ok (c, rest) → Waits S → Fits S e ts →
      Respects c ∧ stackYield S ++ yield e ++ ts = yield c ++ rest) ∧
    (∀ S e ts c rest, shift n S e ts = .ok (c, rest) → Waits S → Fits S e ts → (∀ q ∈ next ts, ∀ F ∈ S.head?, RightWins F.prec q) →
      (next ts).isSome = true → Respects c ∧ stackYield S ++ yield e ++ ts = yield c ++ rest) ∧
    (∀ ts cs rest, list n ts = .ok (cs, rest) → cs ≠ .nil ∧ RespectsAll cs ∧ ts = yields cs ++ rest) := by
  intro n
  induction n with
  | zero =>
    refine ⟨?_, ?_, ?_, ?_, ?_⟩
    · intro _ _ _ _ h; cases h
    · intro _ _ _ _ _ h; cases h
    · intro _ _ _ _ _ h; cases h
    · intro _ _ _ _ _ h; cases h
    · intro _ _ _ h; cases h
  | succ n ih =>
    obtain ⟨ihB, ihS, ihA, ihH, ihL⟩ := ih
    refine ⟨?_, ?_, ?_, ?_, ?_⟩
    · intro S ts c rest h hw
      cases ts with
      | nil => cases h
      | cons t ts =>
        have hpre : ∀ t : Tok, (if (t.prefix).isSome then before n (.pre t :: S) ts else .stop) = .ok (c, rest) →
            Respects c ∧ stackYield S ++ t :: ts = yield c ++ rest := by
          intro t h
          split at h
          · rename_i hp
            obtain ⟨h1, h2⟩ := ihB _ _ _ _ h ⟨hp, hw⟩
            exact ⟨h1, by rw [← h2]; simp [stackYield]⟩
          · cases h
        cases t <;> simp only [before] at h <;> first | (exact hpre _ h) | skip
        · obtain ⟨h1, h2⟩ := ihS _ _ _ _ _ h hw trivial trivial
          exact ⟨h1, by rw [← h2]; simp [yield]⟩
        · obtain ⟨x, hx, h⟩ := Res.bind_eq_ok.1 h
          obtain ⟨es, ts'⟩ := x
          obtain ⟨l1, l2, l3⟩ := ihL _ _ _ hx
          simp only at h
          split at h
          · obtain ⟨h1, h2⟩ := ihS _ _ _ _ _ h hw trivial ⟨l1, l2⟩
            exact ⟨h1, by rw [← h2, l3]; simp [yield]⟩
          · cases h
    · intro S e ts c rest h hw hs hr
      simp only [suffix] at h
      split at h
      · obtain ⟨h1, h2⟩ := ihS _ _ _ _ _ h hw trivial ⟨hs, hr, trivial⟩
        exact ⟨h1, by rw [← h2]; simp [yield, yields]⟩
      · obtain ⟨x, hx, h⟩ := Res.bind_eq_ok.1 h
        obtain ⟨es, ts'⟩ := x
        obtain ⟨l1, l2, l3⟩ := ihL _ _ _ hx
        simp only at h
        split at h
        · obtain ⟨h1, h2⟩ := ihS _ _ _ _ _ h hw trivial ⟨hs, hr, l2⟩
          exact ⟨h1, by rw [← h2, l3]; simp [yield]⟩
        · cases h
      · obtain ⟨h1, h2⟩ := ihS _ _ _ _ _ h hw trivial ⟨hs, trivial, hr, trivial⟩
        exact ⟨h1, by rw [← h2]; simp [yield]⟩
      · obtain ⟨x, hx, h⟩ := Res.bind_eq_ok.1 h
        obtain ⟨es, ts'⟩ := x
        obtain ⟨l1, l2, l3⟩ := ihL _ _ _ hx
        simp only at h
        split at h
        · obtain ⟨h1, h2⟩ := ihS _ _ _ _ _ h hw trivial ⟨hs, trivial, hr, l1, l2⟩
          exact ⟨h1, by rw [← h2, l3]; simp [yield]⟩
        · cases h
      · cases h
      · exact ihA _ _ _ _ _ h hw (simple_fits hs hr)
    · intro S e ts c rest h hw hf
      rw [after_succ] at h
      cases S with
      | nil =>
        cases hn : next ts with
        | none =>
          rw [hn] at h
          cases h
          exact ⟨hf.1, by simp [stackYield]⟩
        | some q =>
          rw [hn] at h
          exact ihH _ _ _ _ _ h hw hf (by intro q _ F hF; cases hF) (by rw [hn]; rfl)
      | cons F S =>
        cases hn : next ts with
        | none =>
          rw [hn] at h
          obtain ⟨f1, f2⟩ := fill_fits hw hf (by rw [hn]; intro q hq; cases hq)
          obtain ⟨h1, h2⟩ := ihA _ _ _ _ _ h f2 f1
          exact ⟨h1, by rw [fill_yield]; exact h2⟩
        | some q =>
          rw [hn] at h
          simp only at h
          cases hr : resolve F.prec q with
          | reduce =>
            rw [hr] at h
            have hl := resolve_reduce.1 hr
            obtain ⟨f1, f2⟩ := fill_fits hw hf (by rw [hn]; intro q' hq; cases hq; exact hl)
            obtain ⟨h1, h2⟩ := ihA _ _ _ _ _ h f2 f1
            exact ⟨h1, by rw [fill_yield]; exact h2⟩
          | shift =>
            rw [hr] at h
            have hl := resolve_shift.1 hr
            exact ihH _ _ _ _ _ h hw hf (by rw [hn]; intro q' hq G hG; cases hq; cases hG; exact hl) (by rw [hn]; rfl)
          | error => rw [hr] at h; cases h
    · intro S e ts c rest h hw hf hs hsome
      simp only [shift] at h
      split at h
      · rename_i ts
        have hf' : Fits S (.rep e) ts := by
          refine ⟨⟨hf.1, fun q hq => hf.2.2 pRep rfl q hq⟩, ?_, ?_⟩
          · intro F hF q hq
            simp only [leftEdge, List.mem_cons] at hq
            rcases hq with rfl | hq
            · exact hs _ rfl F hF
            · exact hf.2.1 F hF q hq
          · intro p _ q hq; cases hq
        obtain ⟨h1, h2⟩ := ihA _ _ _ _ _ h hw hf'
        exact ⟨h1, by rw [← h2]; simp [yield]⟩
      · rename_i t ts hne
        have hnext : next (t :: ts) = t.infix := by
          cases t <;> first | rfl | (exact (hne rfl).elim)
        rw [hnext] at hsome hs
        obtain ⟨p, hp⟩ := Option.isSome_iff_exists.1 hsome
        have hw' : Waits (.bin e t :: S) := by
          refine ⟨hf.1, hw, p, hp, fun q hq => hf.2.2 p (by rw [hnext, hp]; rfl) q hq, ?_⟩
          intro F hF q hq
          rcases List.mem_cons.1 hq with rfl | hq
          · exact hs _ (by rw [hp]; rfl) F hF
          · exact hf.2.1 F hF q hq
        obtain ⟨h1, h2⟩ := ihB _ _ _ _ h hw'
        exact ⟨h1, by rw [← h2]; simp [stackYield]⟩
      · cases h
    · intro ts cs rest h
      simp only [list] at h
      obtain ⟨x, hx, h⟩ := Res.bind_eq_ok.1 h
      obtain ⟨e, ts'⟩ := x
      obtain ⟨b1, b2⟩ := ihB _ _ _ _ hx trivial
      simp only [stackYield, List.nil_append] at b2
      simp only at h
      split at h
      · obtain ⟨y, hy, h⟩ := Res.bind_eq_ok.1 h
        obtain ⟨es, ts2⟩ := y
        obtain ⟨l1, l2, l3⟩ := ihL _ _ _ hy
        cases h
        refine ⟨by simp, ⟨b1, l2⟩, ?_⟩
        rw [b2, l3, yields_cons e es l1]; simp
      · cases h
        exact ⟨by simp, ⟨b1, trivial⟩, by rw [b2]; rfl⟩

/-! ## what respects precedence is found -/

/-- first tokens of expressions -/
def starts : Tok → Prop
  | .atom _ => True
  | .lp => True
  | t => t.prefix.isSome = true

theorem yield_starts : ∀ c : Cst, Respects c → ∃ t ts, yield c = t :: ts ∧ starts t
  | .atom a, _ => ⟨.atom a, [], by simp [yield], trivial⟩
  | .paren es, _ => ⟨.lp, yields es ++ [.rp], by simp [yield], trivial⟩
  | .call f as, h => by
    obtain ⟨t, ts, e, ht⟩ := yield_starts f h.2.1
    exact ⟨t, ts ++ .lp :: (yields as ++ [.rp]), by simp [yield, e], ht⟩
  | .dot e f, h => by
    obtain ⟨t, ts, e', ht⟩ := yield_starts e h.2.2.1
    exact ⟨t, ts ++ .dot :: yield f, by simp [yield, e'], ht⟩
  | .bin o l r, h => by
    obtain ⟨t, ts, e, ht⟩ := yield_starts l h.1
    exact ⟨t, ts ++ o :: yield r, by simp [yield, e], ht⟩
  | .pre o e, h => by
    obtain ⟨p, hp, _⟩ := h.2
    refine ⟨o, yield e, by simp [yield], ?_⟩
    cases o <;> first | (cases hp; done) | rfl
  | .rep e, h => by
    obtain ⟨t, ts, e', ht⟩ := yield_starts e h.1
    exact ⟨t, ts ++ [.dots], by simp [yield, e'], ht⟩

/-- no actuals or attributes follow -/
def Ends (ts : List Tok) : Prop := ∀ t ∈ ts.head?, t ≠ .lp ∧ t ≠ .dot

theorem suffix_after {n : Nat} {S : List Frame} {e : Cst} {ts : List Tok} (h : Ends ts) :
    suffix n S e ts = .nofuel ∨ ∃ m, suffix n S e ts = after m S e ts := by
  cases n with
  | zero => exact .inl rfl
  | succ n =>
    right
    refine ⟨n, ?_⟩
    cases ts with
    | nil => simp only [suffix]
    | cons t ts =>
      have := h t rfl
      cases t <;> first | (exact (this.1 rfl).elim) | (exact (this.2 rfl).elim) | simp only [suffix]

theorem after_fill {n : Nat} {F : Frame} {S : List Frame} {e : Cst} {ts : List Tok} (h : ∀ q ∈ next ts, LeftWins F.prec q) :
    after n (F :: S) e ts = .nofuel ∨ ∃ m, after n (F :: S) e ts = after m S (F.fill e) ts := by
  cases n with
  | zero => exact .inl rfl
  | succ n =>
    right
    refine ⟨n, ?_⟩
    rw [after_succ]
    cases hn : next ts with
    | none => rfl
    | some q =>
      simp only
      rw [resolve_reduce.2 (h q (by rw [hn]; rfl))]

theorem after_shift {n : Nat} {S : List Frame} {e : Cst} {ts : List Tok} {q : Prec} (hq : next ts = some q)
    (h : ∀ F ∈ S.head?, RightWins F.prec q) : after n S e ts = .nofuel ∨ ∃ m, after n S e ts = shift m S e ts := by
  cases n with
  | zero => exact .inl rfl
  | succ n =>
    right
    refine ⟨n, ?_⟩
    rw [after_succ, hq]
    cases S with
    | nil => rfl
    | cons F S =>
      simp only
      rw [resolve_shift.2 (h F rfl)]

theorem infix_next {o : Tok} {p : Prec} (h : o.infix = some p) (ts : List Tok) : next (o :: ts) = some p ∧ Ends (o :: ts) ∧ o ≠ .dots := by
  cases o <;> first | (cases h; done) | exact ⟨h, by intro t ht; cases ht; exact ⟨by simp, by simp⟩, by simp⟩

/-- `a` is `nofuel` or equal to some `b` -/
theorem via {α : Type} {a : Res α} {f g : Nat → Res α} (h1 : a = .nofuel ∨ ∃ m, a = f m) (h2 : ∀ m, f m = .nofuel ∨ ∃ k, f m = g k) :
    a = .nofuel ∨ ∃ k, a = g k := by
  rcases h1 with h1 | ⟨m, h1⟩
  · exact .inl h1
  · rcases h2 m with h2 | ⟨k, h2⟩
    · exact .inl (h1.trans h2)
    · exact .inr ⟨k, h1.trans h2⟩

theorem rp_ends (ts : List Tok) : Ends (.rp :: ts) ∧ next (.rp :: ts) = none := ⟨by intro t ht; cases ht; simp, rfl⟩
theorem comma_ends (ts : List Tok) : Ends (.comma :: ts) ∧ next (.comma :: ts) = none := ⟨by intro t ht; cases ht; simp, rfl⟩

mutual
theorem complete_simple : ∀ (c : Cst) (n : Nat) (S : List Frame) (rest : List Tok), Simple c → Respects c →
    before n S (yield c ++ rest) = .nofuel ∨ ∃ m, before n S (yield c ++ rest) = suffix m S c rest
  | .atom a, n, S, rest, _, _ => by
    cases n with
    | zero => exact .inl rfl
    | succ n => right; exact ⟨n, by simp [yield, before]⟩
  | .paren es, n, S, rest, _, h => by
    cases n with
    | zero => exact .inl rfl
    | succ n =>
      have hl := complete_list es n (.rp :: rest) h.1 h.2 (rp_ends rest).1 (rp_ends rest).2 (by simp)
      simp only [yield, List.cons_append, before, List.append_assoc, List.singleton_append, List.nil_append]
      rcases hl with hl | hl
      · left; rw [hl]; rfl
      · right; refine ⟨n, ?_⟩; rw [hl]; rfl
  | .call f as, n, S, rest, _, h => by
    have hf := complete_simple f n S (.lp :: (yields as ++ .rp :: rest)) h.1 h.2.1
    have e : yield (.call f as) ++ rest = yield f ++ .lp :: (yields as ++ .rp :: rest) := by simp [yield]
    rw [e]
    refine via hf fun m => ?_
    cases m with
    | zero => exact .inl rfl
    | succ m =>
      cases has : as with
      | nil => right; exact ⟨m, by simp [yields, suffix]⟩
      | cons a as' =>
        rw [← has]
        have hl := complete_list as m (.rp :: rest) (by rw [has]; simp) h.2.2 (rp_ends rest).1 (rp_ends rest).2 (by simp)
        have hne : ∀ ts', yields as ++ Tok.rp :: rest ≠ Tok.rp :: ts' := by
          intro ts' he
          have hra := h.2.2
          rw [has] at hra he
          obtain ⟨t, ts, hy, ht⟩ := yield_starts a hra.1
          have : ∃ ts2, yields (.cons a as') = t :: ts2 := by
            cases as' with
            | nil => exact ⟨ts, by simp [yields, hy]⟩
            | cons b bs => exact ⟨ts ++ .comma :: yields (.cons b bs), by simp [yields, hy]⟩
          obtain ⟨ts2, h2⟩ := this
          rw [h2] at he
          simp only [List.cons_append, List.cons.injEq] at he
          rw [he.1] at ht
          cases ht
        have hsuf : suffix (m + 1) S f (.lp :: (yields as ++ .rp :: rest)) = (list m (yields as ++ .rp :: rest) >>= fun x =>
            match x.2 with
            | .rp :: ts => suffix m S (.call f x.1) ts
            | _ => .stop) := by
          generalize hts : yields as ++ Tok.rp :: rest = ts at hne
          cases ts with
          | nil => simp only [suffix]; rfl
          | cons t ts =>
            have : t ≠ .rp := by rintro rfl; exact hne ts rfl
            cases t <;> first | (exact (this rfl).elim) | (simp only [suffix]; rfl)
        rw [hsuf]
        rcases hl with hl | hl
        · left; rw [hl]; rfl
        · right; refine ⟨m, ?_⟩; rw [hl]; rfl
  | .dot e f, n, S, rest, _, h => by
    have he := complete_simple e n S (.dot :: (yield f ++ rest)) h.1 h.2.2.1
    have e' : yield (.dot e f) ++ rest = yield e ++ .dot :: (yield f ++ rest) := by simp [yield]
    rw [e']
    refine via he fun m => ?_
    cases m with
    | zero => exact .inl rfl
    | succ m =>
      cases hf : f with
      | atom a => right; exact ⟨m, by simp [yield, suffix]⟩
      | paren es =>
        have hres := h.2.2.2
        rw [hf] at hres
        have hl := complete_list' f es hf m (.rp :: rest) hres.1 hres.2 (rp_ends rest).1 (rp_ends rest).2 (by simp)
        have hsuf : suffix (m + 1) S e (.dot :: (yield (.paren es) ++ rest)) = (list m (yields es ++ .rp :: rest) >>= fun x =>
            match x.2 with
            | .rp :: ts => suffix m S (.dot e (.paren x.1)) ts
            | _ => .stop) := by
          simp only [yield, suffix, List.cons_append, List.append_assoc, List.nil_append]; rfl
        rw [hsuf]
        rcases hl with hl | hl
        · left; rw [hl]; rfl
        · right; refine ⟨m, ?_⟩; rw [hl]; rfl
      | _ => have := h.2.1; rw [hf] at this; cases this
  | .bin _ _ _, _, _, _, hs, _ => by cases hs
  | .pre _ _, _, _, _, hs, _ => by cases hs
  | .rep _, _, _, _, hs, _ => by cases hs
theorem complete_list' : ∀ (f : Cst) (es : Csts), f = .paren es → ∀ (n : Nat) (rest : List Tok), es ≠ .nil → RespectsAll es → Ends rest →
    next rest = none → (∀ ts, rest ≠ .comma :: ts) → list n (yields es ++ rest) = .nofuel ∨ list n (yields es ++ rest) = .ok (es, rest)
  | .paren es', es, hf, n, rest, h1, h2, h3, h4, h5 => by
    cases hf
    exact complete_list es' n rest h1 h2 h3 h4 h5
theorem complete_list : ∀ (es : Csts) (n : Nat) (rest : List Tok), es ≠ .nil → RespectsAll es → Ends rest → next rest = none →
    (∀ ts, rest ≠ .comma :: ts) → list n (yields es ++ rest) = .nofuel ∨ list n (yields es ++ rest) = .ok (es, rest)
  | .nil, _, _, h, _, _, _, _ => (h rfl).elim
  | .cons e es, n, rest, _, h, he, hn, hc => by
    cases n with
    | zero => exact .inl rfl
    | succ n =>
      have one : ∀ rest', Ends rest' → next rest' = none →
          before n [] (yield e ++ rest') = .nofuel ∨ before n [] (yield e ++ rest') = .ok (e, rest') := by
        intro rest' he' hn'
        rcases complete e n [] rest' h.1 he' (by rw [hn']; intro p hp; cases hp) (by intro F hF; cases hF) with hb | ⟨m, hb⟩
        · exact .inl hb
        · cases m with
          | zero => exact .inl hb
          | succ m => right; rw [hb, after_succ, hn']
      cases hes : es with
      | nil =>
        simp only [yields, list]
        rcases one rest he hn with hb | hb
        · left; rw [hb]; rfl
        · right
          rw [hb]
          show (match rest with
            | .comma :: ts => _
            | ts => _) = _
          split
          · exact (hc _ rfl).elim
          · rfl
      | cons e2 es2 =>
        rw [← hes]
        have hne : es ≠ .nil := by rw [hes]; simp
        have hl := complete_list es n rest hne h.2 he hn hc
        rw [yields_cons e es hne]
        simp only [List.append_assoc, List.cons_append, list]
        rcases one (.comma :: (yields es ++ rest)) (comma_ends _).1 (comma_ends _).2 with hb | hb
        · left; rw [hb]; rfl
        · rw [hb]
          rcases hl with hl | hl
          · left
            show (list n (yields es ++ rest) >>= _) = _
            rw [hl]; rfl
          · right
            show (list n (yields es ++ rest) >>= _) = _
            rw [hl]; rfl
theorem complete : ∀ (c : Cst) (n : Nat) (S : List Frame) (rest : List Tok), Respects c → Ends rest →
    (∀ p ∈ next rest, ∀ q ∈ rightEdge c, LeftWins q p) → (∀ F ∈ S.head?, ∀ q ∈ leftEdge c, RightWins F.prec q) →
    before n S (yield c ++ rest) = .nofuel ∨ ∃ m, before n S (yield c ++ rest) = after m S c rest
  | .bin o l r, n, S, rest, h, he, hr, hl => by
    obtain ⟨w1, w2, p, w3, w4, w5⟩ := h
    have hn := infix_next w3 (yield r ++ rest)
    have e : yield (.bin o l r) ++ rest = yield l ++ o :: (yield r ++ rest) := by simp [yield]
    rw [e]
    have hleft : ∀ q ∈ p :: leftEdge l, q ∈ leftEdge (.bin o l r) := by
      intro q hq; simpa [leftEdge, w3] using hq
    have hright : ∀ q ∈ p :: rightEdge r, q ∈ rightEdge (.bin o l r) := by
      intro q hq; simpa [rightEdge, w3] using hq
    have h1 := complete l n S (o :: (yield r ++ rest)) w1 hn.2.1 (by rw [hn.1]; intro q hq; cases hq; exact w4)
      (fun F hF q hq => hl F hF q (hleft q (List.mem_cons_of_mem _ hq)))
    have hp : (Frame.bin l o).prec = p := by simp [Frame.prec, w3]
    refine via h1 fun m => ?_
    refine via (after_shift hn.1 fun F hF => hl F hF p (hleft p (by simp))) fun m2 => ?_
    have h2 : ∀ m3, before m3 (.bin l o :: S) (yield r ++ rest) = .nofuel ∨
        ∃ m, before m3 (.bin l o :: S) (yield r ++ rest) = after m (.bin l o :: S) r rest := fun m3 =>
      complete r m3 (.bin l o :: S) rest w2 he (fun q hq x hx => hr q hq x (hright x (List.mem_cons_of_mem _ hx)))
        (by intro F hF; cases hF; rw [hp]; exact w5)
    have hsh : shift m2 S l (o :: (yield r ++ rest)) = .nofuel ∨
        ∃ k, shift m2 S l (o :: (yield r ++ rest)) = before k (.bin l o :: S) (yield r ++ rest) := by
      cases m2 with
      | zero => exact .inl rfl
      | succ m2 =>
        right
        refine ⟨m2, ?_⟩
        have := hn.2.2
        cases o <;> first | (exact (this rfl).elim) | simp only [shift]
    refine via hsh fun m3 => ?_
    refine via (h2 m3) fun m4 => ?_
    exact after_fill (F := .bin l o) fun q hq => by rw [hp]; exact hr q hq p (hright p (by simp))
  | .pre o e, n, S, rest, h, he, hr, hl => by
    obtain ⟨w1, p, w2, w3⟩ := h
    have hp : (Frame.pre o).prec = p := by simp [Frame.prec, w2]
    have hright : ∀ q ∈ p :: rightEdge e, q ∈ rightEdge (.pre o e) := by
      intro q hq; simpa [rightEdge, w2] using hq
    have hb : before n S (yield (.pre o e) ++ rest) = .nofuel ∨
        ∃ m, before n S (yield (.pre o e) ++ rest) = before m (.pre o :: S) (yield e ++ rest) := by
      cases n with
      | zero => exact .inl rfl
      | succ n =>
        right
        refine ⟨n, ?_⟩
        simp only [yield, List.cons_append]
        cases o <;> first | (cases w2; done) | simp [before, Tok.prefix]
    refine via hb fun m => ?_
    refine via (complete e m (.pre o :: S) rest w1 he (fun q hq x hx => hr q hq x (hright x (List.mem_cons_of_mem _ hx)))
        (by intro F hF; cases hF; rw [hp]; exact w3)) fun m2 => ?_
    exact after_fill (F := .pre o) fun q hq => by rw [hp]; exact hr q hq p (hright p (by simp))
  | .rep e, n, S, rest, h, he, hr, hl => by
    obtain ⟨w1, w2⟩ := h
    have e' : yield (.rep e) ++ rest = yield e ++ .dots :: rest := by simp [yield]
    rw [e']
    have h1 := complete e n S (.dots :: rest) w1 (by intro t ht; cases ht; simp) (by intro q hq; cases hq; exact w2)
      (fun F hF q hq => hl F hF q (by simp [leftEdge, hq]))
    refine via h1 fun m => ?_
    refine via (after_shift (q := pRep) rfl fun F hF => hl F hF pRep (by simp [leftEdge])) fun m2 => ?_
    cases m2 with
    | zero => exact .inl rfl
    | succ m2 => right; exact ⟨m2, by simp only [shift]⟩
  | .atom a, n, S, rest, h, he, _, _ => via (complete_simple (.atom a) n S rest trivial h) fun m => suffix_after he
  | .paren es, n, S, rest, h, he, _, _ => via (complete_simple (.paren es) n S rest trivial h) fun m => suffix_after he
  | .call f as, n, S, rest, h, he, _, _ => via (complete_simple (.call f as) n S rest trivial h) fun m => suffix_after he
  | .dot e f, n, S, rest, h, he, _, _ => via (complete_simple (.dot e f) n S rest trivial h) fun m => suffix_after he
end

theorem parse_iff (ts : List Tok) (c : Cst) : parse ts = .ok c ↔ Respects c ∧ yield c = ts := by
  unfold parse expr
  constructor
  · intro h
    obtain ⟨x, hx, h⟩ := Res.bind_eq_ok.1 h
    obtain ⟨e, rest⟩ := x
    obtain ⟨h1, h2⟩ := (sound _).1 _ _ _ _ hx trivial
    simp only at h
    cases rest with
    | nil =>
      cases h
      exact ⟨h1, by simpa [stackYield] using h2.symm⟩
    | cons t rest => cases h
  · rintro ⟨h1, rfl⟩
    have hfuel := ((fuel_enough (4 * (yield c).length + 1)).1 [] (yield c) (by simp)).1.1
    have := complete c (4 * (yield c).length + 1) [] [] h1 (by intro t ht; cases ht) (by intro p hp; cases hp) (by intro F hF; cases hF)
    rw [List.append_nil] at this
    rcases this with h | ⟨m, h⟩
    · exact (hfuel h).elim
    · rw [h] at hfuel ⊢
      cases m with
      | zero => exact (hfuel rfl).elim
      | succ m => rw [after_succ]; rfl

theorem parse_total (ts : List Tok) : (∃ c, parse ts = .ok c) ∨ parse ts = .stop := by
  have hfuel := (fuel_enough (4 * ts.length + 1)).1 [] ts (by simp)
  unfold parse expr
  cases h : before (4 * ts.length + 1) [] ts with
  | ok x =>
    obtain ⟨e, rest⟩ := x
    cases rest with
    | nil => exact .inl ⟨e, rfl⟩
    | cons t rest => exact .inr rfl
  | ub => exact (hfuel.1.2 h).elim
  | stop => exact .inr rfl
  | nofuel => exact (hfuel.1.1 h).elim

end Aps.Parse
