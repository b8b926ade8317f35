import Verif.Spec.ExprGen
import Mathlib.Tactic.Common
/-!
# Proofs about the code for expressions
-/
namespace Aps.ExprGen

variable {V : Type}

/-! ### Literals -/

theorem digit_lt {c : Char} {d : Nat} (h : digit c = some d) : d < 10 := by
  simp only [digit] at h
  split at h
  · rename_i hc
    cases h
    have h1 : ('0' : Char).toNat ≤ c.toNat := hc.1
    have h2 : c.toNat ≤ ('9' : Char).toNat := hc.2
    have e0 : ('0' : Char).toNat = 48 := rfl
    have e9 : ('9' : Char).toNat = 57 := rfl
    omega
  · cases h

theorem number_ten : ∀ (cs : List Char) (acc : Nat), cs.any (fun c => (digit c).isNone) = false →
    number 10 cs acc = some (cs.foldl (fun acc c => acc * 10 + (digit c).getD 0) acc)
  | [], acc, _ => rfl
  | c :: cs, acc, h => by
    simp only [List.any_cons, Bool.or_eq_false_iff] at h
    cases hd : digit c with
    | none => rw [hd] at h; simp at h
    | some d => simp [number, hd, digit_lt hd, number_ten cs _ h.2]

theorem wrap_small {n : Nat} (h : n < 2 ^ 31) : wrap n = n := by
  unfold wrap
  omega

theorem literal_usual {tok : List Char} (h : Usual tok) (lang : Lang) : literal lang tok = decimalValue tok := by
  obtain ⟨h0, n, hn, hb⟩ := h
  rcases h0 with rfl | h0
  · cases lang <;> decide
  · cases tok with
    | nil => simp [decimalValue] at hn
    | cons c cs =>
      have hv : decimalValue (c :: cs) = some (Int.ofNat ((c :: cs).foldl (fun acc c => acc * 10 + (digit c).getD 0) 0)) ∧
          (c :: cs).any (fun c => (digit c).isNone) = false := by
        unfold decimalValue at hn ⊢
        split at hn
        · cases hn
        · rename_i h
          simp only [not_or, Bool.not_eq_true] at h
          rw [if_neg (by simp only [not_or, Bool.not_eq_true]; exact h)]
          exact ⟨rfl, h.2⟩
      have hnum := number_ten (c :: cs) 0 hv.2
      rw [hv.1] at hn
      have hlt : (c :: cs).foldl (fun acc c => acc * 10 + (digit c).getD 0) 0 < 2 ^ 31 := by
        simp only [Option.some.injEq] at hn
        rw [← hn] at hb
        exact Int.ofNat_lt.1 hb
      cases lang with
      | cpp =>
        simp only [literal, if_neg (List.cons_ne_nil c cs), if_neg h0]
        rw [hnum, hv.1, Option.map_some, wrap_small hlt]; rfl
      | scala =>
        simp only [literal, if_neg (List.cons_ne_nil c cs)]
        rw [if_neg (fun h => h0 h.1), hnum, hv.1, Option.bind_some, if_pos hlt]

/-! ### Expressions -/

theorem foldr_split {A : Alg V} (M : Monoidal A) (t : Nat) : ∀ (a b : List V),
    A.append t (a.foldr (A.append t) (A.none t)) (b.foldr (A.append t) (A.none t)) =
      (a ++ b).foldr (A.append t) (A.none t)
  | [], b => by simp [M.left]
  | x :: a, b => by
    simp only [List.foldr_cons, List.cons_append]
    rw [M.assoc, foldr_split M t a b]

theorem evals_append (A : Alg V) (lang : Lang) (ρ : Nat → V) : ∀ (a b : List TExp) (vs ws : List V),
    evals A lang ρ a = some vs → evals A lang ρ b = some ws → evals A lang ρ (a ++ b) = some (vs ++ ws)
  | [], b, vs, ws, h1, h2 => by simp [evals] at h1; subst h1; simpa using h2
  | e :: a, b, vs, ws, h1, h2 => by
    simp only [evals, Option.bind_eq_some_iff, Option.map_eq_some_iff] at h1
    obtain ⟨v, hv, us, hu, rfl⟩ := h1
    simp [evals, hv, evals_append A lang ρ a b us ws hu h2]

theorem dumpColl_one (same : Nat → Nat → Bool) (t : Nat) (e : Exp) (h : ∀ s u, e ≠ .rep s u) :
    dumpColl same t (.one e) = (dump same e).map fun x => .single t x := by
  cases e <;> first | exact absurd rfl (h _ _) | simp [dumpColl]

mutual
theorem dump_means {A : Alg V} (M : Monoidal A) (same : Nat → Nat → Bool) (lang : Lang) (ρ : Nat → V) : ∀ (e : Exp) (x : TExp),
    dump same e = some x → Simple Usual e → ∃ v, Means A ρ e v ∧ eval A lang ρ x = some v
  | .int tok, x, h, hs => by
    simp [dump] at h; subst h
    obtain ⟨n, hn, _⟩ := hs.2
    exact ⟨A.num n, .int hn, by simp [eval, literal_usual hs lang, hn]⟩
  | .real tok, x, h, hs => by simp [dump] at h; subst h; exact ⟨_, .real, by simp [eval]⟩
  | .str tok, x, h, hs => by simp [dump] at h; subst h; exact ⟨_, .str, by simp [eval]⟩
  | .char tok, x, h, hs => by simp [dump] at h
  | .use y, x, h, hs => by simp [dump] at h; subst h; exact ⟨_, .use, by simp [eval]⟩
  | .call f sq as, x, h, hs => by
    simp only [dump, Option.bind_eq_some_iff, Option.map_eq_some_iff] at h
    obtain ⟨g, hg, bs, hb, rfl⟩ := h
    obtain ⟨h1, rfl, h3⟩ := hs
    obtain ⟨v, hv, ev⟩ := dump_means M same lang ρ f g hg h1
    obtain ⟨vs, hvs, evs⟩ := dumpArgs_means M same lang ρ as bs hb h3
    exact ⟨_, .call hv hvs, by simp [eval, ev, evs]⟩
  | .coll t as, x, h, hs => by
    obtain ⟨cs, hc, ev⟩ := dumpColl_means M same lang ρ t as x (by simpa [dump] using h) hs
    exact ⟨_, .coll hc, ev⟩
  | .typed e, x, h, hs => by
    obtain ⟨v, hv, ev⟩ := dump_means M same lang ρ e x (by simpa [dump] using h) hs
    exact ⟨v, .typed hv, ev⟩
  | .rep e t, x, h, hs => by simp [dump] at h
  | .other, x, h, hs => by simp [dump] at h
theorem dumpArgs_means {A : Alg V} (M : Monoidal A) (same : Nat → Nat → Bool) (lang : Lang) (ρ : Nat → V) : ∀ (as : Acts) (xs : List TExp),
    dumpArgs same as = some xs → SimpleAll Usual as → ∃ vs, MeansAll A ρ as vs ∧ evals A lang ρ xs = some vs
  | .nil, xs, h, hs => by simp [dumpArgs] at h; subst h; exact ⟨[], .nil, by simp [evals]⟩
  | .one e, xs, h, hs => by
    simp only [dumpArgs, Option.map_eq_some_iff] at h
    obtain ⟨x, hx, rfl⟩ := h
    obtain ⟨v, hv, ev⟩ := dump_means M same lang ρ e x hx hs
    exact ⟨[v], .one hv, by simp [evals, ev]⟩
  | .app l r, xs, h, hs => by
    simp only [dumpArgs, Option.bind_eq_some_iff, Option.map_eq_some_iff] at h
    obtain ⟨a, ha, b, hb, rfl⟩ := h
    obtain ⟨v, hv, ev⟩ := dumpArgs_means M same lang ρ l a ha hs.1
    obtain ⟨w, hw, ew⟩ := dumpArgs_means M same lang ρ r b hb hs.2
    exact ⟨v ++ w, .app hv hw, evals_append A lang ρ a b v w ev ew⟩
theorem dumpColl_means {A : Alg V} (M : Monoidal A) (same : Nat → Nat → Bool) (lang : Lang) (ρ : Nat → V) (t : Nat) : ∀ (as : Acts) (x : TExp),
    dumpColl same t as = some x → SimpleAll Usual as →
      ∃ cs, Parts A ρ t as cs ∧ eval A lang ρ x = some (cs.foldr (A.append t) (A.none t))
  | .nil, x, h, hs => by simp [dumpColl] at h; subst h; exact ⟨[], .nil, by simp [eval]⟩
  | .one e, x, h, hs => by
    by_cases hr : ∃ s u, e = .rep s u
    · obtain ⟨s, u, rfl⟩ := hr
      simp only [dumpColl] at h
      split at h
      · obtain ⟨v, hv, ev⟩ := dump_means M same lang ρ s x h hs
        exact ⟨[v], .all hv, by simp [ev, M.right]⟩
      · cases h
    · rw [dumpColl_one same t e (fun s u he => hr ⟨s, u, he⟩)] at h
      simp only [Option.map_eq_some_iff] at h
      obtain ⟨y, hy, rfl⟩ := h
      obtain ⟨v, hv, ev⟩ := dump_means M same lang ρ e y hy hs
      exact ⟨[A.single t v], .elem hv, by simp [eval, ev, M.right]⟩
  | .app l r, x, h, hs => by
    simp only [dumpColl, Option.bind_eq_some_iff, Option.map_eq_some_iff] at h
    obtain ⟨a, ha, b, hb, rfl⟩ := h
    obtain ⟨v, hv, ev⟩ := dumpColl_means M same lang ρ t l a ha hs.1
    obtain ⟨w, hw, ew⟩ := dumpColl_means M same lang ρ t r b hb hs.2
    exact ⟨v ++ w, .app hv hw, by simp [eval, ev, ew, foldr_split M t v w]⟩
end

mutual
theorem means_fun {A : Alg V} {ρ : Nat → V} : ∀ {e : Exp} {v w : V}, Means A ρ e v → Means A ρ e w → v = w
  | _, _, _, .int h, .int h' => by rw [h] at h'; cases h'; rfl
  | _, _, _, .real, .real => rfl
  | _, _, _, .str, .str => rfl
  | _, _, _, .use, .use => rfl
  | _, _, _, .call h1 h2, .call h1' h2' => by rw [means_fun h1 h1', meansAll_fun h2 h2']
  | _, _, _, .coll h, .coll h' => by rw [parts_fun h h']
  | _, _, _, .typed h, .typed h' => means_fun h h'
theorem meansAll_fun {A : Alg V} {ρ : Nat → V} : ∀ {as : Acts} {v w : List V}, MeansAll A ρ as v → MeansAll A ρ as w → v = w
  | _, _, _, .nil, .nil => rfl
  | _, _, _, .one h, .one h' => by rw [means_fun h h']
  | _, _, _, .app h1 h2, .app h1' h2' => by rw [meansAll_fun h1 h1', meansAll_fun h2 h2']
theorem parts_fun {A : Alg V} {ρ : Nat → V} : ∀ {t : Nat} {as : Acts} {v w : List V}, Parts A ρ t as v → Parts A ρ t as w → v = w
  | _, _, _, _, .nil, .nil => rfl
  | _, _, _, _, .elem h, .elem h' => by rw [means_fun h h']
  | _, _, _, _, .all h, .all h' => by rw [means_fun h h']
  | _, _, _, _, .elem h, .all _ => by cases h
  | _, _, _, _, .all _, .elem h => by cases h
  | _, _, _, _, .app h1 h2, .app h1' h2' => by rw [parts_fun h1 h1', parts_fun h2 h2']
end

/-! ### What can be printed -/

mutual
theorem dump_covered (same : Nat → Nat → Bool) : ∀ e : Exp, (dump same e).isSome = true ↔ Covered same e
  | .int tok => by simp [dump, Covered]
  | .real tok => by simp [dump, Covered]
  | .str tok => by simp [dump, Covered]
  | .char tok => by simp [dump, Covered]
  | .use x => by simp [dump, Covered]
  | .call f sq as => by
    simp only [Covered, ← dump_covered same f, ← dumpArgs_covered same as, dump]
    cases dump same f <;> simp
  | .coll t as => by simpa [dump, Covered] using dumpColl_covered same t as
  | .typed e => by simpa [dump, Covered] using dump_covered same e
  | .rep e t => by simp [dump, Covered]
  | .other => by simp [dump, Covered]
theorem dumpArgs_covered (same : Nat → Nat → Bool) : ∀ as : Acts, (dumpArgs same as).isSome = true ↔ CoveredAll same as
  | .nil => by simp [dumpArgs, CoveredAll]
  | .one e => by simp [dumpArgs, CoveredAll, dump_covered same e]
  | .app l r => by
    simp only [CoveredAll, ← dumpArgs_covered same l, ← dumpArgs_covered same r, dumpArgs]
    cases dumpArgs same l <;> simp
theorem dumpColl_covered (same : Nat → Nat → Bool) (t : Nat) : ∀ as : Acts, (dumpColl same t as).isSome = true ↔ CoveredColl same t as
  | .nil => by simp [dumpColl, CoveredColl]
  | .one e => by
    by_cases hr : ∃ s u, e = .rep s u
    · obtain ⟨s, u, rfl⟩ := hr
      simp only [dumpColl, CoveredColl]
      rw [← dump_covered same s]
      split <;> simp_all
    · rw [dumpColl_one same t e (fun s u he => hr ⟨s, u, he⟩)]
      have : CoveredColl same t (.one e) = Covered same e := by
        cases e <;> first | exact absurd ⟨_, _, rfl⟩ hr | simp [CoveredColl]
      rw [this, ← dump_covered same e]
      simp
  | .app l r => by
    simp only [CoveredColl, ← dumpColl_covered same t l, ← dumpColl_covered same t r, dumpColl]
    cases dumpColl same t l <;> simp
end

/-! ### Trees -/

/-- The elements of what is printed for a collection. -/
theorem dumpColl_elems {A : Alg V} {elems : V → List V} {t : Nat} (h0 : elems (A.none t) = []) (h1 : ∀ v, elems (A.single t v) = [v])
    (h2 : ∀ a b, elems (A.append t a b) = elems a ++ elems b) {P : Exp → V → Prop}
    (same : Nat → Nat → Bool) (lang : Lang) (ρ : Nat → V)
    (hP : ∀ e x v, dump same e = some x → eval A lang ρ x = some v → P e v) : ∀ (as : Acts) (x : TExp) (v : V),
    dumpColl same t as = some x → eval A lang ρ x = some v → Elements elems P as (elems v)
  | .nil, x, v, h, ev => by
    simp [dumpColl] at h; subst h
    simp [eval] at ev; subst ev
    rw [h0]; exact .nil
  | .one e, x, v, h, ev => by
    by_cases hr : ∃ s u, e = .rep s u
    · obtain ⟨s, u, rfl⟩ := hr
      simp only [dumpColl] at h
      split at h
      · exact .all (hP s x v h ev)
      · cases h
    · have hr' : ∀ s u, e ≠ .rep s u := fun s u he => hr ⟨s, u, he⟩
      rw [dumpColl_one same t e hr'] at h
      simp only [Option.map_eq_some_iff] at h
      obtain ⟨y, hy, rfl⟩ := h
      simp only [eval, Option.map_eq_some_iff] at ev
      obtain ⟨w, hw, rfl⟩ := ev
      rw [h1]; exact .elem hr' (hP e y w hy hw)
  | .app l r, x, v, h, ev => by
    simp only [dumpColl, Option.bind_eq_some_iff, Option.map_eq_some_iff] at h
    obtain ⟨a, ha, b, hb, rfl⟩ := h
    simp only [eval, Option.bind_eq_some_iff, Option.map_eq_some_iff] at ev
    obtain ⟨va, hva, vb, hvb, rfl⟩ := ev
    rw [h2]
    exact .app (dumpColl_elems h0 h1 h2 same lang ρ hP l a va ha hva) (dumpColl_elems h0 h1 h2 same lang ρ hP r b vb hb hvb)

end Aps.ExprGen
