import Verif.Props.Table
import Verif.Props.CollSet

/-!
# C55: tables of the Scala runtime, and their lattice
-/
namespace Aps.Props
open Aps Aps.Table
set_option linter.unusedVariables false

namespace TableProps

variable {K V : Type}

theorem sorted_lookup {lt : K → K → Bool} (h : KeyOrder lt) {m : List (K × V)} (hm : Sorted lt m)
    {e : K × V} (he : e ∈ m) : lookup lt e.1 m = some e.2 := by
  induction m with
  | nil => cases he
  | cons e' m ih =>
    simp only [Sorted, List.pairwise_cons] at hm
    simp only [lookup]
    rcases List.mem_cons.1 he with rfl | h1
    · rw [if_pos (h.refl _)]
    · have := h.lt_not_eqv (hm.1 e h1)
      rw [if_neg, ih hm.2 h1]
      intro h2
      rw [eqv_symm h2] at this; cases this

theorem lookup_mem {lt : K → K → Bool} {m : List (K × V)} {k : K} {v : V}
    (h : lookup lt k m = some v) : ∃ e ∈ m, eqv lt k e.1 = true ∧ e.2 = v := by
  induction m with
  | nil => cases h
  | cons e m ih =>
    simp only [lookup] at h
    by_cases hc : eqv lt k e.1 = true
    · rw [if_pos hc] at h
      exact ⟨e, by simp, hc, Option.some.inj h⟩
    · rw [if_neg hc] at h
      obtain ⟨e', h1, h2⟩ := ih h
      exact ⟨e', by simp [h1], h2⟩

/-- Combining two optional values: present wherever either is. -/
def ocombine (f : V → V → V) : Option V → Option V → Option V
  | some a, some b => some (f a b)
  | some a, none => some a
  | none, b => b

theorem sCombine_spec (o : SOps K V) (ho : KeyOrder o.lt) : ∀ (t2 t1 : List (K × V)),
    Sorted o.lt t2 →
    (∀ k, lookup o.lt k (sCombine o t1 t2) =
      ocombine o.combine (lookup o.lt k t1) (lookup o.lt k t2)) ∧
    (Sorted o.lt t1 → Sorted o.lt (sCombine o t1 t2)) := by
  intro t2
  induction t2 with
  | nil =>
    intro t1 _
    refine ⟨fun k => ?_, id⟩
    simp only [sCombine, List.foldl_nil, lookup]
    cases lookup o.lt k t1 <;> rfl
  | cons e t2 ih =>
    intro t1 hs
    simp only [Sorted, List.pairwise_cons] at hs
    have key : ∃ v', (sCombine o t1 (e :: t2) = sCombine o (tinsert o.lt e.1 v' t1) t2) ∧
        some v' = ocombine o.combine (lookup o.lt e.1 t1) (some e.2) := by
      simp only [sCombine, List.foldl_cons]
      cases hl : lookup o.lt e.1 t1 with
      | some old => exact ⟨o.combine old e.2, rfl, rfl⟩
      | none => exact ⟨e.2, rfl, rfl⟩
    obtain ⟨v', h1, h2⟩ := key
    obtain ⟨h3, h4⟩ := ih (tinsert o.lt e.1 v' t1) hs.2
    refine ⟨fun k => ?_, fun hm => ?_⟩
    · rw [h1, h3 k, lookup_insert ho]
      simp only [lookup]
      by_cases hc : eqv o.lt k e.1 = true
      · rw [if_pos hc, if_pos hc]
        have hn : lookup o.lt k t2 = none := by
          apply lookup_none_of
          intro e' he'
          rw [ho.eqv_congr hc]
          exact ho.lt_not_eqv (hs.1 e' he')
        rw [hn, h2, lookup_congr ho hc]
        cases lookup o.lt e.1 t1 <;> rfl
      · rw [if_neg hc, if_neg hc]
    · rw [h1]
      exact h4 (insert_sorted ho _ _ _ hm)

/-- Meeting two optional values: present only where both are. -/
def omeet (f : V → V → V) : Option V → Option V → Option V
  | some a, some b => some (f a b)
  | _, _ => none

theorem sMeet_aux (o : SOps K V) (ho : KeyOrder o.lt) (t1 : List (K × V)) :
    ∀ (t2 r : List (K × V)), Sorted o.lt t2 → (∀ e ∈ t2, lookup o.lt e.1 r = none) →
    (∀ k, lookup o.lt k (t2.foldl (fun r e =>
        match lookup o.lt e.1 t1 with
        | some v1 => tinsert o.lt e.1 (o.meet v1 e.2) r
        | none => r) r) =
      match omeet o.meet (lookup o.lt k t1) (lookup o.lt k t2) with
      | some v => some v
      | none => lookup o.lt k r) ∧
    (Sorted o.lt r → Sorted o.lt (t2.foldl (fun r e =>
        match lookup o.lt e.1 t1 with
        | some v1 => tinsert o.lt e.1 (o.meet v1 e.2) r
        | none => r) r)) := by
  intro t2
  induction t2 with
  | nil =>
    intro r _ _
    refine ⟨fun k => ?_, id⟩
    simp only [List.foldl_nil, lookup]
    cases lookup o.lt k t1 <;> rfl
  | cons e t2 ih =>
    intro r hs hr
    simp only [Sorted, List.pairwise_cons] at hs
    simp only [List.foldl_cons]
    have hn : ∀ k, eqv o.lt k e.1 = true → lookup o.lt k t2 = none := by
      intro k hc
      apply lookup_none_of
      intro e' he'
      rw [ho.eqv_congr hc]
      exact ho.lt_not_eqv (hs.1 e' he')
    cases hl : lookup o.lt e.1 t1 with
    | some v1 =>
      simp only []
      obtain ⟨h3, h4⟩ := ih (tinsert o.lt e.1 (o.meet v1 e.2) r) hs.2 (by
        intro e' he'
        rw [lookup_insert ho, if_neg]
        · exact hr e' (by simp [he'])
        · intro hc
          have := ho.lt_not_eqv (hs.1 e' he')
          rw [eqv_symm hc] at this; cases this)
      refine ⟨fun k => ?_, fun hm => h4 (insert_sorted ho _ _ _ hm)⟩
      rw [h3 k, lookup_insert ho]
      simp only [lookup]
      by_cases hc : eqv o.lt k e.1 = true
      · rw [if_pos hc, if_pos hc, hn k hc, lookup_congr ho hc, hl]
        rfl
      · rw [if_neg hc, if_neg hc]
    | none =>
      simp only []
      obtain ⟨h3, h4⟩ := ih r hs.2 (fun e' he' => hr e' (by simp [he']))
      refine ⟨fun k => ?_, h4⟩
      rw [h3 k]
      simp only [lookup]
      by_cases hc : eqv o.lt k e.1 = true
      · rw [if_pos hc, hn k hc, lookup_congr ho hc, hl]
        rfl
      · rw [if_neg hc]

/-- `combine` of Scala tables: a key is present where it is in either table, with the combination of
the values where it is in both. -/
theorem _root_.Aps.Props.C55_combine (o : SOps K V) (ho : KeyOrder o.lt) (t1 t2 : List (K × V))
    (h1 : Sorted o.lt t1) (h2 : Sorted o.lt t2) :
    Sorted o.lt (sCombine o t1 t2) ∧ ∀ k, lookup o.lt k (sCombine o t1 t2) =
      (match lookup o.lt k t1, lookup o.lt k t2 with
       | some a, some b => some (o.combine a b)
       | some a, none => some a
       | none, b => b) := by
  obtain ⟨h3, h4⟩ := sCombine_spec o ho t2 t1 h2
  refine ⟨h4 h1, fun k => ?_⟩
  rw [h3 k]
  cases lookup o.lt k t1 <;> cases lookup o.lt k t2 <;> rfl

/-- `select` of a Scala table gives the entry for the key, with the initial value if absent. -/
theorem _root_.Aps.Props.C55_select (o : SOps K V) (ho : KeyOrder o.lt) (t : List (K × V)) (k : K) :
    sSelect o t k = [(k, (lookup o.lt k t).getD o.initial)] := by
  unfold sSelect
  cases lookup o.lt k t <;> rfl

/-- `meet` of Scala tables: only the keys of both, with the meets of their values. -/
theorem _root_.Aps.Props.C55_meet (o : SOps K V) (ho : KeyOrder o.lt) (t1 t2 : List (K × V))
    (h1 : Sorted o.lt t1) (h2 : Sorted o.lt t2) :
    Sorted o.lt (sMeet o t1 t2) ∧ ∀ k, lookup o.lt k (sMeet o t1 t2) =
      (match lookup o.lt k t1, lookup o.lt k t2 with
       | some a, some b => some (o.meet a b)
       | _, _ => none) := by
  obtain ⟨h3, h4⟩ := sMeet_aux o ho t1 t2 [] h2 (by intro e _; rfl)
  refine ⟨h4 (by simp [Sorted]), fun k => ?_⟩
  refine (h3 k).trans ?_
  cases lookup o.lt k t1 <;> cases lookup o.lt k t2 <;> rfl

/-- The lattice order of tables in terms of the values for each key. -/
theorem _root_.Aps.Props.C55_compare_equal (o : SOps K V) (ho : KeyOrder o.lt) (x y : List (K × V))
    (hx : Sorted o.lt x) :
    sCompareEqual o x y = true ↔
      ∀ k a, lookup o.lt k x = some a → ∃ b, lookup o.lt k y = some b ∧ o.le a b = true := by
  unfold sCompareEqual
  simp only [Bool.and_eq_true, List.all_eq_true]
  constructor
  · rintro ⟨h1, h2⟩ k a hk
    obtain ⟨e, he, hc, rfl⟩ := lookup_mem hk
    have h3 := h1 e he
    have h4 := h2 e he
    rw [lookup_congr ho hc]
    cases hl : lookup o.lt e.1 y with
    | none => rw [hl] at h3; cases h3
    | some b => rw [hl] at h4; exact ⟨b, rfl, h4⟩
  · intro h
    constructor
    · intro e he
      obtain ⟨b, hb, _⟩ := h e.1 e.2 (sorted_lookup ho hx he)
      rw [hb]; rfl
    · intro e he
      obtain ⟨b, hb, hle⟩ := h e.1 e.2 (sorted_lookup ho hx he)
      rw [hb]; exact hle

theorem eqv_equality {lt : K → K → Bool} (h : KeyOrder lt) : Equality (eqv lt) where
  refl := h.refl
  symm := fun _ _ => eqv_symm
  trans := fun _ _ _ => h.eqv_trans

/-- Equality of tables: the same keys with equal values. -/
theorem _root_.Aps.Props.C55_equal (o : SOps K V) (ho : KeyOrder o.lt) (x y : List (K × V))
    (hx : Sorted o.lt x) (hy : Sorted o.lt y) :
    sEqual o x y = true ↔
      ∀ k, (∀ a, lookup o.lt k x = some a → ∃ b, lookup o.lt k y = some b ∧ o.eq a b = true) ∧
           (∀ b, lookup o.lt k y = some b → ∃ a, lookup o.lt k x = some a) := by
  have pw : ∀ m : List (K × V), Sorted o.lt m →
      (m.map Prod.fst).Pairwise (fun a b => eqv o.lt a b = false) := by
    intro m hm
    rw [List.pairwise_map]
    exact hm.imp (fun h => ho.lt_not_eqv h)
  unfold sEqual
  simp only [Bool.and_eq_true, decide_eq_true_eq, List.all_eq_true]
  constructor
  · rintro ⟨hlen, hall⟩ k
    have fwd : ∀ k a, lookup o.lt k x = some a → ∃ b, lookup o.lt k y = some b ∧ o.eq a b = true := by
      intro k a hk
      obtain ⟨e, he, hc, rfl⟩ := lookup_mem hk
      have h4 := hall e he
      rw [lookup_congr ho hc]
      cases hl : lookup o.lt e.1 y with
      | none => rw [hl] at h4; cases h4
      | some b => rw [hl] at h4; exact ⟨b, rfl, h4⟩
    refine ⟨fwd k, fun b hb => ?_⟩
    by_contra hno
    have hnone : lookup o.lt k x = none := by
      cases hl : lookup o.lt k x with
      | none => rfl
      | some a => exact absurd ⟨a, hl⟩ hno
    obtain ⟨e, he, hc, rfl⟩ := lookup_mem hb
    obtain ⟨l1, l2, rfl⟩ := List.append_of_mem he
    have := card_le (eqv_equality ho) (x.map Prod.fst) ((l1 ++ l2).map Prod.fst) (pw x hx) (by
      intro k' hk'
      obtain ⟨e1, he1, rfl⟩ := List.mem_map.1 hk'
      obtain ⟨b', hb', _⟩ := fwd e1.1 e1.2 (sorted_lookup ho hx he1)
      obtain ⟨e2, he2, hc2, _⟩ := lookup_mem hb'
      have hne : e2 ∈ l1 ++ l2 := by
        rcases List.mem_append.1 he2 with h | h
        · exact List.mem_append.2 (Or.inl h)
        · rcases List.mem_cons.1 h with rfl | h
          · have h5 : eqv o.lt k e1.1 = true := ho.eqv_trans hc (eqv_symm hc2)
            have := sorted_lookup ho hx he1
            rw [← lookup_congr ho h5, hnone] at this
            cases this
          · exact List.mem_append.2 (Or.inr h)
      exact ⟨e2.1, List.mem_map.2 ⟨e2, hne, rfl⟩, eqv_symm hc2⟩)
    simp only [List.length_map, List.length_append, List.length_cons] at this hlen
    omega
  · intro h
    constructor
    · have key : ∀ a b : List (K × V), Sorted o.lt a → Sorted o.lt b →
          (∀ k v, lookup o.lt k a = some v → ∃ w, lookup o.lt k b = some w) →
          a.length ≤ b.length := by
        intro a b ha hb hab
        have := card_le (eqv_equality ho) (a.map Prod.fst) (b.map Prod.fst) (pw a ha) (by
          intro k' hk'
          obtain ⟨e1, he1, rfl⟩ := List.mem_map.1 hk'
          obtain ⟨w, hw⟩ := hab e1.1 e1.2 (sorted_lookup ho ha he1)
          obtain ⟨e2, he2, hc2, _⟩ := lookup_mem hw
          exact ⟨e2.1, List.mem_map.2 ⟨e2, he2, rfl⟩, eqv_symm hc2⟩)
        simpa using this
      have h1 := key x y hx hy (fun k v hv => by
        obtain ⟨b, hb, _⟩ := (h k).1 v hv; exact ⟨b, hb⟩)
      have h2 := key y x hy hx (fun k v hv => (h k).2 v hv)
      omega
    · intro e he
      obtain ⟨b, hb, hle⟩ := (h e.1).1 e.2 (sorted_lookup ho hx he)
      rw [hb]; exact hle

/-- The value type is a lattice: `le` is a preorder, `combine` a least upper bound and `meet` a
greatest lower bound. -/
structure ValueLattice (o : SOps K V) : Prop where
  refl : ∀ a, o.le a a = true
  trans : ∀ a b c, o.le a b = true → o.le b c = true → o.le a c = true
  antisymm : ∀ a b, o.le a b = true → o.le b a = true → o.eq a b = true
  eq_le : ∀ a b, o.eq a b = true → o.le a b = true ∧ o.le b a = true
  ub_left : ∀ a b, o.le a (o.combine a b) = true
  ub_right : ∀ a b, o.le b (o.combine a b) = true
  lub : ∀ a b c, o.le a c = true → o.le b c = true → o.le (o.combine a b) c = true
  lb_left : ∀ a b, o.le (o.meet a b) a = true
  lb_right : ∀ a b, o.le (o.meet a b) b = true
  glb : ∀ a b c, o.le c a = true → o.le c b = true → o.le c (o.meet a b) = true

/-- **Tables over a lattice are a lattice**: the order is reflexive and transitive, antisymmetric up
to table equality, the empty table is least, `combine` (= `join`) is a least upper bound and `meet`
a greatest lower bound. -/
theorem _root_.Aps.Props.C55_lattice (o : SOps K V) (ho : KeyOrder o.lt) (hl : ValueLattice o)
    (x y z : List (K × V)) (hx : Sorted o.lt x) (hy : Sorted o.lt y) (hz : Sorted o.lt z) :
    sCompareEqual o x x = true ∧
    (sCompareEqual o x y = true → sCompareEqual o y z = true → sCompareEqual o x z = true) ∧
    (sCompareEqual o x y = true ∧ sCompareEqual o y x = true ↔ sEqual o x y = true) ∧
    sCompareEqual o [] x = true ∧
    sCompareEqual o x (sCombine o x y) = true ∧ sCompareEqual o y (sCombine o x y) = true ∧
    (sCompareEqual o x z = true → sCompareEqual o y z = true →
      sCompareEqual o (sCombine o x y) z = true) ∧
    sCompareEqual o (sMeet o x y) x = true ∧ sCompareEqual o (sMeet o x y) y = true ∧
    (sCompareEqual o z x = true → sCompareEqual o z y = true →
      sCompareEqual o z (sMeet o x y) = true) := by
  obtain ⟨sc, lc⟩ := C55_combine o ho x y hx hy
  obtain ⟨sm, lm⟩ := C55_meet o ho x y hx hy
  have hnil : Sorted o.lt ([] : List (K × V)) := by simp [Sorted]
  simp only [C55_compare_equal o ho _ _ hx, C55_compare_equal o ho _ _ hy,
    C55_compare_equal o ho _ _ hz, C55_compare_equal o ho _ _ sc, C55_compare_equal o ho _ _ sm,
    C55_compare_equal o ho _ _ hnil, C55_equal o ho x y hx hy]
  refine ⟨fun k a h => ⟨a, h, hl.refl a⟩, ?_, ?_, ?_, ?_, ?_, ?_, ?_, ?_, ?_⟩
  · intro h1 h2 k a hk
    obtain ⟨b, hb, hab⟩ := h1 k a hk
    obtain ⟨c, hc, hbc⟩ := h2 k b hb
    exact ⟨c, hc, hl.trans _ _ _ hab hbc⟩
  · constructor
    · rintro ⟨h1, h2⟩ k
      constructor
      · intro a ha
        obtain ⟨b, hb, hab⟩ := h1 k a ha
        obtain ⟨a', ha', hba⟩ := h2 k b hb
        rw [ha] at ha'
        cases ha'
        exact ⟨b, hb, hl.antisymm _ _ hab hba⟩
      · intro b hb
        obtain ⟨a', ha', _⟩ := h2 k b hb
        exact ⟨a', ha'⟩
    · intro h
      constructor
      · intro k a ha
        obtain ⟨b, hb, hab⟩ := (h k).1 a ha
        exact ⟨b, hb, (hl.eq_le _ _ hab).1⟩
      · intro k b hb
        obtain ⟨a, ha⟩ := (h k).2 b hb
        obtain ⟨b', hb', hab⟩ := (h k).1 a ha
        rw [hb] at hb'
        cases hb'
        exact ⟨a, ha, (hl.eq_le _ _ hab).2⟩
  · intro k a h; simp [lookup] at h
  · intro k a ha
    rw [lc k, ha]
    cases hb : lookup o.lt k y with
    | some b => exact ⟨_, rfl, hl.ub_left a b⟩
    | none => exact ⟨a, rfl, hl.refl a⟩
  · intro k b hb
    rw [lc k, hb]
    cases ha : lookup o.lt k x with
    | some a => exact ⟨_, rfl, hl.ub_right a b⟩
    | none => exact ⟨b, rfl, hl.refl b⟩
  · intro h1 h2 k c hc
    rw [lc k] at hc
    cases ha : lookup o.lt k x with
    | some a =>
      obtain ⟨c1, hc1, hac⟩ := h1 k a ha
      cases hb : lookup o.lt k y with
      | some b =>
        obtain ⟨c2, hc2, hbc⟩ := h2 k b hb
        rw [hc1] at hc2
        cases hc2
        rw [ha, hb] at hc
        cases hc
        exact ⟨c1, hc1, hl.lub _ _ _ hac hbc⟩
      | none =>
        rw [ha, hb] at hc
        cases hc
        exact ⟨c1, hc1, hac⟩
    | none =>
      rw [ha] at hc
      exact h2 k c hc
  · intro k c hc
    rw [lm k] at hc
    cases ha : lookup o.lt k x with
    | none => rw [ha] at hc; cases hc
    | some a =>
      cases hb : lookup o.lt k y with
      | none => rw [ha, hb] at hc; cases hc
      | some b => rw [ha, hb] at hc; cases hc; exact ⟨a, rfl, hl.lb_left a b⟩
  · intro k c hc
    rw [lm k] at hc
    cases ha : lookup o.lt k x with
    | none => rw [ha] at hc; cases hc
    | some a =>
      cases hb : lookup o.lt k y with
      | none => rw [ha, hb] at hc; cases hc
      | some b => rw [ha, hb] at hc; cases hc; exact ⟨b, rfl, hl.lb_right a b⟩
  · intro h1 h2 k c hc
    obtain ⟨a, ha, hca⟩ := h1 k c hc
    obtain ⟨b, hb, hcb⟩ := h2 k c hc
    rw [lm k, ha, hb]
    exact ⟨_, rfl, hl.glb _ _ _ hca hcb⟩

/-- `compare` is the strict part of the order. -/
theorem _root_.Aps.Props.C55_compare (o : SOps K V) (ho : KeyOrder o.lt) (hl : ValueLattice o)
    (x y : List (K × V)) (hx : Sorted o.lt x) (hy : Sorted o.lt y) :
    sCompare o x y = true ↔ sCompareEqual o x y = true ∧ ¬ sCompareEqual o y x = true := by
  have h := (C55_lattice o ho hl x y x hx hy hx).2.2.1
  unfold sCompare
  simp only [Bool.and_eq_true, Bool.not_eq_true', ← Bool.not_eq_true, ← h]
  exact ⟨fun ⟨a, b⟩ => ⟨a, fun c => b ⟨a, c⟩⟩, fun ⟨a, b⟩ => ⟨a, fun c => b c.2⟩⟩

/-- A table that only says "initial" for a key is not below the empty table, although the two select
the same value for every key: the order does not respect what tables mean. -/
theorem _root_.Aps.Props.C55_meaning_refuted (o : SOps K V) (ho : KeyOrder o.lt) (k : K) :
    (∀ k', (lookup o.lt k' (sEntry k o.initial)).getD o.initial =
      (lookup o.lt k' ([] : List (K × V))).getD o.initial) ∧
    sCompareEqual o (sEntry k o.initial) [] = false := by
  constructor
  · intro k'
    simp only [sEntry, lookup]
    split <;> rfl
  · rfl

/-- **Symbols are not usable keys in Scala**: `less` on symbols compares hash codes, so for two
different symbols with the same hash code each is greater than the other. -/
theorem _root_.Aps.Props.C55_symbol_order_refuted {S : Type} [DecidableEq S] (hash : S → Int)
    (x y : S) (hne : x ≠ y) (hh : hash x = hash y) :
    scalaCmp (fun a b => decide (a = b)) (fun a b => decide (hash a < hash b)) x y = 1 ∧
    scalaCmp (fun a b => decide (a = b)) (fun a b => decide (hash a < hash b)) y x = 1 := by
  constructor
  · simp [scalaCmp, hne, hh]
  · simp [scalaCmp, Ne.symm hne, hh]

/-- Non-vacuity: numbers with maximum and minimum. -/
def exSOps : SOps Nat Nat where
  lt a b := decide (a < b)
  initial := 0
  combine := max
  meet := min
  le a b := decide (a ≤ b)
  eq a b := decide (a = b)

theorem exSKey : KeyOrder exSOps.lt where
  irrefl a := by simp [exSOps]
  trans a b c := by simp [exSOps]; omega
  weak a b c := by simp [exSOps]; omega

theorem exSLat : ValueLattice exSOps where
  refl a := by simp [exSOps]
  trans a b c := by simp [exSOps]; omega
  antisymm a b := by simp [exSOps]; omega
  eq_le a b := by simp [exSOps]; omega
  ub_left a b := by simp [exSOps]; omega
  ub_right a b := by simp [exSOps]; omega
  lub a b c := by simp [exSOps]; omega
  lb_left a b := by simp [exSOps]; omega
  lb_right a b := by simp [exSOps]; omega
  glb a b c := by simp [exSOps]; omega

example : sCombine exSOps [(1, 5), (3, 7)] [(1, 9), (2, 4)] = [(1, 9), (2, 4), (3, 7)] := by decide
example : sMeet exSOps [(1, 5), (3, 7)] [(1, 9), (2, 4)] = [(1, 5)] := by decide
example : Sorted exSOps.lt [(1, 5), (3, 7)] := by simp [Sorted, exSOps]

end TableProps
end Aps.Props
