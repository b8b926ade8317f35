import Verif.Model.Table
import Mathlib.Tactic.Common
import Mathlib.Data.List.Basic

/-!
# C41 (tables in C++), C55 (tables in Scala)
-/
namespace Aps.Props
open Aps Aps.Table
set_option linter.unusedVariables false

namespace TableProps

variable {K V : Type}

/-- `v_less` of an `ORDERED` type: a strict order in which "neither is less" is an equivalence. -/
structure KeyOrder (lt : K → K → Bool) : Prop where
  irrefl : ∀ a, lt a a = false
  trans : ∀ a b c, lt a b = true → lt b c = true → lt a c = true
  weak : ∀ a b c, lt a b = false → lt b c = false → lt a c = false

variable {lt : K → K → Bool}

theorem KeyOrder.refl (h : KeyOrder lt) (a : K) : eqv lt a a = true := by simp [eqv, h.irrefl]
theorem eqv_symm {a b : K} (he : eqv lt a b = true) : eqv lt b a = true := by
  simp only [eqv, Bool.and_eq_true, Bool.not_eq_true'] at *; exact ⟨he.2, he.1⟩
theorem KeyOrder.eqv_trans (h : KeyOrder lt) {a b c : K} (h1 : eqv lt a b = true)
    (h2 : eqv lt b c = true) : eqv lt a c = true := by
  simp only [eqv, Bool.and_eq_true, Bool.not_eq_true'] at *
  exact ⟨h.weak _ _ _ h1.1 h2.1, h.weak _ _ _ h2.2 h1.2⟩
theorem KeyOrder.lt_left (h : KeyOrder lt) {a b c : K} (h1 : eqv lt a b = true) :
    lt a c = lt b c := by
  simp only [eqv, Bool.and_eq_true, Bool.not_eq_true'] at h1
  cases hb : lt b c with
  | false => exact h.weak _ _ _ h1.1 hb
  | true =>
    cases ha : lt a c with
    | true => rfl
    | false => have := h.weak _ _ _ h1.2 ha; rw [hb] at this; cases this
theorem KeyOrder.lt_not_eqv (h : KeyOrder lt) {a b : K} (h1 : lt a b = true) :
    eqv lt a b = false := by simp [eqv, h1]

theorem KeyOrder.eqv_congr (h : KeyOrder lt) {a b c : K} (h1 : eqv lt a b = true) :
    eqv lt a c = eqv lt b c := by
  cases hb : eqv lt b c with
  | true => exact h.eqv_trans h1 hb
  | false =>
    cases ha : eqv lt a c with
    | false => rfl
    | true => rw [h.eqv_trans (eqv_symm h1) ha] at hb; cases hb

/-- The entries of a `std::map` are in strictly increasing key order. -/
def Sorted (lt : K → K → Bool) (m : List (K × V)) : Prop :=
  m.Pairwise (fun a b => lt a.1 b.1 = true)

theorem lookup_congr (h : KeyOrder lt) {k k' : K} (he : eqv lt k k' = true) (m : List (K × V)) :
    lookup lt k m = lookup lt k' m := by
  induction m with
  | nil => rfl
  | cons e m ih => simp only [lookup, h.eqv_congr he, ih]

theorem lookup_insert (h : KeyOrder lt) (k k' : K) (v : V) (m : List (K × V)) :
    lookup lt k' (tinsert lt k v m) = if eqv lt k' k then some v else lookup lt k' m := by
  induction m with
  | nil => simp [tinsert, lookup]
  | cons e m ih =>
    obtain ⟨k'', v''⟩ := e
    simp only [tinsert]
    by_cases he : eqv lt k k'' = true
    · rw [if_pos he]
      simp only [lookup]
      by_cases h1 : eqv lt k' k = true
      · rw [if_pos h1, if_pos (h.eqv_trans h1 he)]
      · have h2 : ¬ eqv lt k' k'' = true := fun h2 => h1 (h.eqv_trans h2 (eqv_symm he))
        rw [if_neg h1, if_neg h2, if_neg h2]
    · rw [if_neg he]
      by_cases hl : lt k k'' = true
      · rw [if_pos hl]; simp only [lookup]
      · rw [if_neg hl]
        simp only [lookup, ih]
        by_cases h1 : eqv lt k' k = true
        · have h2 : ¬ eqv lt k' k'' = true := fun h2 => he (h.eqv_trans (eqv_symm h1) h2)
          simp [h1, h2]
        · simp [h1]

theorem mem_insert {k : K} {v : V} {m : List (K × V)} {e : K × V}
    (he : e ∈ tinsert lt k v m) : e.1 = k ∨ ∃ e' ∈ m, e.1 = e'.1 := by
  induction m with
  | nil => simp only [tinsert, List.mem_singleton] at he; subst he; exact Or.inl rfl
  | cons e' m ih =>
    obtain ⟨k'', v''⟩ := e'
    simp only [tinsert] at he
    split at he
    · rcases List.mem_cons.1 he with rfl | he
      · exact Or.inr ⟨(k'', v''), by simp, rfl⟩
      · exact Or.inr ⟨e, by simp [he], rfl⟩
    · split at he
      · rcases List.mem_cons.1 he with rfl | he
        · exact Or.inl rfl
        · exact Or.inr ⟨e, he, rfl⟩
      · rcases List.mem_cons.1 he with rfl | he
        · exact Or.inr ⟨(k'', v''), by simp, rfl⟩
        · rcases ih he with h1 | ⟨e2, h1, h2⟩
          · exact Or.inl h1
          · exact Or.inr ⟨e2, by simp [h1], h2⟩

theorem insert_sorted (h : KeyOrder lt) (k : K) (v : V) (m : List (K × V)) (hm : Sorted lt m) :
    Sorted lt (tinsert lt k v m) := by
  induction m with
  | nil => simp [tinsert, Sorted]
  | cons e m ih =>
    obtain ⟨k'', v''⟩ := e
    simp only [Sorted, List.pairwise_cons] at hm
    simp only [tinsert]
    by_cases he : eqv lt k k'' = true
    · rw [if_pos he]
      simp only [Sorted, List.pairwise_cons]
      exact ⟨hm.1, hm.2⟩
    · rw [if_neg he]
      by_cases hl : lt k k'' = true
      · rw [if_pos hl]
        simp only [Sorted, List.pairwise_cons]
        refine ⟨fun e2 h2 => ?_, hm.1, hm.2⟩
        rcases List.mem_cons.1 h2 with rfl | h2
        · exact hl
        · exact h.trans _ _ _ hl (hm.1 e2 h2)
      · rw [if_neg hl]
        simp only [Sorted, List.pairwise_cons]
        refine ⟨fun e2 h2 => ?_, ih hm.2⟩
        rcases mem_insert h2 with h3 | ⟨e3, h3, h4⟩
        · rw [h3]
          simp only [eqv, Bool.and_eq_true, Bool.not_eq_true', not_and, Bool.not_eq_true] at he hl
          have := he hl
          simpa using this
        · rw [h4]; exact hm.1 e3 h3

/-- The value a full table has for a key. -/
def mval (o : Ops K V) (m : List (K × V)) (k : K) : V := (lookup o.lt k m).getD o.initial

theorem get_spec (o : Ops K V) (ho : KeyOrder o.lt) (m : List (K × V)) (k : K) :
    (tget o m k).2 = mval o m k ∧ (∀ k', mval o (tget o m k).1 k' = mval o m k') ∧
    (Sorted o.lt m → Sorted o.lt (tget o m k).1) := by
  unfold tget
  cases hl : lookup o.lt k m with
  | some v => exact ⟨by simp [mval, hl], fun _ => rfl, id⟩
  | none =>
    refine ⟨by simp [mval, hl], fun k' => ?_, insert_sorted ho _ _ _⟩
    simp only [mval, lookup_insert ho]
    by_cases he : eqv o.lt k' k = true
    · rw [if_pos he, lookup_congr ho he, hl]; rfl
    · rw [if_neg he]

theorem mval_congr (o : Ops K V) (ho : KeyOrder o.lt) {k k' : K} (he : eqv o.lt k k' = true)
    (m : List (K × V)) : mval o m k = mval o m k' := by
  simp [mval, lookup_congr ho he]

theorem add_spec (o : Ops K V) (ho : KeyOrder o.lt) (m : List (K × V)) (k : K) (v : V) :
    (∀ k', mval o (add o m k v) k' = if eqv o.lt k' k then o.combine (mval o m k') v
      else mval o m k') ∧ (Sorted o.lt m → Sorted o.lt (add o m k v)) := by
  obtain ⟨h1, h2, h3⟩ := get_spec o ho m k
  constructor
  · intro k'
    have e : add o m k v = tinsert o.lt k (o.combine (tget o m k).2 v) (tget o m k).1 := rfl
    rw [e]
    by_cases he : eqv o.lt k' k = true
    · rw [if_pos he]
      simp only [mval, lookup_insert ho, if_pos he, Option.getD_some]
      rw [h1, ← mval_congr o ho he]
      rfl
    · rw [if_neg he, ← h2 k']
      simp only [mval, lookup_insert ho, if_neg he]
  · intro hs
    exact insert_sorted ho _ _ _ (h3 hs)

theorem lookup_none_of {k : K} {m : List (K × V)} (h : ∀ e ∈ m, eqv lt k e.1 = false) :
    lookup lt k m = none := by
  induction m with
  | nil => rfl
  | cons e m ih =>
    simp only [lookup]
    rw [if_neg (by rw [h e (by simp)]; simp)]
    exact ih (fun e' he' => h e' (by simp [he']))

theorem addAll_spec (o : Ops K V) (ho : KeyOrder o.lt) : ∀ (es : List (K × V)) (m : List (K × V)),
    Sorted o.lt es →
    (∀ k, mval o (es.foldl (fun m e => add o m e.1 e.2) m) k =
      match lookup o.lt k es with | some v => o.combine (mval o m k) v | none => mval o m k) ∧
    (Sorted o.lt m → Sorted o.lt (es.foldl (fun m e => add o m e.1 e.2) m)) := by
  intro es
  induction es with
  | nil => intro m _; exact ⟨fun k => rfl, id⟩
  | cons e es ih =>
    intro m hs
    simp only [Sorted, List.pairwise_cons] at hs
    obtain ⟨h1, h2⟩ := ih (add o m e.1 e.2) hs.2
    obtain ⟨h3, h4⟩ := add_spec o ho m e.1 e.2
    refine ⟨fun k => ?_, fun hm => h2 (h4 hm)⟩
    simp only [List.foldl_cons, h1 k, h3 k, lookup]
    by_cases he : eqv o.lt k e.1 = true
    · rw [if_pos he, if_pos he]
      have hn : lookup o.lt k es = none := by
        apply lookup_none_of
        intro e' he'
        have := ho.lt_not_eqv (hs.1 e' he')
        rw [ho.eqv_congr he]; exact this
      rw [hn]
    · rw [if_neg he, if_neg he]

/-- The value a table object has for a key. -/
def oval (o : Ops K V) (t : Obj K V) (k : K) : V :=
  match t with
  | .empty => o.initial
  | .entry k' v => if eqv o.lt k k' then v else o.initial
  | .full m => mval o m k

/-- A full table's entries are sorted. -/
def OWf (o : Ops K V) : Obj K V → Prop
  | .full m => Sorted o.lt m
  | _ => True

/-- Adding `initial` changes nothing, on either side (the `COMBINABLE` contract). -/
structure Unit' (o : Ops K V) : Prop where
  left : ∀ v, o.combine o.initial v = v
  right : ∀ v, o.combine v o.initial = v

theorem addTo_spec (o : Ops K V) (ho : KeyOrder o.lt) (hu : Unit' o) (t : Obj K V)
    (m : List (K × V)) (ht : OWf o t) :
    (∀ k, mval o (addTo o t m) k = o.combine (mval o m k) (oval o t k)) ∧
    (Sorted o.lt m → Sorted o.lt (addTo o t m)) := by
  cases t with
  | empty => exact ⟨fun k => (hu.right _).symm, id⟩
  | entry k' v =>
    obtain ⟨h1, h2⟩ := add_spec o ho m k' v
    refine ⟨fun k => ?_, h2⟩
    simp only [addTo, h1 k, oval]
    split
    · rfl
    · rw [hu.right]
  | full es =>
    obtain ⟨h1, h2⟩ := addAll_spec o ho es m ht
    refine ⟨fun k => ?_, h2⟩
    simp only [addTo]
    rw [h1 k]
    simp only [oval]
    cases hl : lookup o.lt k es with
    | some v => simp [mval, hl]
    | none => simp [mval, hl, hu.right]

/-- The value the table at address `p` has for a key (the initial value if there is no table). -/
def hval (o : Ops K V) (h : Heap K V) (p : Nat) (k : K) : V :=
  match h[p]? with
  | some t => oval o t k
  | none => o.initial

/-- All full tables are sorted. -/
def HWf (o : Ops K V) (h : Heap K V) : Prop := ∀ t ∈ h, OWf o t

theorem HWf.get {o : Ops K V} {h : Heap K V} (hw : HWf o h) {p : Nat} {t : Obj K V}
    (ht : h[p]? = some t) : OWf o t := hw t (List.mem_of_getElem? ht)

theorem HWf.set {o : Ops K V} {h : Heap K V} (hw : HWf o h) {p : Nat} {t : Obj K V}
    (ht : OWf o t) : HWf o (h.set p t) := by
  intro t' h'
  rcases List.mem_or_eq_of_mem_set h' with h1 | rfl
  · exact hw _ h1
  · exact ht

theorem HWf.snoc {o : Ops K V} {h : Heap K V} (hw : HWf o h) {t : Obj K V}
    (ht : OWf o t) : HWf o (h ++ [t]) := by
  intro t' h'
  rcases List.mem_append.1 h' with h1 | h1
  · exact hw _ h1
  · simp only [List.mem_singleton] at h1; subst h1; exact ht

/-- What `combine` does to the heap. -/
theorem combine_spec (o : Ops K V) (ho : KeyOrder o.lt) (hu : Unit' o) (h : Heap K V)
    (hw : HWf o h) (p1 p2 : Nat) (h1 : p1 < h.length) (h2 : p2 < h.length) :
    ∃ h' r, combine o h p1 p2 = .ok (h', r) ∧ HWf o h' ∧ r < h'.length ∧ h.length ≤ h'.length ∧
      (∀ k, hval o h' r k = o.combine (hval o h p1 k) (hval o h p2 k)) ∧
      (r = p1 ∨ r = h.length) ∧
      (∀ q, q < h.length → (q ≠ p1 ∨ r ≠ p1) → h'[q]? = h[q]?) := by
  obtain ⟨t1, ht1⟩ : ∃ t, h[p1]? = some t := ⟨_, List.getElem?_eq_getElem h1⟩
  obtain ⟨t2, ht2⟩ : ∃ t, h[p2]? = some t := ⟨_, List.getElem?_eq_getElem h2⟩
  have w1 := hw.get ht1
  have w2 := hw.get ht2
  have nonfull : (∀ m, t1 ≠ .full m) →
      combine o h p1 p2 = .ok (h ++ [.full (addTo o t2 (addTo o t1 []))], h.length) := by
    intro hn
    unfold combine
    rw [ht1, ht2]
    cases t1 with
    | full m => exact absurd rfl (hn m)
    | empty => rfl
    | entry k v => rfl
  by_cases hf : ∃ m, t1 = .full m
  · obtain ⟨m, rfl⟩ := hf
    obtain ⟨a1, a2⟩ := addTo_spec o ho hu t2 m w2
    refine ⟨h.set p1 (.full (addTo o t2 m)), p1, ?_, hw.set (a2 w1), by simpa using h1,
      by simp, ?_, Or.inl rfl, ?_⟩
    · unfold combine; rw [ht1, ht2]
    · intro k
      simp only [hval, ht1, ht2]
      rw [List.getElem?_set_self h1]
      have e : oval o (.full (addTo o t2 m)) k = mval o (addTo o t2 m) k := rfl
      simp only [e, a1 k]
      rfl
    · intro q hq hne
      rcases hne with hne | hne
      · rw [List.getElem?_set_ne (Ne.symm hne)]
      · exact absurd rfl hne
  · obtain ⟨b1, b2⟩ := addTo_spec o ho hu t1 [] w1
    obtain ⟨a1, a2⟩ := addTo_spec o ho hu t2 (addTo o t1 []) w2
    refine ⟨_, _, nonfull (fun m hm => hf ⟨m, hm⟩), hw.snoc ?_, by simp, by simp, ?_, Or.inr rfl, ?_⟩
    · exact a2 (b2 (by simp [Sorted]))
    · intro k
      simp only [hval, ht1, ht2]
      rw [List.getElem?_append_right (Nat.le_refl _)]
      simp only [Nat.sub_self, List.getElem?_cons_zero, oval]
      rw [a1 k, b1 k]
      have : mval o ([] : List (K × V)) k = o.initial := rfl
      rw [this, hu.left]
      rfl
    · intro q hq _
      rw [List.getElem?_append_left hq]

/-- **Combination.** Combining two tables gives a table that has, for every key, the combination of
their values; every table other than the first argument is unchanged. -/
theorem _root_.Aps.Props.C41_combine (o : Ops K V) (ho : KeyOrder o.lt) (hu : Unit' o)
    (h : Heap K V) (hw : HWf o h) (p1 p2 : Nat) (h1 : p1 < h.length) (h2 : p2 < h.length) :
    ∃ h' r, combine o h p1 p2 = .ok (h', r) ∧ HWf o h' ∧ r < h'.length ∧
      (∀ k, hval o h' r k = o.combine (hval o h p1 k) (hval o h p2 k)) ∧
      (∀ q, q < h.length → q ≠ p1 → ∀ k, hval o h' q k = hval o h q k) ∧
      (r ≠ p1 → ∀ k, hval o h' p1 k = hval o h p1 k) := by
  obtain ⟨h', r, e, w, hr, hl, hv, hrr, hfr⟩ := combine_spec o ho hu h hw p1 p2 h1 h2
  refine ⟨h', r, e, w, hr, hv, ?_, ?_⟩
  · intro q hq hne k
    simp only [hval, hfr q hq (Or.inl hne)]
  · intro hne k
    simp only [hval, hfr p1 h1 (Or.inr hne)]

/-- `select` gives an entry for the key with the table's value for it, and no table changes its
value for any key (although a full table may get a new entry). -/
theorem select_spec (o : Ops K V) (ho : KeyOrder o.lt)
    (heq : ∀ a b, o.eq a b = eqv o.lt a b) (h : Heap K V) (hw : HWf o h) (p : Nat) (k : K)
    (hp : p < h.length) :
    ∃ h' r k', Table.select o h p k = .ok (h', r) ∧ HWf o h' ∧ h.length ≤ h'.length ∧
      h'[r]? = some (.entry k' (hval o h p k)) ∧ eqv o.lt k' k = true ∧ (r = p ∨ r = h.length) ∧
      (∀ q, q < h.length → ∀ k2, hval o h' q k2 = hval o h q k2) ∧
      (∀ q, q < h.length → q ≠ p → h'[q]? = h[q]?) := by
  obtain ⟨t, ht⟩ : ∃ t, h[p]? = some t := ⟨_, List.getElem?_eq_getElem hp⟩
  have w := hw.get ht
  cases t with
  | empty =>
    refine ⟨h ++ [.entry k o.initial], h.length, k, by unfold Table.select; rw [ht], hw.snoc (t := .entry _ _) trivial,
      by simp, ?_, ho.refl k, Or.inr rfl, ?_, ?_⟩
    · rw [List.getElem?_append_right (Nat.le_refl _)]; simp [hval, ht, oval]
    · intro q hq k2; simp only [hval, List.getElem?_append_left hq]
    · intro q hq _; rw [List.getElem?_append_left hq]
  | entry k' v' =>
    by_cases hk : o.eq k k' = true
    · refine ⟨h, p, k', by unfold Table.select; rw [ht]; simp only [if_pos hk], hw, Nat.le_refl _, ?_, ?_,
        Or.inl rfl, fun _ _ _ => rfl, fun _ _ _ => rfl⟩
      · rw [ht]; rw [heq] at hk; simp [hval, ht, oval, hk]
      · rw [heq] at hk; exact eqv_symm hk
    · refine ⟨h ++ [.entry k o.initial], h.length, k,
        by unfold Table.select; rw [ht]; simp only [if_neg hk], hw.snoc (t := .entry _ _) trivial, by simp, ?_,
        ho.refl k, Or.inr rfl, ?_, ?_⟩
      · rw [List.getElem?_append_right (Nat.le_refl _)]
        rw [heq] at hk; simp [hval, ht, oval, hk]
      · intro q hq k2; simp only [hval, List.getElem?_append_left hq]
      · intro q hq _; rw [List.getElem?_append_left hq]
  | full m =>
    obtain ⟨g1, g2, g3⟩ := get_spec o ho m k
    refine ⟨h.set p (.full (tget o m k).1) ++ [.entry k (tget o m k).2], h.length, k,
      by unfold Table.select; rw [ht], (hw.set (t := .full _) (g3 w)).snoc (t := .entry _ _) trivial, by simp, ?_,
      ho.refl k, Or.inr rfl, ?_, ?_⟩
    · rw [List.getElem?_append_right (by simp)]
      simp [hval, ht, oval, g1]
    · intro q hq k2
      simp only [hval]
      rw [List.getElem?_append_left (by simpa using hq)]
      by_cases hqp : q = p
      · subst hqp
        rw [List.getElem?_set_self hp, ht]
        simp only [oval]
        exact g2 k2
      · rw [List.getElem?_set_ne (Ne.symm hqp)]
    · intro q hq hne
      rw [List.getElem?_append_left (by simpa using hq), List.getElem?_set_ne (Ne.symm hne)]

/-- **Selection.** `select(t,k)` gives a table entry for `k` with the value `t` has for `k`, and no
existing table changes its value for any key. -/
theorem _root_.Aps.Props.C41_select (o : Ops K V) (ho : KeyOrder o.lt)
    (heq : ∀ a b, o.eq a b = eqv o.lt a b) (h : Heap K V) (hw : HWf o h) (p : Nat) (k : K)
    (hp : p < h.length) :
    ∃ h' r k', Table.select o h p k = .ok (h', r) ∧ HWf o h' ∧
      h'[r]? = some (.entry k' (hval o h p k)) ∧ eqv o.lt k' k = true ∧
      (∀ q, q < h.length → ∀ k2, hval o h' q k2 = hval o h q k2) := by
  obtain ⟨h', r, k', e, w, _, a, b, _, c, _⟩ := select_spec o ho heq h hw p k hp
  exact ⟨h', r, k', e, w, a, b, c⟩

/-- The function from keys to values that an expression denotes. -/
def denote (o : Ops K V) : Expr K V → K → V
  | .initial, _ => o.initial
  | .entry k v, k' => if eqv o.lt k' k then v else o.initial
  | .combine a b, k => o.combine (denote o a k) (denote o b k)
  | .select a k, k' => if eqv o.lt k' k then denote o a k else o.initial

/-- The heap before the program creates tables: the one object `initial`. -/
def Start (h : Heap K V) : Prop := h[0]? = some .empty

theorem eval_spec (o : Ops K V) (ho : KeyOrder o.lt) (hu : Unit' o)
    (heq : ∀ a b, o.eq a b = eqv o.lt a b) (e : Expr K V) :
    ∀ h : Heap K V, HWf o h → Start h →
      ∃ h' r, eval o e h = .ok (h', r) ∧ HWf o h' ∧ h.length ≤ h'.length ∧ r < h'.length ∧
        (r = 0 ∨ h.length ≤ r) ∧ (∀ k, hval o h' r k = denote o e k) ∧
        (∀ q, q < h.length → h'[q]? = h[q]?) := by
  induction e with
  | initial =>
    intro h hw hs
    have hl : 0 < h.length := by
      by_contra hc
      rw [Start, List.getElem?_eq_none (by omega)] at hs; cases hs
    exact ⟨h, 0, rfl, hw, Nat.le_refl _, hl, Or.inl rfl, fun k => by rw [hval, hs]; rfl,
      fun _ _ => rfl⟩
  | entry k v =>
    intro h hw hs
    refine ⟨_, _, rfl, hw.snoc (t := .entry _ _) trivial, by simp, by simp, Or.inr (Nat.le_refl _), ?_, ?_⟩
    · intro k'
      simp only [hval]
      rw [List.getElem?_append_right (Nat.le_refl _)]
      simp [oval, denote]
    · intro q hq; rw [List.getElem?_append_left hq]
  | combine a b iha ihb =>
    intro h hw hs
    obtain ⟨h1, p1, e1, w1, l1, b1, f1, v1, fr1⟩ := iha h hw hs
    have hl0 : 0 < h.length := by
      by_contra hc
      rw [Start, List.getElem?_eq_none (by omega)] at hs; cases hs
    have s1 : Start h1 := by rw [Start, fr1 0 hl0]; exact hs
    obtain ⟨h2, p2, e2, w2, l2, b2, f2, v2, fr2⟩ := ihb h1 w1 s1
    have s2 : Start h2 := by rw [Start, fr2 0 (by omega)]; exact s1
    obtain ⟨h3, r, e3, w3, hr, l3, hv, hrr, hfr⟩ :=
      combine_spec o ho hu h2 w2 p1 p2 (by omega) b2
    refine ⟨h3, r, ?_, w3, by omega, hr, ?_, ?_, ?_⟩
    · simp only [eval, e1, Res.ok_bind, e2, e3]
    · rcases hrr with rfl | rfl
      · exact f1
      · right; omega
    · intro k
      rw [hv k, v2 k]
      have : hval o h2 p1 k = hval o h1 p1 k := by simp only [hval, fr2 p1 b1]
      rw [this, v1 k]; rfl
    · intro q hq
      have hne : q ≠ p1 ∨ r ≠ p1 := by
        rcases f1 with rfl | f1
        · -- p1 = 0 is the empty table, so a new table was made
          by_cases hr0 : r = 0
          · exfalso
            subst hr0
            unfold Table.combine at e3
            have s2' : h2[0]? = some .empty := s2
            obtain ⟨t2, ht2⟩ : ∃ t, h2[p2]? = some t := ⟨_, List.getElem?_eq_getElem b2⟩
            rw [s2', ht2] at e3
            simp only [Res.ok.injEq, Prod.mk.injEq] at e3
            omega
          · exact Or.inr hr0
        · left; omega
      rw [hfr q (by omega) hne, fr2 q (by omega), fr1 q hq]
  | select a k iha =>
    intro h hw hs
    obtain ⟨h1, p1, e1, w1, l1, b1, f1, v1, fr1⟩ := iha h hw hs
    have hl0 : 0 < h.length := by
      by_contra hc
      rw [Start, List.getElem?_eq_none (by omega)] at hs; cases hs
    have s1 : Start h1 := by rw [Start, fr1 0 hl0]; exact hs
    obtain ⟨h2, r, k', e2, w2, l2, hr, hk, hrr, hv, hfr⟩ := select_spec o ho heq h1 w1 p1 k b1
    have hrl : r < h2.length := by
      by_contra hc
      rw [List.getElem?_eq_none (by omega)] at hr; cases hr
    refine ⟨h2, r, ?_, w2, by omega, hrl, ?_, ?_, ?_⟩
    · simp only [eval, e1, Res.ok_bind, e2]
    · rcases hrr with rfl | rfl
      · exact f1
      · right; omega
    · intro k2
      simp only [hval, hr, oval, denote]
      have e : eqv o.lt k2 k' = eqv o.lt k2 k := by
        cases hx : eqv o.lt k2 k with
        | true => exact ho.eqv_trans hx (eqv_symm hk)
        | false =>
          cases hy : eqv o.lt k2 k' with
          | false => rfl
          | true => rw [ho.eqv_trans hy hk] at hx; cases hx
      rw [e]
      split
      · have := v1 k
        simp only [hval] at this
        exact this
      · rfl
    · intro q hq
      by_cases hqp : q = p1
      · subst hqp
        rcases f1 with rfl | f1
        · have s1' : h1[0]? = some .empty := s1
          unfold Table.select at e2
          rw [s1'] at e2
          simp only [Res.ok.injEq, Prod.mk.injEq] at e2
          rw [← e2.1, List.getElem?_append_left b1, fr1 0 hq]
        · omega
      · rw [hfr q (by omega) hqp, fr1 q hq]

/-- **Table expressions.** An expression built from the initial table, entries, combination and
selection evaluates to a table with, for each key, the combination of the values of its parts, and
leaves every table that existed before unchanged. -/
theorem _root_.Aps.Props.C41_expression (o : Ops K V) (ho : KeyOrder o.lt) (hu : Unit' o)
    (heq : ∀ a b, o.eq a b = eqv o.lt a b) (e : Expr K V) (h : Heap K V) (hw : HWf o h)
    (hs : Start h) :
    ∃ h' r, eval o e h = .ok (h', r) ∧ (∀ k, hval o h' r k = denote o e k) ∧
      (∀ q, q < h.length → h'[q]? = h[q]?) := by
  obtain ⟨h', r, e1, _, _, _, _, v, f⟩ := eval_spec o ho hu heq e h hw hs
  exact ⟨h', r, e1, v, f⟩

/-! ### Example and refutation: numbers as keys, lists as values -/

/-- Number keys, list values combined by concatenation. -/
def exOps : Ops Nat (List Nat) where
  lt a b := decide (a < b)
  eq a b := decide (a = b)
  initial := []
  combine a b := a ++ b

theorem exKey : KeyOrder exOps.lt where
  irrefl a := by simp [exOps]
  trans a b c := by simp [exOps]; omega
  weak a b c := by simp [exOps]; omega

theorem exUnit : Unit' exOps where
  left v := by simp [exOps]
  right v := by simp [exOps]

theorem exEq (a b : Nat) : exOps.eq a b = eqv exOps.lt a b := by
  simp only [exOps, eqv]
  rcases Nat.lt_trichotomy a b with h | h | h
  · have h1 : ¬ a = b := by omega
    have h2 : ¬ b < a := by omega
    simp [h, h1]
  · subst h; simp
  · have h1 : ¬ a = b := by omega
    simp [h, h1]

def exExpr : Expr Nat (List Nat) :=
  .combine (.combine (.entry 1 [10]) (.entry 2 [20])) (.combine (.entry 1 [11]) .initial)

example : (match eval exOps exExpr [.empty] with
    | .ok (h, r) => hval exOps h r 1 == [10, 11] && hval exOps h r 2 == [20] && hval exOps h r 3 == []
    | _ => false) = true := by decide
example : HWf exOps [Obj.empty] := by intro t ht; simp at ht; subst ht; trivial
example : Start [(Obj.empty : Obj Nat (List Nat))] := rfl

/-- **The full claim is false**: combination changes its first argument when that is itself the
result of a combination.  With `t = {1 ↦ 10} combined with {2 ↦ 20}`, computing
`u = t combined with {1 ↦ 11}` changes the value of `t` for the key 1, and computing
`t combined with {1 ↦ 12}` afterwards changes `u`. -/
theorem _root_.Aps.Props.C41_argument_unchanged_refuted :
    ∃ (h0 h1 h2 : Heap Nat (List Nat)) (t a u : Nat),
      combine exOps h0 0 1 = .ok (h1, t) ∧ hval exOps h1 t 1 = [10] ∧
      a < h1.length ∧ combine exOps h1 t a = .ok (h2, u) ∧ hval exOps h2 t 1 = [10, 11] ∧ u = t := by
  refine ⟨[.entry 1 [10], .entry 2 [20], .entry 1 [11]], _, _, 3, 2, 3, rfl, by decide, by decide,
    rfl, by decide, rfl⟩

end TableProps
end Aps.Props
