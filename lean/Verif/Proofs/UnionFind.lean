import Verif.Model.Cycle
import Mathlib.Tactic.Common
import Mathlib.Data.Finset.Card
import Mathlib.Data.Finset.Range
import Mathlib.Logic.Relation
/-! The union-find forest of analyze/aps-cycle.c. -/
set_option linter.unusedVariables false
namespace Aps.Cycle

/-- `r` is the end of the chain of parents from `i`, `n` steps away -/
inductive RepN (P : Par) : Nat → Nat → Nat → Prop
  | root {i} : P[i]? = some (some i) → RepN P 0 i i
  | step {n i p r} : P[i]? = some (some p) → p ≠ i → RepN P n p r → RepN P (n + 1) i r

/-- `r` is the representative of `i` -/
def Rep (P : Par) (i r : Nat) : Prop := ∃ n, RepN P n i r

theorem RepN.det {P : Par} {n m i r s : Nat} (h : RepN P n i r) (h' : RepN P m i s) : n = m ∧ r = s := by
  induction h generalizing m s with
  | root e =>
    cases h' with
    | root => exact ⟨rfl, rfl⟩
    | step e' hne _ => rw [e] at e'; cases e'; exact absurd rfl hne
  | step e hne h ih =>
    cases h' with
    | root e' => rw [e] at e'; cases e'; exact absurd rfl hne
    | step e' _ h' => rw [e] at e'; cases e'; obtain ⟨rfl, rfl⟩ := ih h'; exact ⟨rfl, rfl⟩

theorem Rep.det {P : Par} {i r s : Nat} (h : Rep P i r) (h' : Rep P i s) : r = s := by
  obtain ⟨_, h⟩ := h; obtain ⟨_, h'⟩ := h'; exact (h.det h').2

theorem RepN.isRoot {P : Par} {n i r : Nat} (h : RepN P n i r) : P[r]? = some (some r) := by
  induction h with
  | root e => exact e
  | step _ _ _ ih => exact ih

theorem Rep.isRoot {P : Par} {i r : Nat} (h : Rep P i r) : P[r]? = some (some r) := by
  obtain ⟨_, h⟩ := h; exact h.isRoot

theorem Rep.self {P : Par} {i r : Nat} (h : Rep P i r) : Rep P r r := ⟨0, .root h.isRoot⟩

theorem Rep.step {P : Par} {i p r : Nat} (e : P[i]? = some (some p)) (h : Rep P p r) : Rep P i r := by
  by_cases hp : p = i
  · subst hp; exact h
  · obtain ⟨n, h⟩ := h; exact ⟨n + 1, .step e hp h⟩

theorem RepN.lt {P : Par} {n i r : Nat} (h : RepN P n i r) : i < P.length := by
  cases h with
  | root e => exact (List.getElem?_eq_some_iff.1 e).1
  | step e _ _ => exact (List.getElem?_eq_some_iff.1 e).1

theorem Rep.lt {P : Par} {i r : Nat} (h : Rep P i r) : i < P.length := by obtain ⟨_, h⟩ := h; exact h.lt
theorem Rep.rlt {P : Par} {i r : Nat} (h : Rep P i r) : r < P.length := h.self.lt

theorem RepN.path {P : Par} {n i r : Nat} (h : RepN P n i r) :
    ∃ s : Finset Nat, s.card = n + 1 ∧ ∀ x ∈ s, x < P.length ∧ ∃ m, m ≤ n ∧ RepN P m x r := by
  induction h with
  | root e =>
    exact ⟨{_}, by simp, fun x hx => by
      simp at hx; subst hx; exact ⟨(RepN.root e).lt, 0, le_refl _, .root e⟩⟩
  | @step n i p r e hne h ih =>
    obtain ⟨s, hc, hs⟩ := ih
    refine ⟨insert i s, ?_, ?_⟩
    · rw [Finset.card_insert_of_notMem, hc]
      intro hi
      obtain ⟨_, m, hm, h'⟩ := hs i hi
      have := (h'.det (RepN.step e hne h)).1
      omega
    · intro x hx
      rw [Finset.mem_insert] at hx
      rcases hx with rfl | hx
      · exact ⟨(RepN.step e hne h).lt, n + 1, le_refl _, .step e hne h⟩
      · obtain ⟨h1, m, hm, h2⟩ := hs x hx
        exact ⟨h1, m, by omega, h2⟩

theorem RepN.short {P : Par} {n i r : Nat} (h : RepN P n i r) : n < P.length := by
  obtain ⟨s, hc, hs⟩ := h.path
  have : s ⊆ Finset.range P.length := fun x hx => Finset.mem_range.2 (hs x hx).1
  have := Finset.card_le_card this
  rw [hc, Finset.card_range] at this
  omega

/-- redirecting `i` to its representative changes no representative -/
theorem rep_compress {P : Par} {i r : Nat} (h : Rep P i r) (x s : Nat) :
    Rep (P.set i (some r)) x s ↔ Rep P x s := by
  by_cases hir : i = r
  · subst hir
    have : P.set i (some i) = P := by
      apply List.ext_getElem?
      intro j
      rw [List.getElem?_set]
      split
      · rename_i e; subst e
        rw [if_pos h.lt, h.isRoot]
      · rfl
    rw [this]
  · have hi := h.lt
    have he : (P.set i (some r))[i]? = some (some r) := by rw [List.getElem?_set]; simp [hi]
    have hne : ∀ j, j ≠ i → (P.set i (some r))[j]? = P[j]? := fun j hj => List.getElem?_set_ne (Ne.symm hj)
    have hrr : Rep (P.set i (some r)) r r := ⟨0, .root (by rw [hne r (Ne.symm hir)]; exact h.isRoot)⟩
    have hiR : Rep (P.set i (some r)) i r := hrr.step he
    have fwd : ∀ x s, Rep P x s → Rep (P.set i (some r)) x s := by
      rintro x s ⟨n, hx⟩
      induction hx with
      | @root x e =>
        by_cases hx : x = i
        · subst hx
          exact absurd (Rep.det ⟨0, .root e⟩ h) hir
        · exact ⟨0, .root (by rw [hne x hx]; exact e)⟩
      | @step n x p s e hpx hp ih =>
        by_cases hx : x = i
        · subst hx
          have := Rep.det ⟨n + 1, .step e hpx hp⟩ h
          subst this
          exact hiR
        · exact ih.step (by rw [hne x hx]; exact e)
    refine ⟨?_, fwd x s⟩
    rintro ⟨n, hx⟩
    induction hx with
    | @root x e =>
      by_cases hx : x = i
      · subst hx; rw [he] at e; cases e; exact absurd rfl hir
      · exact ⟨0, .root (by rw [← hne x hx]; exact e)⟩
    | @step n x p s e hpx hp ih =>
      by_cases hx : x = i
      · subst hx
        rw [he] at e; cases e
        have := Rep.det ⟨n, hp⟩ hrr
        subst this
        exact h
      · exact ih.step (by rw [← hne x hx]; exact e)

/-- two forests with the same classes, representatives and dead instances -/
structure Same (P P' : Par) : Prop where
  len : P'.length = P.length
  dead : ∀ i : Nat, P'[i]? = some none ↔ P[i]? = some none
  rep : ∀ i r, Rep P' i r ↔ Rep P i r

theorem Same.refl (P : Par) : Same P P := ⟨rfl, fun _ => Iff.rfl, fun _ _ => Iff.rfl⟩
theorem Same.trans {P Q R : Par} (h : Same P Q) (h' : Same Q R) : Same P R :=
  ⟨h'.len.trans h.len, fun i => (h'.dead i).trans (h.dead i), fun i r => (h'.rep i r).trans (h.rep i r)⟩

theorem Rep.not_dead {P : Par} {i r : Nat} (h : Rep P i r) : P[i]? ≠ some none := by
  obtain ⟨_, h⟩ := h
  cases h with
  | root e => rw [e]; simp
  | step e _ _ => rw [e]; simp

theorem Same.compress {P P' : Par} (h : Same P P') {i r : Nat} (hr : Rep P i r) : Same P (P'.set i (some r)) := by
  have hr' := (h.rep i r).2 hr
  refine ⟨by simp [h.len], ?_, fun x s => (rep_compress hr' x s).trans (h.rep x s)⟩
  intro j
  rw [← h.dead j, List.getElem?_set]
  split
  · rename_i e; subst e
    rw [if_pos hr'.lt]
    simp [hr'.not_dead]
  · rfl

/-- `get_set` returns the representative, compresses, and changes no representative -/
theorem getSet_fuel {P : Par} {n i r : Nat} (h : RepN P n i r) :
    ∀ fuel, n < fuel → ∃ P', getSet fuel P i = .ok (r, P') ∧ Same P P' ∧ P'[i]? = some (some r) ∧
      ∀ j : Nat, P[j]? = some (some r) → P'[j]? = some (some r) := by
  induction h with
  | @root i e =>
    intro fuel hf
    obtain ⟨f, rfl⟩ : ∃ f, fuel = f + 1 := ⟨fuel - 1, by omega⟩
    exact ⟨P, by simp [getSet, e], Same.refl P, e, fun _ h => h⟩
  | @step n i p r e hne h ih =>
    intro fuel hf
    obtain ⟨f, rfl⟩ : ∃ f, fuel = f + 1 := ⟨fuel - 1, by omega⟩
    obtain ⟨P', e', s, hp, hk⟩ := ih f (by omega)
    refine ⟨P'.set i (some r), ?_, s.compress ⟨n + 1, .step e hne h⟩, ?_, ?_⟩
    · simp [getSet, e, hne, e']
    · have : i < P'.length := by rw [s.len]; exact (RepN.step e hne h).lt
      rw [List.getElem?_set]; simp [this]
    · intro j hj
      rw [List.getElem?_set]
      split
      · rename_i hh; subst hh
        rw [if_pos (by rw [s.len]; exact (RepN.step e hne h).lt)]
      · exact hk j hj

theorem getSet_ok {P : Par} {i r : Nat} (h : Rep P i r) :
    ∃ P', getSet (P.length + 1) P i = .ok (r, P') ∧ Same P P' ∧ P'[i]? = some (some r) ∧
      ∀ j : Nat, P[j]? = some (some r) → P'[j]? = some (some r) := by
  obtain ⟨n, h⟩ := h
  exact getSet_fuel h _ (by have := h.short; omega)

/-- attaching the root `a` to the root `b` -/
theorem rep_link {P : Par} {a b : Nat} (ha : P[a]? = some (some a)) (hb : P[b]? = some (some b)) (x s : Nat) :
    Rep (P.set a (some b)) x s ↔ (Rep P x a ∧ s = b) ∨ (Rep P x s ∧ s ≠ a) := by
  by_cases hab : a = b
  · subst hab
    rw [rep_compress ⟨0, .root ha⟩]
    constructor
    · intro h
      by_cases hs : s = a
      · subst hs; exact .inl ⟨h, rfl⟩
      · exact .inr ⟨h, hs⟩
    · rintro (⟨h, rfl⟩ | ⟨h, _⟩) <;> exact h
  · have hlt : a < P.length := (List.getElem?_eq_some_iff.1 ha).1
    have he : (P.set a (some b))[a]? = some (some b) := by rw [List.getElem?_set]; simp [hlt]
    have hne : ∀ j, j ≠ a → (P.set a (some b))[j]? = P[j]? := fun j hj => List.getElem?_set_ne (Ne.symm hj)
    have hbb : Rep (P.set a (some b)) b b := ⟨0, .root (by rw [hne b (Ne.symm hab)]; exact hb)⟩
    have haR : Rep (P.set a (some b)) a b := hbb.step he
    have haP : Rep P a a := ⟨0, .root ha⟩
    constructor
    · rintro ⟨n, hx⟩
      induction hx with
      | @root x e =>
        by_cases hx : x = a
        · subst hx; rw [he] at e; cases e; exact absurd rfl hab
        · exact .inr ⟨⟨0, .root (by rw [← hne x hx]; exact e)⟩, hx⟩
      | @step n x p s e hpx hp ih =>
        by_cases hx : x = a
        · subst hx
          exact .inl ⟨haP, Rep.det ⟨n + 1, .step e hpx hp⟩ haR⟩
        · rw [hne x hx] at e
          rcases ih with ⟨h1, h2⟩ | ⟨h1, h2⟩
          · exact .inl ⟨h1.step e, h2⟩
          · exact .inr ⟨h1.step e, h2⟩
    · have key : ∀ s, Rep P x s → (s = a → Rep (P.set a (some b)) x b) ∧ (s ≠ a → Rep (P.set a (some b)) x s) := by
        rintro s ⟨n, hx⟩
        induction hx with
        | @root x e =>
          refine ⟨fun h => by subst h; exact haR, fun h => ⟨0, .root (by rw [hne x h]; exact e)⟩⟩
        | @step n x p s e hpx hp ih =>
          by_cases hx : x = a
          · subst hx; rw [ha] at e; cases e; exact absurd rfl hpx
          · exact ⟨fun h => (ih.1 h).step (by rw [hne x hx]; exact e), fun h => (ih.2 h).step (by rw [hne x hx]; exact e)⟩
      rintro (⟨h, rfl⟩ | ⟨h, hs⟩)
      · exact (key a h).1 rfl
      · exact (key s h).2 hs

/-- the result of a merge: the class of `i1` has joined that of `i2` -/
theorem mergeSets_ok (ord : Bool) {P : Par} {i1 i2 r1 r2 : Nat} (h1 : Rep P i1 r1) (h2 : Rep P i2 r2) :
    ∃ P', mergeSets ord P i1 i2 = .ok P' ∧ P'.length = P.length ∧ (∀ i : Nat, P'[i]? = some none ↔ P[i]? = some none) ∧
      ∀ x s, Rep P' x s ↔ (Rep P x r1 ∧ s = r2) ∨ (Rep P x s ∧ s ≠ r1) := by
  have fin : ∀ Q, Same P Q → (Q.set r1 (some r2)).length = P.length ∧
      (∀ i : Nat, (Q.set r1 (some r2))[i]? = some none ↔ P[i]? = some none) ∧
      ∀ x s, Rep (Q.set r1 (some r2)) x s ↔ (Rep P x r1 ∧ s = r2) ∨ (Rep P x s ∧ s ≠ r1) := by
    intro Q hQ
    have e1 := ((hQ.rep _ _).2 h1).isRoot
    have e2 := ((hQ.rep _ _).2 h2).isRoot
    refine ⟨by simp [hQ.len], fun i => ?_, fun x s => ?_⟩
    · rw [← hQ.dead i, List.getElem?_set]
      split
      · rename_i h; subst h
        rw [if_pos (List.getElem?_eq_some_iff.1 e1).1, e1]; simp
      · rfl
    · rw [rep_link e1 e2, hQ.rep, hQ.rep]
  cases ord
  · obtain ⟨Q, a1, s1, -⟩ := getSet_ok h2
    obtain ⟨R, a2, s2, -⟩ := getSet_ok ((s1.rep _ _).2 h1)
    rw [s1.len] at a2
    refine ⟨R.set r1 (some r2), ?_, fin R (s1.trans s2)⟩
    simp [mergeSets, a1, a2]
  · obtain ⟨Q, a1, s1, -⟩ := getSet_ok h1
    obtain ⟨R, a2, s2, -⟩ := getSet_ok ((s1.rep _ _).2 h2)
    rw [s1.len] at a2
    refine ⟨R.set r1 (some r2), ?_, fin R (s1.trans s2)⟩
    simp [mergeSets, a1, a2]

/-- The forest after a history: `D` are the instances taken out, `E` the merges done. -/
structure Inv (num : Nat) (D : Nat → Prop) (E : Nat → Nat → Prop) (P : Par) : Prop where
  len : P.length = num
  dead : ∀ i, i < num → (P[i]? = some none ↔ D i)
  rep : ∀ i, i < num → ¬ D i → ∃ r, Rep P i r
  same : ∀ i j r s, Rep P i r → Rep P j s → (r = s ↔ Relation.EqvGen E i j)
  alive : ∀ i j, E i j → (i < num ∧ ¬ D i) ∧ (j < num ∧ ¬ D j)

theorem Inv.congr {num : Nat} {D D' : Nat → Prop} {E E' : Nat → Nat → Prop} {P : Par} (h : Inv num D E P)
    (hD : ∀ i, i < num → (D' i ↔ D i)) (hE : ∀ i j, E' i j ↔ E i j) : Inv num D' E' P := by
  have : E' = E := by funext i j; exact propext (hE i j)
  subst this
  refine ⟨h.len, fun i hi => (h.dead i hi).trans (hD i hi).symm, fun i hi hd => h.rep i hi (fun x => hd ((hD i hi).2 x)), h.same,
    fun i j e => ?_⟩
  obtain ⟨⟨a, b⟩, c, d⟩ := h.alive i j e
  exact ⟨⟨a, fun x => b ((hD i a).1 x)⟩, c, fun x => d ((hD j c).1 x)⟩

theorem eqvGen_eq {E : Nat → Nat → Prop} (h : ∀ i j, ¬ E i j) {i j : Nat} (e : Relation.EqvGen E i j) : i = j := by
  induction e with
  | rel _ _ h' => exact absurd h' (h _ _)
  | refl => rfl
  | symm _ _ _ ih => exact ih.symm
  | trans _ _ _ _ _ a b => exact a.trans b

theorem Inv.init (num : Nat) : Inv num (fun _ => False) (fun _ _ => False) (initPar num) := by
  have hg : ∀ i, i < num → (initPar num)[i]? = some (some i) := by
    intro i hi; simp [initPar, hi]
  have hr : ∀ i, i < num → Rep (initPar num) i i := fun i hi => ⟨0, .root (hg i hi)⟩
  refine ⟨by simp [initPar], fun i hi => by rw [hg i hi]; simp, fun i hi _ => ⟨i, hr i hi⟩, ?_, fun i j h => h.elim⟩
  intro i j r s h1 h2
  have l : (initPar num).length = num := by simp [initPar]
  have e1 := h1.det (hr i (l ▸ h1.lt))
  have e2 := h2.det (hr j (l ▸ h2.lt))
  subst e1 e2
  constructor
  · rintro rfl; exact .refl _
  · exact eqvGen_eq (fun _ _ h => h)

theorem eqvGen_sub {E : Nat → Nat → Prop} {Q : Nat → Nat → Prop} (hq : Equivalence Q) (h : ∀ i j, E i j → Q i j) {i j : Nat}
    (e : Relation.EqvGen E i j) : Q i j := by
  induction e with
  | rel _ _ h' => exact h _ _ h'
  | refl => exact hq.refl _
  | symm _ _ _ ih => exact hq.symm ih
  | trans _ _ _ _ _ a b => exact hq.trans a b

/-- A node no merge mentions is alone. -/
theorem eqvGen_alone {E : Nat → Nat → Prop} {i : Nat} (h1 : ∀ j, ¬ E i j) (h2 : ∀ j, ¬ E j i) {x y : Nat}
    (e : Relation.EqvGen E x y) : x = i ↔ y = i := by
  induction e with
  | rel a b h' => exact ⟨fun h => by subst h; exact absurd h' (h1 b), fun h => by subst h; exact absurd h' (h2 a)⟩
  | refl => exact Iff.rfl
  | symm _ _ _ ih => exact ih.symm
  | trans _ _ _ _ _ a b => exact a.trans b

theorem Inv.merge (ord : Bool) {num : Nat} {D : Nat → Prop} {E : Nat → Nat → Prop} {P : Par} (h : Inv num D E P) {a b : Nat}
    (ha : a < num) (hb : b < num) (da : ¬ D a) (db : ¬ D b) :
    ∃ P', mergeSets ord P a b = .ok P' ∧ Inv num D (fun i j => E i j ∨ (i = a ∧ j = b)) P' := by
  obtain ⟨r1, h1⟩ := h.rep a ha da
  obtain ⟨r2, h2⟩ := h.rep b hb db
  obtain ⟨P', e, l, d, r⟩ := mergeSets_ok ord h1 h2
  have hrep : ∀ i, i < num → ¬ D i → ∃ s, Rep P' i s := by
    intro i hi di
    obtain ⟨s, hs⟩ := h.rep i hi di
    by_cases hs1 : s = r1
    · subst hs1; exact ⟨r2, (r i r2).2 (.inl ⟨hs, rfl⟩)⟩
    · exact ⟨s, (r i s).2 (.inr ⟨hs, hs1⟩)⟩
  refine ⟨P', e, l.trans h.len, fun i hi => (d i).trans (h.dead i hi), hrep, ?_, ?_⟩
  · have mono : ∀ {x y}, Relation.EqvGen E x y → Relation.EqvGen (fun i j => E i j ∨ (i = a ∧ j = b)) x y :=
      fun hxy => hxy.mono (fun _ _ hh => .inl hh)
    have hab : Relation.EqvGen (fun i j => E i j ∨ (i = a ∧ j = b)) a b := .rel _ _ (.inr ⟨rfl, rfl⟩)
    -- the old representative determines the new one
    have toB : ∀ {x s}, Rep P' x s → (∃ t, Rep P x t ∧ (t = s ∧ s ≠ r1 ∨ t = r1 ∧ s = r2)) := by
      intro x s hx
      rcases (r x s).1 hx with ⟨p, q⟩ | ⟨p, q⟩
      · exact ⟨r1, p, .inr ⟨rfl, q⟩⟩
      · exact ⟨s, p, .inl ⟨rfl, q⟩⟩
    intro i j s t hs ht
    constructor
    · rintro rfl
      obtain ⟨u, hu, cu⟩ := toB hs
      obtain ⟨v, hv, cv⟩ := toB ht
      have same := fun {x y u v} (p : Rep P x u) (q : Rep P y v) (e : u = v) => mono ((h.same x y u v p q).1 e)
      rcases cu with ⟨rfl, cu⟩ | ⟨rfl, cu⟩ <;> rcases cv with ⟨cv1, cv⟩ | ⟨cv1, cv⟩
      · exact same hu hv cv1.symm
      · subst cv1
        exact (same hu h2 cv).trans _ _ _ (hab.symm _ _ |>.trans _ _ _ (same h1 hv rfl))
      · subst cv1 cu
        exact (same hu h1 rfl).trans _ _ _ (hab.trans _ _ _ (same h2 hv rfl))
      · exact same hu hv cv1.symm
    · intro e
      have hq : Equivalence (fun x y => x = y ∨ ∃ w, Rep P' x w ∧ Rep P' y w) := by
        refine ⟨fun x => .inl rfl, ?_, ?_⟩
        · rintro x y (rfl | ⟨w, p, q⟩)
          · exact .inl rfl
          · exact .inr ⟨w, q, p⟩
        · rintro x y z (rfl | ⟨w, p, q⟩) (rfl | ⟨w', p', q'⟩)
          · exact .inl rfl
          · exact .inr ⟨w', p', q'⟩
          · exact .inr ⟨w, p, q⟩
          · have := q.det p'
            subst this
            exact .inr ⟨w, p, q'⟩
      have := eqvGen_sub hq (E := fun i j => E i j ∨ (i = a ∧ j = b)) ?_ e
      · rcases this with rfl | ⟨w, p, q⟩
        · exact hs.det ht
        · rw [hs.det p, ht.det q]
      · rintro x y (hxy | ⟨rfl, rfl⟩)
        · obtain ⟨⟨x1, x2⟩, y1, y2⟩ := h.alive x y hxy
          obtain ⟨u, hu⟩ := h.rep x x1 x2
          obtain ⟨v, hv⟩ := h.rep y y1 y2
          have := (h.same x y u v hu hv).2 (.rel _ _ hxy)
          subst this
          right
          by_cases hs1 : u = r1
          · subst hs1; exact ⟨r2, (r x r2).2 (.inl ⟨hu, rfl⟩), (r y r2).2 (.inl ⟨hv, rfl⟩)⟩
          · exact ⟨u, (r x u).2 (.inr ⟨hu, hs1⟩), (r y u).2 (.inr ⟨hv, hs1⟩)⟩
        · right
          refine ⟨r2, (r x r2).2 (.inl ⟨h1, rfl⟩), (r y r2).2 ?_⟩
          by_cases hs1 : r2 = r1
          · subst hs1; exact .inl ⟨h2, rfl⟩
          · exact .inr ⟨h2, hs1⟩
  · rintro i j (hij | ⟨rfl, rfl⟩)
    · exact h.alive i j hij
    · exact ⟨⟨ha, da⟩, hb, db⟩

theorem Inv.kill {num : Nat} {D : Nat → Prop} {E : Nat → Nat → Prop} {P : Par} (h : Inv num D E P) {a : Nat}
    (h1 : ∀ j, ¬ E a j) (h2 : ∀ j, ¬ E j a) : Inv num (fun i => D i ∨ i = a) E (P.set a none) := by
  by_cases ha : a < num
  swap
  · have : P.set a none = P := List.set_eq_of_length_le (by rw [h.len]; omega)
    rw [this]
    exact h.congr (fun i hi => ⟨fun x => x.elim id (fun e => absurd (e ▸ hi) ha), .inl⟩) (fun _ _ => Iff.rfl)
  have hne : ∀ j, j ≠ a → (P.set a none)[j]? = P[j]? := fun j hj => List.getElem?_set_ne (Ne.symm hj)
  have he : (P.set a none)[a]? = some none := by rw [List.getElem?_set]; simp [h.len, ha]
  have hr : ∀ x s, Rep (P.set a none) x s ↔ Rep P x s ∧ x ≠ a := by
    intro x s
    constructor
    · rintro ⟨n, hx⟩
      refine ⟨?_, fun e => ?_⟩
      · induction hx with
        | @root x e =>
          by_cases hx : x = a
          · subst hx; rw [he] at e; cases e
          · exact ⟨0, .root (by rw [← hne x hx]; exact e)⟩
        | @step n x p s e _ _ ih =>
          by_cases hx : x = a
          · subst hx; rw [he] at e; cases e
          · exact ih.step (by rw [← hne x hx]; exact e)
      · subst e
        exact Rep.not_dead ⟨n, hx⟩ he
    · rintro ⟨⟨n, hx⟩, hxa⟩
      induction hx with
      | @root x e => exact ⟨0, .root (by rw [hne x hxa]; exact e)⟩
      | @step n x p s e hp hpr ih =>
        have hpa : p ≠ a := by
          rintro rfl
          have := (h.same x p s s ⟨n + 1, .step e hp hpr⟩ ⟨n, hpr⟩).1 rfl
          exact hxa ((eqvGen_alone h1 h2 this).2 rfl)
        exact (ih hpa).step (by rw [hne x hxa]; exact e)
  refine ⟨by simp [h.len], ?_, ?_, ?_, ?_⟩
  · intro i hi
    by_cases hia : i = a
    · subst hia; simp [he]
    · rw [hne i hia, h.dead i hi]; simp [hia]
  · intro i hi hd
    obtain ⟨r, hx⟩ := h.rep i hi (fun x => hd (.inl x))
    exact ⟨r, (hr i r).2 ⟨hx, fun x => hd (.inr x)⟩⟩
  · intro i j r s p q
    exact h.same i j r s ((hr i r).1 p).1 ((hr j s).1 q).1
  · intro i j hij
    obtain ⟨⟨x1, x2⟩, y1, y2⟩ := h.alive i j hij
    refine ⟨⟨x1, ?_⟩, y1, ?_⟩
    · rintro (hd | rfl)
      · exact x2 hd
      · exact h1 _ hij
    · rintro (hd | rfl)
      · exact y2 hd
      · exact h2 _ hij

end Aps.Cycle
