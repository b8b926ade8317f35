import Verif.Proofs.HashTable
import Verif.Model.HashCons
import Mathlib.Tactic.NormNum.Prime
/-! Invariants of hashcons.c. -/
namespace Aps.HashCons
open Aps.HashTable (Chain slot slot_lt slot_cover probe probe_eq_some probe_eq_none NtpOk)

variable {ι : Type}

structure Ops.Lawful (o : Ops ι) : Prop where
  refl : ∀ a, o.equalf a a = true
  symm : ∀ a b, o.equalf a b = true → o.equalf b a = true
  trans : ∀ a b c, o.equalf a b = true → o.equalf b c = true → o.equalf a c = true
  hash : ∀ a b, o.equalf a b = true → o.hashf a = o.hashf b

/-- the object slot `i` points to -/
def key (t : HC ι) (i : Nat) : Option ι := load t (addrAt t i)

structure Lay (t : HC ι) : Prop where
  prime : t.capacity.Prime
  five : 4 ≤ t.capacity
  len : t.table.length = t.capacity
  size : t.size = t.table.countP (fun a => a ≠ 0)
  valid : ∀ a ∈ t.table, a ≤ t.heap.length

structure Inv (o : Ops ι) (t : HC ι) : Prop where
  lay : Lay t
  chain : Chain t.capacity (key t) o.hashf (fun a b => o.equalf a b = true)

theorem load_none {t : HC ι} {a : Nat} (h : a ≤ t.heap.length) : load t a = none ↔ a = 0 := by
  unfold load; split
  · simp_all
  · simp; omega

theorem addrAt_mem {t : HC ι} {i : Nat} (h : i < t.table.length) : addrAt t i ∈ t.table := by
  simp only [addrAt, List.getElem?_eq_getElem h, Option.getD_some]; exact List.getElem_mem h

theorem addrAt_getElem {t : HC ι} {i : Nat} (h : i < t.table.length) : addrAt t i = t.table[i] := by
  simp [addrAt, h]

theorem key_none {t : HC ι} (w : Lay t) {i : Nat} (h : i < t.capacity) : key t i = none ↔ addrAt t i = 0 :=
  load_none (w.valid _ (addrAt_mem (by rw [w.len]; exact h)))

theorem exists_empty {t : HC ι} (w : Lay t) (hl : t.size < t.capacity) :
    ∃ j < t.capacity, addrAt t j = 0 := by
  have h1 := w.size
  have h3 := w.len
  by_contra hne
  push Not at hne
  have : t.table.countP (fun a => a ≠ 0) = t.table.length := by
    rw [List.countP_eq_length]
    intro e he
    obtain ⟨j, hj, rfl⟩ := List.mem_iff_getElem.1 he
    have := hne j (by omega)
    rw [addrAt_getElem hj] at this
    simpa using this
  omega

theorem candidateIndex_spec (o : Ops ι) {t : HC ι} (w : Lay t) (hl : t.size < t.capacity) (x : ι) :
    ∃ T < t.capacity, candidateIndex o t x = .ok (slot t.capacity (o.hashf x) T) ∧
      (key t (slot t.capacity (o.hashf x) T) = none ∨
        ∃ y, key t (slot t.capacity (o.hashf x) T) = some y ∧ o.equalf y x = true) ∧
      ∀ t' < T, ∃ y, key t (slot t.capacity (o.hashf x) t') = some y ∧ ¬ o.equalf y x = true := by
  obtain ⟨j, hj, hj0⟩ := exists_empty w hl
  have h4 := w.five
  obtain ⟨T0, hT0, hs0⟩ := slot_cover (o.hashf x) w.prime (by omega) hj
  unfold candidateIndex
  have hcap : ¬ (t.capacity = 0 ∨ t.capacity = 2) := by omega
  simp only [hcap, if_false]
  have hmod : o.hashf x % t.capacity = (o.hashf x % t.capacity) % t.capacity := by simp
  rcases hpr : probe (slotStop o t x) t.capacity (o.hashf x % (t.capacity - 2) + 1) t.capacity
      (o.hashf x % t.capacity) with _ | i
  · rw [hmod, probe_eq_none] at hpr
    have := hpr T0 hT0
    unfold slot at hs0
    rw [hs0] at this
    simp [slotStop, hj0, load] at this
  · rw [hmod, probe_eq_some] at hpr
    obtain ⟨T, hT, e1, e2, e3⟩ := hpr
    refine ⟨T, hT, by rw [e1]; rfl, ?_, fun t' ht' => ?_⟩
    · unfold slot
      rw [← e1]
      unfold slotStop at e2
      change key t i = none ∨ ∃ y, key t i = some y ∧ _
      unfold key
      rcases hlo : load t (addrAt t i) with _ | y
      · simp
      · rw [hlo] at e2; exact .inr ⟨y, rfl, e2⟩
    · have := e3 t' ht'
      unfold slotStop at this
      unfold slot key
      rcases hlo : load t (addrAt t ((o.hashf x % t.capacity + t' * (o.hashf x % (t.capacity - 2) + 1)) % t.capacity)) with _ | y
      · rw [hlo] at this; cases this
      · rw [hlo] at this; exact ⟨y, rfl, by simpa using this⟩

theorem addrAt_set {t : HC ι} {i j a s : Nat} (hi : i < t.table.length) :
    addrAt { t with table := t.table.set i a, size := s } j = if j = i then a else addrAt t j := by
  unfold addrAt
  by_cases h : j = i
  · subst h; simp [hi]
  · simp [List.getElem?_set_ne (Ne.symm h), h]

theorem countP_set {l : List Nat} {i : Nat} (hi : i < l.length) (a : Nat) :
    (l.set i a).countP (fun e => e ≠ 0) + (if l[i] ≠ 0 then 1 else 0) =
      l.countP (fun e => e ≠ 0) + (if a ≠ 0 then 1 else 0) := by
  induction l generalizing i with
  | nil => simp at hi
  | cons b l ih =>
    cases i with
    | zero => simp [List.countP_cons]; omega
    | succ i =>
      have := ih (i := i) (by simpa using hi)
      simp only [List.set_cons_succ, List.countP_cons, List.getElem_cons_succ]
      simp only [ne_eq, decide_not, Bool.not_eq_true', decide_eq_false_iff_not] at this ⊢
      omega

/-- the canonical address of (the class of) an object -/
def Canon (o : Ops ι) (t : HC ι) (x : ι) (a : Nat) : Prop :=
  ∃ i < t.capacity, addrAt t i = a ∧ ∃ y, load t a = some y ∧ o.equalf y x = true

theorem Canon.unique {o : Ops ι} (ol : o.Lawful) {t : HC ι} (inv : Inv o t) {x y : ι} {a b : Nat}
    (ha : Canon o t x a) (hb : Canon o t y b) (h : o.equalf x y = true) : a = b := by
  obtain ⟨i, hi, ei, u, hu, qu⟩ := ha
  obtain ⟨j, hj, ej, v, hv, qv⟩ := hb
  have : i = j := inv.chain.unique (ol.symm) (ol.hash) hi hj (by rw [key, ei, hu]) (by rw [key, ej, hv])
    (ol.trans _ _ _ qu (ol.trans _ _ _ h (ol.symm _ _ qv)))
  rw [← ei, ← ej, this]

/-- no slot holds an object equal to `x` -/
def Absent (o : Ops ι) (t : HC ι) (x : ι) : Prop := ∀ i < t.capacity, ∀ y, key t i = some y → ¬ o.equalf y x = true

/-- storing the address of an absent object at the end of its probe sequence -/
theorem insertAt_spec {o : Ops ι} {t : HC ι} (inv : Inv o t) {x : ι} {a T : Nat}
    (hl : load t a = some x) (ha : a ≤ t.heap.length) (hT : T < t.capacity)
    (hempty : key t (slot t.capacity (o.hashf x) T) = none)
    (hprev : ∀ t' < T, ∃ y, key t (slot t.capacity (o.hashf x) t') = some y ∧ ¬ o.equalf y x = true) :
    Inv o (insertAt t a (slot t.capacity (o.hashf x) T)) ∧
    (∀ j, addrAt (insertAt t a (slot t.capacity (o.hashf x) T)) j =
      if j = slot t.capacity (o.hashf x) T then a else addrAt t j) ∧
    addrAt t (slot t.capacity (o.hashf x) T) = 0 := by
  have w := inv.lay
  have hlt : slot t.capacity (o.hashf x) T < t.capacity := slot_lt w.prime.pos
  have hlt' : slot t.capacity (o.hashf x) T < t.table.length := by rw [w.len]; exact hlt
  have h0 := (key_none w hlt).1 hempty
  have a0 : a ≠ 0 := by rintro rfl; simp [load] at hl
  have hA : ∀ j, addrAt (insertAt t a (slot t.capacity (o.hashf x) T)) j =
      if j = slot t.capacity (o.hashf x) T then a else addrAt t j := fun j => addrAt_set hlt'
  have hload : ∀ b, load (insertAt t a (slot t.capacity (o.hashf x) T)) b = load t b := fun _ => rfl
  refine ⟨⟨⟨w.prime, w.five, by simpa [insertAt] using w.len, ?_, ?_⟩, ?_⟩, hA, h0⟩
  · have := countP_set hlt' a
    have hs := w.size
    rw [addrAt_getElem hlt'] at h0
    simp only [insertAt]
    rw [hs]
    simp only [h0, a0, ne_eq, not_true, not_false_iff, if_true, if_false] at this
    simpa using this.symm
  · intro b hb
    simp only [insertAt] at hb ⊢
    rcases List.mem_or_eq_of_mem_set hb with hb | rfl
    · exact w.valid b hb
    · exact ha
  · refine inv.chain.insert (k := x) hT hempty hprev ?_ ?_
    · unfold key; rw [hA, hload]; simpa using hl
    · intro i hi
      unfold key; rw [hA, hload]; simp [hi]

theorem absent_of_stop {o : Ops ι} (ol : o.Lawful) {t : HC ι} (inv : Inv o t) {x : ι} {T : Nat}
    (hempty : key t (slot t.capacity (o.hashf x) T) = none)
    (hprev : ∀ t' < T, ∃ y, key t (slot t.capacity (o.hashf x) t') = some y ∧ ¬ o.equalf y x = true) :
    Absent o t x := by
  intro i hi y hy hq
  obtain ⟨t1, ht1, e1, c1⟩ := inv.chain i hi y hy
  rw [ol.hash _ _ hq] at e1 c1
  rcases Nat.lt_trichotomy t1 T with h | h | h
  · obtain ⟨z, hz, nz⟩ := hprev t1 h
    rw [e1, hy] at hz; cases hz; exact nz hq
  · rw [h] at e1; rw [e1, hy] at hempty; cases hempty
  · obtain ⟨z, hz, _⟩ := c1 T h
    rw [hempty] at hz; cases hz

/-- `hc_insert` of an address whose object is absent -/
theorem insert_spec {o : Ops ι} {t : HC ι} (inv : Inv o t) {x : ι} {a : Nat}
    (hl : load t a = some x) (ha : a ≤ t.heap.length) (hroom : t.size < t.capacity) (habs : Absent o t x) :
    ∃ t', insert o t a = .ok t' ∧ Inv o t' ∧ t'.heap = t.heap ∧ t'.capacity = t.capacity ∧
      t'.size = t.size + 1 ∧
      ∀ b, b ≠ 0 → ((∃ i < t'.capacity, addrAt t' i = b) ↔ (b = a ∨ ∃ i < t.capacity, addrAt t i = b)) := by
  obtain ⟨T, hT, e, hstop, hprev⟩ := candidateIndex_spec o inv.lay hroom x
  have hlt : slot t.capacity (o.hashf x) T < t.capacity := slot_lt inv.lay.prime.pos
  have hempty : key t (slot t.capacity (o.hashf x) T) = none := by
    rcases hstop with h | ⟨y, h, q⟩
    · exact h
    · exact absurd q (habs _ hlt y h)
  obtain ⟨i1, hA, h0⟩ := insertAt_spec inv hl ha hT hempty hprev
  refine ⟨_, by simp only [insert, hl, e, Res.ok_bind, Res.pure_eq], i1, rfl, rfl, rfl, ?_⟩
  intro b hb
  constructor
  · rintro ⟨i, hi, e⟩
    rw [hA] at e
    split at e
    · exact .inl e.symm
    · exact .inr ⟨i, hi, e⟩
  · rintro (rfl | ⟨i, hi, e⟩)
    · exact ⟨_, hlt, by rw [hA]; simp⟩
    · refine ⟨i, hi, ?_⟩
      rw [hA, if_neg, e]
      rintro rfl
      rw [h0] at e; exact hb e.symm

/-- number of addresses in a list of slots -/
def occ (as : List Nat) : Nat := as.countP (fun a => a ≠ 0)

theorem occ_cons (a : Nat) (as : List Nat) : occ (a :: as) = occ as + if a ≠ 0 then 1 else 0 := by
  simp [occ, List.countP_cons]

theorem reinsert_spec {o : Ops ι} (as : List Nat) {t : HC ι} (inv : Inv o t)
    (hval : ∀ a ∈ as, a ≠ 0 → ∃ x, load t a = some x)
    (hroom : t.size + occ as ≤ t.capacity)
    (hpw : as.Pairwise fun a b => a ≠ 0 → b ≠ 0 → ∀ x y, load t a = some x → load t b = some y → ¬ o.equalf x y = true)
    (habs : ∀ a ∈ as, a ≠ 0 → ∀ x, load t a = some x → Absent o t x) :
    ∃ t', reinsert o as t = .ok t' ∧ Inv o t' ∧ t'.heap = t.heap ∧ t'.capacity = t.capacity ∧
      t'.size = t.size + occ as ∧
      ∀ b, b ≠ 0 → ((∃ i < t'.capacity, addrAt t' i = b) ↔ (b ∈ as ∨ ∃ i < t.capacity, addrAt t i = b)) := by
  induction as generalizing t with
  | nil => exact ⟨t, rfl, inv, rfl, rfl, by simp [occ], by simp⟩
  | cons a as ih =>
    rw [occ_cons] at hroom ⊢
    obtain ⟨hhd, hpw'⟩ := List.pairwise_cons.1 hpw
    rw [reinsert]
    by_cases ha : a = 0
    · simp only [ha, ne_eq, not_true, if_false] at hroom ⊢
      obtain ⟨t', h1, h2, h3, h4, h5, h6⟩ := ih inv (fun b hb => hval b (by simp [hb])) hroom hpw'
        (fun b hb => habs b (by simp [hb]))
      refine ⟨t', h1, h2, h3, h4, h5, fun b hb => ?_⟩
      rw [h6 b hb]; simp [hb]
    · simp only [ha, ne_eq, not_false_iff, if_true] at hroom ⊢
      obtain ⟨x, hx⟩ := hval a (by simp) ha
      have hle : a ≤ t.heap.length := by
        unfold load at hx
        rw [if_neg ha] at hx
        have := (List.getElem?_eq_some_iff.1 hx).1
        omega
      obtain ⟨t1, e1, i1, h1, c1, s1, m1⟩ := insert_spec inv hx hle (by omega) (habs a (by simp) ha x hx)
      have hload : ∀ b, load t1 b = load t b := by intro b; unfold load; rw [h1]
      have habs' : ∀ b ∈ as, b ≠ 0 → ∀ y, load t1 b = some y → Absent o t1 y := by
        intro b hb b0 y hy i hi z hz hq
        rw [hload] at hy
        unfold key at hz
        rw [hload] at hz
        have ha0 : addrAt t1 i ≠ 0 := by intro h0; rw [h0] at hz; simp [load] at hz
        rcases (m1 _ ha0).1 ⟨i, hi, rfl⟩ with h | ⟨j, hj, h⟩
        · rw [h] at hz
          exact hhd b hb ha b0 z y hz hy hq
        · rw [← h] at hz
          exact habs b (by simp [hb]) b0 y hy j hj z hz hq
      obtain ⟨t2, e2, i2, h2, c2, s2, m2⟩ := ih i1 (fun b hb b0 => by rw [hload]; exact hval b (by simp [hb]) b0)
        (by omega) (hpw'.imp fun {a b} h a0 b0 x y hx hy => h a0 b0 x y (by rw [← hload]; exact hx)
          (by rw [← hload]; exact hy)) habs'
      refine ⟨t2, by rw [e1, Res.ok_bind, e2], i2, h2.trans h1, c2.trans c1, by omega, fun b hb => ?_⟩
      rw [m2 b hb, m1 b hb, List.mem_cons]
      tauto

theorem inv_fresh {o : Ops ι} (t : HC ι) {c : Nat} (hp : c.Prime) (h4 : 4 ≤ c) : Inv o (hcInitialize t c) := by
  have hz : ∀ i, addrAt (hcInitialize t c) i = 0 := by
    intro i
    simp only [addrAt, hcInitialize, List.getElem?_replicate]
    split <;> rfl
  refine ⟨⟨hp, h4, by simp [hcInitialize], ?_, ?_⟩, ?_⟩
  · simp only [hcInitialize]
    symm
    rw [List.countP_eq_zero]
    intro a ha
    rw [List.eq_of_mem_replicate ha]; simp
  · intro a ha
    simp only [hcInitialize] at ha
    rw [List.eq_of_mem_replicate ha]; exact Nat.zero_le _
  · intro i _ k hk
    simp [key, hz, load] at hk

/-- what a call of `hash_cons_get` guarantees -/
structure Step (o : Ops ι) (t t' : HC ι) (x : ι) (a : Nat) : Prop where
  inv : Inv o t'
  load : 2 * t'.size ≤ t'.capacity
  canon : Canon o t' x a
  keep : ∀ y b, Canon o t y b → Canon o t' y b
  heap : t.heap <+: t'.heap

theorem canon_iff {o : Ops ι} {t : HC ι} {x : ι} {a : Nat} :
    Canon o t x a ↔ a ≠ 0 ∧ (∃ i < t.capacity, addrAt t i = a) ∧ ∃ y, load t a = some y ∧ o.equalf y x = true := by
  constructor
  · rintro ⟨i, hi, e, y, hy, q⟩
    exact ⟨by rintro rfl; simp [load] at hy, ⟨i, hi, e⟩, y, hy, q⟩
  · rintro ⟨_, ⟨i, hi, e⟩, h⟩
    exact ⟨i, hi, e, h⟩

theorem load_prefix {t t' : HC ι} (h : t.heap <+: t'.heap) {a : Nat} {y : ι} (hy : load t a = some y) :
    load t' a = some y := by
  unfold load at *
  split at hy
  · cases hy
  · rename_i h0
    rw [if_neg h0]
    obtain ⟨s, hs⟩ := h
    rw [← hs, List.getElem?_append_left (List.getElem?_eq_some_iff.1 hy).1]
    exact hy

theorem get_spec_inited {o : Ops ι} (ol : o.Lawful) {ntp : Nat → Res Nat} (hn : NtpOk ntp) {t t' : HC ι}
    (inv : Inv o t) (hload : 2 * t.size ≤ t.capacity) {x : ι} {a : Nat} (hne : t.table ≠ [])
    (h : hashConsGet o ntp t x = .ok (a, t')) : Step o t t' x a := by
  have h4 := inv.lay.five
  obtain ⟨T, hT, e, hstop, hprev⟩ := candidateIndex_spec o inv.lay (by omega) x
  have hlt : slot t.capacity (o.hashf x) T < t.capacity := slot_lt inv.lay.prime.pos
  unfold hashConsGet at h
  simp only [if_neg hne] at h
  rw [e, Res.ok_bind] at h
  by_cases h0 : addrAt t (slot t.capacity (o.hashf x) T) = 0
  · have hempty : key t (slot t.capacity (o.hashf x) T) = none := (key_none inv.lay hlt).2 h0
    have habs := absent_of_stop ol inv hempty hprev
    simp only [h0, ne_eq, not_true, if_false] at h
    -- the table with the new object in the heap
    set t1 : HC ι := { t with heap := t.heap ++ [x] } with ht1
    have hk1 : ∀ i < t.capacity, key t1 i = key t i := by
      intro i hi
      unfold key
      have : addrAt t1 i = addrAt t i := rfl
      rw [this]
      have hv := inv.lay.valid _ (addrAt_mem (t := t) (i := i) (by rw [inv.lay.len]; exact hi))
      unfold load
      split
      · rfl
      · rw [ht1, List.getElem?_append_left (by omega)]
    have inv1 : Inv o t1 := by
      refine ⟨⟨inv.lay.prime, inv.lay.five, inv.lay.len, inv.lay.size, fun a ha => ?_⟩, ?_⟩
      · have := inv.lay.valid a ha
        simp [ht1]; omega
      · intro i hi k hk
        rw [hk1 i hi] at hk
        obtain ⟨t2, a2, b2, c2⟩ := inv.chain i hi k hk
        refine ⟨t2, a2, b2, fun t' ht' => ?_⟩
        obtain ⟨k', hk', nk'⟩ := c2 t' ht'
        refine ⟨k', ?_, nk'⟩
        rw [← hk']; exact hk1 _ (slot_lt inv.lay.prime.pos)
    have hla : load t1 (t.heap.length + 1) = some x := by
      simp [load, ht1]
    have hem1 : key t1 (slot t1.capacity (o.hashf x) T) = none := by
      rw [← hempty]; exact hk1 _ hlt
    obtain ⟨i2, hA, _⟩ := insertAt_spec (o := o) inv1 hla (by simp [ht1]) hT hem1 (fun t' ht' => by
      obtain ⟨y, hy, ny⟩ := hprev t' ht'
      exact ⟨y, by rw [← hy]; exact hk1 _ (slot_lt inv.lay.prime.pos), ny⟩)
    set t2 := insertAt t1 (t.heap.length + 1) (slot t.capacity (o.hashf x) T) with ht2
    have hpre : t.heap <+: t2.heap := ⟨[x], rfl⟩
    have hA' : ∀ j, addrAt t2 j = if j = slot t.capacity (o.hashf x) T then t.heap.length + 1 else addrAt t j := hA
    have hmem2 : ∀ b, b ≠ 0 → ((∃ i < t2.capacity, addrAt t2 i = b) ↔
        (b = t.heap.length + 1 ∨ ∃ i < t.capacity, addrAt t i = b)) := by
      intro b hb
      constructor
      · rintro ⟨i, hi, e⟩
        rw [hA'] at e
        split at e
        · exact .inl e.symm
        · exact .inr ⟨i, hi, e⟩
      · rintro (rfl | ⟨i, hi, e⟩)
        · exact ⟨_, hlt, by rw [hA']; simp⟩
        · refine ⟨i, hi, ?_⟩
          rw [hA', if_neg, e]
          rintro rfl
          rw [h0] at e; exact hb e.symm
    have hcanon2 : Canon o t2 x (t.heap.length + 1) :=
      canon_iff.2 ⟨by omega, (hmem2 _ (by omega)).2 (.inl rfl), x, hla, ol.refl x⟩
    have hkeep2 : ∀ y b, Canon o t y b → Canon o t2 y b := by
      intro y b hb
      obtain ⟨b0, hi, z, hz, q⟩ := canon_iff.1 hb
      exact canon_iff.2 ⟨b0, (hmem2 b b0).2 (.inr hi), z, load_prefix hpre hz, q⟩
    by_cases hfull : t2.capacity < 2 * t2.size
    · simp only [hfull, if_true] at h
      rw [Res.bind_eq_ok] at h
      obtain ⟨c, hc, h⟩ := h
      rw [Res.bind_eq_ok] at h
      obtain ⟨t3, h3, h⟩ := h
      simp only [Res.pure_eq, Res.ok.injEq, Prod.mk.injEq] at h
      obtain ⟨rfl, ht'⟩ := h
      obtain ⟨hc1, hc2, hc3, hc4⟩ := hn _ _ hc
      have hc5 := hc4.two_le
      have inv0 : Inv o (hcInitialize t2 c) := inv_fresh t2 hc2 (by omega)
      have hl0 : ∀ b, load (hcInitialize t2 c) b = load t2 b := fun _ => rfl
      have hz : ∀ i, addrAt (hcInitialize t2 c) i = 0 := by
        intro i
        simp only [addrAt, hcInitialize, List.getElem?_replicate]
        split <;> rfl
      have hsz2 : t2.size = t.size + 1 := rfl
      have hcap2 : t2.capacity = t.capacity := rfl
      have hocc : occ t2.table = t2.size := i2.lay.size.symm
      obtain ⟨t4, e4, i4, h4', c4, s4, m4⟩ := reinsert_spec (o := o) t2.table inv0
        (by
          intro a ha a0
          have := i2.lay.valid a ha
          rw [hl0]
          rcases hl : load t2 a with _ | y
          · exact absurd ((load_none this).1 hl) a0
          · exact ⟨y, rfl⟩)
        (by rw [hocc]; simp only [hcInitialize]; omega)
        (by
          rw [List.pairwise_iff_getElem]
          intro i j hi hj hij a0 b0 y z hy hz hq
          rw [hl0] at hy hz
          have : i = j := i2.chain.unique ol.symm ol.hash (by rw [← i2.lay.len]; exact hi)
            (by rw [← i2.lay.len]; exact hj) (by rw [key, addrAt_getElem hi, hy])
            (by rw [key, addrAt_getElem hj, hz]) hq
          omega)
        (by
          intro a _ _ y _ i _ z hz' _
          simp [key, hz, load] at hz')
      unfold resize at h3
      rw [e4] at h3
      have ht4 : t4 = t' := (Res.ok.inj h3).trans ht'
      rw [← ht4]
      have hpre4 : t2.heap <+: t4.heap := by rw [h4']; exact List.prefix_refl _
      have hmem4 : ∀ b, b ≠ 0 → (∃ i < t2.capacity, addrAt t2 i = b) → ∃ i < t4.capacity, addrAt t4 i = b := by
        rintro b hb ⟨i, hi, rfl⟩
        refine (m4 _ hb).2 (.inl (addrAt_mem (by rw [i2.lay.len]; exact hi)))
      have hkeep4 : ∀ y b, Canon o t2 y b → Canon o t4 y b := by
        intro y b hb
        obtain ⟨b0, hi, z, hz, q⟩ := canon_iff.1 hb
        exact canon_iff.2 ⟨b0, hmem4 b b0 hi, z, load_prefix hpre4 hz, q⟩
      refine ⟨i4, ?_, hkeep4 _ _ hcanon2, fun y b hb => hkeep4 _ _ (hkeep2 _ _ hb), hpre.trans hpre4⟩
      rw [c4, s4, hocc]
      simp only [hcInitialize]
      omega
    · simp only [hfull, if_false] at h
      simp only [Res.pure_eq, Res.ok.injEq, Prod.mk.injEq] at h
      obtain ⟨rfl, rfl⟩ := h
      exact ⟨i2, by omega, hcanon2, hkeep2, hpre⟩
  · simp only [h0, ne_eq, not_false_iff, if_true, Res.pure_eq, Res.ok.injEq, Prod.mk.injEq] at h
    obtain ⟨rfl, rfl⟩ := h
    refine ⟨inv, hload, ?_, fun _ _ h => h, List.prefix_refl _⟩
    rcases hstop with h | ⟨y, h, q⟩
    · exact absurd ((key_none inv.lay hlt).1 h) h0
    · exact ⟨_, hlt, rfl, y, h, q⟩

/-- states of a table: not yet allocated, or satisfying the invariant -/
def Good (o : Ops ι) (t : HC ι) : Prop :=
  t.table = [] ∧ t.capacity = 0 ∨ t.table ≠ [] ∧ Inv o t ∧ 2 * t.size ≤ t.capacity

theorem good_init (o : Ops ι) : Good o (HC.init ι) := .inl ⟨rfl, rfl⟩

theorem Step.good {o : Ops ι} {t t' : HC ι} {x : ι} {a : Nat} (s : Step o t t' x a) : Good o t' := by
  refine .inr ⟨?_, s.inv, s.load⟩
  intro h
  have h1 := s.inv.lay.len
  have h2 := s.inv.lay.five
  rw [h] at h1
  simp at h1
  omega

theorem get_spec {o : Ops ι} (ol : o.Lawful) {ntp : Nat → Res Nat} (hn : NtpOk ntp) {t t' : HC ι}
    (g : Good o t) {x : ι} {a : Nat} (h : hashConsGet o ntp t x = .ok (a, t')) : Step o t t' x a := by
  rcases g with ⟨h0, h0'⟩ | ⟨h0, inv, hl⟩
  · have i1 : Inv o (hcInitialize t initialBaseSize) := inv_fresh t (by norm_num [initialBaseSize]) (by unfold initialBaseSize; omega)
    have hne : (hcInitialize t initialBaseSize).table ≠ [] := by simp [hcInitialize, initialBaseSize]
    have h' : hashConsGet o ntp (hcInitialize t initialBaseSize) x = .ok (a, t') := by
      rw [← h]
      unfold hashConsGet
      simp only [h0, if_true, if_neg hne]
    have s := get_spec_inited ol hn i1 (by simp [hcInitialize]) hne h'
    refine ⟨s.inv, s.load, s.canon, fun y b hb => ?_, s.heap⟩
    obtain ⟨_, ⟨i, hi, _⟩, _⟩ := canon_iff.1 hb
    omega
  · exact get_spec_inited ol hn inv hl h0 h

theorem get_total_inited {o : Ops ι} (ol : o.Lawful) {ntp : Nat → Res Nat} (hn : NtpOk ntp) {t : HC ι}
    (inv : Inv o t) (hload : 2 * t.size ≤ t.capacity) (x : ι) (hne : t.table ≠ [])
    (hntp : ∃ c, ntp (2 * t.capacity + 1) = .ok c) : ∃ r, hashConsGet o ntp t x = .ok r := by
  have h4 := inv.lay.five
  obtain ⟨T, hT, e, hstop, hprev⟩ := candidateIndex_spec o inv.lay (by omega) x
  have hlt : slot t.capacity (o.hashf x) T < t.capacity := slot_lt inv.lay.prime.pos
  unfold hashConsGet
  simp only [if_neg hne]
  rw [e, Res.ok_bind]
  by_cases h0 : addrAt t (slot t.capacity (o.hashf x) T) = 0
  · have hempty : key t (slot t.capacity (o.hashf x) T) = none := (key_none inv.lay hlt).2 h0
    simp only [h0, ne_eq, not_true, if_false]
    set t1 : HC ι := { t with heap := t.heap ++ [x] } with ht1
    have hk1 : ∀ i < t.capacity, key t1 i = key t i := by
      intro i hi
      unfold key
      have : addrAt t1 i = addrAt t i := rfl
      rw [this]
      have hv := inv.lay.valid _ (addrAt_mem (t := t) (i := i) (by rw [inv.lay.len]; exact hi))
      unfold load
      split
      · rfl
      · rw [ht1, List.getElem?_append_left (by omega)]
    have inv1 : Inv o t1 := by
      refine ⟨⟨inv.lay.prime, inv.lay.five, inv.lay.len, inv.lay.size, fun a ha => ?_⟩, ?_⟩
      · have := inv.lay.valid a ha
        simp [ht1]; omega
      · intro i hi k hk
        rw [hk1 i hi] at hk
        obtain ⟨t2, a2, b2, c2⟩ := inv.chain i hi k hk
        refine ⟨t2, a2, b2, fun t' ht' => ?_⟩
        obtain ⟨k', hk', nk'⟩ := c2 t' ht'
        refine ⟨k', ?_, nk'⟩
        rw [← hk']; exact hk1 _ (slot_lt inv.lay.prime.pos)
    have hla : load t1 (t.heap.length + 1) = some x := by
      simp [load, ht1]
    have hem1 : key t1 (slot t1.capacity (o.hashf x) T) = none := by
      rw [← hempty]; exact hk1 _ hlt
    obtain ⟨i2, hA, _⟩ := insertAt_spec (o := o) inv1 hla (by simp [ht1]) hT hem1 (fun t' ht' => by
      obtain ⟨y, hy, ny⟩ := hprev t' ht'
      exact ⟨y, by rw [← hy]; exact hk1 _ (slot_lt inv.lay.prime.pos), ny⟩)
    set t2 := insertAt t1 (t.heap.length + 1) (slot t.capacity (o.hashf x) T) with ht2
    by_cases hfull : t2.capacity < 2 * t2.size
    · simp only [hfull, if_true]
      obtain ⟨c, hc⟩ := hntp
      have hcap2 : t2.capacity = t.capacity := rfl
      rw [hcap2, hc, Res.ok_bind]
      obtain ⟨hc1, hc2, hc3, hc4⟩ := hn _ _ hc
      have hc5 := hc4.two_le
      have inv0 : Inv o (hcInitialize t2 c) := inv_fresh t2 hc2 (by omega)
      have hl0 : ∀ b, load (hcInitialize t2 c) b = load t2 b := fun _ => rfl
      have hz : ∀ i, addrAt (hcInitialize t2 c) i = 0 := by
        intro i
        simp only [addrAt, hcInitialize, List.getElem?_replicate]
        split <;> rfl
      have hsz2 : t2.size = t.size + 1 := rfl
      have hocc : occ t2.table = t2.size := i2.lay.size.symm
      obtain ⟨t4, e4, i4, h4', c4, s4, m4⟩ := reinsert_spec (o := o) t2.table inv0
        (by
          intro a ha a0
          have := i2.lay.valid a ha
          rw [hl0]
          rcases hl : load t2 a with _ | y
          · exact absurd ((load_none this).1 hl) a0
          · exact ⟨y, rfl⟩)
        (by rw [hocc]; simp only [hcInitialize]; omega)
        (by
          rw [List.pairwise_iff_getElem]
          intro i j hi hj hij a0 b0 y z hy hz hq
          rw [hl0] at hy hz
          have : i = j := i2.chain.unique ol.symm ol.hash (by rw [← i2.lay.len]; exact hi)
            (by rw [← i2.lay.len]; exact hj) (by rw [key, addrAt_getElem hi, hy])
            (by rw [key, addrAt_getElem hj, hz]) hq
          omega)
        (by
          intro a _ _ y _ i _ z hz' _
          simp [key, hz, load] at hz')
      unfold resize
      rw [e4]
      exact ⟨_, rfl⟩
    · simp only [hfull, if_false]
      exact ⟨_, rfl⟩
  · simp only [h0, ne_eq, not_false_iff, if_true]
    exact ⟨_, rfl⟩

theorem get_total {o : Ops ι} (ol : o.Lawful) {ntp : Nat → Res Nat} (hn : NtpOk ntp) {t : HC ι}
    (g : Good o t) (x : ι)
    (hntp : ∃ c, ntp (2 * (if t.table = [] then 61 else t.capacity) + 1) = .ok c) :
    ∃ r, hashConsGet o ntp t x = .ok r := by
  rcases g with ⟨h0, h0'⟩ | ⟨h0, inv, hl⟩
  · have i1 : Inv o (hcInitialize t initialBaseSize) := inv_fresh t (by norm_num [initialBaseSize]) (by unfold initialBaseSize; omega)
    have hne : (hcInitialize t initialBaseSize).table ≠ [] := by simp [hcInitialize, initialBaseSize]
    rw [if_pos h0] at hntp
    obtain ⟨r, hr⟩ := get_total_inited ol hn i1 (by simp [hcInitialize]) x hne hntp
    refine ⟨r, ?_⟩
    rw [← hr]
    unfold hashConsGet
    simp only [h0, if_true, if_neg hne]
  · rw [if_neg h0] at hntp
    exact get_total_inited ol hn inv hl x h0 hntp

end Aps.HashCons
