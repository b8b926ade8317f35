import Verif.Proofs.Probe
import Mathlib.Data.List.Basic
/-! Invariants of hashtable.c. -/
namespace Aps.HashTable

/-- What the C code needs of the two function pointers: on non-NULL keys `equalf` is an equivalence
compatible with `hashf`, and NULL is not equal to a non-NULL key. -/
structure Ops.Lawful (o : Ops) : Prop where
  refl : ∀ a, a ≠ 0 → o.equalf a a = true
  symm : ∀ a b, a ≠ 0 → b ≠ 0 → o.equalf a b = true → o.equalf b a = true
  trans : ∀ a b c, a ≠ 0 → b ≠ 0 → c ≠ 0 → o.equalf a b = true → o.equalf b c = true → o.equalf a c = true
  hash : ∀ a b, a ≠ 0 → b ≠ 0 → o.equalf a b = true → o.hashf a = o.hashf b
  null : ∀ b, b ≠ 0 → o.equalf 0 b = false

/-- What is used of `next_twin_prime`: a result is a prime at least as large as the argument whose
predecessor by two is prime too. -/
def NtpOk (ntp : Nat → Res Nat) : Prop :=
  ∀ p r, ntp p = .ok r → p ≤ r ∧ r.Prime ∧ 2 ≤ r ∧ (r - 2).Prime

/-- Layout invariant, kept by every operation including removal. -/
structure Wf (t : HT) : Prop where
  prime : t.capacity.Prime
  five : 4 ≤ t.capacity
  len : t.table.length = t.capacity
  size : t.size = t.table.countP (fun e => e.key ≠ 0)
  load : 2 * t.size ≤ t.capacity

/-- The key of slot `i`, `none` for NULL. -/
def key? (t : HT) (i : Nat) : Option Nat := if keyAt t i = 0 then none else some (keyAt t i)

theorem key?_some {t : HT} {i k : Nat} : key? t i = some k ↔ keyAt t i = k ∧ k ≠ 0 := by
  unfold key?; split
  · constructor
    · intro h; cases h
    · rintro ⟨rfl, h⟩; contradiction
  · constructor
    · intro h; cases h; exact ⟨rfl, by assumption⟩
    · rintro ⟨rfl, h⟩; rfl

theorem key?_none {t : HT} {i : Nat} : key? t i = none ↔ keyAt t i = 0 := by
  unfold key?; split <;> simp_all

theorem exists_empty {t : HT} (w : Wf t) : ∃ j < t.capacity, keyAt t j = 0 := by
  have hp := w.prime.pos
  have h1 := w.size
  have h2 := w.load
  have h3 := w.len
  by_contra hne
  push Not at hne
  have : t.table.countP (fun e => e.key ≠ 0) = t.table.length := by
    rw [List.countP_eq_length]
    intro e he
    obtain ⟨j, hj, rfl⟩ := List.mem_iff_getElem.1 he
    have := hne j (by omega)
    unfold keyAt at this
    rw [List.getElem?_eq_getElem hj] at this
    simpa using this
  omega

/-- where the probing of a key stops -/
theorem candidateIndex_spec (o : Ops) {t : HT} (w : Wf t) (k : Nat) :
    ∃ T < t.capacity, candidateIndex o t k = .ok (slot t.capacity (o.hashf k) T) ∧
      (keyAt t (slot t.capacity (o.hashf k) T) = 0 ∨
        o.equalf (keyAt t (slot t.capacity (o.hashf k) T)) k = true) ∧
      ∀ t' < T, keyAt t (slot t.capacity (o.hashf k) t') ≠ 0 ∧
        o.equalf (keyAt t (slot t.capacity (o.hashf k) t')) k = false := by
  obtain ⟨j, hj, hj0⟩ := exists_empty w
  have h4 := w.five
  obtain ⟨T0, hT0, hs0⟩ := slot_cover (o.hashf k) w.prime (by omega) hj
  unfold candidateIndex
  have hcap : ¬ (t.capacity = 0 ∨ t.capacity = 2) := by omega
  simp only [hcap, if_false]
  generalize hst : (fun i => keyAt t i == 0 || o.equalf (keyAt t i) k) = stop
  have hmod : o.hashf k % t.capacity = (o.hashf k % t.capacity) % t.capacity := by simp
  rcases hpr : probe stop t.capacity (o.hashf k % (t.capacity - 2) + 1) t.capacity
      (o.hashf k % t.capacity) with _ | i
  · rw [hmod, probe_eq_none] at hpr
    have := hpr T0 hT0
    unfold slot at hs0
    rw [hs0, ← hst] at this
    simp [hj0] at this
  · rw [hmod, probe_eq_some] at hpr
    obtain ⟨T, hT, e1, e2, e3⟩ := hpr
    refine ⟨T, hT, by rw [e1]; rfl, ?_, fun t' ht' => ?_⟩
    · change keyAt t ((_ + T * _) % t.capacity) = 0 ∨ _
      unfold slot
      rw [← e1]
      rw [← hst] at e2
      simpa using e2
    · have := e3 t' ht'
      rw [← hst] at this
      unfold slot
      simpa using this

theorem keyAt_set {t : HT} {i j k v s : Nat} (hi : i < t.table.length) :
    keyAt { t with table := t.table.set i ⟨k, v⟩, size := s } j = if j = i then k else keyAt t j := by
  unfold keyAt
  by_cases h : j = i
  · subst h; simp [hi]
  · simp [List.getElem?_set_ne (Ne.symm h), h]

theorem valueAt_set {t : HT} {i j k v s : Nat} (hi : i < t.table.length) :
    valueAt { t with table := t.table.set i ⟨k, v⟩, size := s } j = if j = i then v else valueAt t j := by
  unfold valueAt
  by_cases h : j = i
  · subst h; simp [hi]
  · simp [List.getElem?_set_ne (Ne.symm h), h]

theorem countP_set {l : List Entry} {i : Nat} (hi : i < l.length) (e : Entry) :
    (l.set i e).countP (fun e => e.key ≠ 0) + (if l[i].key ≠ 0 then 1 else 0) =
      l.countP (fun e => e.key ≠ 0) + (if e.key ≠ 0 then 1 else 0) := by
  induction l generalizing i with
  | nil => simp at hi
  | cons a l ih =>
    cases i with
    | zero => simp [List.countP_cons]; omega
    | succ i =>
      have := ih (i := i) (by simpa using hi)
      simp only [List.set_cons_succ, List.countP_cons, List.getElem_cons_succ]
      simp only [ne_eq, decide_not, Bool.not_eq_true', decide_eq_false_iff_not] at this ⊢
      omega

theorem keyAt_getElem {t : HT} {i : Nat} (h : i < t.table.length) : keyAt t i = t.table[i].key := by
  simp [keyAt, h]

theorem valueAt_getElem {t : HT} {i : Nat} (h : i < t.table.length) : valueAt t i = t.table[i].value := by
  simp [valueAt, h]

/-! ### The body of `add_or_update` after the resize -/

/-- lines 114-121 -/
def put (o : Ops) (t : HT) (key value : Nat) : Res HT := do
  let i ← candidateIndex o t key
  if o.equalf (keyAt t i) key then
    return { t with table := t.table.set i ⟨keyAt t i, value⟩ }
  else
    return insertAt t key value i

theorem addOrUpdate_noresize (o : Ops) (ntp : Nat → Res Nat) (d : Nat) (t : HT) (k v : Nat) (hk : k ≠ 0)
    (h : 2 * (t.size + 1) ≤ t.capacity) : addOrUpdate o ntp (d + 1) t k v = put o t k v := by
  rw [addOrUpdate]
  simp only [hk, if_false, Nat.not_lt.2 h, Res.ok_bind, put]

theorem put_wf (o : Ops) {t : HT} (w : Wf t) {k v : Nat} (hk : k ≠ 0) (h : 2 * (t.size + 1) ≤ t.capacity) :
    ∃ t', put o t k v = .ok t' ∧ Wf t' ∧ t'.capacity = t.capacity ∧ t'.size ≤ t.size + 1 := by
  obtain ⟨T, hT, e, hstop, _⟩ := candidateIndex_spec o w k
  have hlt : slot t.capacity (o.hashf k) T < t.table.length := by
    rw [w.len]; exact slot_lt w.prime.pos
  unfold put
  rw [e, Res.ok_bind]
  generalize slot t.capacity (o.hashf k) T = i at *
  have hka := keyAt_getElem hlt
  by_cases hq : o.equalf (keyAt t i) k = true
  · simp only [hq, if_true, Res.pure_eq]
    refine ⟨_, rfl, ⟨w.prime, w.five, by simpa using w.len, ?_, w.load⟩, rfl, by simp⟩
    have := countP_set hlt ⟨keyAt t i, v⟩
    have hs := w.size
    simp only [hka] at this ⊢
    rw [hs]
    simp only [ne_eq, decide_not, Bool.not_eq_true', decide_eq_false_iff_not] at this ⊢
    omega
  · simp only [hq]
    have h0 : keyAt t i = 0 := hstop.resolve_right hq
    refine ⟨insertAt t k v i, rfl, ⟨w.prime, w.five, by simpa [insertAt] using w.len, ?_, ?_⟩, rfl, by simp [insertAt]⟩
    · have := countP_set hlt ⟨k, v⟩
      have hs := w.size
      simp only [insertAt]
      rw [hs]
      rw [hka] at h0
      simp only [h0, hk, ne_eq, not_true, not_false_iff, if_true, if_false] at this
      simpa using this.symm
    · simp only [insertAt]; omega

/-! ### Refinement to a map -/

/-- equality of non-NULL keys -/
def Ops.eq (o : Ops) (a b : Nat) : Prop := a ≠ 0 ∧ b ≠ 0 ∧ o.equalf a b = true

structure Inv (o : Ops) (t : HT) : Prop where
  wf : Wf t
  chain : Chain t.capacity (key? t) o.hashf o.eq

/-- `t` represents the map `m` (on non-NULL keys). -/
def Rep (o : Ops) (t : HT) (m : Nat → Option Nat) : Prop :=
  ∀ k, k ≠ 0 → ∀ v, m k = some v ↔
    ∃ i < t.capacity, keyAt t i ≠ 0 ∧ o.equalf (keyAt t i) k = true ∧ valueAt t i = v

/-- map update -/
def upd (o : Ops) (m : Nat → Option Nat) (k v : Nat) : Nat → Option Nat :=
  fun k' => if o.equalf k k' = true then some v else m k'

theorem found_iff {o : Ops} (ol : o.Lawful) {t : HT} (inv : Inv o t) {k : Nat} (hk : k ≠ 0) {T : Nat}
    (hstop : keyAt t (slot t.capacity (o.hashf k) T) = 0 ∨
        o.equalf (keyAt t (slot t.capacity (o.hashf k) T)) k = true)
    (hprev : ∀ t' < T, keyAt t (slot t.capacity (o.hashf k) t') ≠ 0 ∧
        o.equalf (keyAt t (slot t.capacity (o.hashf k) t')) k = false)
    {i : Nat} (hi : i < t.capacity) (h0 : keyAt t i ≠ 0) (hq : o.equalf (keyAt t i) k = true) :
    i = slot t.capacity (o.hashf k) T := by
  obtain ⟨t1, ht1, e1, c1⟩ := inv.chain i hi (keyAt t i) (key?_some.2 ⟨rfl, h0⟩)
  have hh := ol.hash _ _ h0 hk hq
  rw [hh] at e1 c1
  rcases Nat.lt_trichotomy t1 T with h | h | h
  · have := (hprev t1 h).2
    rw [e1, hq] at this; cases this
  · rw [← e1, h]
  · obtain ⟨k', hk', hne⟩ := c1 T h
    obtain ⟨hk1, hk2⟩ := key?_some.1 hk'
    rcases hstop with h | h
    · rw [h] at hk1; exact absurd hk1.symm hk2
    · rw [hk1] at h
      exact absurd ⟨hk2, h0, ol.trans _ _ _ hk2 hk h0 h (ol.symm _ _ h0 hk hq)⟩ hne

theorem get_spec {o : Ops} (ol : o.Lawful) {t : HT} (inv : Inv o t) {m} (rep : Rep o t m) {k : Nat}
    (hk : k ≠ 0) : get o t k = .ok ((m k).getD 0) ∧ contains o t k = .ok (m k).isSome := by
  obtain ⟨T, hT, e, hstop, hprev⟩ := candidateIndex_spec o inv.wf k
  unfold get contains
  rw [e]
  simp only [Res.ok_bind, Res.pure_eq, Res.ok.injEq]
  have hlt : slot t.capacity (o.hashf k) T < t.capacity := slot_lt inv.wf.prime.pos
  by_cases hq : o.equalf (keyAt t (slot t.capacity (o.hashf k) T)) k = true
  · have h0 : keyAt t (slot t.capacity (o.hashf k) T) ≠ 0 := by
      intro h0; rw [h0, ol.null k hk] at hq; cases hq
    have := (rep k hk _).2 ⟨_, hlt, h0, hq, rfl⟩
    simp [hq, this]
  · have hn : m k = none := by
      rcases hm : m k with _ | v
      · rfl
      · obtain ⟨i, hi, h0, hqi, _⟩ := (rep k hk v).1 hm
        rw [found_iff ol inv hk hstop hprev hi h0 hqi] at hqi
        exact absurd hqi hq
    simp [hq, hn]

theorem put_spec {o : Ops} (ol : o.Lawful) {t : HT} (inv : Inv o t) {m} (rep : Rep o t m) {k v : Nat}
    (hk : k ≠ 0) (hroom : 2 * (t.size + 1) ≤ t.capacity) :
    ∃ t', put o t k v = .ok t' ∧ Inv o t' ∧ Rep o t' (upd o m k v) ∧ t'.capacity = t.capacity ∧
      t'.size ≤ t.size + 1 := by
  obtain ⟨t', hput, w', hcap, hsz⟩ := put_wf o inv.wf (v := v) hk hroom
  refine ⟨t', hput, ?_, ?_, hcap, hsz⟩
  all_goals
    obtain ⟨T, hT, e, hstop, hprev⟩ := candidateIndex_spec o inv.wf k
    have hlt : slot t.capacity (o.hashf k) T < t.capacity := slot_lt inv.wf.prime.pos
    have hlt' : slot t.capacity (o.hashf k) T < t.table.length := by rw [inv.wf.len]; exact hlt
    have hfound := fun i => @found_iff o ol t inv k hk T hstop hprev i
    unfold put at hput
    rw [e, Res.ok_bind] at hput
  · -- invariant
    refine ⟨w', ?_⟩
    by_cases hq : o.equalf (keyAt t (slot t.capacity (o.hashf k) T)) k = true
    · simp only [hq, if_true, Res.pure_eq, Res.ok.injEq] at hput
      have hkey : key? t' = key? t := by
        funext j
        rw [← hput]
        unfold key?
        rw [keyAt_set hlt']
        split_ifs <;> simp_all
      rw [hkey, hcap]; exact inv.chain
    · simp only [hq] at hput
      have h0 := hstop.resolve_right hq
      have ht' : insertAt t k v (slot t.capacity (o.hashf k) T) = t' := by simpa using hput
      rw [hcap]
      refine inv.chain.insert (k := k) hT (key?_none.2 h0) (fun t1 ht1 => ?_) ?_ ?_
      · obtain ⟨a, b⟩ := hprev t1 ht1
        exact ⟨_, key?_some.2 ⟨rfl, a⟩, fun hh => by rw [hh.2.2] at b; cases b⟩
      · rw [key?_some, ← ht', insertAt, keyAt_set hlt']; simp [hk]
      · intro i hi
        unfold key?
        rw [← ht', insertAt, keyAt_set hlt']; simp [hi]
  · intro k' hk' v'
    unfold upd
    by_cases hq : o.equalf (keyAt t (slot t.capacity (o.hashf k) T)) k = true
    · simp only [hq, if_true, Res.pure_eq, Res.ok.injEq] at hput
      have h0 : keyAt t (slot t.capacity (o.hashf k) T) ≠ 0 := by
        intro h0; rw [h0, ol.null k hk] at hq; cases hq
      generalize hi : slot t.capacity (o.hashf k) T = i at *
      have hK : ∀ j, keyAt t' j = keyAt t j := by
        intro j; rw [← hput, keyAt_set hlt']; split_ifs <;> simp_all
      have hV : ∀ j, valueAt t' j = if j = i then v else valueAt t j := by
        intro j; rw [← hput, valueAt_set hlt']
      rw [hcap]
      simp only [hK, hV]
      by_cases hkk : o.equalf k k' = true
      · simp only [hkk, if_true, Option.some.injEq]
        constructor
        · rintro rfl
          exact ⟨i, hlt, h0, ol.trans _ _ _ h0 hk hk' hq hkk, by simp⟩
        · rintro ⟨j, hj, hj0, hjq, hjv⟩
          have : j = i := hfound j hj hj0 (ol.trans _ _ _ hj0 hk' hk hjq (ol.symm _ _ hk hk' hkk))
          simpa [this] using hjv
      · simp only [hkk]
        rw [if_neg (by simp)]
        rw [rep k' hk']
        refine exists_congr fun j => and_congr_right fun hj => and_congr_right fun hj0 =>
          and_congr_right fun hjq => ?_
        have : j ≠ i := by
          rintro rfl
          exact hkk (ol.trans _ _ _ hk h0 hk' (ol.symm _ _ h0 hk hq) hjq)
        simp [this]
    · simp only [hq] at hput
      have h0 := hstop.resolve_right hq
      have ht' : insertAt t k v (slot t.capacity (o.hashf k) T) = t' := by simpa using hput
      generalize hi : slot t.capacity (o.hashf k) T = i at *
      have hK : ∀ j, keyAt t' j = if j = i then k else keyAt t j := by
        intro j; rw [← ht', insertAt, keyAt_set hlt']
      have hV : ∀ j, valueAt t' j = if j = i then v else valueAt t j := by
        intro j; rw [← ht', insertAt, valueAt_set hlt']
      rw [hcap]
      simp only [hK, hV]
      by_cases hkk : o.equalf k k' = true
      · simp only [hkk, if_true, Option.some.injEq]
        constructor
        · rintro rfl
          exact ⟨i, hlt, by simp [hk], by simpa using hkk, by simp⟩
        · rintro ⟨j, hj, hj0, hjq, hjv⟩
          by_cases hji : j = i
          · simpa [hji] using hjv
          · simp only [hji, if_false] at hj0 hjq hjv
            have := hfound j hj hj0 (ol.trans _ _ _ hj0 hk' hk hjq (ol.symm _ _ hk hk' hkk))
            exact absurd this hji
      · simp only [hkk]
        rw [if_neg (by simp)]
        rw [rep k' hk']
        refine exists_congr fun j => and_congr_right fun hj => ?_
        by_cases hji : j = i
        · subst hji; simp [h0, hkk]
        · simp [hji]

/-! ### Resizing -/

/-- number of occupied slots in a list of entries -/
def occ (es : List Entry) : Nat := es.countP (fun e => e.key ≠ 0)

theorem occ_cons (e : Entry) (es : List Entry) :
    occ (e :: es) = occ es + if e.key ≠ 0 then 1 else 0 := by
  simp [occ, List.countP_cons]

/-- the map after adding the occupied entries of a list -/
def addAll (o : Ops) (m : Nat → Option Nat) (es : List Entry) : Nat → Option Nat :=
  es.foldl (fun m e => if e.key ≠ 0 then upd o m e.key e.value else m) m

theorem reinsert_wf (o : Ops) (ntp : Nat → Res Nat) (d : Nat) (es : List Entry) {t : HT} (w : Wf t)
    (hroom : 2 * (t.size + occ es) ≤ t.capacity) :
    ∃ t', reinsert (addOrUpdate o ntp (d + 1)) es t = .ok t' ∧ Wf t' ∧ t'.capacity = t.capacity ∧
      t'.size ≤ t.size + occ es := by
  induction es generalizing t with
  | nil => exact ⟨t, rfl, w, rfl, by simp [occ]⟩
  | cons e es ih =>
    rw [occ_cons] at hroom ⊢
    rw [reinsert]
    by_cases he : e.key = 0
    · simp only [he, ne_eq, not_true, if_false] at hroom ⊢
      exact ih w hroom
    · simp only [he, ne_eq, not_false_iff, if_true] at hroom ⊢
      rw [addOrUpdate_noresize o ntp d t _ _ he (by omega)]
      obtain ⟨t1, h1, h2, h3, h4⟩ := put_wf o w (v := e.value) he (by omega)
      rw [h1, Res.ok_bind]
      obtain ⟨t2, g1, g2, g3, g4⟩ := ih h2 (by omega)
      exact ⟨t2, g1, g2, by omega, by omega⟩

theorem reinsert_spec {o : Ops} (ol : o.Lawful) (ntp : Nat → Res Nat) (d : Nat) (es : List Entry) {t : HT}
    (inv : Inv o t) {m} (rep : Rep o t m) (hroom : 2 * (t.size + occ es) ≤ t.capacity) :
    ∃ t', reinsert (addOrUpdate o ntp (d + 1)) es t = .ok t' ∧ Inv o t' ∧ Rep o t' (addAll o m es) ∧
      t'.capacity = t.capacity ∧ t'.size ≤ t.size + occ es := by
  induction es generalizing t m with
  | nil => exact ⟨t, rfl, inv, rep, rfl, by simp [occ]⟩
  | cons e es ih =>
    rw [occ_cons] at hroom ⊢
    rw [reinsert]
    by_cases he : e.key = 0
    · simp only [addAll, List.foldl_cons, he, ne_eq, not_true, if_false] at hroom ⊢
      exact ih inv rep hroom
    · simp only [addAll, List.foldl_cons, he, ne_eq, not_false_iff, if_true] at hroom ⊢
      rw [addOrUpdate_noresize o ntp d t _ _ he (by omega)]
      obtain ⟨t1, h1, h2, h2', h3, h4⟩ := put_spec ol inv rep (v := e.value) he (by omega)
      rw [h1, Res.ok_bind]
      obtain ⟨t2, g1, g2, g2', g3, g4⟩ := ih h2 h2' (by omega)
      exact ⟨t2, g1, g2, g2', by omega, by omega⟩

theorem create_spec (o : Ops) {ntp : Nat → Res Nat} (hn : NtpOk ntp) {cap : Nat} {t : HT}
    (h : create ntp cap = .ok t) :
    Inv o t ∧ Rep o t (fun _ => none) ∧ t.size = 0 ∧ cap ≤ t.capacity := by
  unfold create at h
  rw [Res.bind_eq_ok] at h
  obtain ⟨c, hc, h⟩ := h
  simp only [Res.pure_eq, Res.ok.injEq] at h
  obtain ⟨h1, h2, h3, h4⟩ := hn _ _ hc
  have hkey : ∀ i, keyAt t i = 0 := by
    intro i
    rw [← h]
    unfold keyAt
    simp only [List.getElem?_replicate]
    split <;> rfl
  subst h
  refine ⟨⟨⟨h2, ?_, by simp, ?_, by simp⟩, ?_⟩, ?_, rfl, h1⟩
  · have := h4.two_le; simp only; omega
  · simp only
    symm
    rw [List.countP_eq_zero]
    intro e he
    rw [List.eq_of_mem_replicate he]; simp
  · intro i _ k hk
    rw [key?_some] at hk
    rw [hkey] at hk
    exact absurd hk.1.symm hk.2
  · intro k _ v
    simp only [reduceCtorEq, false_iff]
    rintro ⟨i, _, h0, _⟩
    exact h0 (hkey i)

theorem addAll_eq {o : Ops} (es : List Entry) (m : Nat → Option Nat) (k v : Nat)
    (hpw : es.Pairwise fun a b => a.key ≠ 0 → b.key ≠ 0 → ¬ (o.equalf a.key k = true ∧ o.equalf b.key k = true)) :
    addAll o m es k = some v ↔
      (∃ e ∈ es, e.key ≠ 0 ∧ o.equalf e.key k = true ∧ e.value = v) ∨
      ((∀ e ∈ es, e.key ≠ 0 → o.equalf e.key k = false) ∧ m k = some v) := by
  induction es generalizing m with
  | nil => simp [addAll]
  | cons e es ih =>
    have hpw' := (List.pairwise_cons.1 hpw).2
    have hhd := (List.pairwise_cons.1 hpw).1
    simp only [addAll, List.foldl_cons]
    have := ih (if e.key ≠ 0 then upd o m e.key e.value else m) hpw'
    rw [addAll] at this
    rw [this]
    by_cases he : e.key = 0
    · simp [he]
    · simp only [ne_eq, he, not_false_iff, if_true, upd]
      by_cases hq : o.equalf e.key k = true
      · have hall : ∀ e' ∈ es, e'.key ≠ 0 → o.equalf e'.key k = false := by
          intro e' he' h0
          by_contra hc
          exact hhd e' he' he h0 ⟨hq, by simpa using hc⟩
        have hno : ¬ ∃ e' ∈ es, e'.key ≠ 0 ∧ o.equalf e'.key k = true ∧ e'.value = v := by
          rintro ⟨e', he', h0, h1, _⟩
          rw [hall e' he' h0] at h1; cases h1
        simp only [ne_eq] at hno hall
        simp only [hno, false_or, hq, if_true, Option.some.injEq]
        constructor
        · rintro ⟨_, h⟩
          exact .inl ⟨e, by simp, he, hq, h⟩
        · rintro (⟨e', he', h0, h1, h2⟩ | ⟨h, _⟩)
          · refine ⟨hall, ?_⟩
            rcases List.mem_cons.1 he' with rfl | hm
            · exact h2
            · rw [hall e' hm h0] at h1; cases h1
          · have := h e (by simp) he
            rw [hq] at this; cases this
      · simp [hq, he]

theorem rep_addAll {o : Ops} (ol : o.Lawful) {t : HT} (inv : Inv o t) {m} (rep : Rep o t m) (k : Nat)
    (hk : k ≠ 0) : addAll o (fun _ => none) t.table k = m k := by
  have key : ∀ v, addAll o (fun _ => none) t.table k = some v ↔ m k = some v := by
    intro v
    rw [addAll_eq, rep k hk]
    · simp only [reduceCtorEq, and_false, or_false]
      constructor
      · rintro ⟨e, he, h0, hq, hv⟩
        obtain ⟨i, hi, rfl⟩ := List.mem_iff_getElem.1 he
        refine ⟨i, by rw [← inv.wf.len]; exact hi, ?_⟩
        rw [keyAt_getElem hi, valueAt_getElem hi]
        exact ⟨h0, hq, hv⟩
      · rintro ⟨i, hi, h⟩
        have hi' : i < t.table.length := by rw [inv.wf.len]; exact hi
        rw [keyAt_getElem hi', valueAt_getElem hi'] at h
        exact ⟨t.table[i], List.getElem_mem _, h⟩
    · rw [List.pairwise_iff_getElem]
      intro i j hi hj hij h0 h1 ⟨q1, q2⟩
      have : i = j := by
        refine inv.chain.unique (fun a b h => ⟨h.2.1, h.1, ol.symm _ _ h.1 h.2.1 h.2.2⟩)
          (fun a b h => ol.hash _ _ h.1 h.2.1 h.2.2) (by rw [← inv.wf.len]; exact hi)
          (by rw [← inv.wf.len]; exact hj) (key?_some.2 ⟨keyAt_getElem hi, h0⟩)
          (key?_some.2 ⟨keyAt_getElem hj, h1⟩) ?_
        exact ⟨h0, h1, ol.trans _ _ _ h0 hk h1 q1 (ol.symm _ _ h1 hk q2)⟩
      omega
  rcases h : addAll o (fun _ => none) t.table k with _ | v
  · rcases h' : m k with _ | v
    · rfl
    · rw [(key v).2 h'] at h; cases h
  · exact ((key v).1 h).symm

theorem Rep.congr {o : Ops} {t : HT} {m m' : Nat → Option Nat} (h : Rep o t m)
    (e : ∀ k, k ≠ 0 → m' k = m k) : Rep o t m' := by
  intro k hk v; rw [e k hk]; exact h k hk v

/-- the result of `hash_table_resize` -/
theorem resize_spec {o : Ops} (ol : o.Lawful) {ntp : Nat → Res Nat} (hn : NtpOk ntp) (d : Nat) {t : HT}
    (inv : Inv o t) {m} (rep : Rep o t m) {c : Nat} (hc : ntp (2 * t.capacity + 1) = .ok c) {t0 : HT}
    (h0 : create ntp c = .ok t0) :
    ∃ t', reinsert (addOrUpdate o ntp (d + 1)) t.table t0 = .ok t' ∧ Inv o t' ∧ Rep o t' m ∧
      2 * (t'.size + 1) ≤ t'.capacity := by
  obtain ⟨i0, r0, s0, c0⟩ := create_spec o hn h0
  have hcc := (hn _ _ hc).1
  have hload := inv.wf.load
  have hsize := inv.wf.size
  have hocc : occ t.table = t.size := hsize.symm
  have h5 := inv.wf.five
  obtain ⟨t', e, i', r', ec, es⟩ := reinsert_spec ol ntp d t.table i0 r0 (by rw [hocc]; omega)
  exact ⟨t', e, i', r'.congr fun k hk => (rep_addAll ol inv rep k hk).symm, by omega⟩

theorem resize_wf (o : Ops) {ntp : Nat → Res Nat} (hn : NtpOk ntp) (d : Nat) {t : HT}
    (w : Wf t) {c : Nat} (hc : ntp (2 * t.capacity + 1) = .ok c) {t0 : HT}
    (h0 : create ntp c = .ok t0) :
    ∃ t', reinsert (addOrUpdate o ntp (d + 1)) t.table t0 = .ok t' ∧ Wf t' ∧
      2 * (t'.size + 1) ≤ t'.capacity := by
  obtain ⟨i0, r0, s0, c0⟩ := create_spec o hn h0
  have hcc := (hn _ _ hc).1
  have hload := w.load
  have hsize := w.size
  have hocc : occ t.table = t.size := hsize.symm
  have h5 := w.five
  obtain ⟨t', e, i', ec, es⟩ := reinsert_wf o ntp d t.table i0.wf (by rw [hocc]; omega)
  exact ⟨t', e, i', by omega⟩

/-- `add_or_update` implements map update whenever it returns -/
theorem add_spec {o : Ops} (ol : o.Lawful) {ntp : Nat → Res Nat} (hn : NtpOk ntp) (d : Nat) {t t' : HT}
    (inv : Inv o t) {m} (rep : Rep o t m) {k v : Nat} (h : addOrUpdate o ntp (d + 2) t k v = .ok t') :
    k ≠ 0 ∧ Inv o t' ∧ Rep o t' (upd o m k v) := by
  by_cases hk : k = 0
  · rw [addOrUpdate] at h; simp [hk] at h
  refine ⟨hk, ?_⟩
  by_cases hfull : t.capacity < 2 * (t.size + 1)
  · rw [addOrUpdate] at h
    simp only [hk, if_false, hfull, if_true] at h
    rw [Res.bind_eq_ok] at h
    obtain ⟨c, hc, h⟩ := h
    rw [Res.bind_eq_ok] at h
    obtain ⟨t0, h0, h⟩ := h
    rw [Res.bind_eq_ok] at h
    obtain ⟨t1, h1, h2⟩ := h
    obtain ⟨t1', e, i1, r1, room⟩ := resize_spec ol hn d inv rep hc h0
    rw [e] at h1; cases h1
    obtain ⟨t2, e2, i2, r2, _⟩ := put_spec ol i1 r1 (v := v) hk room
    unfold put at e2
    rw [e2] at h2; cases h2
    exact ⟨i2, r2⟩
  · rw [addOrUpdate_noresize o ntp (d + 1) t k v hk (by omega)] at h
    obtain ⟨t2, e2, i2, r2, _⟩ := put_spec ol inv rep (v := v) hk (by omega)
    rw [e2] at h; cases h
    exact ⟨i2, r2⟩

theorem add_wf (o : Ops) {ntp : Nat → Res Nat} (hn : NtpOk ntp) (d : Nat) {t t' : HT}
    (w : Wf t) {k v : Nat} (h : addOrUpdate o ntp (d + 2) t k v = .ok t') : Wf t' := by
  by_cases hk : k = 0
  · rw [addOrUpdate] at h; simp [hk] at h
  by_cases hfull : t.capacity < 2 * (t.size + 1)
  · rw [addOrUpdate] at h
    simp only [hk, if_false, hfull, if_true] at h
    rw [Res.bind_eq_ok] at h
    obtain ⟨c, hc, h⟩ := h
    rw [Res.bind_eq_ok] at h
    obtain ⟨t0, h0, h⟩ := h
    rw [Res.bind_eq_ok] at h
    obtain ⟨t1, h1, h2⟩ := h
    obtain ⟨t1', e, i1, room⟩ := resize_wf o hn d w hc h0
    rw [e] at h1; cases h1
    obtain ⟨t2, e2, i2, _⟩ := put_wf o i1 (v := v) hk room
    unfold put at e2
    rw [e2] at h2; cases h2
    exact i2
  · rw [addOrUpdate_noresize o ntp (d + 1) t k v hk (by omega)] at h
    obtain ⟨t2, e2, i2, _⟩ := put_wf o w (v := v) hk (by omega)
    rw [e2] at h; cases h
    exact i2

/-- `add_or_update` returns as soon as the prime search it may need returns -/
theorem add_total (o : Ops) {ntp : Nat → Res Nat} (hn : NtpOk ntp) (d : Nat) {t : HT}
    (w : Wf t) {k v c c' : Nat} (hk : k ≠ 0) (h1 : ntp (2 * t.capacity + 1) = .ok c) (h2 : ntp c = .ok c') :
    ∃ t', addOrUpdate o ntp (d + 2) t k v = .ok t' := by
  by_cases hfull : t.capacity < 2 * (t.size + 1)
  · have h0 : ∃ t0, create ntp c = .ok t0 := by simp [create, h2]
    obtain ⟨t0, h0⟩ := h0
    obtain ⟨t1', e, i1, room⟩ := resize_wf o hn d w h1 h0
    obtain ⟨t2, e2, _⟩ := put_wf o i1 (v := v) hk room
    refine ⟨t2, ?_⟩
    rw [addOrUpdate]
    simp only [hk, if_false, hfull, if_true, h1, h0, Res.ok_bind, e]
    exact e2
  · rw [addOrUpdate_noresize o ntp (d + 1) t k v hk (by omega)]
    obtain ⟨t2, e2, _⟩ := put_wf o w (v := v) hk (by omega)
    exact ⟨t2, e2⟩

theorem remove_wf (o : Ops) {t : HT} (w : Wf t) {k : Nat} (hnull : o.equalf 0 k = false) :
    ∃ b t', remove o t k = .ok (b, t') ∧ Wf t' := by
  obtain ⟨T, hT, e, hstop, _⟩ := candidateIndex_spec o w k
  have hlt : slot t.capacity (o.hashf k) T < t.table.length := by
    rw [w.len]; exact slot_lt w.prime.pos
  unfold remove
  rw [e, Res.ok_bind]
  generalize slot t.capacity (o.hashf k) T = i at *
  have hka := keyAt_getElem hlt
  by_cases hq : o.equalf (keyAt t i) k = true
  · simp only [hq, if_true, Res.pure_eq]
    have h0 : keyAt t i ≠ 0 := by intro h0; rw [h0, hnull] at hq; cases hq
    have := countP_set hlt ⟨0, valueAt t i⟩
    have hs := w.size
    rw [hka] at h0
    simp only [h0, ne_eq, not_true, not_false_iff, if_true, if_false] at this
    simp only [ne_eq] at hs
    have hl := w.load
    refine ⟨_, _, rfl, ⟨w.prime, w.five, by simpa using w.len, ?_, ?_⟩⟩
    · simp only [ne_eq]; omega
    · simp only; omega
  · simp only [hq]
    exact ⟨_, _, rfl, w⟩

/-! ### Provenance of entries (with removals) -/

/-- the entries of a table come from the additions of its history -/
def Sound (o : Ops) (adds : List (Nat × Nat)) (t : HT) : Prop :=
  ∀ e ∈ t.table, e.key ≠ 0 → ∃ p ∈ adds, p.1 ≠ 0 ∧ o.equalf p.1 e.key = true ∧ p.2 = e.value

theorem Sound.mono {o : Ops} {a b : List (Nat × Nat)} {t : HT} (h : Sound o a t) (hab : ∀ p ∈ a, p ∈ b) :
    Sound o b t := fun e he h0 => by
  obtain ⟨p, hp, h⟩ := h e he h0
  exact ⟨p, hab p hp, h⟩

theorem put_sound {o : Ops} (ol : o.Lawful) {adds : List (Nat × Nat)} {t t' : HT} {k v : Nat} (hk : k ≠ 0)
    (w : Wf t) (s : Sound o adds t) (hkv : ∃ p ∈ adds, p.1 ≠ 0 ∧ o.equalf p.1 k = true ∧ p.2 = v)
    (h : put o t k v = .ok t') : Sound o adds t' := by
  obtain ⟨T, hT, e, hstop, hprev⟩ := candidateIndex_spec o w k
  unfold put at h
  rw [e, Res.ok_bind] at h
  generalize slot t.capacity (o.hashf k) T = i at *
  obtain ⟨p, hp, p0, pk, pv⟩ := hkv
  by_cases hq : o.equalf (keyAt t i) k = true
  · simp only [hq, if_true, Res.pure_eq, Res.ok.injEq] at h
    have h0 : keyAt t i ≠ 0 := by intro h0; rw [h0, ol.null k hk] at hq; cases hq
    rw [← h]
    intro e he e0
    rcases List.mem_or_eq_of_mem_set he with he | rfl
    · exact s e he e0
    · exact ⟨p, hp, p0, ol.trans _ _ _ p0 hk h0 pk (ol.symm _ _ h0 hk hq), pv⟩
  · simp only [hq] at h
    have ht' : insertAt t k v i = t' := by simpa using h
    rw [← ht']
    intro e he e0
    rcases List.mem_or_eq_of_mem_set he with he | rfl
    · exact s e he e0
    · exact ⟨p, hp, p0, pk, pv⟩

theorem reinsert_sound {o : Ops} (ol : o.Lawful) (ntp : Nat → Res Nat) (d : Nat) {adds : List (Nat × Nat)}
    (es : List Entry)
    (hes : ∀ e ∈ es, e.key ≠ 0 → ∃ p ∈ adds, p.1 ≠ 0 ∧ o.equalf p.1 e.key = true ∧ p.2 = e.value)
    {t t' : HT} (w : Wf t) (hroom : 2 * (t.size + occ es) ≤ t.capacity) (s : Sound o adds t)
    (h : reinsert (addOrUpdate o ntp (d + 1)) es t = .ok t') : Sound o adds t' := by
  induction es generalizing t with
  | nil => cases h; exact s
  | cons e es ih =>
    rw [occ_cons] at hroom
    rw [reinsert] at h
    by_cases he : e.key = 0
    · simp only [he, ne_eq, not_true, if_false] at hroom h
      exact ih (fun e he => hes e (by simp [he])) w hroom s h
    · simp only [he, ne_eq, not_false_iff, if_true] at hroom h
      rw [addOrUpdate_noresize o ntp d t _ _ he (by omega)] at h
      obtain ⟨t1, h1, h2, h3, h4⟩ := put_wf o w (v := e.value) he (by omega)
      rw [h1, Res.ok_bind] at h
      exact ih (fun e he => hes e (by simp [he])) h2 (by omega)
        (put_sound ol he w s (hes e (by simp) he) h1) h

theorem add_sound {o : Ops} (ol : o.Lawful) {ntp : Nat → Res Nat} (hn : NtpOk ntp) (d : Nat)
    {adds : List (Nat × Nat)} {t t' : HT} (w : Wf t) (s : Sound o adds t) {k v : Nat} (hk : k ≠ 0)
    (h : addOrUpdate o ntp (d + 2) t k v = .ok t') : Sound o (adds ++ [(k, v)]) t' := by
  have hkv : ∃ p ∈ adds ++ [(k, v)], p.1 ≠ 0 ∧ o.equalf p.1 k = true ∧ p.2 = v :=
    ⟨(k, v), by simp, hk, ol.refl k hk, rfl⟩
  have s1 : Sound o (adds ++ [(k, v)]) t := s.mono fun p hp => by simp [hp]
  by_cases hfull : t.capacity < 2 * (t.size + 1)
  · rw [addOrUpdate] at h
    simp only [hk, if_false, hfull, if_true] at h
    rw [Res.bind_eq_ok] at h
    obtain ⟨c, hc, h⟩ := h
    rw [Res.bind_eq_ok] at h
    obtain ⟨t0, h0, h⟩ := h
    rw [Res.bind_eq_ok] at h
    obtain ⟨t1, h1, h2⟩ := h
    obtain ⟨t1', e, i1, room⟩ := resize_wf o hn d w hc h0
    obtain ⟨i0, r0, s0, c0⟩ := create_spec o hn h0
    have hcc := (hn _ _ hc).1
    have hl := w.load
    have hocc : occ t.table = t.size := w.size.symm
    have s0' : Sound o (adds ++ [(k, v)]) t0 := by
      intro e he e0
      exfalso
      have hz : t0.size = occ t0.table := i0.wf.size
      rw [s0, occ] at hz
      have := List.countP_eq_zero.1 hz.symm e he
      simp [e0] at this
    have st1 := reinsert_sound ol ntp d t.table s1 i0.wf (by rw [hocc]; omega) s0' h1
    rw [e] at h1; cases h1
    exact put_sound ol hk i1 st1 hkv h2
  · rw [addOrUpdate_noresize o ntp (d + 1) t k v hk (by omega)] at h
    exact put_sound ol hk w s1 hkv h


end Aps.HashTable
