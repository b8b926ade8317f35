import Verif.Proofs.HashTable
import Verif.Props.Prime
import Mathlib.Data.Finset.Dedup
import Mathlib.Data.List.Dedup
/-! # C02, C03, C04 — the hash table of utilities/hashtable.c -/
namespace Aps.Props
open Aps.HashTable

/-- `next_twin_prime` as the hash table calls it, on a prime table `st` with a bound `fuel` on the
number of table growths. -/
def twin (fuel : Nat) (st : Prime.Primes) (p : Nat) : Res Nat := do
  let r ← Prime.nextTwinPrime fuel st p
  return r.1

/-- The real prime search satisfies what the hash table needs. -/
theorem twin_ok (fuel : Nat) {st : Prime.Primes} (h : Prime.Reachable st) : NtpOk (twin fuel st) := by
  intro p r hr
  unfold twin at hr
  rw [Res.bind_eq_ok] at hr
  obtain ⟨⟨r', st'⟩, h1, h2⟩ := hr
  simp only [Res.pure_eq, Res.ok.injEq] at h2
  subst h2
  have hl := C01_result h h1
  have := (largerTwin_iff _).1 hl.1.2
  exact ⟨hl.1.1, this.2.1, this.1, this.2.2⟩

/-- An operation of a client: every key is non-NULL. -/
inductive HTOp
  | add (k v : Nat) (hk : k ≠ 0)
  | remove (k : Nat) (hk : k ≠ 0)

/-- Running a history of operations. -/
def runOps (o : Ops) (ntp : Nat → Res Nat) (depth : Nat) : List HTOp → HT → Res HT
  | [], t => .ok t
  | .add k v _ :: ops, t => do
    let t ← addOrUpdate o ntp depth t k v
    runOps o ntp depth ops t
  | .remove k _ :: ops, t => do
    let r ← remove o t k
    runOps o ntp depth ops r.2

/-- Tables reachable by any history of additions and removals. -/
def HTReach (o : Ops) (ntp : Nat → Res Nat) (t : HT) : Prop :=
  ∃ cap depth ops t₀, create ntp cap = .ok t₀ ∧ runOps o ntp (depth + 2) ops t₀ = .ok t

theorem htReach_wf {o : Ops} (ol : o.Lawful) {ntp : Nat → Res Nat} (hn : NtpOk ntp) {t : HT}
    (h : HTReach o ntp t) : Wf t := by
  obtain ⟨cap, d, ops, t₀, h0, h1⟩ := h
  have w0 := (create_spec o hn h0).1.wf
  clear h0
  induction ops generalizing t₀ with
  | nil => cases h1; exact w0
  | cons op ops ih =>
    cases op with
    | add k v hk =>
      rw [runOps, Res.bind_eq_ok] at h1
      obtain ⟨t1, e, h1⟩ := h1
      exact ih _ h1 (add_wf o hn d w0 e)
    | remove k hk =>
      rw [runOps, Res.bind_eq_ok] at h1
      obtain ⟨t1, e, h1⟩ := h1
      obtain ⟨b, t', e', w'⟩ := remove_wf o w0 (ol.null k hk)
      rw [e'] at e; cases e
      exact ih _ h1 w'

/-- **C02 (probing covers the table).** In every reachable table the first `capacity` slots probed for
any hash value are all the slots, each once. -/
theorem C02_probe_covers {o : Ops} (ol : o.Lawful) {ntp : Nat → Res Nat} (hn : NtpOk ntp) {t : HT}
    (h : HTReach o ntp t) (hash j : Nat) (hj : j < t.capacity) :
    ∃! n, n < t.capacity ∧
      (hash % t.capacity + n * (hash % (t.capacity - 2) + 1)) % t.capacity = j := by
  have w := htReach_wf ol hn h
  have h4 := w.five
  obtain ⟨n, h1, h2⟩ := slot_cover hash w.prime (by omega) hj
  refine ⟨n, ⟨h1, h2⟩, fun m hm => ?_⟩
  have := Nat.mod_lt hash (show 0 < t.capacity - 2 by omega)
  exact cover_inj w.prime (by omega) (by omega) hm.1 h1 (hm.2.trans h2.symm)

/-- **C02 (probing ends).** In every table reached by any history of additions and removals, every
lookup, membership test and removal of any key returns: the probe loop neither runs forever nor leaves
the table. -/
theorem C02_lookup_returns {o : Ops} (ol : o.Lawful) {ntp : Nat → Res Nat} (hn : NtpOk ntp) {t : HT}
    (h : HTReach o ntp t) (k : Nat) :
    (∃ v, get o t k = .ok v) ∧ (∃ b, contains o t k = .ok b) ∧ ∃ r, remove o t k = .ok r := by
  obtain ⟨T, _, e, _⟩ := candidateIndex_spec o (htReach_wf ol hn h) k
  refine ⟨by simp [HashTable.get, e], by simp [contains, e], ?_⟩
  unfold remove
  rw [e, Res.ok_bind]
  split <;> exact ⟨_, rfl⟩

/-- **C02 (adding returns).** An addition returns whenever the prime search for the next capacity does. -/
theorem C02_add_returns {o : Ops} (ol : o.Lawful) {ntp : Nat → Res Nat} (hn : NtpOk ntp) {t : HT}
    (h : HTReach o ntp t) (depth k v : Nat) (hk : k ≠ 0)
    (hroom : 2 * (t.size + 1) ≤ t.capacity ∨
      ∃ c c', ntp (2 * t.capacity + 1) = .ok c ∧ ntp c = .ok c') :
    ∃ t', addOrUpdate o ntp (depth + 2) t k v = .ok t' := by
  have w := htReach_wf ol hn h
  rcases hroom with hr | ⟨c, c', h1, h2⟩
  · rw [addOrUpdate_noresize o ntp (depth + 1) t k v hk hr]
    obtain ⟨t2, e2, _⟩ := put_wf o w (v := v) hk hr
    exact ⟨t2, e2⟩
  · exact add_total o hn depth w hk h1 h2

/-- **C02 (load).** The load never exceeds one half and `size` counts the occupied slots. -/
theorem C02_load {o : Ops} (ol : o.Lawful) {ntp : Nat → Res Nat} (hn : NtpOk ntp) {t : HT}
    (h : HTReach o ntp t) : 2 * t.size ≤ t.capacity ∧ t.capacity.Prime ∧
      t.size = (t.table.filter (fun e => e.key ≠ 0)).length := by
  have w := htReach_wf ol hn h
  exact ⟨w.load, w.prime, by rw [w.size, List.countP_eq_length_filter]⟩

/-! ### C03 -/

/-- Specification of a history of additions: the value given last to a key. -/
def latest (eq : Nat → Nat → Bool) (hist : List (Nat × Nat)) (k : Nat) : Option Nat :=
  (hist.reverse.find? fun p => eq p.1 k).map Prod.snd

/-- Running a history of additions. -/
def runAdds (o : Ops) (ntp : Nat → Res Nat) (depth : Nat) : List (Nat × Nat) → HT → Res HT
  | [], t => .ok t
  | p :: ps, t => do
    let t ← addOrUpdate o ntp depth t p.1 p.2
    runAdds o ntp depth ps t

theorem latest_append (eq : Nat → Nat → Bool) (hist : List (Nat × Nat)) (p : Nat × Nat) (k : Nat) :
    latest eq (hist ++ [p]) k = if eq p.1 k = true then some p.2 else latest eq hist k := by
  simp only [latest, List.reverse_append, List.reverse_cons, List.reverse_nil, List.nil_append,
    List.singleton_append, List.find?_cons]
  cases eq p.1 k <;> simp

theorem runAdds_spec {o : Ops} (ol : o.Lawful) {ntp : Nat → Res Nat} (hn : NtpOk ntp) (d : Nat)
    (hist : List (Nat × Nat)) {t t' : HT} (inv : Inv o t) {done : List (Nat × Nat)}
    (rep : Rep o t (latest o.equalf done)) (hd : ∀ p ∈ done, p.1 ≠ 0)
    (h : runAdds o ntp (d + 2) hist t = .ok t') :
    Inv o t' ∧ Rep o t' (latest o.equalf (done ++ hist)) ∧ ∀ p ∈ done ++ hist, p.1 ≠ 0 := by
  induction hist generalizing t done with
  | nil => cases h; simpa using ⟨inv, rep, by simpa using hd⟩
  | cons p ps ih =>
    rw [runAdds, Res.bind_eq_ok] at h
    obtain ⟨t1, e, h⟩ := h
    obtain ⟨hk, i1, r1⟩ := add_spec ol hn d inv rep e
    have := ih i1 (done := done ++ [p]) (r1.congr fun k _ => latest_append _ _ _ _) (by
      intro q hq
      rcases List.mem_append.1 hq with h | h
      · exact hd q h
      · simp only [List.mem_singleton] at h; rw [h]; exact hk) h
    simpa using this

theorem history_spec {o : Ops} (ol : o.Lawful) {ntp : Nat → Res Nat} (hn : NtpOk ntp)
    {cap depth : Nat} {hist : List (Nat × Nat)} {t₀ t : HT} (h0 : create ntp cap = .ok t₀)
    (h : runAdds o ntp (depth + 2) hist t₀ = .ok t) :
    Inv o t ∧ Rep o t (latest o.equalf hist) ∧ ∀ p ∈ hist, p.1 ≠ 0 := by
  obtain ⟨i0, r0, _⟩ := create_spec o hn h0
  have := runAdds_spec ol hn depth hist i0 (done := []) (r0.congr fun k _ => by simp [latest]) (by simp) h
  simpa using this

/-- **C03 (lookup).** After any history of additions, on any lawful pair of hash and equality
functions, lookup returns the value most recently added under an equal key, NULL if there is none, and
`contains` says whether there is one. -/
theorem C03_map {o : Ops} (ol : o.Lawful) {ntp : Nat → Res Nat} (hn : NtpOk ntp)
    {cap depth : Nat} {hist : List (Nat × Nat)} {t₀ t : HT} (h0 : create ntp cap = .ok t₀)
    (h : runAdds o ntp (depth + 2) hist t₀ = .ok t) (k : Nat) (hk : k ≠ 0) :
    get o t k = .ok ((latest o.equalf hist k).getD 0) ∧
    contains o t k = .ok (hist.any fun p => o.equalf p.1 k) := by
  obtain ⟨i, r, _⟩ := history_spec ol hn h0 h
  have := get_spec ol i r hk
  refine ⟨this.1, this.2.trans ?_⟩
  congr 1
  rw [Bool.eq_iff_iff]
  simp [latest]

/-- **C03 (size).** `size` is the number of different keys added: the keys in the table are pairwise
different representatives, exactly one for each key of the history. -/
theorem C03_size {o : Ops} (ol : o.Lawful) {ntp : Nat → Res Nat} (hn : NtpOk ntp)
    {cap depth : Nat} {hist : List (Nat × Nat)} {t₀ t : HT} (h0 : create ntp cap = .ok t₀)
    (h : runAdds o ntp (depth + 2) hist t₀ = .ok t) :
    ∃ ks : List Nat, ks.length = t.size ∧ ks.Pairwise (fun a b => o.equalf a b = false) ∧
      (∀ k ∈ ks, ∃ p ∈ hist, o.equalf p.1 k = true) ∧
      (∀ p ∈ hist, ∃ k ∈ ks, o.equalf k p.1 = true) := by
  obtain ⟨i, r, hne⟩ := history_spec ol hn h0 h
  refine ⟨(t.table.filter (fun e => e.key ≠ 0)).map Entry.key, ?_, ?_, ?_, ?_⟩
  · rw [List.length_map, i.wf.size, List.countP_eq_length_filter]
  · rw [List.pairwise_map, List.pairwise_filter, List.pairwise_iff_getElem]
    intro a b ha hb hab h1 h2
    simp only [decide_eq_true_eq] at h1 h2
    by_contra hc
    have hc : o.equalf (t.table[a]).key (t.table[b]).key = true := by simpa using hc
    have : a = b := i.chain.unique (fun a b h => ⟨h.2.1, h.1, ol.symm _ _ h.1 h.2.1 h.2.2⟩)
      (fun a b h => ol.hash _ _ h.1 h.2.1 h.2.2) (by rw [← i.wf.len]; exact ha)
      (by rw [← i.wf.len]; exact hb) (key?_some.2 ⟨keyAt_getElem ha, h1⟩)
      (key?_some.2 ⟨keyAt_getElem hb, h2⟩) ⟨h1, h2, hc⟩
    omega
  · intro k hk
    obtain ⟨e, he, rfl⟩ := List.mem_map.1 hk
    obtain ⟨hm, h0⟩ := List.mem_filter.1 he
    have h0 : e.key ≠ 0 := by simpa using h0
    obtain ⟨j, hj, rfl⟩ := List.mem_iff_getElem.1 hm
    have := (r _ h0 (valueAt t j)).2 ⟨j, by rw [← i.wf.len]; exact hj, by rw [keyAt_getElem hj]; exact h0,
      by rw [keyAt_getElem hj]; exact ol.refl _ h0, rfl⟩
    rw [latest, Option.map_eq_some_iff] at this
    obtain ⟨p, hp, _⟩ := this
    exact ⟨p, by simpa using List.mem_of_find?_eq_some hp, by simpa using List.find?_some hp⟩
  · intro p hp
    have hp0 := hne p hp
    have : (latest o.equalf hist p.1).isSome = true := by
      simp only [latest, Option.isSome_map, List.find?_isSome]
      exact ⟨p, by simpa using hp, ol.refl _ hp0⟩
    obtain ⟨v, hv⟩ := Option.isSome_iff_exists.1 this
    obtain ⟨j, hj, j0, jq, _⟩ := (r _ hp0 v).1 hv
    have hj' : j < t.table.length := by rw [i.wf.len]; exact hj
    rw [keyAt_getElem hj'] at j0 jq
    exact ⟨_, List.mem_map.2 ⟨_, List.mem_filter.2 ⟨List.getElem_mem hj', by simpa using j0⟩, rfl⟩, jq⟩

/-- The functions for pointer keys used throughout the repository are lawful. -/
theorem ptrOps_lawful : ptrOps.Lawful := by
  constructor
  · intro a _; simp [ptrOps, ptrEqualf]
  · intro a b _ _ h; simp [ptrOps, ptrEqualf] at *; exact h.symm
  · intro a b c _ _ _ h1 h2; simp [ptrOps, ptrEqualf] at *; exact h1.trans h2
  · intro a b _ _ h; simp [ptrOps, ptrEqualf] at *; rw [h]
  · intro b h; simp [ptrOps, ptrEqualf]; exact Ne.symm h

/-- **C03 (size, pointer keys).** For pointer keys `size` is the number of distinct pointers added. -/
theorem C03_size_ptr {ntp : Nat → Res Nat} (hn : NtpOk ntp)
    {cap depth : Nat} {hist : List (Nat × Nat)} {t₀ t : HT} (h0 : create ntp cap = .ok t₀)
    (h : runAdds ptrOps ntp (depth + 2) hist t₀ = .ok t) :
    t.size = (hist.map Prod.fst).toFinset.card := by
  obtain ⟨ks, h1, h2, h3, h4⟩ := C03_size ptrOps_lawful hn h0 h
  have hnd : ks.Nodup := by
    refine h2.imp ?_
    intro a b hab
    simpa [ptrOps, ptrEqualf] using hab
  have : ks.toFinset = (hist.map Prod.fst).toFinset := by
    ext k
    simp only [List.mem_toFinset, List.mem_map]
    constructor
    · intro hk
      obtain ⟨p, hp, e⟩ := h3 k hk
      exact ⟨p, hp, by simpa [ptrOps, ptrEqualf] using e⟩
    · rintro ⟨p, hp, rfl⟩
      obtain ⟨k, hk, e⟩ := h4 p hp
      have : k = p.1 := by simpa [ptrOps, ptrEqualf] using e
      exact this ▸ hk
  rw [← this, List.toFinset_card_of_nodup hnd, h1]

/-! ### A concrete table over the real prime search -/

theorem twin_five (st : Prime.Primes) (h : Prime.Reachable st) : ∃ f, ∀ p ≤ 5, twin f st p = .ok 5 := by
  have h5 : LargerTwin 5 := ⟨by norm_num, 3, by norm_num, rfl⟩
  refine ⟨5 + 1, fun p hp => ?_⟩
  rcases Prime.nextTwinPrime_spec (5 + 1) st (Prime.reachable_correct h) p with ⟨_, b⟩ | ⟨r', st2, a, _, _, c⟩
  · exact absurd ((largerTwin_iff 5).1 h5) (b 5 hp (by norm_num) (by omega))
  · have hle : r' ≤ 5 := c.2 ⟨hp, (largerTwin_iff 5).1 h5⟩
    obtain ⟨h2, h3, h4⟩ := c.1.2
    have : r' = 5 := by
      interval_cases r' <;> first | rfl | (exfalso; revert h3 h4; norm_num)
    subst this
    simp [twin, a]

/-- the table of the examples: capacity 5, the keys 5 and 10 both hash to slot 0. -/
def exTable : HT := ⟨2, 5, [⟨5, 7⟩, ⟨0, 0⟩, ⟨10, 8⟩, ⟨0, 0⟩, ⟨0, 0⟩]⟩

/-- Non-vacuity of C02/C03: a table of capacity 5 over the real prime search, with two colliding
keys, reached by a history of two additions. -/
theorem exTable_run : ∃ fuel t₀, create (twin fuel Prime.Primes.init) 5 = .ok t₀ ∧
    runAdds ptrOps (twin fuel Prime.Primes.init) 2 [(5, 7), (10, 8)] t₀ = .ok exTable := by
  obtain ⟨f, hf⟩ := twin_five _ Prime.Reachable.init
  refine ⟨f, ⟨0, 5, List.replicate 5 ⟨0, 0⟩⟩, by simp [create, hf], rfl⟩

theorem exTable_reach : ∃ fuel, HTReach ptrOps (twin fuel Prime.Primes.init) exTable := by
  obtain ⟨f, t₀, h0, h⟩ := exTable_run
  exact ⟨f, 5, 0, [.add 5 7 (by decide), .add 10 8 (by decide)], t₀, h0, h⟩

example : ∃ fuel t₀ t, create (twin fuel Prime.Primes.init) 5 = .ok t₀ ∧
    runAdds ptrOps (twin fuel Prime.Primes.init) 2 [(5, 7), (10, 8)] t₀ = .ok t ∧
    HashTable.get ptrOps t 10 = .ok 8 := by
  obtain ⟨f, t₀, h0, h⟩ := exTable_run
  exact ⟨f, t₀, _, h0, h, (C03_map ptrOps_lawful (twin_ok f .init) h0 h 10 (by decide)).1⟩

/-! ### C04 -/

/-- The property one would like: removing `k` removes exactly `k`. -/
def RemoveExact (o : Ops) (ntp : Nat → Res Nat) : Prop :=
  ∀ t t' k k' b, HTReach o ntp t → k ≠ 0 → k' ≠ 0 → remove o t k = .ok (b, t') →
    HashTable.get o t' k' = if o.equalf k k' = true then .ok 0 else HashTable.get o t k'

/-- **C04 is false of the code.** Slots are cleared without a tombstone, so removing 5 makes the key 10
(which collided with it) unreachable although it was never removed. -/
theorem C04_remove_exact_refuted : ∃ fuel, ¬ RemoveExact ptrOps (twin fuel Prime.Primes.init) := by
  obtain ⟨f, hr⟩ := exTable_reach
  refine ⟨f, fun h => ?_⟩
  have := h exTable ⟨1, 5, [⟨0, 7⟩, ⟨0, 0⟩, ⟨10, 8⟩, ⟨0, 0⟩, ⟨0, 0⟩]⟩ 5 10 true hr (by decide)
    (by decide) rfl
  revert this
  decide

/-- Further damage: adding 10 again after that creates a second entry for the same key, so `size` is
no longer the number of keys. -/
theorem C04_duplicate_after_remove : ∃ t', remove ptrOps exTable 5 = .ok (true, t') ∧
    addOrUpdate ptrOps (fun _ => .nofuel) 2 t' 10 9 =
      .ok ⟨2, 5, [⟨10, 9⟩, ⟨0, 0⟩, ⟨10, 8⟩, ⟨0, 0⟩, ⟨0, 0⟩]⟩ := ⟨_, rfl, rfl⟩

/-- **C04 partial (1).** Right after `remove(k)`, `k` is absent, in every reachable table. -/
theorem C04_removed_is_absent_partial {o : Ops} (ol : o.Lawful) {ntp : Nat → Res Nat} (hn : NtpOk ntp)
    {t t' : HT} (h : HTReach o ntp t) {k : Nat} (hk : k ≠ 0) {b : Bool} (hr : remove o t k = .ok (b, t')) :
    contains o t' k = .ok false ∧ HashTable.get o t' k = .ok 0 ∧ contains o t k = .ok b := by
  have w := htReach_wf ol hn h
  obtain ⟨b', t'', e', w'⟩ := remove_wf o w (ol.null k hk)
  rw [hr] at e'; cases e'
  obtain ⟨T, hT, e, hstop, hprev⟩ := candidateIndex_spec o w k
  have hlt : slot t.capacity (o.hashf k) T < t.table.length := by
    rw [w.len]; exact slot_lt w.prime.pos
  unfold remove at hr
  rw [e, Res.ok_bind] at hr
  by_cases hq : o.equalf (keyAt t (slot t.capacity (o.hashf k) T)) k = true
  · simp only [hq, if_true, Res.pure_eq, Res.ok.injEq, Prod.mk.injEq] at hr
    obtain ⟨rfl, hr⟩ := hr
    obtain ⟨T', hT', e2, hstop', hprev'⟩ := candidateIndex_spec o w' k
    have hcap : t'.capacity = t.capacity := by rw [← hr]
    rw [hcap] at hT' e2 hstop' hprev'
    have hK : ∀ j, keyAt t' j = if j = slot t.capacity (o.hashf k) T then 0 else keyAt t j := by
      intro j; rw [← hr, keyAt_set hlt]
    have hz : keyAt t' (slot t.capacity (o.hashf k) T') = 0 := by
      rcases Nat.lt_trichotomy T' T with h | h | h
      · have hp := hprev T' h
        rw [hK] at hstop' ⊢
        split
        · rfl
        · rename_i hne
          rw [if_neg hne] at hstop'
          rcases hstop' with h | h
          · exact h
          · rw [hp.2] at h; cases h
      · rw [h, hK]; simp
      · have hp := (hprev' T h).1
        rw [hK] at hp; simp at hp
    have hnq : o.equalf 0 k = false := ol.null k hk
    refine ⟨?_, ?_, ?_⟩
    · simp [contains, e2, hz, hnq]
    · simp [HashTable.get, e2, hz, hnq]
    · simp [contains, e, hq]
  · simp only [hq] at hr
    simp only [Res.pure_eq, if_false, Res.ok.injEq, Prod.mk.injEq, Bool.false_eq_true] at hr
    obtain ⟨rfl, rfl⟩ := hr
    refine ⟨?_, ?_, ?_⟩
    · simp [contains, e, hq]
    · simp [HashTable.get, e, hq]
    · simp [contains, e, hq]

/-- the additions in a history -/
def addsOf : List HTOp → List (Nat × Nat)
  | [] => []
  | .add k v _ :: ops => (k, v) :: addsOf ops
  | .remove _ _ :: ops => addsOf ops

theorem runOps_sound {o : Ops} (ol : o.Lawful) {ntp : Nat → Res Nat} (hn : NtpOk ntp) (d : Nat)
    (ops : List HTOp) {done : List (Nat × Nat)} {t t' : HT} (w : Wf t) (s : Sound o done t)
    (h : runOps o ntp (d + 2) ops t = .ok t') : Wf t' ∧ Sound o (done ++ addsOf ops) t' := by
  induction ops generalizing t done with
  | nil => cases h; exact ⟨w, s.mono (by simp [addsOf])⟩
  | cons op ops ih =>
    cases op with
    | add k v hk =>
      rw [runOps, Res.bind_eq_ok] at h
      obtain ⟨t1, e, h⟩ := h
      have := ih (add_wf o hn d w e) (add_sound ol hn d w s hk e) h
      simpa [addsOf] using this
    | remove k hk =>
      rw [runOps, Res.bind_eq_ok] at h
      obtain ⟨⟨b, t1⟩, e, h⟩ := h
      obtain ⟨b', t1', e', w'⟩ := remove_wf o w (ol.null k hk)
      rw [e'] at e; cases e
      refine ih w' ?_ h
      unfold remove at e'
      rw [Res.bind_eq_ok] at e'
      obtain ⟨i, _, e'⟩ := e'
      split at e'
      · simp only [Res.pure_eq, Res.ok.injEq, Prod.mk.injEq] at e'
        rw [← e'.2]
        intro e he e0
        rcases List.mem_or_eq_of_mem_set he with he | rfl
        · exact s e he e0
        · exact absurd rfl e0
      · simp only [Res.pure_eq, Res.ok.injEq, Prod.mk.injEq] at e'
        rw [← e'.2]; exact s

/-- **C04 partial (2).** Even with removals a lookup never invents a value: what it returns for `k` (other
than NULL) was added at some time under a key equal to `k`, and `contains` is never true of a key that was
never added. -/
theorem C04_no_invented_value_partial {o : Ops} (ol : o.Lawful) {ntp : Nat → Res Nat} (hn : NtpOk ntp)
    {cap depth : Nat} {ops : List HTOp} {t₀ t : HT} (h0 : create ntp cap = .ok t₀)
    (h : runOps o ntp (depth + 2) ops t₀ = .ok t) {k : Nat} (hk : k ≠ 0) :
    (∀ v, v ≠ 0 → HashTable.get o t k = .ok v → ∃ p ∈ addsOf ops, o.equalf p.1 k = true ∧ p.2 = v) ∧
    (contains o t k = .ok true → ∃ p ∈ addsOf ops, o.equalf p.1 k = true) := by
  have i0 := (create_spec o hn h0).1
  have z0 := (create_spec o hn h0).2.2.1
  have s0 : Sound o [] t₀ := by
    intro e he e0
    exfalso
    have hz := i0.wf.size
    rw [z0] at hz
    have := List.countP_eq_zero.1 hz.symm e he
    simp [e0] at this
  obtain ⟨w, s⟩ := runOps_sound ol hn depth ops i0.wf s0 h
  simp only [List.nil_append] at s
  obtain ⟨T, hT, e, hstop, hprev⟩ := candidateIndex_spec o w k
  have hlt : slot t.capacity (o.hashf k) T < t.table.length := by
    rw [w.len]; exact slot_lt w.prime.pos
  have main : o.equalf (keyAt t (slot t.capacity (o.hashf k) T)) k = true →
      ∃ p ∈ addsOf ops, o.equalf p.1 k = true ∧ p.2 = valueAt t (slot t.capacity (o.hashf k) T) := by
    intro hq
    have h0 : keyAt t (slot t.capacity (o.hashf k) T) ≠ 0 := by
      intro h0; rw [h0, ol.null k hk] at hq; cases hq
    rw [keyAt_getElem hlt] at h0 hq
    obtain ⟨p, hp, p0, pq, pv⟩ := s _ (List.getElem_mem hlt) h0
    exact ⟨p, hp, ol.trans _ _ _ p0 h0 hk pq hq, by rw [pv, valueAt_getElem hlt]⟩
  constructor
  · intro v hv hg
    unfold HashTable.get at hg
    rw [e] at hg
    simp only [Res.ok_bind, Res.pure_eq, Res.ok.injEq] at hg
    split at hg
    · rename_i hq
      obtain ⟨p, hp, pq, pv⟩ := main hq
      exact ⟨p, hp, pq, pv.trans hg⟩
    · exact absurd hg.symm hv
  · intro hc
    unfold contains at hc
    rw [e] at hc
    simp only [Res.ok_bind, Res.pure_eq, Res.ok.injEq] at hc
    split at hc
    · rename_i hq
      obtain ⟨p, hp, pq, _⟩ := main hq
      exact ⟨p, hp, pq⟩
    · cases hc

/-- **C04 partial (3).** A first removal (from a table built by additions only) can lose other keys but never
changes a value: afterwards each other key has its old value or none. -/
theorem C04_first_remove_partial {o : Ops} (ol : o.Lawful) {ntp : Nat → Res Nat} (hn : NtpOk ntp)
    {cap depth : Nat} {hist : List (Nat × Nat)} {t₀ t t' : HT} (h0 : create ntp cap = .ok t₀)
    (h : runAdds o ntp (depth + 2) hist t₀ = .ok t) {k k' : Nat} (hk : k ≠ 0) (hk' : k' ≠ 0) {b : Bool}
    (hr : remove o t k = .ok (b, t')) :
    HashTable.get o t' k' = HashTable.get o t k' ∨ HashTable.get o t' k' = .ok 0 := by
  obtain ⟨inv, rep, _⟩ := history_spec ol hn h0 h
  have w := inv.wf
  obtain ⟨b', t'', e', w'⟩ := remove_wf o w (ol.null k hk)
  rw [hr] at e'; cases e'
  unfold remove at hr
  obtain ⟨T, hT, e, hstop, hprev⟩ := candidateIndex_spec o w k
  have hlt : slot t.capacity (o.hashf k) T < t.table.length := by
    rw [w.len]; exact slot_lt w.prime.pos
  rw [e, Res.ok_bind] at hr
  by_cases hq : o.equalf (keyAt t (slot t.capacity (o.hashf k) T)) k = true
  · simp only [hq, if_true, Res.pure_eq, Res.ok.injEq, Prod.mk.injEq] at hr
    obtain ⟨rfl, hr⟩ := hr
    obtain ⟨T', hT', e2, hstop', hprev'⟩ := candidateIndex_spec o w' k'
    have hcap : t'.capacity = t.capacity := by rw [← hr]
    have hK : ∀ j, keyAt t' j = if j = slot t.capacity (o.hashf k) T then 0 else keyAt t j := by
      intro j; rw [← hr, keyAt_set hlt]
    have hV : ∀ j, valueAt t' j = valueAt t j := by
      intro j; rw [← hr, valueAt_set hlt]; split_ifs <;> simp_all
    have hg' : HashTable.get o t' k' = .ok (if o.equalf (keyAt t' (slot t'.capacity (o.hashf k') T')) k' = true then
        valueAt t' (slot t'.capacity (o.hashf k') T') else 0) := by
      simp [HashTable.get, e2]
    by_cases hq' : o.equalf (keyAt t' (slot t'.capacity (o.hashf k') T')) k' = true
    · left
      rw [hg', (get_spec ol inv rep hk').1]
      simp only [hq', if_true, Res.ok.injEq]
      generalize slot t'.capacity (o.hashf k') T' = j at *
      have hj : j < t.capacity := by
        by_contra hge
        have : keyAt t' j = 0 := by
          unfold keyAt
          rw [List.getElem?_eq_none (by rw [w'.len]; omega)]; rfl
        rw [this, ol.null k' hk'] at hq'; cases hq'
      have hji : keyAt t' j = keyAt t j ∧ keyAt t j ≠ 0 := by
        have := hK j
        split at this
        · rw [this, ol.null k' hk'] at hq'; cases hq'
        · refine ⟨this, fun h => ?_⟩
          rw [this, h, ol.null k' hk'] at hq'; cases hq'
      rw [hji.1] at hq'
      rw [(rep k' hk' (valueAt t j)).2 ⟨j, hj, hji.2, hq', rfl⟩, hV]; rfl
    · right; rw [hg', if_neg hq']
  · simp only [hq] at hr
    simp only [Res.pure_eq, if_false, Res.ok.injEq, Prod.mk.injEq, Bool.false_eq_true] at hr
    rw [← hr.2]; exact .inl rfl

/-- Non-vacuity: the removal hypotheses of the three partial theorems hold of the example table. -/
example : ∃ fuel, HTReach ptrOps (twin fuel Prime.Primes.init) exTable ∧
    ∃ t', remove ptrOps exTable 5 = .ok (true, t') := by
  obtain ⟨f, h⟩ := exTable_reach
  exact ⟨f, h, _, rfl⟩

end Aps.Props
