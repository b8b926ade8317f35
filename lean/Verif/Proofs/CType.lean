import Verif.Model.CType
import Verif.Proofs.HashCons
import Mathlib.Tactic.Common
/-! Canonical types: equality, hashing, hash-consing and order. -/
namespace Aps.CType
open Aps.HashCons
open Aps.HashTable (NtpOk)
set_option linter.unusedVariables false

/-! ## laws that hold in every memory -/

theorem paramsEqual_iff (c : Nat → Nat → Bool) : ∀ (ps qs : List Nat), ps.length = qs.length →
    (paramsEqual c ps qs = true ↔ ∀ (i : Nat) p q, ps[i]? = some p → qs[i]? = some q → c p q = true)
  | [], [], _ => by simp [paramsEqual]
  | p :: ps, q :: qs, h => by
    have ih := paramsEqual_iff c ps qs (by simpa using h)
    unfold paramsEqual
    split
    · rename_i h1
      rw [ih]
      constructor
      · intro H i a b ha hb
        cases i with
        | zero => simp at ha hb; subst ha; subst hb; exact h1
        | succ i => exact H i a b (by simpa using ha) (by simpa using hb)
      · intro H i a b ha hb
        exact H (i + 1) a b (by simpa using ha) (by simpa using hb)
    · rename_i h1
      simp only [Bool.false_eq_true, false_iff]
      intro H
      exact h1 (H 0 p q (by simp) (by simp))
  | [], _ :: _, h => by simp at h
  | _ :: _, [], h => by simp at h

theorem foldl_hash_congr {c d : Nat → BitVec 64} : ∀ (ps qs : List Nat) (h : BitVec 64), ps.length = qs.length →
    (∀ (i : Nat) p q, ps[i]? = some p → qs[i]? = some q → c p = d q) →
    ps.foldl (fun h p => hashMix h (c p)) h = qs.foldl (fun h p => hashMix h (d p)) h
  | [], [], _, _, _ => rfl
  | p :: ps, q :: qs, h, hl, H => by
    simp only [List.foldl_cons]
    rw [H 0 p q (by simp) (by simp)]
    exact foldl_hash_congr ps qs _ (by simpa using hl)
      (fun i a b ha hb => H (i + 1) a b (by simpa using ha) (by simpa using hb))
  | [], _ :: _, _, h, _ => by simp at h
  | _ :: _, [], _, h, _ => by simp at h

theorem nodeHash_of_equal {e : Nat → Nat → Bool} {c : Nat → BitVec 64} (hc : ∀ a b, e a b = true → c a = c b)
    {x y : Node} (h : nodeEqual e x y = true) : nodeHash c x = nodeHash c y := by
  cases x <;> cases y <;> simp only [nodeEqual, Bool.false_eq_true, decide_eq_true_eq] at h
  · subst h; rfl
  · obtain ⟨rfl, rfl⟩ := h; rfl
  · rename_i r ps s qs
    split at h
    · cases h
    · rename_i hl
      push Not at hl
      simp only [Bool.and_eq_true, decide_eq_true_eq] at h
      obtain ⟨h1, rfl⟩ := h
      simp only [nodeHash]
      rw [hl, foldl_hash_congr ps qs 0 hl]
      intro i p q hp hq
      exact hc _ _ ((paramsEqual_iff e ps qs hl).1 h1 i p q hp hq)

theorem typeHash_of_equal (mem : List Node) : ∀ (f a b : Nat), typeEqual mem f a b = true →
    typeHash mem f a = typeHash mem f b
  | 0, _, _, h => by simp [typeEqual] at h
  | f + 1, a, b, h => by
    unfold typeEqual at h
    unfold typeHash
    split at h
    · rename_i x y hx hy
      rw [hx, hy]
      exact nodeHash_of_equal (typeHash_of_equal mem f) h
    · cases h

theorem nodeEqual_symm {e : Nat → Nat → Bool} (he : ∀ a b, e a b = true → e b a = true) {x y : Node}
    (h : nodeEqual e x y = true) : nodeEqual e y x = true := by
  cases x <;> cases y <;> simp only [nodeEqual, Bool.false_eq_true, decide_eq_true_eq] at h ⊢
  · exact h.symm
  · exact ⟨h.1.symm, h.2.symm⟩
  · rename_i r ps s qs
    split at h
    · cases h
    · rename_i hl
      push Not at hl
      rw [if_neg (by simp [hl])]
      simp only [Bool.and_eq_true, decide_eq_true_eq] at h ⊢
      refine ⟨?_, h.2.symm⟩
      rw [paramsEqual_iff _ _ _ hl.symm]
      intro i p q hp hq
      exact he _ _ ((paramsEqual_iff _ _ _ hl).1 h.1 i q p hq hp)

theorem typeEqual_symm (mem : List Node) : ∀ (f a b : Nat), typeEqual mem f a b = true → typeEqual mem f b a = true
  | 0, _, _, h => by simp [typeEqual] at h
  | f + 1, a, b, h => by
    unfold typeEqual at h ⊢
    split at h
    · rename_i x y hx hy
      rw [hx, hy]
      exact nodeEqual_symm (typeEqual_symm mem f) h
    · cases h

theorem nodeEqual_trans {e : Nat → Nat → Bool} (he : ∀ a b c, e a b = true → e b c = true → e a c = true)
    {x y z : Node} (h : nodeEqual e x y = true) (h' : nodeEqual e y z = true) : nodeEqual e x z = true := by
  cases x <;> cases y <;> simp only [nodeEqual, Bool.false_eq_true, decide_eq_true_eq] at h <;>
    cases z <;> simp only [nodeEqual, Bool.false_eq_true, decide_eq_true_eq] at h' ⊢
  · exact h.trans h'
  · exact ⟨h.1.trans h'.1, h.2.trans h'.2⟩
  · rename_i r ps s qs t rs
    split at h
    · cases h
    · rename_i hl
      push Not at hl
      split at h'
      · cases h'
      · rename_i hl'
        push Not at hl'
        rw [if_neg (by simp [hl, hl'])]
        simp only [Bool.and_eq_true, decide_eq_true_eq] at h h' ⊢
        refine ⟨?_, h.2.trans h'.2⟩
        rw [paramsEqual_iff _ _ _ (hl.trans hl')]
        intro i p q hp hq
        have hi : i < qs.length := by
          rw [hl']; exact (List.getElem?_eq_some_iff.1 hq).1
        exact he _ _ _ ((paramsEqual_iff _ _ _ hl).1 h.1 i p qs[i] hp (List.getElem?_eq_getElem hi))
          ((paramsEqual_iff _ _ _ hl').1 h'.1 i qs[i] q (List.getElem?_eq_getElem hi) hq)

theorem typeEqual_trans (mem : List Node) : ∀ (f a b c : Nat), typeEqual mem f a b = true →
    typeEqual mem f b c = true → typeEqual mem f a c = true
  | 0, _, _, _, h, _ => by simp [typeEqual] at h
  | f + 1, a, b, c, h, h' => by
    unfold typeEqual at h h' ⊢
    split at h
    · rename_i x y hx hy
      rw [hy] at h'
      split at h'
      · rename_i y' z hy' hz
        cases hy'
        rw [hx, hz]
        exact nodeEqual_trans (typeEqual_trans mem f) h h'
      · cases h'
    · cases h

/-! ## well-formed memories -/

/-- the addresses an object refers to -/
def Node.kids : Node → List Nat
  | .use _ => []
  | .qual _ s => [s]
  | .func r ps => r :: ps

/-- objects refer to earlier objects -/
def Ordered (mem : List Node) : Prop := ∀ k n, mem[k]? = some n → ∀ c ∈ n.kids, 1 ≤ c ∧ c ≤ k

theorem at?_some {mem : List Node} {a : Nat} {n : Node} : at? mem a = some n ↔ 1 ≤ a ∧ mem[a - 1]? = some n := by
  unfold at?
  split
  · subst_vars; simp
  · constructor
    · intro h; exact ⟨by omega, h⟩
    · intro h; exact h.2

theorem at?_valid {mem : List Node} {a : Nat} (h1 : 1 ≤ a) (h2 : a ≤ mem.length) : ∃ n, at? mem a = some n := by
  refine ⟨mem[a - 1], at?_some.2 ⟨h1, ?_⟩⟩
  exact List.getElem?_eq_getElem (by omega)

theorem at?_append {mem : List Node} {a : Nat} (h : a ≤ mem.length) (l : List Node) : at? (mem ++ l) a = at? mem a := by
  unfold at?
  split
  · rfl
  · rw [List.getElem?_append_left (by omega)]

theorem nodeEqual_eq {e : Nat → Nat → Bool} {x y : Node}
    (he : ∀ a ∈ x.kids, ∀ b ∈ y.kids, (e a b = true ↔ a = b)) : nodeEqual e x y = true ↔ x = y := by
  cases x <;> cases y <;> simp only [nodeEqual, Bool.false_eq_true, decide_eq_true_eq, Node.use.injEq,
    Node.qual.injEq, Node.func.injEq, reduceCtorEq]
  rename_i r ps s qs
  split
  · rename_i hl
    simp only [Bool.false_eq_true, false_iff, not_and]
    rintro _ rfl
    exact hl rfl
  · rename_i hl
    push Not at hl
    simp only [Bool.and_eq_true, decide_eq_true_eq]
    rw [paramsEqual_iff _ _ _ hl]
    constructor
    · rintro ⟨h, rfl⟩
      refine ⟨rfl, List.ext_getElem? fun i => ?_⟩
      by_cases hi : i < ps.length
      · have hi' : i < qs.length := by omega
        rw [List.getElem?_eq_getElem hi, List.getElem?_eq_getElem hi']
        congr 1
        exact (he _ (by simp [Node.kids]) _ (by simp [Node.kids])).1
          (h i ps[i] qs[i] (List.getElem?_eq_getElem hi) (List.getElem?_eq_getElem hi'))
      · rw [List.getElem?_eq_none (by omega), List.getElem?_eq_none (by omega)]
    · rintro ⟨rfl, rfl⟩
      refine ⟨fun i p q hp hq => ?_, rfl⟩
      rw [hp] at hq; cases hq
      have := List.mem_of_getElem? hp
      exact (he p (by simp [Node.kids, this]) p (by simp [Node.kids, this])).2 rfl

theorem typeEqual_eq {mem : List Node} (ho : Ordered mem) (hd : mem.Nodup) : ∀ (f a b : Nat),
    1 ≤ a → a ≤ mem.length → a ≤ f → 1 ≤ b → b ≤ mem.length → (typeEqual mem f a b = true ↔ a = b)
  | 0, a, b, h1, _, h3, _, _ => by omega
  | f + 1, a, b, h1, h2, h3, h4, h5 => by
    obtain ⟨x, hx⟩ := at?_valid h1 h2
    obtain ⟨y, hy⟩ := at?_valid h4 h5
    unfold typeEqual
    rw [hx, hy]
    simp only
    have hx' := (at?_some.1 hx).2
    have hy' := (at?_some.1 hy).2
    rw [nodeEqual_eq]
    · constructor
      · rintro rfl
        have := (List.nodup_iff_injective_getElem.1 hd).eq_iff (a := ⟨a - 1, by omega⟩) (b := ⟨b - 1, by omega⟩)
        rw [List.getElem?_eq_getElem (by omega)] at hx' hy'
        simp only [Option.some.injEq] at hx' hy'
        have h := this.1 (hx'.trans hy'.symm)
        simp only [Fin.mk.injEq] at h
        omega
      · rintro rfl
        rw [hx'] at hy'; exact Option.some.inj hy'
    · intro c hc d hd'
      obtain ⟨c1, c2⟩ := ho _ _ hx' c hc
      obtain ⟨d1, d2⟩ := ho _ _ hy' d hd'
      exact typeEqual_eq ho hd f c d c1 (by omega) (by omega) d1 (by omega)

theorem nodeHash_congr {c d : Nat → BitVec 64} {n : Node} (h : ∀ a ∈ n.kids, c a = d a) : nodeHash c n = nodeHash d n := by
  cases n with
  | use _ => rfl
  | qual e s => simp [nodeHash, h s (by simp [Node.kids])]
  | func r ps =>
    simp only [nodeHash]
    rw [h r (by simp [Node.kids]), foldl_hash_congr ps ps 0 rfl]
    intro i p q hp hq
    rw [hp] at hq; cases hq
    exact h p (by simp [Node.kids, List.mem_of_getElem? hp])

theorem typeHash_ext {mem : List Node} (ho : Ordered mem) (l : List Node) : ∀ (f g a : Nat),
    1 ≤ a → a ≤ mem.length → a ≤ f → a ≤ g → typeHash (mem ++ l) f a = typeHash mem g a
  | 0, _, _, _, _, _, _ => by omega
  | _ + 1, 0, _, _, _, _, _ => by omega
  | f + 1, g + 1, a, h1, h2, h3, h4 => by
    unfold typeHash
    rw [at?_append h2]
    obtain ⟨x, hx⟩ := at?_valid h1 h2
    rw [hx]
    apply nodeHash_congr
    intro c hc
    obtain ⟨c1, c2⟩ := ho _ _ (at?_some.1 hx).2 c hc
    exact typeHash_ext ho l f g c c1 (by omega) (by omega) (by omega)

/-! ## congruence of hash-consing -/

section congr
variable {ι : Type}

/-- two sets of operations agree on a set of objects -/
structure Agree (o o' : Ops ι) (S : ι → Prop) : Prop where
  hash : ∀ x, S x → o.hashf x = o'.hashf x
  equal : ∀ x y, S x → S y → o.equalf x y = o'.equalf x y

theorem probe_congr {s s' : Nat → Bool} (h : ∀ i, s i = s' i) : s = s' := funext h

theorem load_mem {t : HC ι} {a : Nat} {x : ι} (h : load t a = some x) : x ∈ t.heap := by
  unfold load at h
  split at h
  · cases h
  · exact List.mem_of_getElem? h

theorem candidateIndex_congr {o o' : Ops ι} {S : ι → Prop} (ag : Agree o o' S) {t : HC ι} (hS : ∀ x ∈ t.heap, S x)
    {x : ι} (hx : S x) : candidateIndex o t x = candidateIndex o' t x := by
  unfold candidateIndex
  have : slotStop o t x = slotStop o' t x := by
    funext i
    unfold slotStop
    rcases h : load t (addrAt t i) with _ | y
    · rfl
    · exact ag.equal y x (hS y (load_mem h)) hx
  rw [this, ag.hash x hx]

theorem insert_congr {o o' : Ops ι} {S : ι → Prop} (ag : Agree o o' S) {t : HC ι} (hS : ∀ x ∈ t.heap, S x)
    (a : Nat) : HashCons.insert o t a = HashCons.insert o' t a := by
  unfold HashCons.insert
  rcases h : load t a with _ | y
  · rfl
  · simp only; rw [candidateIndex_congr ag hS (hS y (load_mem h))]

theorem insert_heap {o : Ops ι} {t t' : HC ι} {a : Nat} (h : HashCons.insert o t a = .ok t') : t'.heap = t.heap := by
  unfold HashCons.insert at h
  split at h
  · cases h
  · rw [Res.bind_eq_ok] at h
    obtain ⟨i, _, h⟩ := h
    simp only [Res.pure_eq, Res.ok.injEq] at h
    subst h; rfl

theorem reinsert_congr {o o' : Ops ι} {S : ι → Prop} (ag : Agree o o' S) : ∀ (as : List Nat) {t : HC ι}
    (hS : ∀ x ∈ t.heap, S x), reinsert o as t = reinsert o' as t
  | [], t, _ => rfl
  | a :: as, t, hS => by
    unfold reinsert
    split
    · rw [insert_congr ag hS]
      rcases h : HashCons.insert o' t a with t1 | _ | _ | _ <;>
        simp only [Res.ok_bind, Res.ub_bind, Res.stop_bind] <;> try rfl
      exact reinsert_congr ag as (by rw [insert_heap h]; exact hS)
    · simp only [Res.ok_bind]
      exact reinsert_congr ag as hS

theorem reinsert_heap {o : Ops ι} : ∀ (as : List Nat) {t t' : HC ι}, reinsert o as t = .ok t' → t'.heap = t.heap
  | [], t, t', h => by cases h; rfl
  | a :: as, t, t', h => by
    unfold reinsert at h
    simp only at h
    split at h
    · rw [Res.bind_eq_ok] at h
      obtain ⟨t1, h1, h⟩ := h
      rw [reinsert_heap as h]
      exact insert_heap h1
    · simp only [Res.ok_bind] at h
      exact reinsert_heap as h

theorem get_congr {o o' : Ops ι} {S : ι → Prop} (ag : Agree o o' S) {ntp : Nat → Res Nat} {t : HC ι}
    (hS : ∀ x ∈ t.heap, S x) {x : ι} (hx : S x) : hashConsGet o ntp t x = hashConsGet o' ntp t x := by
  unfold hashConsGet
  simp only
  have hS1 : ∀ y ∈ (if t.table = [] then hcInitialize t initialBaseSize else t).heap, S y := by
    split
    · exact hS
    · exact hS
  generalize (if t.table = [] then hcInitialize t initialBaseSize else t) = t1 at hS1
  rw [candidateIndex_congr ag hS1 hx]
  rcases h : candidateIndex o' t1 x with i | _ | _ | _ <;> try rfl
  simp only [Res.ok_bind]
  split
  · rfl
  · split
    · rcases h2 : ntp (2 * (insertAt { t1 with heap := t1.heap ++ [x] } (t1.heap.length + 1) i).capacity + 1)
        with c | _ | _ | _ <;> try rfl
      simp only [Res.ok_bind]
      unfold resize
      rw [reinsert_congr ag]
      intro y hy
      simp only [hcInitialize, insertAt, List.mem_append, List.mem_singleton] at hy
      rcases hy with hy | rfl
      · exact hS1 y hy
      · exact hx
    · rfl

theorem get_heap {o : Ops ι} {ntp : Nat → Res Nat} {t t' : HC ι} {x : ι} {a : Nat}
    (h : hashConsGet o ntp t x = .ok (a, t')) :
    t'.heap = t.heap ∨ t'.heap = t.heap ++ [x] ∧ a = t.heap.length + 1 := by
  unfold hashConsGet at h
  simp only at h
  have hh : (if t.table = [] then hcInitialize t initialBaseSize else t).heap = t.heap := by
    split <;> rfl
  generalize (if t.table = [] then hcInitialize t initialBaseSize else t) = t1 at hh h
  rw [Res.bind_eq_ok] at h
  obtain ⟨i, _, h⟩ := h
  split at h
  · simp only [Res.pure_eq, Res.ok.injEq, Prod.mk.injEq] at h
    obtain ⟨_, rfl⟩ := h
    exact .inl hh
  · right
    split at h
    · rw [Res.bind_eq_ok] at h
      obtain ⟨c, _, h⟩ := h
      rw [Res.bind_eq_ok] at h
      obtain ⟨t2, h2, h⟩ := h
      simp only [Res.pure_eq, Res.ok.injEq, Prod.mk.injEq] at h
      obtain ⟨rfl, rfl⟩ := h
      have := reinsert_heap _ h2
      simp only [hcInitialize, insertAt] at this
      rw [this, hh]; exact ⟨rfl, rfl⟩
    · simp only [Res.pure_eq, Res.ok.injEq, Prod.mk.injEq] at h
      obtain ⟨rfl, rfl⟩ := h
      simp [insertAt, hh]

theorem good_congr {o o' : Ops ι} {S : ι → Prop} (ag : Agree o o' S) {t : HC ι} (hS : ∀ x ∈ t.heap, S x)
    (g : Good o t) : Good o' t := by
  rcases g with g | ⟨h0, inv, hl⟩
  · exact .inl g
  · refine .inr ⟨h0, ⟨inv.lay, ?_⟩, hl⟩
    intro i hi k hk
    have hkS : S k := hS k (load_mem hk)
    obtain ⟨T, hT, e, c⟩ := inv.chain i hi k hk
    rw [ag.hash k hkS] at e
    refine ⟨T, hT, e, fun t' ht' => ?_⟩
    obtain ⟨y, hy, ny⟩ := c t' ht'
    rw [ag.hash k hkS] at hy
    refine ⟨y, hy, ?_⟩
    show ¬ o'.equalf y k = true
    rwa [← ag.equal y k (hS y (load_mem hy)) hkS]

end congr

/-! ## the table of canonical types -/

/-- structural equality with the hash function of the program: lawful -/
def lawOps (mem : List Node) : Ops Node := ⟨(typeOps mem).hashf, fun a b => a = b⟩

theorem lawOps_lawful (mem : List Node) : (lawOps mem).Lawful := by
  constructor <;> simp [lawOps]

/-- the invariant of the table of canonical types -/
structure TInv (t : HC Node) : Prop where
  good : Good (lawOps t.heap) t
  ordered : Ordered t.heap
  all : ∀ a n, at? t.heap a = some n → Canon (lawOps t.heap) t n a

theorem canon_load {mem : List Node} {t : HC Node} {n : Node} {a : Nat} :
    Canon (lawOps mem) t n a ↔ (∃ i < t.capacity, addrAt t i = a) ∧ load t a = some n := by
  rw [canon_iff]
  constructor
  · rintro ⟨_, h, y, hy, q⟩
    simp only [lawOps, decide_eq_true_eq] at q
    subst q; exact ⟨h, hy⟩
  · rintro ⟨h, hy⟩
    exact ⟨by rintro rfl; simp [load] at hy, h, n, hy, by simp [lawOps]⟩

theorem load_eq_at? (t : HC Node) (a : Nat) : load t a = at? t.heap a := rfl

theorem TInv.nodup {t : HC Node} (h : TInv t) : t.heap.Nodup := by
  rw [List.nodup_iff_injective_getElem]
  intro i j hij
  have hi := h.all (i + 1) (t.heap[i]) (at?_some.2 ⟨by omega, by simp⟩)
  have hj := h.all (j + 1) (t.heap[j]) (at?_some.2 ⟨by omega, by simp⟩)
  rcases h.good with ⟨_, h0⟩ | ⟨_, inv, _⟩
  · obtain ⟨k, hk, _⟩ := hi; omega
  · have := Canon.unique (lawOps_lawful _) inv hi hj (by simpa [lawOps] using hij)
    exact Fin.ext (by omega)

theorem TInv.init : TInv (HC.init Node) :=
  ⟨good_init _, by intro k n h; simp [HC.init] at h, by intro a n h; simp [at?, HC.init] at h⟩

theorem agree_ops {mem : List Node} (ho : Ordered mem) (hd : mem.Nodup) :
    Agree (typeOps mem) (lawOps mem) (fun n => ∀ c ∈ n.kids, 1 ≤ c ∧ c ≤ mem.length) := by
  refine ⟨fun _ _ => rfl, fun x y hx hy => ?_⟩
  have : (nodeEqual (typeEqual mem (mem.length + 1)) x y = true) ↔ x = y := by
    apply nodeEqual_eq
    intro a ha b hb
    exact typeEqual_eq ho hd _ a b (hx a ha).1 (hx a ha).2 (by have := (hx a ha).2; omega) (hy b hb).1 (hy b hb).2
  simp only [typeOps, lawOps]
  rw [Bool.eq_iff_iff, this]; simp

theorem agree_ext {mem : List Node} (ho : Ordered mem) (l : List Node) :
    Agree (lawOps mem) (lawOps (mem ++ l)) (fun n => ∀ c ∈ n.kids, 1 ≤ c ∧ c ≤ mem.length) := by
  refine ⟨fun x hx => ?_, fun x y hx hy => rfl⟩
  simp only [lawOps, typeOps]
  congr 2
  apply nodeHash_congr
  intro c hc
  obtain ⟨h1, h2⟩ := hx c hc
  exact (typeHash_ext ho l _ _ c h1 h2 (by simp; omega) (by omega)).symm

theorem ordered_kids {mem : List Node} (ho : Ordered mem) : ∀ n ∈ mem, ∀ c ∈ n.kids, 1 ≤ c ∧ c ≤ mem.length := by
  intro n hn c hc
  obtain ⟨k, hk⟩ := List.mem_iff_getElem?.1 hn
  have hk' := (List.getElem?_eq_some_iff.1 hk).1
  obtain ⟨h1, h2⟩ := ho k n hk c hc
  exact ⟨h1, by omega⟩

/-- what creating a type does -/
theorem newType_spec {ntp : Nat → Res Nat} (hn : NtpOk ntp) {t t' : HC Node} (inv : TInv t) {n : Node} {a : Nat}
    (hk : ∀ c ∈ n.kids, 1 ≤ c ∧ c ≤ t.heap.length) (h : newType ntp t n = .ok (a, t')) :
    TInv t' ∧ t.heap <+: t'.heap ∧ at? t'.heap a = some n := by
  unfold newType at h
  have hS := ordered_kids inv.ordered
  rw [get_congr (agree_ops inv.ordered inv.nodup) hS hk] at h
  have s := get_spec (lawOps_lawful _) hn inv.good h
  have hl : at? t'.heap a = some n := (canon_load.1 s.canon).2
  refine ⟨?_, s.heap, hl⟩
  rcases get_heap h with e | ⟨e, ea⟩
  · refine ⟨by rw [e]; exact s.good, by rw [e]; exact inv.ordered, fun b m hb => ?_⟩
    rw [e] at hb ⊢
    exact s.keep _ _ (inv.all b m hb)
  · have ho' : Ordered t'.heap := by
      intro k m hm c hc
      rw [e] at hm
      by_cases hkl : k < t.heap.length
      · rw [List.getElem?_append_left hkl] at hm
        exact inv.ordered k m hm c hc
      · rw [List.getElem?_append_right (by omega)] at hm
        have : k - t.heap.length = 0 := by
          by_contra hne
          rw [List.getElem?_eq_none (by simp; omega)] at hm; cases hm
        rw [this] at hm
        simp only [List.getElem?_cons_zero, Option.some.injEq] at hm
        subst hm
        obtain ⟨h1, h2⟩ := hk c hc
        exact ⟨h1, by omega⟩
    have hS' : ∀ x ∈ t'.heap, ∀ c ∈ x.kids, 1 ≤ c ∧ c ≤ t.heap.length := by
      intro x hx
      rw [e] at hx
      rcases List.mem_append.1 hx with hx | hx
      · exact hS x hx
      · rw [List.mem_singleton.1 hx]; exact hk
    refine ⟨?_, ho', fun b m hb => ?_⟩
    · have := good_congr (agree_ext inv.ordered [n]) hS' s.good
      rwa [← e] at this
    · rw [canon_load]
      refine ⟨?_, hb⟩
      by_cases hbl : b ≤ t.heap.length
      · rw [e, at?_append hbl] at hb
        exact (canon_load.1 (s.keep _ _ (inv.all b m hb))).1
      · have h2 := (at?_some.1 hb).2
        have h3 := (List.getElem?_eq_some_iff.1 h2).1
        rw [e] at h3
        simp at h3
        have : b = a := by omega
        subst this
        exact (canon_load.1 s.canon).1

theorem newType_total {ntp : Nat → Res Nat} (hn : NtpOk ntp) {t : HC Node} (inv : TInv t) {n : Node}
    (hk : ∀ c ∈ n.kids, 1 ≤ c ∧ c ≤ t.heap.length)
    (hntp : ∃ c, ntp (2 * (if t.table = [] then 61 else t.capacity) + 1) = .ok c) :
    ∃ r, newType ntp t n = .ok r := by
  unfold newType
  rw [get_congr (agree_ops inv.ordered inv.nodup) (ordered_kids inv.ordered) hk]
  exact get_total (lawOps_lawful _) hn inv.good n hntp

end Aps.CType
