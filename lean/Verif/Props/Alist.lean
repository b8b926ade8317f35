import Verif.Proofs.Alist
set_option linter.unusedVariables false
/-!
# C15: association lists and tables

`Chain m p l` (in `Verif/Proofs/Alist.lean`): following `next` from `p` ends, and visits the
entries `l` (address of the cell, key, value).
-/
namespace Aps.Props
open Aps.Alist

/-- Memory and the alists a client has, after any calls of `acons` and `setassoc`. -/
inductive AlistHeap : List Cell → List (Option Nat) → Prop
  | start : AlistHeap [] [none]
  | acons {m ps p} (k v : Nat) : AlistHeap m ps → p ∈ ps →
      AlistHeap (acons k v p m).2 ((acons k v p m).1 :: ps)
  | setassoc {m ps p b m'} (k v fuel : Nat) : AlistHeap m ps → p ∈ ps →
      setassoc k v fuel p m = .ok (b, m') → AlistHeap m' ps

theorem setassoc_shape {k v : Nat} (fuel : Nat) : ∀ {p : Option Nat} {m m' : List Cell} {b : Bool},
    setassoc k v fuel p m = .ok (b, m') →
    m' = m ∨ ∃ a c, m[a]? = some c ∧ m' = m.set a { c with value := v } := by
  induction fuel with
  | zero =>
    intro p m m' b h
    cases p with
    | none => simp [setassoc] at h; exact Or.inl h.2.symm
    | some a => simp [setassoc] at h
  | succ f ih =>
    intro p m m' b h
    cases p with
    | none => simp [setassoc] at h; exact Or.inl h.2.symm
    | some a =>
      simp only [setassoc] at h
      cases hc : m[a]? with
      | none => rw [hc] at h; cases h
      | some c =>
        rw [hc] at h
        simp only at h
        split at h
        · cases h; exact Or.inr ⟨a, c, hc, rfl⟩
        · exact ih h

/-- Every alist of every history is a proper list: following it ends. -/
theorem C15_lists_end (m : List Cell) (ps : List (Option Nat)) (h : AlistHeap m ps) :
    ∀ p ∈ ps, ∃ l, Chain m p l := by
  induction h with
  | start => intro p hp; simp at hp; subst hp; exact ⟨[], .nil⟩
  | @acons m ps p k v _ hp ih =>
    intro q hq
    rcases List.mem_cons.1 hq with rfl | hq
    · obtain ⟨l, hl⟩ := ih p hp
      exact ⟨_, .cons (k := k) (v := v) (by simp [acons]) (hl.append _)⟩
    · obtain ⟨l, hl⟩ := ih q hq
      exact ⟨l, hl.append _⟩
  | @setassoc m ps p b m' k v f _ hp he ih =>
    intro q hq
    obtain ⟨l, hl⟩ := ih q hq
    rcases setassoc_shape f he with rfl | ⟨a, c, hc, rfl⟩
    · exact ⟨l, hl⟩
    · exact ⟨_, hl.set hc v⟩

/-- `acons` puts an entry in front, and leaves every other list as it is. -/
theorem C15_acons (m : List Cell) (p q : Option Nat) (k v : Nat) (l l' : List (Nat × Nat × Nat))
    (hp : Chain m p l) (hq : Chain m q l') :
    Chain (acons k v p m).2 (acons k v p m).1 ((m.length, k, v) :: l) ∧
    Chain (acons k v p m).2 q l' :=
  ⟨.cons (by simp [acons]) (hp.append _), hq.append _⟩

/-- `assoc` returns the value of the first entry with that key (NULL, 0, if there is none). -/
theorem C15_assoc (m : List Cell) (p : Option Nat) (l : List (Nat × Nat × Nat)) (h : Chain m p l)
    (k fuel : Nat) (hf : l.length ≤ fuel) :
    assoc m k fuel p = .ok (((l.find? fun e => e.2.1 == k).map fun e => e.2.2).getD 0) :=
  assoc_chain h k fuel hf

/-- `rassoc` returns the key of the first entry with that value. -/
theorem C15_rassoc (m : List Cell) (p : Option Nat) (l : List (Nat × Nat × Nat)) (h : Chain m p l)
    (v fuel : Nat) (hf : l.length ≤ fuel) :
    rassoc m v fuel p = .ok (((l.find? fun e => e.2.2 == v).map fun e => e.2.1).getD 0) :=
  rassoc_chain h v fuel hf

/-- `setassoc` says OK exactly if the key is in the list; it then changes the value of the first
entry with that key: in this list and in every list sharing that cell, and nowhere else. -/
theorem C15_setassoc (m : List Cell) (p : Option Nat) (l : List (Nat × Nat × Nat)) (h : Chain m p l)
    (k v fuel : Nat) (hf : l.length ≤ fuel) :
    ((∀ e ∈ l, e.2.1 ≠ k) → setassoc k v fuel p m = .ok (false, m)) ∧
    (∀ e, l.find? (fun e => e.2.1 == k) = some e → ∃ m', setassoc k v fuel p m = .ok (true, m') ∧
      ∀ q l', Chain m q l' →
        Chain m' q (l'.map fun x => if x.1 = e.1 then (x.1, x.2.1, v) else x)) := by
  have hs := setassoc_chain h k v fuel hf
  constructor
  · intro hk
    have : l.find? (fun e => e.2.1 == k) = none := List.find?_eq_none.2 (by simpa using hk)
    rw [this] at hs; exact hs
  · intro e he
    rw [he] at hs
    obtain ⟨c, h1, h2, h3⟩ := hs
    exact ⟨_, h3, fun q l' hq => hq.set h1 v⟩

/-! ### Tables -/

/-- Calls on tables. -/
inductive TableOp where
  | new
  | set (t k v : Nat)
  | get (t k : Nat)

/-- The value a call sets for `k` in table `t`. -/
def setsTo (t k : Nat) : TableOp → Option Nat
  | .set t' k' v => if t = t' ∧ k = k' then some v else none
  | _ => none

/-- The value most recently set for `k` in table `t`, NULL (0) if none. The latest call is last. -/
def lastSet (t k : Nat) (ops : List TableOp) : Nat := (ops.reverse.findSome? (setsTo t k)).getD 0

/-- Any calls on tables that exist; any amount of fuel. -/
inductive TableHistory : List TableOp → Mem → Prop
  | start : TableHistory [] ⟨[], []⟩
  | new {ops m} : TableHistory ops m → TableHistory (ops ++ [.new]) (newTable m).2
  | set {ops m m'} (t k v fuel : Nat) : TableHistory ops m → tableSet fuel t k v m = .ok m' →
      TableHistory (ops ++ [.set t k v]) m'
  | get {ops m r} (t k fuel : Nat) : TableHistory ops m → tableGet fuel t k m = .ok r →
      TableHistory (ops ++ [.get t k]) m

theorem lastSet_append_set (t k t' k' v : Nat) (ops : List TableOp) :
    lastSet t k (ops ++ [.set t' k' v]) = if t = t' ∧ k = k' then v else lastSet t k ops := by
  simp only [lastSet, List.reverse_append, List.reverse_singleton, List.singleton_append,
    List.findSome?_cons, setsTo]
  split <;> simp_all

theorem lastSet_append_other (t k : Nat) (ops : List TableOp) (o : TableOp)
    (ho : o = .new ∨ ∃ a b, o = .get a b) : lastSet t k (ops ++ [o]) = lastSet t k ops := by
  rcases ho with rfl | ⟨a, b, rfl⟩ <;>
    simp [lastSet, List.reverse_append, List.findSome?_cons, setsTo]

theorem assoc_mono {m : List Cell} {k : Nat} (f : Nat) : ∀ {g : Nat} {p : Option Nat} {r : Nat}, f ≤ g →
    assoc m k f p = .ok r → assoc m k g p = .ok r := by
  induction f with
  | zero =>
    intro g p r _ h
    cases p with
    | none => simp [assoc] at h; subst h; cases g <;> rfl
    | some a => simp [assoc] at h
  | succ f ih =>
    intro g p r hg h
    obtain ⟨g, rfl⟩ : ∃ g', g = g' + 1 := ⟨g - 1, by omega⟩
    cases p with
    | none => simp [assoc] at h ⊢; exact h
    | some a =>
      simp only [assoc] at h ⊢
      split at h
      · cases h
      · split at h
        · rename_i hk; rw [if_pos hk]; exact h
        · rename_i hk; rw [if_neg hk]; exact ih (by omega) h

theorem setassoc_mono {k v : Nat} (f : Nat) : ∀ {g : Nat} {p : Option Nat} {m : List Cell} {r}, f ≤ g →
    setassoc k v f p m = .ok r → setassoc k v g p m = .ok r := by
  induction f with
  | zero =>
    intro g p m r _ h
    cases p with
    | none => simp [setassoc] at h; subst h; cases g <;> rfl
    | some a => simp [setassoc] at h
  | succ f ih =>
    intro g p m r hg h
    obtain ⟨g, rfl⟩ : ∃ g', g = g' + 1 := ⟨g - 1, by omega⟩
    cases p with
    | none => simp [setassoc] at h ⊢; exact h
    | some a =>
      simp only [setassoc] at h ⊢
      split at h
      · cases h
      · split at h
        · rename_i hk; rw [if_pos hk]; exact h
        · rename_i hk; rw [if_neg hk]; exact ih (by omega) h

theorem tableSet_mono {t k v f g : Nat} {m m' : Mem} (hg : f ≤ g) (h : tableSet f t k v m = .ok m') :
    tableSet g t k v m = .ok m' := by
  unfold tableSet at h ⊢
  split at h
  · cases h
  · cases hs : setassoc k v f _ m.cells with
    | ok r => rw [setassoc_mono f hg hs]; rw [hs] at h; exact h
    | ub => rw [hs] at h; cases h
    | stop => rw [hs] at h; cases h
    | nofuel => rw [hs] at h; cases h

theorem TableHistory.inv {ops : List TableOp} {m : Mem} (h : TableHistory ops m) :
    ∃ ch, Inv m (fun t k => lastSet t k ops) ch ∧ ∀ t, (ch t).length ≤ ops.length := by
  induction h with
  | start =>
    exact ⟨fun _ => [], ⟨by simp, by simp, by simp, by simp, by simp [lastSet]⟩, by simp⟩
  | @new ops m _ ih =>
    obtain ⟨ch, hi, hl⟩ := ih
    refine ⟨ch, ?_, fun t => by have := hl t; simp; omega⟩
    have := newTable_inv hi
    refine ⟨this.chain, this.out, this.disj, this.keys, fun t k => ?_⟩
    rw [lastSet_append_other t k ops .new (Or.inl rfl)]; exact this.abs t k
  | @set ops m m' t k v f _ he ih =>
    obtain ⟨ch, hi, hl⟩ := ih
    have ht : t < m.tables.length := by
      by_contra hc
      simp [tableSet, List.getElem?_eq_none (Nat.le_of_not_lt hc)] at he
    obtain ⟨m2, ch', e2, _, h3, h4, h5⟩ :=
      tableSet_inv hi t k v ht (max f (ch t).length) (Nat.le_max_right _ _)
    have := tableSet_mono (Nat.le_max_left f (ch t).length) he
    rw [e2] at this; cases this
    refine ⟨ch', ⟨h5.chain, h5.out, h5.disj, h5.keys, fun u j => ?_⟩, fun u => ?_⟩
    · rw [lastSet_append_set]; exact h5.abs u j
    · by_cases hu : u = t
      · subst hu; have := hl u; simp; omega
      · rw [h4 u hu]; have := hl u; simp; omega
  | @get ops m r t k f _ he ih =>
    obtain ⟨ch, hi, hl⟩ := ih
    refine ⟨ch, ⟨hi.chain, hi.out, hi.disj, hi.keys, fun u j => ?_⟩,
      fun t => by have := hl t; simp; omega⟩
    rw [lastSet_append_other u j ops (.get t k) (Or.inr ⟨t, k, rfl⟩)]; exact hi.abs u j

/-- After any calls on any number of tables, getting a key gives the value last set for it in that
table, NULL if none; the lookup ends. -/
theorem C15_table_get (ops : List TableOp) (m : Mem) (h : TableHistory ops m) (t k fuel : Nat)
    (ht : t < m.tables.length) (hf : ops.length ≤ fuel) :
    tableGet fuel t k m = .ok (lastSet t k ops) := by
  obtain ⟨ch, hi, hl⟩ := h.inv
  have hp : m.tables[t]? = some m.tables[t] := List.getElem?_eq_getElem ht
  simp only [tableGet, hp]
  rw [assoc_chain (hi.chain t _ hp) k fuel (Nat.le_trans (hl t) hf), ← hi.abs t k]

/-- Setting always succeeds on a table that exists. -/
theorem C15_table_set (ops : List TableOp) (m : Mem) (h : TableHistory ops m) (t k v fuel : Nat)
    (ht : t < m.tables.length) (hf : ops.length ≤ fuel) :
    ∃ m', tableSet fuel t k v m = .ok m' := by
  obtain ⟨ch, hi, hl⟩ := h.inv
  obtain ⟨m', _, e, _⟩ := tableSet_inv hi t k v ht fuel (Nat.le_trans (hl t) hf)
  exact ⟨m', e⟩

/-- A case: two tables, interleaved, one key overwritten. -/
example : ∃ m, TableHistory
    ([] ++ [.new] ++ [.new] ++ [.set 0 7 1] ++ [.set 1 7 2] ++ [.set 0 8 3] ++ [.set 0 7 4]) m ∧
    tableGet 6 0 7 m = .ok 4 ∧ tableGet 6 1 7 m = .ok 2 := by
  refine ⟨_, .set 0 7 4 6 (.set 0 8 3 6 (.set 1 7 2 6 (.set 0 7 1 6 (.new (.new .start))
    rfl) rfl) rfl) rfl, ?_, ?_⟩ <;> decide +kernel

/-- A case with two alists that share a tail. -/
example : ∃ m ps, AlistHeap m ps ∧ ps.length = 4 ∧
    Chain m (some 2) [(2, 9, 1), (0, 5, 6)] ∧ Chain m (some 1) [(1, 7, 1), (0, 5, 6)] :=
  ⟨_, _, .acons (p := some 0) 9 1 (.acons (p := some 0) 7 1 (.acons 5 6 .start (List.mem_singleton.2 rfl))
    (by decide +kernel)) (by decide +kernel), rfl,
    .cons (by decide +kernel) (.cons (by decide +kernel) .nil),
    .cons (by decide +kernel) (.cons (by decide +kernel) .nil)⟩

end Aps.Props
