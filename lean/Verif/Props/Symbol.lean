import Verif.Proofs.Symbol
set_option linter.unusedVariables false
/-!
# C11, C12: the symbol table

`History (init base size) rs t`: the calls of `intern_symbol` and `gensym` listed in `rs`, with the
symbols (addresses) they returned, led to the table `t`.
-/
namespace Aps.Props
open Aps.Symbol

/-- Two interned strings got the same symbol exactly if they are the same string. -/
theorem C11_same_symbol (base size : Nat) (hz : 0 < size) (rs : List (Op × Nat)) (t : Tab)
    (h : History (init base size) rs t) (s s' : List Nat) (p p' : Nat)
    (hs : (Op.intern s, p) ∈ rs) (hs' : (Op.intern s', p') ∈ rs) : p = p' ↔ s = s' := by
  obtain ⟨hi, hb, hsz, _, hr⟩ := h.spec (init_inv base size hz)
  obtain ⟨i, h1, h2, h3⟩ := hr _ hs
  obtain ⟨j, g1, g2, g3⟩ := hr _ hs'
  have e1 := h3 s rfl
  have e2 := g3 s' rfl
  simp only at h2 g2
  constructor
  · rintro rfl
    have := slot_inj hi.size (h2.symm.trans g2)
    subst this
    rw [e1] at e2; cases e2; rfl
  · rintro rfl
    rw [h2, g2]
    congr 1
    have hl : i < t.names.length := (List.getElem?_eq_some_iff.1 e1).1
    have hl' : j < t.names.length := (List.getElem?_eq_some_iff.1 e2).1
    have a1 := (List.getElem?_eq_some_iff.1 e1).2
    have a2 := (List.getElem?_eq_some_iff.1 e2).2
    exact (hi.nodup.getElem_inj_iff).1 (a1.trans a2.symm)

/-- The name of a symbol stays the string that was interned. -/
theorem C11_name (base size : Nat) (hz : 0 < size) (rs : List (Op × Nat)) (t : Tab)
    (h : History (init base size) rs t) (s : List Nat) (p : Nat)
    (hs : (Op.intern s, p) ∈ rs) : symbolName t p = some s := by
  obtain ⟨hi, hb, hsz, _, hr⟩ := h.spec (init_inv base size hz)
  obtain ⟨i, h1, h2, h3⟩ := hr _ hs
  simp only at h2
  rw [h2, symbolName_slot hi.size]
  exact h3 s rfl

/-- `find_symbol` finds exactly the names in the table, and does not add any. -/
theorem C11_find (base size : Nat) (hz : 0 < size) (rs : List (Op × Nat)) (t : Tab)
    (h : History (init base size) rs t) (s : List Nat) (p : Nat) :
    find t s = some p ↔ symbolName t p = some s := by
  obtain ⟨hi, hb, hsz, _, hr⟩ := h.spec (init_inv base size hz)
  constructor
  · intro hf
    rcases find_spec hi s with ⟨j, h1, h2, h3⟩ | ⟨h1, h2⟩
    · rw [h3] at hf; cases hf; rw [symbolName_slot hi.size]; exact h2
    · rw [h2] at hf; cases hf
  · intro hn
    unfold symbolName at hn
    split at hn
    · rename_i hp
      generalize symbolId t p = i at hp hn
      rcases find_spec hi s with ⟨j, h1, h2, h3⟩ | ⟨h1, h2⟩
      · rw [h3, hp]
        congr 2
        exact (hi.nodup.getElem_inj_iff).1 (((List.getElem?_eq_some_iff.1 h2).2).trans
          ((List.getElem?_eq_some_iff.1 hn).2).symm)
      · exact absurd (List.mem_of_getElem? hn) h1
    · cases hn

/-- `symbol_id` numbers the symbols densely, and `id_symbol` is its inverse. -/
theorem C11_ids (base size : Nat) (hz : 0 < size) (rs : List (Op × Nat)) (t : Tab)
    (h : History (init base size) rs t) :
    (∀ r ∈ rs, symbolId t r.2 < t.num ∧ idSymbol t (symbolId t r.2) = r.2) ∧
    (∀ i, symbolId t (idSymbol t i) = i) := by
  obtain ⟨hi, hb, hsz, _, hr⟩ := h.spec (init_inv base size hz)
  refine ⟨fun r hrs => ?_, fun i => symbolId_slot hi.size i⟩
  obtain ⟨i, h1, h2, _⟩ := hr r hrs
  rw [h2, symbolId_slot hi.size]
  exact ⟨h1, rfl⟩

/-- Interning succeeds unless the string is new and 4000 symbols are in use. -/
theorem C11_succeeds (base size : Nat) (hz : 0 < size) (rs : List (Op × Nat)) (t : Tab)
    (h : History (init base size) rs t) (s : List Nat) :
    (∃ p t', intern s t = .ok p t') ∨ (intern s t = .exit ∧ t.num = 4000 ∧ find t s = none) := by
  obtain ⟨hi, hb, hsz, _, hr⟩ := h.spec (init_inv base size hz)
  unfold intern
  rcases find_spec hi s with ⟨j, h1, h2, h3⟩ | ⟨h1, h2⟩
  · left; rw [h3]; exact ⟨_, _, rfl⟩
  · rw [h2]
    rcases add_spec hi s h1 with ⟨e1, e⟩ | ⟨t1, e, _⟩
    · right; exact ⟨e, e1, rfl⟩
    · left; exact ⟨_, t1, e⟩

/-- `gensym` returns a symbol that no call returned before; its name is none of the names in the
table before (so in particular no string interned before). -/
theorem C12_fresh (base size : Nat) (hz : 0 < size) (rs : List (Op × Nat)) (t : Tab)
    (h : History (init base size) rs t) (fuel : Nat) (p : Nat) (t' : Tab)
    (hg : gensym fuel t = .ok p t') :
    (∀ r ∈ rs, r.2 ≠ p) ∧ ∃ s, symbolName t' p = some s ∧ find t s = none ∧
      ∀ r ∈ rs, r.1 ≠ .intern s := by
  obtain ⟨hi, hb, hsz, _, hr⟩ := h.spec (init_inv base size hz)
  obtain ⟨i1, b1, z1, hc⟩ := call_spec hi fuel .gensym hg
  rcases hc with ⟨s, j, ho, _⟩ | ⟨s, ho, hs, ht, hp⟩
  · cases ho
  · have hslot : slot t' t.num = slot t t.num := by simp [slot, b1, z1]
    refine ⟨?_, s, ?_, ?_, ?_⟩
    · intro r hrr he
      obtain ⟨i, h1, h2, _⟩ := hr r hrr
      have := slot_inj hi.size (h2.symm.trans (he.trans hp))
      omega
    · rw [hp, ← hslot, symbolName_slot i1.size, ht, ← hi.len]; simp
    · rcases find_spec hi s with ⟨j, h1, h2, h3⟩ | ⟨h1, h2⟩
      · exact absurd (List.mem_of_getElem? h2) hs
      · exact h2
    · intro r hrr he
      obtain ⟨i, h1, h2, h3⟩ := hr r hrr
      exact hs (List.mem_of_getElem? (h3 s he))

/-- `gensym` ends (within one round per symbol in the table, plus one), never overflows its name
buffer, and succeeds unless 4000 symbols are in use. -/
theorem C12_ends (base size : Nat) (hz : 0 < size) (rs : List (Op × Nat)) (t : Tab)
    (h : History (init base size) rs t) (fuel : Nat) (hf : t.num < fuel) :
    (∃ p t', gensym fuel t = .ok p t') ∨ (gensym fuel t = .exit ∧ t.num = 4000) := by
  obtain ⟨hi, hb, hsz, _, hr⟩ := h.spec (init_inv base size hz)
  unfold gensym
  rcases genLoop_spec fuel hi with ⟨_, g⟩ | ⟨u, g, _⟩
  · omega
  · rw [g]
    simp only [add]
    split
    · right; exact ⟨rfl, by assumption⟩
    · left; exact ⟨_, _, rfl⟩

/-- A case: `G000001` was interned by the user, so `gensym` returns `G000002`. -/
example : ∃ t, History (init 1000 24)
    [(.intern [97], 1000), (.intern (genName 1), 1024), (.intern [97], 1000), (.gensym, 1048)] t ∧
    symbolName t 1048 = some [71, 48, 48, 48, 48, 48, 50] := by
  refine ⟨_, .cons 9 rfl (.cons 9 rfl (.cons 9 rfl (.cons 9 (p := 1048) rfl (.nil _)))), ?_⟩
  decide +kernel

end Aps.Props
