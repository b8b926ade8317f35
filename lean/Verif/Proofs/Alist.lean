import Verif.Model.Alist
import Mathlib.Data.List.Basic
import Mathlib.Tactic.Common
set_option linter.unusedVariables false
namespace Aps.Alist

/-- `p` points to a list that ends and holds the entries `l` (address, key, value). -/
inductive Chain (m : List Cell) : Option Nat → List (Nat × Nat × Nat) → Prop
  | nil : Chain m none []
  | cons {a nx k v l} : m[a]? = some ⟨nx, k, v⟩ → Chain m nx l → Chain m (some a) ((a, k, v) :: l)

theorem Chain.det {m : List Cell} {p : Option Nat} {l l' : List (Nat × Nat × Nat)}
    (h : Chain m p l) (h' : Chain m p l') : l = l' := by
  induction h generalizing l' with
  | nil => cases h'; rfl
  | cons hm _ ih =>
    cases h' with
    | cons hm' h2 =>
      rw [hm] at hm'; cases hm'
      rw [ih h2]

theorem Chain.append {m : List Cell} {p : Option Nat} {l : List (Nat × Nat × Nat)}
    (h : Chain m p l) (c : Cell) : Chain (m ++ [c]) p l := by
  induction h with
  | nil => exact .nil
  | cons hm _ ih =>
    refine .cons ?_ ih
    rw [List.getElem?_append_left (List.getElem?_eq_some_iff.1 hm).1]; exact hm

theorem Chain.lt {m : List Cell} {p : Option Nat} {l : List (Nat × Nat × Nat)}
    (h : Chain m p l) : ∀ e ∈ l, e.1 < m.length := by
  induction h with
  | nil => simp
  | cons hm _ ih =>
    intro e he
    rcases List.mem_cons.1 he with rfl | he
    · exact (List.getElem?_eq_some_iff.1 hm).1
    · exact ih e he

/-- Writing the value of one cell. -/
theorem Chain.set {m : List Cell} {p : Option Nat} {l : List (Nat × Nat × Nat)}
    (h : Chain m p l) {a : Nat} {c : Cell} (hc : m[a]? = some c) (v : Nat) :
    Chain (m.set a { c with value := v }) p
      (l.map fun e => if e.1 = a then (e.1, e.2.1, v) else e) := by
  induction h with
  | nil => exact .nil
  | @cons b nx k w l hm _ ih =>
    have ha := (List.getElem?_eq_some_iff.1 hc).1
    simp only [List.map_cons]
    by_cases hb : b = a
    · subst hb
      rw [hm] at hc; cases hc
      rw [if_pos rfl]
      exact .cons (by rw [List.getElem?_set_self ha]) ih
    · rw [if_neg hb]
      exact .cons (by rw [List.getElem?_set_ne (Ne.symm hb)]; exact hm) ih

theorem Chain.suffix {m : List Cell} {a : Nat} {l : List (Nat × Nat × Nat)} {p : Option Nat}
    (h : Chain m p l) : ∀ e ∈ l, ∃ l', Chain m (some e.1) l' ∧ l'.length ≤ l.length := by
  induction h with
  | nil => simp
  | cons hm h2 ih =>
    intro e he
    rcases List.mem_cons.1 he with rfl | he
    · exact ⟨_, .cons hm h2, Nat.le_refl _⟩
    · obtain ⟨l', h1, h3⟩ := ih e he
      exact ⟨l', h1, by simp; omega⟩

/-- A list that ends visits no cell twice. -/
theorem Chain.nodup {m : List Cell} {p : Option Nat} {l : List (Nat × Nat × Nat)}
    (h : Chain m p l) : (l.map (·.1)).Nodup := by
  induction h with
  | nil => simp
  | @cons a nx k v l hm h2 ih =>
    rw [List.map_cons, List.nodup_cons]
    refine ⟨?_, ih⟩
    intro hmem
    obtain ⟨e, he, hea⟩ := List.mem_map.1 hmem
    simp only at hea
    obtain ⟨l', h1, h3⟩ := h2.suffix (a := a) e he
    rw [hea] at h1
    have := h1.det (.cons hm h2)
    subst this
    simp at h3; omega

theorem assoc_chain {m : List Cell} {p : Option Nat} {l : List (Nat × Nat × Nat)}
    (h : Chain m p l) (key : Nat) : ∀ fuel, l.length ≤ fuel →
    assoc m key fuel p = .ok (((l.find? fun e => e.2.1 == key).map fun e => e.2.2).getD 0) := by
  induction h with
  | nil => intro f _; cases f <;> rfl
  | @cons a nx k v l hm h2 ih =>
    intro f hf
    cases f with
    | zero => simp at hf
    | succ f =>
      simp only [assoc, hm]
      by_cases hk : k = key
      · simp [hk]
      · rw [if_neg hk, ih f (by simpa using hf)]
        have : (k == key) = false := by simpa using hk
        simp [this]

theorem rassoc_chain {m : List Cell} {p : Option Nat} {l : List (Nat × Nat × Nat)}
    (h : Chain m p l) (value : Nat) : ∀ fuel, l.length ≤ fuel →
    rassoc m value fuel p = .ok (((l.find? fun e => e.2.2 == value).map fun e => e.2.1).getD 0) := by
  induction h with
  | nil => intro f _; cases f <;> rfl
  | @cons a nx k v l hm h2 ih =>
    intro f hf
    cases f with
    | zero => simp at hf
    | succ f =>
      simp only [rassoc, hm]
      by_cases hk : v = value
      · simp [hk]
      · rw [if_neg hk, ih f (by simpa using hf)]
        have : (v == value) = false := by simpa using hk
        simp [this]

/-- `setassoc` writes the first cell with the key, if there is one. -/
theorem setassoc_chain {m : List Cell} {p : Option Nat} {l : List (Nat × Nat × Nat)}
    (h : Chain m p l) (key value : Nat) : ∀ fuel, l.length ≤ fuel →
    match l.find? fun e => e.2.1 == key with
    | none => setassoc key value fuel p m = .ok (false, m)
    | some e => ∃ c, m[e.1]? = some c ∧ c.key = key ∧
        setassoc key value fuel p m = .ok (true, m.set e.1 { c with value := value }) := by
  induction h with
  | nil => intro f _; cases f <;> rfl
  | @cons a nx k v l hm h2 ih =>
    intro f hf
    cases f with
    | zero => simp at hf
    | succ f =>
      by_cases hk : k = key
      · subst hk
        simp only [List.find?_cons, BEq.rfl]
        refine ⟨_, hm, rfl, ?_⟩
        simp [setassoc, hm]
      · have hkb : (k == key) = false := by simpa using hk
        simp only [List.find?_cons, hkb]
        have := ih f (by simpa using hf)
        have e : setassoc key value (f + 1) (some a) m = setassoc key value f nx m := by
          simp [setassoc, hm, hk]
        simp only [e]
        exact this

/-- State of the tables. -/
structure Inv (m : Mem) (abs : Nat → Nat → Nat) (ch : Nat → List (Nat × Nat × Nat)) : Prop where
  chain : ∀ t p, m.tables[t]? = some p → Chain m.cells p (ch t)
  out : ∀ t, m.tables.length ≤ t → ch t = []
  disj : ∀ t t', t ≠ t' → ∀ e ∈ ch t, ∀ e' ∈ ch t', e.1 ≠ e'.1
  keys : ∀ t, ((ch t).map fun e => e.2.1).Nodup
  abs : ∀ t k, abs t k = (((ch t).find? fun e => e.2.1 == k).map fun e => e.2.2).getD 0

theorem map_congr_disj {l : List (Nat × Nat × Nat)} {a v : Nat} (h : ∀ e ∈ l, e.1 ≠ a) :
    (l.map fun e => if e.1 = a then (e.1, e.2.1, v) else e) = l := by
  induction l with
  | nil => rfl
  | cons x l ih =>
    rw [List.map_cons, if_neg (h x (by simp)), ih (fun e he => h e (by simp [he]))]

theorem find_key_unique {l : List (Nat × Nat × Nat)} {k : Nat} {e : Nat × Nat × Nat}
    (hn : (l.map (·.1)).Nodup) (hk : (l.map fun e => e.2.1).Nodup)
    (he : l.find? (fun e => e.2.1 == k) = some e) (v : Nat) (k' : Nat) :
    ((((l.map fun x => if x.1 = e.1 then (x.1, x.2.1, v) else x).find? fun e => e.2.1 == k').map
      fun e => e.2.2).getD 0) =
    if k' = k then v else (((l.find? fun e => e.2.1 == k').map fun e => e.2.2).getD 0) := by
  induction l with
  | nil => simp at he
  | cons x l ih =>
    rw [List.map_cons, List.nodup_cons] at hn hk
    rw [List.find?_cons] at he
    rw [List.map_cons, List.find?_cons, List.find?_cons]
    by_cases hx : x.2.1 = k
    · have hxb : (x.2.1 == k) = true := by simpa using hx
      rw [hxb] at he
      simp only [Option.some.injEq] at he
      subst he
      simp only [if_true]
      have hd : ∀ y ∈ l, y.1 ≠ x.1 := fun y hy hyx => hn.1 (List.mem_map.2 ⟨y, hy, hyx⟩)
      rw [map_congr_disj hd]
      by_cases hk' : k' = k
      · subst hk'; simp [hx]
      · have : (x.2.1 == k') = false := by simp [hx]; exact fun h => hk' h.symm
        simp [this, hk']
    · have hxb : (x.2.1 == k) = false := by simpa using hx
      rw [hxb] at he
      simp only at he
      have hem : e ∈ l := List.mem_of_find?_eq_some he
      have hxe : x.1 ≠ e.1 := fun h => hn.1 (List.mem_map.2 ⟨e, hem, h.symm⟩)
      rw [if_neg hxe]
      by_cases hk' : x.2.1 = k'
      · have : (x.2.1 == k') = true := by simpa using hk'
        rw [this]
        have hne : k' ≠ k := by rw [← hk']; exact hx
        simp [hne]
      · have : (x.2.1 == k') = false := by simpa using hk'
        rw [this]
        exact ih hn.2 hk.2 he

theorem newTable_inv {m : Mem} {abs : Nat → Nat → Nat} {ch : Nat → List (Nat × Nat × Nat)}
    (hi : Inv m abs ch) : Inv (newTable m).2 abs ch := by
  refine ⟨?_, ?_, hi.disj, hi.keys, hi.abs⟩
  · intro t p h
    simp only [newTable] at h ⊢
    by_cases ht : t < m.tables.length
    · rw [List.getElem?_append_left ht] at h; exact hi.chain t p h
    · rw [List.getElem?_append_right (by omega)] at h
      have : p = none := by
        cases hx : t - m.tables.length with
        | zero => rw [hx] at h; simpa using h.symm
        | succ n => rw [hx] at h; simp at h
      rw [this, hi.out t (by omega)]
      exact .nil
  · intro t h
    simp only [newTable, List.length_append] at h
    exact hi.out t (by omega)

theorem tableSet_inv {m : Mem} {abs : Nat → Nat → Nat} {ch : Nat → List (Nat × Nat × Nat)}
    (hi : Inv m abs ch) (t k v : Nat) (ht : t < m.tables.length) (fuel : Nat)
    (hf : (ch t).length ≤ fuel) : ∃ m' ch', tableSet fuel t k v m = .ok m' ∧
      m'.tables.length = m.tables.length ∧ (ch' t).length ≤ (ch t).length + 1 ∧
      (∀ u, u ≠ t → (ch' u).length = (ch u).length) ∧
      Inv m' (fun u j => if u = t ∧ j = k then v else abs u j) ch' := by
  obtain ⟨p, hp⟩ : ∃ p, m.tables[t]? = some p := ⟨_, List.getElem?_eq_getElem ht⟩
  have hc := hi.chain t p hp
  have hs := setassoc_chain hc k v fuel hf
  cases hfd : (ch t).find? fun e => e.2.1 == k with
  | none =>
    rw [hfd] at hs
    simp only at hs
    refine ⟨{ cells := m.cells ++ [⟨p, k, v⟩], tables := m.tables.set t (some m.cells.length) },
      fun u => if u = t then (m.cells.length, k, v) :: ch t else ch u, ?_, ?_, ?_, ?_, ?_⟩
    · simp [tableSet, hp, hs, acons]
    · simp
    · simp
    · intro u hu; simp [hu]
    · refine ⟨?_, ?_, ?_, ?_, ?_⟩
      · intro u q hq
        simp only at hq ⊢
        by_cases hu : u = t
        · subst hu
          rw [List.getElem?_set_self ht] at hq
          cases hq
          rw [if_pos rfl]
          exact .cons (by simp) (hc.append _)
        · rw [List.getElem?_set_ne (Ne.symm hu)] at hq
          rw [if_neg hu]
          exact (hi.chain u q hq).append _
      · intro u hu
        simp only [List.length_set] at hu
        have : u ≠ t := by omega
        simp only [this, if_false]
        exact hi.out u hu
      · have hfresh : ∀ u, ∀ e ∈ ch u, e.1 ≠ m.cells.length := by
          intro u e he
          by_cases hul : u < m.tables.length
          · exact Nat.ne_of_lt ((hi.chain u _ (List.getElem?_eq_getElem hul)).lt e he)
          · rw [hi.out u (by omega)] at he; cases he
        intro u u' huu e he e' he'
        split at he
        · rename_i h1
          subst h1
          rw [if_neg (Ne.symm huu)] at he'
          rcases List.mem_cons.1 he with rfl | he
          · exact (hfresh u' e' he').symm
          · exact hi.disj u u' huu e he e' he'
        · split at he'
          · rename_i h1 h2
            subst h2
            rcases List.mem_cons.1 he' with rfl | he'
            · exact hfresh u e he
            · exact hi.disj u u' huu e he e' he'
          · exact hi.disj u u' huu e he e' he'
      · intro u
        split
        · rw [List.map_cons, List.nodup_cons]
          refine ⟨?_, hi.keys t⟩
          intro hm
          obtain ⟨e, he, hek⟩ := List.mem_map.1 hm
          have := List.find?_eq_none.1 hfd e he
          simp at this hek
          exact this hek
        · exact hi.keys u
      · intro u j
        by_cases hu : u = t
        · subst hu
          rw [if_pos rfl, List.find?_cons]
          by_cases hj : j = k
          · subst hj; simp
          · have : (k == j) = false := by simpa using (Ne.symm hj)
            simp [this, hj, hi.abs]
        · simp [hu, hi.abs]
  | some e =>
    rw [hfd] at hs
    obtain ⟨c, h1, h2, h3⟩ := hs
    have hem : e ∈ ch t := List.mem_of_find?_eq_some hfd
    refine ⟨{ m with cells := m.cells.set e.1 { c with value := v } },
      fun u => (ch u).map fun x => if x.1 = e.1 then (x.1, x.2.1, v) else x, ?_, rfl, ?_, ?_, ?_⟩
    · simp [tableSet, hp, h3]
    · simp
    · intro u _; simp
    · refine ⟨?_, ?_, ?_, ?_, ?_⟩
      · intro u q hq
        exact (hi.chain u q hq).set h1 v
      · intro u hu
        rw [hi.out u hu]; rfl
      · intro u u' huu x hx x' hx'
        obtain ⟨y, hy, rfl⟩ := List.mem_map.1 hx
        obtain ⟨y', hy', rfl⟩ := List.mem_map.1 hx'
        have := hi.disj u u' huu y hy y' hy'
        split <;> split <;> simpa using this
      · intro u
        have : (((ch u).map fun x => if x.1 = e.1 then (x.1, x.2.1, v) else x).map fun e => e.2.1) =
            (ch u).map fun e => e.2.1 := by
          rw [List.map_map]
          apply List.map_congr_left
          intro a _
          simp only [Function.comp]
          split <;> rfl
        rw [this]; exact hi.keys u
      · intro u j
        by_cases hu : u = t
        · subst hu
          rw [find_key_unique hc.nodup (hi.keys u) hfd v j]
          by_cases hj : j = k
          · simp [hj]
          · simp [hj, hi.abs]
        · have hd : ∀ x ∈ ch u, x.1 ≠ e.1 := fun x hx => hi.disj u t hu x hx e hem
          rw [map_congr_disj hd]
          simp [hu, hi.abs]

end Aps.Alist
