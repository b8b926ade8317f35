import Verif.Model.Fiberset
import Mathlib.Tactic.Common
import Mathlib.Data.List.Nodup
/-! Fiber sets and the worklist: refinement to lists. -/
namespace Aps.Fiberset
set_option linter.unusedVariables false

/-- an accepted addition -/
structure Entry where
  set : Nat
  fiber : Nat
  tnode : Nat
  type : Nat
  deriving DecidableEq

/-- the linked list starting at `a` consists of the addresses `l` -/
def Links (nx : Nat → Option Nat) : Nat → List Nat → Prop
  | a, [] => a = 0
  | a, b :: l => a = b ∧ b ≠ 0 ∧ ∃ c, nx b = some c ∧ Links nx c l

theorem Links.congr {nx nx' : Nat → Option Nat} : ∀ {l : List Nat} {a : Nat}, Links nx a l → (∀ b ∈ l, nx' b = nx b) →
    Links nx' a l
  | [], _, h, _ => h
  | b :: l, a, ⟨h1, h2, c, h3, h4⟩, H =>
    ⟨h1, h2, c, by rw [H b (by simp)]; exact h3, h4.congr (fun b hb => H b (by simp [hb]))⟩

/-- the addresses of the entries of a set; entry number `k` is at address `k + 1` -/
def addrs (s : Nat) : Nat → List Entry → List Nat
  | _, [] => []
  | k, e :: es => if e.set = s then (k + 1) :: addrs s (k + 1) es else addrs s (k + 1) es

theorem addrs_append (s : Nat) : ∀ (k : Nat) (es fs : List Entry), addrs s k (es ++ fs) = addrs s k es ++ addrs s (k + es.length) fs
  | k, [], fs => by simp [addrs]
  | k, e :: es, fs => by
    simp only [List.cons_append, addrs, List.length_cons]
    rw [addrs_append s (k + 1) es fs]
    have : k + 1 + es.length = k + (es.length + 1) := by omega
    rw [this]
    split <;> simp

theorem mem_addrs {s : Nat} : ∀ {k : Nat} {es : List Entry} {a : Nat}, a ∈ addrs s k es ↔
    ∃ i e, es[i]? = some e ∧ e.set = s ∧ a = k + i + 1
  | k, [], a => by simp [addrs]
  | k, e :: es, a => by
    simp only [addrs]
    constructor
    · intro h
      have h' : (e.set = s ∧ a = k + 1) ∨ a ∈ addrs s (k + 1) es := by
        split at h
        · rename_i hs
          rcases List.mem_cons.1 h with h | h
          · exact .inl ⟨hs, h⟩
          · exact .inr h
        · exact .inr h
      rcases h' with ⟨h1, h2⟩ | h'
      · exact ⟨0, e, by simp, h1, by omega⟩
      · obtain ⟨i, x, h1, h2, h3⟩ := mem_addrs.1 h'
        exact ⟨i + 1, x, by simpa using h1, h2, by omega⟩
    · rintro ⟨i, x, h1, h2, h3⟩
      cases i with
      | zero =>
        simp only [List.getElem?_cons_zero, Option.some.injEq] at h1
        subst h1
        rw [if_pos h2]; simp [h3]
      | succ i =>
        have : a ∈ addrs s (k + 1) es := mem_addrs.2 ⟨i, x, by simpa using h1, h2, by omega⟩
        split
        · exact List.mem_cons_of_mem _ this
        · exact this

theorem addrs_nodup (s : Nat) : ∀ (k : Nat) (es : List Entry), (addrs s k es).Nodup
  | k, [] => by simp [addrs]
  | k, e :: es => by
    simp only [addrs]
    have ih := addrs_nodup s (k + 1) es
    split
    · refine List.nodup_cons.2 ⟨fun h => ?_, ih⟩
      obtain ⟨i, x, _, _, h⟩ := mem_addrs.1 h
      omega
    · exact ih

def restOf (st : St) (a : Nat) : Option Nat := (cellAt st a).map Cell.rest

/-- The state represents the accepted additions `acc`, of which the first `tk` have been handed out. -/
structure Inv (n : Nat) (st : St) (acc : List Entry) (tk : Nat) : Prop where
  len : st.cells.length = acc.length
  cell : ∀ (k : Nat) e, acc[k]? = some e → ∃ c, st.cells[k]? = some c ∧ c.fiber = e.fiber ∧ c.tnode = e.tnode ∧ c.type = e.type
  nheads : st.heads.length = n
  links : ∀ s < n, ∃ h, st.heads[s]? = some h ∧ Links (restOf st) h (addrs s 0 acc)
  sets : ∀ e ∈ acc, e.set < n
  taken : tk ≤ acc.length
  head : st.wlHead = if tk < acc.length then tk + 1 else 0
  tail : tk < acc.length → st.wlTail = acc.length
  next : ∀ k, tk ≤ k → ∀ c, st.cells[k]? = some c → c.next = if k + 1 < acc.length then k + 2 else 0

theorem Inv.init (n : Nat) : Inv n (St.init n) [] 0 := by
  constructor <;> simp [St.init]
  intro s hs
  exact ⟨0, by simp [hs], rfl⟩

theorem cellAt_succ (st : St) (k : Nat) : cellAt st (k + 1) = st.cells[k]? := by simp [cellAt]

theorem Inv.cellAt {n : Nat} {st : St} {acc : List Entry} {tk : Nat} (h : Inv n st acc tk) {s a : Nat}
    (ha : a ∈ addrs s 0 acc) : ∃ c e, cellAt st a = some c ∧ e ∈ acc ∧ e.set = s ∧ c.fiber = e.fiber := by
  obtain ⟨i, e, h1, h2, h3⟩ := mem_addrs.1 ha
  obtain ⟨c, hc, hf, _⟩ := h.cell i e h1
  refine ⟨c, e, ?_, List.mem_of_getElem? h1, h2, hf⟩
  have : a = i + 1 := by omega
  rw [this, cellAt_succ, hc]

/-- walking along the rest of a set -/
theorem walk_spec {st : St} {fiber : Nat} : ∀ {l : List Nat} {fuel : Nat} {sl : Slot} {a : Nat}, l.length < fuel →
    readSlot st sl = .ok a → Links (restOf st) a l →
    (walk st fiber fuel sl = .ok none ∧ ∃ b ∈ l, ∃ c, cellAt st b = some c ∧ c.fiber = fiber) ∨
    (walk st fiber fuel sl = .ok (some (match l.getLast? with | none => sl | some b => .rest b)) ∧
      ∀ b ∈ l, ∀ c, cellAt st b = some c → c.fiber ≠ fiber)
  | [], fuel + 1, sl, a, hf, hr, hl => by
    right
    have : a = 0 := hl
    subst this
    unfold walk
    rw [hr]
    simp
  | b :: l, fuel + 1, sl, a, hf, hr, ⟨h1, h2, c, h3, h4⟩ => by
    subst h1
    unfold walk
    rw [hr]
    simp only [Res.ok_bind, if_neg h2]
    simp only [restOf, Option.map_eq_some_iff] at h3
    obtain ⟨d, hd, hdr⟩ := h3
    rw [hd]
    simp only
    split
    · rename_i hfib
      exact .inl ⟨rfl, a, by simp, d, hd, hfib⟩
    · rename_i hfib
      have hr' : readSlot st (.rest a) = .ok c := by simp [readSlot, hd, hdr]
      rcases walk_spec (fiber := fiber) (fuel := fuel) (by simpa using hf) hr' h4 with ⟨e, b, hb, c', hc, hx⟩ | ⟨e, H⟩
      · exact .inl ⟨e, b, by simp [hb], c', hc, hx⟩
      · right
        refine ⟨?_, ?_⟩
        · rw [e]
          cases hgl : l.getLast? with
          | none =>
            have : l = [] := by simpa using hgl
            subst this
            simp
          | some z =>
            have : (a :: l).getLast? = some z := by
              cases l with
              | nil => simp at hgl
              | cons y ys => simpa [List.getLast?_cons_cons] using hgl
            rw [this]
        · intro b hb c' hc
          rcases List.mem_cons.1 hb with rfl | hb
          · rw [hd] at hc; cases hc; exact hfib
          · exact H b hb c' hc
  | _, 0, _, _, hf, _, _ => by omega

theorem addrs_length_le (s : Nat) : ∀ (k : Nat) (es : List Entry), (addrs s k es).length ≤ es.length
  | _, [] => by simp [addrs]
  | k, e :: es => by
    simp only [addrs]
    have := addrs_length_le s (k + 1) es
    split <;> simp <;> omega

/-- the links after writing a new address at the end -/
theorem links_snoc {nx nx' : Nat → Option Nat} {m : Nat} (hm : m ≠ 0) (hm' : nx' m = some 0) : ∀ {l : List Nat} {a : Nat},
    Links nx a l → l.Nodup → (∀ b ∈ l, b ≠ m) → (∀ z, l.getLast? = some z → nx' z = some m) →
    (∀ b ∈ l, l.getLast? ≠ some b → nx' b = nx b) → Links nx' (if l = [] then m else a) (l ++ [m])
  | [], a, _, _, _, _, _ => by simp [Links, hm, hm']
  | [b], a, ⟨h1, h2, c, h3, h4⟩, _, hne, hl, _ => by
    simp only [List.cons_ne_nil, if_false, List.singleton_append]
    refine ⟨h1, h2, m, hl b (by simp), ?_⟩
    exact ⟨rfl, hm, 0, hm', rfl⟩
  | b :: b' :: l, a, ⟨h1, h2, c, h3, h4⟩, hnd, hne, hl, hk => by
    have ih := links_snoc hm hm' h4 (List.nodup_cons.1 hnd).2 (fun x hx => hne x (by simp at hx ⊢; tauto))
      (fun z hz => hl z (by rw [List.getLast?_cons_cons]; exact hz))
      (fun x hx hz => hk x (List.mem_cons_of_mem _ hx) (by rw [List.getLast?_cons_cons]; exact hz))
    simp only [List.cons_ne_nil, if_false] at ih ⊢
    refine ⟨h1, h2, c, ?_, ih⟩
    rw [hk b (by simp) ?_, h3]
    rw [List.getLast?_cons_cons]
    intro hz
    have := List.mem_of_getLast? hz
    exact (List.nodup_cons.1 hnd).1 this

/-- The specification of an addition. -/
def accept (foreign : Nat → Bool) (acc : List Entry) (e : Entry) : List Entry :=
  if e.fiber = 0 ∨ foreign e.tnode = true ∨ ∃ x ∈ acc, x.set = e.set ∧ x.fiber = e.fiber then acc else acc ++ [e]

theorem set_getElem? {l : List Cell} {i j : Nat} {c : Cell} :
    (l.set i c)[j]? = if i = j then (if j < l.length then some c else none) else l[j]? := by
  rw [List.getElem?_set]
  by_cases h : i = j
  · subst h; simp
  · simp [h]

set_option maxHeartbeats 1000000 in
theorem add_spec {n : Nat} {foreign : Nat → Bool} {st : St} {acc : List Entry} {tk : Nat} (inv : Inv n st acc tk) (e : Entry)
    (hs : e.set < n) (hbase : e.fiber = 0 → e.type % 2 ≠ 1) :
    ∃ st', addToFiberset foreign st e.fiber e.tnode e.type e.set = .ok st' ∧ Inv n st' (accept foreign acc e) tk := by
  unfold addToFiberset accept
  by_cases h0 : e.fiber = 0
  · simp only [h0, if_true, if_neg (hbase h0), true_or]
    exact ⟨st, rfl, inv⟩
  by_cases hfg : foreign e.tnode = true
  · simp only [h0, hfg, if_true, if_false, true_or, or_true]
    exact ⟨st, rfl, inv⟩
  simp only [h0, hfg, Bool.false_eq_true, if_false, false_or]
  obtain ⟨h, hh, hl⟩ := inv.links e.set hs
  have hread : readSlot st (.var e.set) = .ok h := by simp [readSlot, hh]
  rcases walk_spec (fiber := e.fiber) (fuel := st.cells.length + 1)
    (by have := addrs_length_le e.set 0 acc; have := inv.len; omega) hread hl with ⟨ew, b, hb, c, hc, hx⟩ | ⟨ew, H⟩
  · rw [ew]
    simp only [Res.ok_bind]
    refine ⟨st, rfl, ?_⟩
    obtain ⟨c', e', h1, h2, h3, h4⟩ := inv.cellAt hb
    rw [hc] at h1; cases h1
    rw [if_pos ⟨e', h2, h3, by rw [← h4, hx]⟩]
    exact inv
  · rw [ew]
    simp only [Res.ok_bind]
    have hnot : ¬ ∃ x ∈ acc, x.set = e.set ∧ x.fiber = e.fiber := by
      rintro ⟨x, hx, hxs, hxf⟩
      obtain ⟨i, hi⟩ := List.mem_iff_getElem?.1 hx
      obtain ⟨c, hc, hf, _⟩ := inv.cell i x hi
      exact H (i + 1) (mem_addrs.2 ⟨i, x, hi, hxs, by omega⟩) c (by rw [cellAt_succ, hc]) (by rw [hf, hxf])
    rw [if_neg hnot]
    have hlen := inv.len
    -- the state after linking into the worklist
    obtain ⟨st2, hst2, hcells, hheads, hhead, htail⟩ : ∃ st2 : St,
        linkTail { st with cells := st.cells ++ [(⟨0, e.fiber, e.tnode, e.type, 0⟩ : Cell)] } (st.cells.length + 1) = .ok st2 ∧
        (∀ k, st2.cells[k]? = if k = acc.length then some ⟨0, e.fiber, e.tnode, e.type, 0⟩
          else if tk < acc.length ∧ k + 1 = acc.length then st.cells[k]?.map (fun c => { c with next := acc.length + 1 })
          else st.cells[k]?) ∧ st2.heads = st.heads ∧ st2.wlHead = tk + 1 ∧ True := by
      unfold linkTail
      simp only
      by_cases htk : tk < acc.length
      · have hhd : st.wlHead ≠ 0 := by rw [inv.head, if_pos htk]; omega
        rw [if_neg hhd, inv.tail htk]
        obtain ⟨c, hc⟩ : ∃ c, (st.cells ++ [(⟨0, e.fiber, e.tnode, e.type, 0⟩ : Cell)])[acc.length - 1]? = some c ∧
            st.cells[acc.length - 1]? = some c := by
          refine ⟨st.cells[acc.length - 1]'(by omega), ?_, ?_⟩
          · rw [List.getElem?_append_left (by omega)]; exact List.getElem?_eq_getElem (by omega)
          · exact List.getElem?_eq_getElem (by omega)
        unfold setCell cellAt
        rw [if_neg (by omega)]
        simp only [hc.1]
        refine ⟨_, rfl, ?_, rfl, by rw [inv.head, if_pos htk], trivial⟩
        intro k
        simp only [set_getElem?, List.length_append, List.length_singleton]
        by_cases hk1 : k = acc.length
        · subst hk1
          rw [if_neg (by omega), if_pos rfl, List.getElem?_append_right (by omega)]
          simp [hlen]
        · rw [if_neg hk1]
          by_cases hk2 : k + 1 = acc.length
          · have e1 : acc.length - 1 = k := by omega
            rw [if_pos e1, if_pos (show k < st.cells.length + 1 by omega), if_pos ⟨htk, hk2⟩]
            have := hc.2
            rw [e1] at this
            rw [this]; simp [hlen]
          · rw [if_neg (by omega), if_neg (by tauto)]
            by_cases hk3 : k < acc.length
            · rw [List.getElem?_append_left (by omega)]
            · rw [List.getElem?_eq_none (by simp; omega), List.getElem?_eq_none (by omega)]
      · have hhd : st.wlHead = 0 := by rw [inv.head, if_neg htk]
        rw [if_pos hhd]
        have := inv.taken
        refine ⟨_, rfl, ?_, rfl, by simp; omega, trivial⟩
        intro k
        by_cases hk1 : k = acc.length
        · subst hk1
          rw [if_pos rfl]
          simp only
          rw [List.getElem?_append_right (by omega)]
          simp [hlen]
        · rw [if_neg hk1, if_neg (by tauto)]
          by_cases hk3 : k < acc.length
          · simp only; rw [List.getElem?_append_left (by omega)]
          · rw [List.getElem?_eq_none (by simp; omega), List.getElem?_eq_none (by omega)]
    rw [hst2]
    simp only [Res.ok_bind]
    -- writing the new address at the end of the set
    have hcat2 : ∀ b, b ≠ acc.length + 1 → (cellAt st2 b).map Cell.rest = (cellAt st b).map Cell.rest ∧
        (cellAt st2 b).map Cell.fiber = (cellAt st b).map Cell.fiber := by
      intro b hb
      unfold cellAt
      by_cases hb0 : b = 0
      · simp [hb0]
      · rw [if_neg hb0, if_neg hb0, hcells, if_neg (by omega)]
        split
        · cases st.cells[b - 1]? <;> simp
        · simp
    have hlt : ∀ s b, b ∈ addrs s 0 acc → 1 ≤ b ∧ b ≤ acc.length := by
      intro s b hb
      obtain ⟨i, x, h1, _, h3⟩ := mem_addrs.1 hb
      have := (List.getElem?_eq_some_iff.1 h1).1
      omega
    have hlen2 : st2.cells.length = acc.length + 1 := by
      apply Nat.le_antisymm
      · by_contra hcon
        have h1 := hcells (acc.length + 1)
        rw [if_neg (by omega), if_neg (by omega), List.getElem?_eq_none (l := st.cells) (by omega)] at h1
        rw [List.getElem?_eq_none_iff] at h1; omega
      · by_contra hcon
        have h1 := hcells acc.length
        rw [if_pos rfl, List.getElem?_eq_none (by omega)] at h1; cases h1
    have haddr : ∀ s, addrs s 0 (acc ++ [e]) = if s = e.set then addrs s 0 acc ++ [acc.length + 1] else addrs s 0 acc := by
      intro s
      rw [addrs_append]
      by_cases hss : s = e.set
      · simp [addrs, hss]
      · have : e.set ≠ s := fun h => hss h.symm
        simp [addrs, hss, this]
    -- final state
    suffices hfin : ∃ st', (match (addrs e.set 0 acc).getLast? with
          | none => (Res.ok { st2 with wlTail := st.cells.length + 1, heads := st2.heads.set e.set (st.cells.length + 1) } : Res St)
          | some b => setCell { st2 with wlTail := st.cells.length + 1 } b (fun c => { c with rest := st.cells.length + 1 })) = .ok st' ∧
        Inv n st' (acc ++ [e]) tk by
      obtain ⟨st', he, hi⟩ := hfin
      refine ⟨st', ?_, hi⟩
      rw [← he]
      cases (addrs e.set 0 acc).getLast? <;> rfl
    have base_inv : ∀ st' : St, st'.wlHead = tk + 1 → st'.wlTail = acc.length + 1 → st'.heads.length = n →
        (∀ (k : Nat) (c : Cell), st2.cells[k]? = some c → ∃ c' : Cell, st'.cells[k]? = some c' ∧ c'.fiber = c.fiber ∧ c'.tnode = c.tnode ∧
          c'.type = c.type ∧ c'.next = c.next) → st'.cells.length = st2.cells.length →
        (∀ s < n, ∃ h, st'.heads[s]? = some h ∧ Links (restOf st') h (addrs s 0 (acc ++ [e]))) →
        Inv n st' (acc ++ [e]) tk := by
      intro st' h1 h2 h3 h4 h5 h6
      refine ⟨by simp [h5, hlen2], ?_, h3, h6, ?_, by have := inv.taken; simp; omega, ?_, fun _ => by simp [h2], ?_⟩
      · intro k x hx
        by_cases hk : k < acc.length
        · rw [List.getElem?_append_left hk] at hx
          obtain ⟨c, hc, f1, f2, f3⟩ := inv.cell k x hx
          have hc2 : ∃ c2, st2.cells[k]? = some c2 ∧ c2.fiber = c.fiber ∧ c2.tnode = c.tnode ∧ c2.type = c.type := by
            rw [hcells, if_neg (by omega)]
            split
            · rw [hc]; exact ⟨_, rfl, rfl, rfl, rfl⟩
            · rw [hc]; exact ⟨_, rfl, rfl, rfl, rfl⟩
          obtain ⟨c2, hc2, g1, g2, g3⟩ := hc2
          obtain ⟨c', hc', i1, i2, i3, _⟩ := h4 k c2 hc2
          exact ⟨c', hc', by rw [i1, g1, f1], by rw [i2, g2, f2], by rw [i3, g3, f3]⟩
        · rw [List.getElem?_append_right (by omega)] at hx
          have hk' : k = acc.length := by
            have := (List.getElem?_eq_some_iff.1 hx).1
            simp at this; omega
          subst hk'
          simp only [Nat.sub_self, List.getElem?_cons_zero, Option.some.injEq] at hx
          subst hx
          obtain ⟨c', hc', i1, i2, i3, _⟩ := h4 acc.length _ (by rw [hcells, if_pos rfl])
          exact ⟨c', hc', i1, i2, i3⟩
      · intro x hx
        rcases List.mem_append.1 hx with hx | hx
        · exact inv.sets x hx
        · rw [List.mem_singleton.1 hx]; exact hs
      · have := inv.taken
        rw [h1, if_pos (by simp; omega)]
      · intro k hk c hc
        have hk2 : k < acc.length + 1 := by
          have := (List.getElem?_eq_some_iff.1 hc).1
          omega
        obtain ⟨c2, hc2⟩ : ∃ c2, st2.cells[k]? = some c2 := ⟨st2.cells[k]'(by omega), List.getElem?_eq_getElem (by omega)⟩
        obtain ⟨c', hc', _, _, _, i4⟩ := h4 k c2 hc2
        rw [hc] at hc'; cases hc'
        rw [i4]
        rw [hcells] at hc2
        by_cases hka : k = acc.length
        · rw [if_pos hka] at hc2; cases hc2
          simp [hka]
        · rw [if_neg hka] at hc2
          have htk : tk < acc.length := by omega
          by_cases hkb : k + 1 = acc.length
          · rw [if_pos ⟨htk, hkb⟩] at hc2
            simp only [Option.map_eq_some_iff] at hc2
            obtain ⟨c0, _, rfl⟩ := hc2
            rw [if_pos (by simp; omega)]
            simp only; omega
          · rw [if_neg (by tauto)] at hc2
            rw [inv.next k hk c2 hc2, if_pos (by omega), if_pos (by simp; omega)]
    have hnew2 : (cellAt st2 (acc.length + 1)) = some ⟨0, e.fiber, e.tnode, e.type, 0⟩ := by
      rw [cellAt_succ, hcells, if_pos rfl]
    cases hgl : (addrs e.set 0 acc).getLast? with
    | none =>
      have hnil : addrs e.set 0 acc = [] := by simpa using hgl
      refine ⟨_, rfl, ?_⟩
      apply base_inv
      · exact hhead
      · simp [hlen]
      · simp [hheads, inv.nheads]
      · intro k c hc; exact ⟨c, hc, rfl, rfl, rfl, rfl⟩
      · rfl
      · intro s hsn
        have hrest : ∀ b, restOf ({ st2 with wlTail := st.cells.length + 1, heads := st2.heads.set e.set (st.cells.length + 1) } : St) b
            = (cellAt st2 b).map Cell.rest := fun b => rfl
        by_cases hss : s = e.set
        · subst hss
          refine ⟨acc.length + 1, ?_, ?_⟩
          · simp only
            rw [List.getElem?_set_self (by rw [hheads, inv.nheads]; exact hsn), hlen]
          · rw [haddr, if_pos rfl, hnil]
            refine ⟨rfl, by omega, 0, ?_, rfl⟩
            rw [hrest, hnew2]; rfl
        · obtain ⟨h', hh', hl'⟩ := inv.links s hsn
          refine ⟨h', ?_, ?_⟩
          · simp only
            rw [List.getElem?_set_ne (fun h => hss h.symm), hheads]; exact hh'
          · rw [haddr, if_neg hss]
            apply hl'.congr
            intro b hb
            rw [hrest, (hcat2 b (by have := hlt s b hb; omega)).1]; rfl
    | some z =>
      have hz := List.mem_of_getLast? hgl
      obtain ⟨z1, z2⟩ := hlt _ _ hz
      obtain ⟨c, hc⟩ : ∃ c, cellAt st2 z = some c := by
        refine ⟨st2.cells[z - 1]'(by omega), ?_⟩
        unfold cellAt
        rw [if_neg (by omega)]; exact List.getElem?_eq_getElem (by omega)
      simp only
      unfold setCell
      have hc' : cellAt ({ st2 with wlTail := st.cells.length + 1 } : St) z = some c := hc
      rw [hc']
      refine ⟨_, rfl, ?_⟩
      have hcz : st2.cells[z - 1]? = some c := by
        unfold cellAt at hc
        rwa [if_neg (by omega)] at hc
      have hrest : ∀ b, 1 ≤ b → restOf ({ st2 with wlTail := st.cells.length + 1, cells := st2.cells.set (z - 1) { c with rest := st.cells.length + 1 } } : St) b
            = if b = z then some (acc.length + 1) else (cellAt st2 b).map Cell.rest := by
        intro b hb
        unfold restOf cellAt
        have hb0 : b ≠ 0 := by omega
        simp only [hb0, if_false]
        rw [set_getElem?]
        by_cases hbz : b = z
        · subst hbz
          rw [if_pos rfl, if_pos rfl, if_pos (by omega)]
          simp [hlen]
        · rw [if_neg (by omega), if_neg hbz]
      apply base_inv
      · exact hhead
      · simp [hlen]
      · simp [hheads, inv.nheads]
      · intro k d hd
        simp only
        rw [set_getElem?]
        by_cases hk : z - 1 = k
        · subst hk
          rw [hcz] at hd; cases hd
          rw [if_pos rfl, if_pos (by omega)]
          exact ⟨_, rfl, rfl, rfl, rfl, rfl⟩
        · rw [if_neg hk]; exact ⟨d, hd, rfl, rfl, rfl, rfl⟩
      · simp
      · intro s hsn
        obtain ⟨h', hh', hl'⟩ := inv.links s hsn
        refine ⟨h', by simp only [hheads]; exact hh', ?_⟩
        by_cases hss : s = e.set
        · subst hss
          rw [haddr, if_pos rfl]
          have := links_snoc (nx := restOf st) (nx' := restOf ({ st2 with wlTail := st.cells.length + 1, cells := st2.cells.set (z - 1) { c with rest := st.cells.length + 1 } } : St))
            (m := acc.length + 1) (by omega) (by rw [hrest _ (by omega), if_neg (by omega), hnew2]; rfl) hl' (addrs_nodup _ _ _)
            (fun b hb => by have := hlt _ _ hb; omega)
            (fun y hy => by
              rw [hgl] at hy; cases hy
              rw [hrest _ z1, if_pos rfl])
            (fun b hb hne => by
              have hb2 := hlt _ _ hb
              rw [hrest _ hb2.1, if_neg (by rintro rfl; exact hne hgl), (hcat2 b (by omega)).1]; rfl)
          have hne : addrs e.set 0 acc ≠ [] := by intro h; rw [h] at hgl; simp at hgl
          rwa [if_neg hne] at this
        · rw [haddr, if_neg hss]
          apply hl'.congr
          intro b hb
          have hb2 := hlt _ _ hb
          have hbz : b ≠ z := by
            rintro rfl
            obtain ⟨i, x, h1, h2, h3⟩ := mem_addrs.1 hb
            obtain ⟨j, y, g1, g2, g3⟩ := mem_addrs.1 hz
            have : i = j := by omega
            subst this
            rw [h1] at g1; cases g1
            exact hss (h2.symm.trans g2)
          rw [hrest _ hb2.1, if_neg hbz, (hcat2 b (by omega)).1]; rfl

theorem take_spec {n : Nat} {st : St} {acc : List Entry} {tk : Nat} (inv : Inv n st acc tk) :
    (tk < acc.length → ∃ st', getNextFiber st = .ok (tk + 1, st') ∧ Inv n st' acc (tk + 1) ∧ st'.cells = st.cells) ∧
    (tk = acc.length → getNextFiber st = .ok (0, st)) := by
  constructor
  · intro htk
    have hhd := inv.head
    rw [if_pos htk] at hhd
    obtain ⟨c, hc⟩ : ∃ c, st.cells[tk]? = some c := ⟨st.cells[tk]'(by rw [inv.len]; exact htk), List.getElem?_eq_getElem _⟩
    have hnx := inv.next tk (Nat.le_refl _) c hc
    unfold getNextFiber
    simp only [hhd, ne_eq, Nat.add_eq_zero_iff, Nat.one_ne_zero, and_false, not_false_iff, if_true]
    rw [cellAt_succ, hc]
    simp only [inv.tail htk]
    have keep : ∀ st' : St, st'.cells = st.cells → st'.heads = st.heads → st'.wlHead = c.next →
        (tk + 1 < acc.length → st'.wlTail = acc.length) → Inv n st' acc (tk + 1) := by
      intro st' h1 h2 h3 h4
      refine ⟨by rw [h1]; exact inv.len, by rw [h1]; exact inv.cell, by rw [h2]; exact inv.nheads, ?_, inv.sets, htk, ?_, h4, ?_⟩
      · intro s hs
        obtain ⟨h, hh, hl⟩ := inv.links s hs
        refine ⟨h, by rw [h2]; exact hh, hl.congr fun b _ => ?_⟩
        simp only [restOf, cellAt, h1]
      · rw [h3, hnx]
      · intro k hk c' hc'
        rw [h1] at hc'
        exact inv.next k (by omega) c' hc'
    split
    · rename_i heq
      exact ⟨_, rfl, keep _ rfl rfl rfl (by intro; omega), rfl⟩
    · exact ⟨_, rfl, keep _ rfl rfl rfl (fun _ => rfl), rfl⟩
  · intro h
    have hhd := inv.head
    rw [if_neg (by omega)] at hhd
    unfold getNextFiber
    simp [hhd]

theorem member_spec {st : St} {f : Nat} : ∀ {l : List Nat} {fuel a : Nat}, l.length < fuel → Links (restOf st) a l →
    memberFiberset st f fuel a = .ok (decide (∃ b ∈ l, ∃ c, cellAt st b = some c ∧ c.fiber = f))
  | [], fuel + 1, a, _, h => by
    have : a = 0 := h
    subst this
    simp [memberFiberset]
  | b :: l, fuel + 1, a, hf, ⟨h1, h2, c, h3, h4⟩ => by
    subst h1
    unfold memberFiberset
    rw [if_neg h2]
    simp only [restOf, Option.map_eq_some_iff] at h3
    obtain ⟨d, hd, hdr⟩ := h3
    rw [hd]
    simp only
    split
    · rename_i hfe
      simp only [Res.ok.injEq]
      symm; rw [decide_eq_true_eq]
      exact ⟨a, by simp, d, hd, hfe.symm⟩
    · rename_i hfe
      rw [hdr, member_spec (by simpa using hf) h4]
      congr 1
      rw [decide_eq_decide]
      constructor
      · rintro ⟨b, hb, x⟩; exact ⟨b, by simp [hb], x⟩
      · rintro ⟨b, hb, x, hx, hxf⟩
        rcases List.mem_cons.1 hb with rfl | hb
        · rw [hd] at hx; cases hx; exact absurd hxf.symm hfe
        · exact ⟨b, hb, x, hx, hxf⟩
  | _, 0, _, hf, _ => by omega

theorem length_spec {st : St} : ∀ {l : List Nat} {fuel a : Nat}, l.length < fuel → Links (restOf st) a l →
    fibersetLength st fuel a = .ok l.length
  | [], fuel + 1, a, _, h => by
    have : a = 0 := h
    subst this
    simp [fibersetLength]
  | b :: l, fuel + 1, a, hf, ⟨h1, h2, c, h3, h4⟩ => by
    subst h1
    unfold fibersetLength
    rw [if_neg h2]
    simp only [restOf, Option.map_eq_some_iff] at h3
    obtain ⟨d, hd, hdr⟩ := h3
    rw [hd]
    simp only [hdr]
    rw [length_spec (by simpa using hf) h4]
    rfl
  | _, 0, _, hf, _ => by omega

/-- the fiber of the object at an address -/
def fiberOf (st : St) (a : Nat) : Nat := ((cellAt st a).map Cell.fiber).getD 0

theorem cellAt_ext {st st' : St} (h : st.cells <+: st'.cells) {a : Nat} {c : Cell} (hc : cellAt st a = some c) :
    cellAt st' a = some c := by
  unfold cellAt at *
  split at hc
  · cases hc
  · rename_i h0
    rw [if_neg h0]
    obtain ⟨l, hl⟩ := h
    rw [← hl, List.getElem?_append_left (List.getElem?_eq_some_iff.1 hc).1]
    exact hc

theorem Links.ext {st st' : St} (h : st.cells <+: st'.cells) {a : Nat} {l : List Nat} (hl : Links (restOf st) a l) :
    Links (restOf st') a l := by
  induction l generalizing a with
  | nil => exact hl
  | cons b l ih =>
    obtain ⟨h1, h2, c, h3, h4⟩ := hl
    refine ⟨h1, h2, c, ?_, ih h4⟩
    simp only [restOf, Option.map_eq_some_iff] at h3 ⊢
    obtain ⟨d, hd, hdr⟩ := h3
    exact ⟨d, cellAt_ext h hd, hdr⟩

theorem Links.cell {nx : St} {a : Nat} {l : List Nat} (hl : Links (restOf nx) a l) : ∀ b ∈ l, ∃ c, cellAt nx b = some c := by
  induction l generalizing a with
  | nil => simp
  | cons b l ih =>
    obtain ⟨h1, h2, c, h3, h4⟩ := hl
    intro x hx
    rcases List.mem_cons.1 hx with rfl | hx
    · simp only [restOf, Option.map_eq_some_iff] at h3
      obtain ⟨d, hd, _⟩ := h3
      exact ⟨d, hd⟩
    · exact ih h4 x hx

theorem fiberOf_ext {st st' : St} (h : st.cells <+: st'.cells) {l : List Nat} {a : Nat} (hl : Links (restOf st) a l) :
    ∀ b ∈ l, fiberOf st' b = fiberOf st b := by
  intro b hb
  obtain ⟨c, hc⟩ := hl.cell b hb
  simp [fiberOf, hc, cellAt_ext h hc]

theorem intersect_loop {st0 : St} {l2 : List Nat} {fs2 : Nat} (h2 : Links (restOf st0) fs2 l2) (hl2 : l2.length ≤ st0.cells.length) :
    ∀ {l1 l0 : List Nat} {fuel fs1 fs0 : Nat} {st : St}, st0.cells <+: st.cells → l1.length < fuel →
      Links (restOf st0) fs1 l1 → Links (restOf st) fs0 l0 →
      ∃ r st' lr, intersectLoop fs2 fuel fs1 fs0 st = .ok (r, st') ∧ st.cells <+: st'.cells ∧ st'.heads = st.heads ∧
        st'.wlHead = st.wlHead ∧ st'.wlTail = st.wlTail ∧ Links (restOf st') r lr ∧
        lr.map (fiberOf st') = ((l1.map (fiberOf st0)).filter (fun f => f ∈ l2.map (fiberOf st0))).reverse ++ l0.map (fiberOf st)
  | [], l0, fuel + 1, fs1, fs0, st, hp, hf, h1, h0 => by
    have : fs1 = 0 := h1
    subst this
    exact ⟨fs0, st, l0, by simp [intersectLoop], List.prefix_refl _, rfl, rfl, rfl, h0, by simp⟩
  | b :: l1, l0, fuel + 1, fs1, fs0, st, hp, hf, ⟨e1, e2, c, e3, e4⟩, h0 => by
    subst e1
    simp only [restOf, Option.map_eq_some_iff] at e3
    obtain ⟨d, hd, hdr⟩ := e3
    unfold intersectLoop
    rw [if_neg e2, cellAt_ext hp hd]
    simp only
    have hle := hp.length_le
    rw [member_spec (l := l2) (by omega) (h2.ext hp)]
    simp only [Res.ok_bind, hdr]
    have hfd : fiberOf st0 fs1 = d.fiber := by simp [fiberOf, hd]
    have hiff : (∃ b ∈ l2, ∃ c, cellAt st b = some c ∧ c.fiber = d.fiber) ↔ d.fiber ∈ l2.map (fiberOf st0) := by
      rw [List.mem_map]
      constructor
      · rintro ⟨b, hb, c, hc, hcf⟩
        obtain ⟨c', hc'⟩ := h2.cell b hb
        rw [cellAt_ext hp hc'] at hc; cases hc
        exact ⟨b, hb, by simp [fiberOf, hc', hcf]⟩
      · rintro ⟨b, hb, hbf⟩
        obtain ⟨c', hc'⟩ := h2.cell b hb
        exact ⟨b, hb, c', cellAt_ext hp hc', by simpa [fiberOf, hc'] using hbf⟩
    by_cases hm : d.fiber ∈ l2.map (fiberOf st0)
    · rw [if_pos (by simpa using hiff.2 hm)]
      have hpre : st.cells <+: st.cells ++ [(⟨fs0, d.fiber, d.tnode, d.type, 0⟩ : Cell)] := List.prefix_append _ _
      have hnew : cellAt ({ st with cells := st.cells ++ [(⟨fs0, d.fiber, d.tnode, d.type, 0⟩ : Cell)] } : St) (st.cells.length + 1)
          = some ⟨fs0, d.fiber, d.tnode, d.type, 0⟩ := by rw [cellAt_succ]; simp
      have hl0 : Links (restOf ({ st with cells := st.cells ++ [(⟨fs0, d.fiber, d.tnode, d.type, 0⟩ : Cell)] } : St))
          (st.cells.length + 1) ((st.cells.length + 1) :: l0) :=
        ⟨rfl, by omega, fs0, by simp [restOf, hnew], h0.ext hpre⟩
      obtain ⟨r, st', lr, r1, r2, r3, r4, r5, r6, r7⟩ := intersect_loop h2 hl2 (l1 := l1) (fuel := fuel) (hp.trans hpre)
        (by simpa using hf) e4 hl0
      refine ⟨r, st', lr, r1, hpre.trans r2, r3, r4, r5, r6, ?_⟩
      rw [r7]
      simp only [List.map_cons, hfd, List.filter_cons, hm, decide_true, if_true, List.reverse_cons, List.append_assoc,
        List.singleton_append]
      congr 2
      · simp [fiberOf, hnew]
      · exact List.map_congr_left (fiberOf_ext hpre h0)
    · rw [if_neg (by simpa using fun h => hm (hiff.1 h))]
      obtain ⟨r, st', lr, r1, r2, r3, r4, r5, r6, r7⟩ := intersect_loop h2 hl2 (l1 := l1) (fuel := fuel) hp (by simpa using hf) e4 h0
      refine ⟨r, st', lr, r1, r2, r3, r4, r5, r6, ?_⟩
      rw [r7, List.map_cons, hfd, List.filter_cons, if_neg (by simpa using hm)]
  | _, _, 0, _, _, _, _, hf, _, _ => by omega

end Aps.Fiberset
