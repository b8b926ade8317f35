import Verif.Proofs.Phase
import Mathlib.Data.Fintype.Card
import Mathlib.Data.Fintype.EquivFin
/-! Property C27: phases of phyla with circular attributes. -/
set_option linter.unusedVariables false
namespace Aps.Props
open Aps.Dnc Aps.Oag Aps.Phase

/-- In a summary graph of `n` attributes, `i` needs `j`. -/
def Needs (n : Nat) (m : List Dep) (j i : Nat) : Prop := mget n m j i ≠ 0

/-- The summary graph is transitively closed (as `dnc` leaves it). -/
def ClosedGraph (n : Nat) (m : List Dep) : Prop :=
  ∀ i j k, i < n → j < n → k < n → Needs n m i j → Needs n m j k → Needs n m i k

/-- The circular-phase flag of a phase -/
def isCircular (st : PSt) (p : Nat) : Prop := st.circ[p]?.getD false = true
/-- The empty-phase flag of a phase -/
def isEmpty (st : PSt) (p : Nat) : Prop := st.empty[p]?.getD false = true
/-- the phase of an attribute -/
def phaseOf (st : PSt) (i : Nat) : Nat := (sget st.sum.sched i).natAbs

/-- C27, the defect. The arrays have one element more than there are attributes, but a phylum with just one
circular inherited and one circular synthesised attribute that need each other (or just one circular
synthesised attribute) has three phases, numbered from one: the last write is out of bounds. -/
theorem C27_bounds_refuted :
    scheduleSummaryCircular 2 [.inward, .outward] [3, 3, 3, 3] = .ub ∧
    scheduleSummaryCircular 1 [.outward] [3] = .ub := by decide +kernel

/-- C27, what would be enough: arrays of `2 n + 2` elements are never indexed out of bounds, and without
circular attributes the arrays allocated (`n + 1` elements) are large enough. -/
theorem C27_bounds_partial {fuel n : Nat} {dirs : List Dir} {m : List Dep} (hl : m.length = n * n)
    (hf : n < fuel) :
    (∀ size, 2 * n + 2 ≤ size → schedulePhases fuel size n dirs m ≠ .ub) ∧
    ((∀ i, i < n → ¬ Needs n m i i) → schedulePhases fuel (n + 1) n dirs m ≠ .ub) := by
  by_cases hn : n = 0
  · subst hn
    constructor
    · intro size _
      simp [schedulePhases, phyComponents]
    · intro _
      simp [schedulePhases, phyComponents]
  constructor
  · intro size hs hub
    obtain ⟨cs, h1, h2⟩ := schedulePhases_cases (size := size) (dirs := dirs) (by omega) hl hf
    rcases h2 with ⟨st, l, cl, h2, _⟩ | ⟨h2, _⟩ | ⟨_, h2⟩
    · rw [hub] at h2; cases h2
    · rw [hub] at h2; cases h2
    · have hc := cycOk_of h1
      have hlen : (cycOf (cs.map fun c => (c, compCycle n m c))).length ≤ n := by
        have e1 : (cycOf (cs.map fun c => (c, compCycle n m c))).length ≤
            (cycOf (cs.map fun c => (c, compCycle n m c))).flatten.length := by
          have hne := hc.ne
          generalize cycOf (cs.map fun c => (c, compCycle n m c)) = L at hne
          clear h2
          induction L with
          | nil => simp
          | cons c L ih =>
            have h3 : 0 < c.length := List.length_pos_iff.2 (hne c (by simp))
            have h4 := ih (fun d hd => hne d (by simp [hd]))
            simp only [List.length_cons, List.flatten_cons, List.length_append]
            omega
        have e2 := (List.subperm_of_subset hc.nodup (l₂ := List.range n) (by
          intro x hx
          obtain ⟨c, h3, h4⟩ := List.mem_flatten.1 hx
          exact List.mem_range.2 (hc.lt c h3 x h4))).length_le
        simp at e2
        simp only [List.length_flatten] at e1
        omega
      unfold bound at h2
      split at h2 <;> omega
  · intro hac hub
    obtain ⟨cs, h1, h2⟩ := schedulePhases_cases (size := n + 1) (dirs := dirs) (by omega) hl hf
    rcases h2 with ⟨st, l, cl, h2, _⟩ | ⟨h2, _⟩ | ⟨_, h2⟩
    · rw [hub] at h2; cases h2
    · rw [hub] at h2; cases h2
    · have hc := cycOk_of h1
      have he : cycOf (cs.map fun c => (c, compCycle n m c)) = [] := by
        apply List.eq_nil_iff_forall_not_mem.2
        intro c hcm
        obtain ⟨_, i, hi, hm⟩ := mem_cyc.1 hcm
        exact hac i (hc.lt c hcm i hi) hm
      unfold bound at h2
      rw [if_pos he] at h2
      omega

/-- C27, correctness of the phases when the scheduler does return: every attribute has a phase between 1 and
the number of phases, negative exactly for inherited attributes; nothing is visited before something it needs,
except inside one cycle; the attributes of a cycle share a phase, and that phase holds nothing else and is flagged
circular; circular phases are neither first nor last nor adjacent; a phase is flagged empty exactly if it holds
no attribute; and there is a total order of all attributes following the phases in which every attribute
comes after all it needs, except inside one cycle. -/
theorem C27_schedule {fuel size n : Nat} {dirs : List Dir} {m : List Dep} {st : PSt} (hl : m.length = n * n)
    (hf : n < fuel) (hcl : ClosedGraph n m) (h : schedulePhases fuel size n dirs m = .ok st) :
    (∀ i, i < n → 1 ≤ phaseOf st i ∧ phaseOf st i ≤ st.maxPhase ∧ (sget st.sum.sched i < 0 ↔ dirs[i]? = some .inward)) ∧
    (∀ i j, i < n → j < n → Needs n m j i → ¬ Needs n m i j → place (sget st.sum.sched j) ≤ place (sget st.sum.sched i)) ∧
    (∀ i j, i < n → j < n → Needs n m i i →
      (phaseOf st i = phaseOf st j ↔ Needs n m i j ∧ Needs n m j i)) ∧
    (∀ i, i < n → (isCircular st (phaseOf st i) ↔ Needs n m i i)) ∧
    (∀ p, isCircular st p → 1 < p ∧ p < st.maxPhase ∧ ¬ isCircular st (p + 1) ∧ ∃ i, i < n ∧ phaseOf st i = p) ∧
    (∀ p, isEmpty st p ↔ 1 ≤ p ∧ p ≤ st.maxPhase ∧ ∀ i, i < n → phaseOf st i ≠ p) ∧
    (∃ order : List Nat, (∀ i, i ∈ order ↔ i < n) ∧ order.Nodup ∧
      order.Pairwise (fun a b => place (sget st.sum.sched a) ≤ place (sget st.sum.sched b) ∨ (Needs n m a b ∧ Needs n m b a)) ∧
      ∀ pre i post, order = pre ++ i :: post → ∀ j, j < n → Needs n m j i → j ∈ pre ∨ Needs n m i j) := by
  have hn : 0 < n := by
    by_contra hn
    have : n = 0 := by omega
    subst this
    simp [schedulePhases, phyComponents] at h
  obtain ⟨cs, hco, h2⟩ := schedulePhases_cases (size := size) (dirs := dirs) hn hl hf
  rcases h2 with ⟨st', l, cl, h2, hL, hap, hll⟩ | ⟨h2, _⟩ | ⟨h2, _⟩
  rotate_left
  · rw [h] at h2; cases h2
  · rw [h] at h2; cases h2
  rw [h] at h2; cases h2
  have hall := full_of_length hL.p.topo.nodup hL.p.topo.lt hll
  have hmem : ∀ i, i < n → i ∈ l := fun i hi => (hall i).2 hi
  have hmx := hL.mx
  have hcirc : ∀ {i}, i < n → (Circ _ i ↔ Needs n m i i) := fun hi => circ_closed hco hcl hi
  have hsame : ∀ {i j}, i < n → j < n → (Same _ i j ↔ Needs n m i j ∧ Needs n m j i) := fun hi hj => same_closed hco hcl hi hj
  have htopo : ∀ (l : List Nat), TopoC n (cycOf (cs.map fun c => (c, compCycle n m c))) (fun j i => mget n m j i ≠ 0) l →
      ∀ pre i post, l.reverse = pre ++ i :: post → ∀ j, j < n → Needs n m j i → j ∈ pre ∨ Needs n m i j := by
    intro l
    induction l with
    | nil => intro _ pre i post h; simp at h
    | cons a r ih =>
      intro ht pre i post he j hj hd
      rw [List.reverse_cons] at he
      rcases List.eq_nil_or_concat post with rfl | ⟨post', b, rfl⟩
      · have h' : r.reverse ++ [a] = pre ++ [i] := he
        obtain ⟨h1, h2⟩ := List.append_inj' h' rfl
        simp at h2; subst h2
        rcases ht.2.2.1 j hj hd with h3 | h3
        · left; rw [← h1]; simpa using h3
        · right; exact ((hsame hj ht.1).1 h3).2
      · have h' : r.reverse ++ [a] = (pre ++ i :: post') ++ [b] := by simpa using he
        obtain ⟨h1, h2⟩ := List.append_inj' h' rfl
        exact ih ht.2.2.2 pre i post' h1 j hj hd
  have hsort : l.reverse.Pairwise (fun a b => place (sget st.sum.sched a) ≤ place (sget st.sum.sched b) ∨ (Needs n m a b ∧ Needs n m b a)) := by
    rw [List.pairwise_reverse]
    refine hL.p.sorted.imp_of_mem ?_
    intro a b ha hb hab
    rcases hab with hab | hab
    · exact .inl hab
    · exact .inr ((hsame ((hall a).1 ha) ((hall b).1 hb)).1 hab).symm
  refine ⟨?_, ?_, ?_, ?_, ?_, ?_, ⟨l.reverse, by simpa using hall, (List.reverse_perm l).nodup_iff.2 hL.p.topo.nodup, hsort, htopo l hL.p.topo⟩⟩
  · intro i hi
    have h1 := hL.le i (hmem i hi)
    refine ⟨hL.ge i (hmem i hi), ?_, (hL.p.dir i (hmem i hi)).1⟩
    unfold phaseOf; omega
  · intro i j hi hj hd hnd
    have hil : i ∈ l.reverse := by simpa using hmem i hi
    obtain ⟨pre, post, ho⟩ := List.append_of_mem hil
    rcases htopo l hL.p.topo pre i post ho j hj hd with h1 | h1
    · rw [ho] at hsort
      rcases (List.pairwise_append.1 hsort).2.2 j h1 i (by simp) with h2 | h2
      · exact h2
      · exact absurd h2.2 hnd
    · exact absurd h1 hnd
  · intro i j hi hj hd
    have hc1 := (hcirc hi).2 hd
    constructor
    · intro he
      exact (hsame hi hj).1 (hL.sm i (hmem i hi) j (hmem j hj) hc1 he)
    · intro he
      obtain ⟨c, h1, h2, h3⟩ := (hsame hi hj).2 he
      rcases hL.p.one c h1 with h4 | ⟨p, h4⟩
      · exact absurd (hmem i hi) (h4 i h2)
      · exact (h4 i h2).2.trans (h4 j h3).2.symm
  · intro i hi
    rw [← hcirc hi]
    exact hL.cp i (hmem i hi)
  · intro p hp
    obtain ⟨h1, h2, i, hi, h3⟩ := hL.cn p hp
    have hne : p ≠ st.maxPhase := by
      rintro rfl
      have := hL.hap.2 (by rw [hmx]; exact hp)
      rw [hap] at this; cases this
    refine ⟨h1, by omega, ?_, i, (hall i).1 hi, h3⟩
    intro hx
    have h4 := hL.adj p hp
    unfold isCircular at hx
    unfold fl at h4
    rw [hx] at h4; cases h4
  · intro p
    have := hL.ce p
    unfold isEmpty
    unfold fl at this
    rw [this, hmx]
    constructor
    · rintro ⟨h1, h2, h3⟩
      exact ⟨h1, by omega, fun i hi => h3 i (hmem i hi)⟩
    · rintro ⟨h1, h2, h3⟩
      exact ⟨h1, by omega, fun i hi => h3 i ((hall i).1 hi)⟩

/-- C27, the graph handed on: the old dependencies, and for attributes outside cycles those on everything visited
before. -/
theorem C27_graph {fuel size n : Nat} {dirs : List Dir} {m : List Dep} {st : PSt} (hl : m.length = n * n)
    (hf : n < fuel) (hcl : ClosedGraph n m) (h : schedulePhases fuel size n dirs m = .ok st) {i j : Nat} (hi : i < n) (hj : j < n) :
    Needs n st.sum.m j i ↔ Needs n m j i ∨ (¬ Needs n m i i ∧ place (sget st.sum.sched j) < place (sget st.sum.sched i)) := by
  obtain ⟨cs, hco, h2⟩ := schedulePhases_cases (size := size) (dirs := dirs) (by omega) hl hf
  rcases h2 with ⟨st', l, cl, h2, hL, hap, hll⟩ | ⟨h2, _⟩ | ⟨h2, _⟩
  rotate_left
  · rw [h] at h2; cases h2
  · rw [h] at h2; cases h2
  rw [h] at h2; cases h2
  have hall := full_of_length hL.p.topo.nodup hL.p.topo.lt hll
  have := hL.p.grow j i hj hi
  rw [circ_closed hco hcl hi] at this
  unfold Needs
  rw [this]
  simp [hall, hi, hj]

/-- C27: with arrays that are large enough, the phylum is always scheduled, provided the summary graph is closed
and every attribute outside cycles is inherited or synthesised. -/
theorem C27_total {fuel size n : Nat} {dirs : List Dir} {m : List Dep} (hn : 0 < n) (hl : m.length = n * n)
    (hf : n < fuel) (hsz : 2 * n + 2 ≤ size) (hcl : ClosedGraph n m)
    (hd : ∀ i, i < n → ¬ Needs n m i i → dirs[i]? = some .inward ∨ dirs[i]? = some .outward) :
    ∃ st, schedulePhases fuel size n dirs m = .ok st := by
  obtain ⟨cs, hco, h2⟩ := schedulePhases_cases (size := size) (dirs := dirs) hn hl hf
  rcases h2 with ⟨st', l, cl, h2, _⟩ | ⟨_, l, hll, hnc, hcs, hone, hnd, hlt⟩ | ⟨h2, _⟩
  · exact ⟨_, h2⟩
  · exfalso
    -- a strict order on the unscheduled attributes without a least element
    let r : Fin n → Fin n → Prop := fun y x => Needs n m y x ∧ ¬ Needs n m x y
    have : IsTrans (Fin n) r := ⟨fun a b c h1 h2 =>
      ⟨hcl _ _ _ a.2 b.2 c.2 h1.1 h2.1, fun h => h1.2 (hcl _ _ _ b.2 c.2 a.2 h2.1 h)⟩⟩
    have : Std.Irrefl r := ⟨fun a h => h.2 h.1⟩
    have wf : WellFounded r := Finite.wellFounded_of_trans_of_irrefl r
    have key : ∀ x : Fin n, x.1 ∉ l → False := by
      intro x
      induction x using wf.induction with
      | _ x ih =>
        intro hx
        by_cases hc : Needs n m x x
        · obtain ⟨c, hcc, hxc⟩ := (circ_closed hco hcl x.2).2 hc
          have hout : ∀ a ∈ c, a ∉ l := by
            rcases hone c hcc with h | h
            · exact h
            · exact absurd (h _ hxc) hx
          obtain ⟨i, hic, j, hj, hjc, hjl, hm⟩ := hcs c hcc hout
          have hin := (cycOk_of hco).lt c hcc i hic
          obtain ⟨hix, hxi⟩ := (same_closed hco hcl hin x.2).1 ⟨c, hcc, hic, hxc⟩
          refine ih ⟨j, hj⟩ ⟨hcl _ _ _ hj hin x.2 hm hix, fun hxj => ?_⟩ hjl
          have hs := (same_closed hco hcl x.2 hj).2 ⟨hxj, hcl _ _ _ hj hin x.2 hm hix⟩
          obtain ⟨d, hdc, hxd, hjd⟩ := hs
          have := (cycOk_of hco).uniq hcc hdc hxc hxd
          subst this
          exact hjc hjd
        · have hc' : mget n m x x = 0 := by by_contra hh; exact hc hh
          obtain ⟨j, hj, hm, hjl⟩ := hnc x x.2 hx hc' (hd x x.2 hc)
          refine ih ⟨j, hj⟩ ⟨hm, fun h => ?_⟩ hjl
          exact hc (hcl _ _ _ x.2 hj x.2 h hm)
    obtain ⟨i, hi, hil⟩ := exists_missing hll
    exact key ⟨i, hi⟩ hil
  · exact absurd h2 ((C27_bounds_partial hl hf).1 size hsz)

/-- A phylum with an inherited attribute, a cycle of two, and a synthesised attribute after it. -/
example : let m : List Dep := [0, 3, 3, 3,  0, 3, 3, 3,  0, 3, 3, 3,  0, 0, 0, 0]
    (match scheduleSummaryCircular 4 [.inward, .inward, .outward, .outward] m with
      | .ok st => decide (st.sum.sched = [-1, -2, 2, 3] ∧ st.maxPhase = 3)
      | _ => false) = true ∧ ClosedGraph 4 m := by
  constructor
  · decide +kernel
  · intro i j k hi hj hk
    have key : ∀ i j k : Fin 4, mget 4 [0, 3, 3, 3,  0, 3, 3, 3,  0, 3, 3, 3,  0, 0, 0, 0] i j ≠ 0 →
      mget 4 [0, 3, 3, 3,  0, 3, 3, 3,  0, 3, 3, 3,  0, 0, 0, 0] j k ≠ 0 →
      mget 4 [0, 3, 3, 3,  0, 3, 3, 3,  0, 3, 3, 3,  0, 0, 0, 0] i k ≠ 0 := by decide +kernel
    exact key ⟨i, hi⟩ ⟨j, hj⟩ ⟨k, hk⟩

end Aps.Props
