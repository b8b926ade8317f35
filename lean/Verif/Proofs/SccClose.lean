import Verif.Model.Scc
import Mathlib.Logic.Relation
import Mathlib.Tactic.Ring
import Mathlib.Tactic.Linarith
import Mathlib.Data.List.Count
/-! The closure loop of scc.c. -/
namespace Aps.Scc

theorem cell_inj {n i j s k : Nat} (hj : j < n) (hk : k < n) (h : i * n + j = s * n + k) : i = s ∧ j = k := by
  have h1 : (i * n + j) / n = i := by
    rw [Nat.mul_comm, Nat.mul_add_div (by omega), Nat.div_eq_of_lt hj]; omega
  have h2 : (s * n + k) / n = s := by
    rw [Nat.mul_comm, Nat.mul_add_div (by omega), Nat.div_eq_of_lt hk]; omega
  have : i = s := by rw [← h1, ← h2, h]
  subst this
  exact ⟨rfl, by omega⟩

theorem cell_lt {n i j : Nat} (hi : i < n) (hj : j < n) : i * n + j < n * n := by
  have : (i + 1) * n ≤ n * n := Nat.mul_le_mul_right n hi
  nlinarith

theorem containsEdge_add {n : Nat} {adj : List Bool} (hl : adj.length = n * n) {i j s k : Nat}
    (hj : j < n) (hs : s < n) (hk : k < n) :
    containsEdge n (addEdgeInternal n adj s k) i j = true ↔ (i = s ∧ j = k) ∨ containsEdge n adj i j = true := by
  unfold containsEdge addEdgeInternal
  by_cases h : s * n + k = i * n + j
  · obtain ⟨rfl, rfl⟩ := cell_inj hk hj h
    have := cell_lt hs hj
    simp [List.getElem?_set, hl, this]
  · rw [List.getElem?_set_ne h]
    constructor
    · exact .inr
    · rintro (⟨rfl, rfl⟩ | h)
      · exact absurd rfl h
      · exact h

/-- the edge relation of a matrix -/
def R (n : Nat) (adj : List Bool) (i j : Nat) : Prop := i < n ∧ j < n ∧ containsEdge n adj i j = true

section fold
variable {σ α : Type}

/-- a step that leaves the flag down does nothing -/
def Quiet (f : σ × Bool → α → σ × Bool) : Prop := ∀ s x, (f s x).2 = false → f s x = s

theorem Quiet.foldl {f : σ × Bool → α → σ × Bool} (hf : Quiet f) (l : List α) (s : σ × Bool)
    (h : (l.foldl f s).2 = false) : l.foldl f s = s ∧ ∀ x ∈ l, f s x = s := by
  induction l generalizing s with
  | nil => exact ⟨rfl, by simp⟩
  | cons x l ih =>
    rw [List.foldl_cons] at h
    obtain ⟨h1, h2⟩ := ih _ h
    rw [h1] at h
    have := hf s x h
    rw [List.foldl_cons, h1, this]
    rw [this] at h2
    exact ⟨rfl, by simpa [this] using h2⟩

theorem foldl_inv {f : σ → α → σ} (P : σ → Prop) (l : List α) (hf : ∀ s, ∀ x ∈ l, P s → P (f s x)) (s : σ)
    (h : P s) : P (l.foldl f s) := by
  induction l generalizing s with
  | nil => exact h
  | cons x l ih => exact ih (fun s y hy => hf s y (by simp [hy])) _ (hf s x (by simp) h)
end fold

theorem quiet_body (n i j : Nat) : Quiet (closeBody n i j) := by
  intro s x h
  unfold closeBody at *
  split at h
  · simp at h
  · rename_i hh; simp [hh]

theorem quiet_mid (n i : Nat) : Quiet (fun (s : List Bool × Bool) j =>
      (List.range n).foldl (fun s k => closeBody n i j s k) s) :=
  fun s j h => ((quiet_body n i j).foldl (List.range n) s h).1

theorem quiet_out (n : Nat) : Quiet (fun (s : List Bool × Bool) i => (List.range n).foldl (fun s j =>
      (List.range n).foldl (fun s k => closeBody n i j s k) s) s) :=
  fun s i h => ((quiet_mid n i).foldl (List.range n) s h).1

theorem closeRound_false {n : Nat} {adj : List Bool} (h : (closeRound n adj).2 = false) :
    (closeRound n adj).1 = adj ∧ ∀ i j k, R n adj i j → R n adj j k → R n adj i k := by
  obtain ⟨h1, h2⟩ := (quiet_out n).foldl (List.range n) (adj, false) h
  refine ⟨by unfold closeRound; rw [h1], ?_⟩
  rintro i j k ⟨hi, hj, e1⟩ ⟨_, hk, e2⟩
  refine ⟨hi, hk, ?_⟩
  have h3 := h2 i (List.mem_range.2 hi)
  have h4 := ((quiet_mid n i).foldl (List.range n) (adj, false) (by rw [h3])).2 j (List.mem_range.2 hj)
  have h5 := ((quiet_body n i j).foldl (List.range n) (adj, false) (by rw [h4])).2 k (List.mem_range.2 hk)
  by_contra hc
  unfold closeBody at h5
  simp [e1, e2, hc] at h5

/-- what a round maintains relative to the matrix it started from -/
structure RoundInv (n : Nat) (adj : List Bool) (s : List Bool × Bool) : Prop where
  len : s.1.length = n * n
  mono : ∀ i j, R n adj i j → R n s.1 i j
  sound : ∀ i j, R n s.1 i j → Relation.TransGen (R n adj) i j
  cnt : adj.count true + (if s.2 then 1 else 0) ≤ s.1.count true

theorem count_set_true {l : List Bool} {i : Nat} (hi : i < l.length) (h : l[i] = false) :
    (l.set i true).count true = l.count true + 1 := by
  induction l generalizing i with
  | nil => simp at hi
  | cons a l ih =>
    cases i with
    | zero => simp at h; simp [h]
    | succ i =>
      have := ih (i := i) (by simpa using hi) (by simpa using h)
      simp only [List.set_cons_succ, List.count_cons, this]
      omega

theorem body_inv {n : Nat} {adj : List Bool} {s : List Bool × Bool} (h : RoundInv n adj s) {i j k : Nat}
    (hi : i < n) (hj : j < n) (hk : k < n) : RoundInv n adj (closeBody n i j s k) := by
  unfold closeBody
  split
  · rename_i hc
    simp only [Bool.and_eq_true, Bool.not_eq_true'] at hc
    obtain ⟨⟨h1, h2⟩, h3⟩ := hc
    refine ⟨by simp [addEdgeInternal, h.len], fun a b hab => ?_, fun a b hab => ?_, ?_⟩
    · obtain ⟨ha, hb, e⟩ := h.mono a b hab
      exact ⟨ha, hb, (containsEdge_add h.len hb hi hk).2 (.inr e)⟩
    · obtain ⟨ha, hb, e⟩ := hab
      rcases (containsEdge_add h.len hb hi hk).1 e with ⟨rfl, rfl⟩ | e
      · exact (h.sound a j ⟨hi, hj, h1⟩).trans (h.sound j b ⟨hj, hk, h2⟩)
      · exact h.sound a b ⟨ha, hb, e⟩
    · have hlt : i * n + k < s.1.length := by rw [h.len]; exact cell_lt hi hk
      have h3' : s.1[i * n + k] = false := by
        unfold containsEdge at h3
        simpa [hlt] using h3
      have := count_set_true hlt h3'
      have hcn := h.cnt
      simp only [addEdgeInternal, if_true]
      rw [this]
      split at hcn <;> omega
  · exact h

theorem round_inv (n : Nat) (adj : List Bool) (hl : adj.length = n * n) : RoundInv n adj (closeRound n adj) := by
  unfold closeRound
  refine foldl_inv (RoundInv n adj) _ (fun s i hi h => ?_) _ ⟨hl, fun _ _ h => h, fun _ _ h => .single h, by simp⟩
  refine foldl_inv (RoundInv n adj) _ (fun s j hj h => ?_) _ h
  refine foldl_inv (RoundInv n adj) _ (fun s k hk h => ?_) _ h
  exact body_inv h (List.mem_range.1 hi) (List.mem_range.1 hj) (List.mem_range.1 hk)

theorem transGen_of_trans {α : Type} {r : α → α → Prop} (h : ∀ a b c, r a b → r b c → r a c) {a b : α}
    (hab : Relation.TransGen r a b) : r a b := by
  induction hab with
  | single h => exact h
  | tail _ h2 ih => exact h _ _ _ ih h2

/-- the closure loop ends with exactly the transitive closure -/
theorem closeLoop_spec (n fuel : Nat) (adj : List Bool) (hl : adj.length = n * n)
    (hf : n * n < fuel + adj.count true) :
    ∃ adj', closeLoop n fuel adj = .ok adj' ∧ adj'.length = n * n ∧
      ∀ i j, R n adj' i j ↔ Relation.TransGen (R n adj) i j := by
  induction fuel generalizing adj with
  | zero =>
    have : adj.count true ≤ adj.length := List.count_le_length
    omega
  | succ fuel ih =>
    rw [closeLoop]
    have inv := round_inv n adj hl
    rcases hr : closeRound n adj with ⟨adj', b⟩
    rw [hr] at inv
    cases b with
    | true =>
      have hc := inv.cnt
      simp only [if_true] at hc
      obtain ⟨adj2, e, l2, h2⟩ := ih adj' inv.len (by omega)
      refine ⟨adj2, e, l2, fun i j => ?_⟩
      rw [h2]
      constructor
      · intro h
        induction h with
        | single h => exact inv.sound _ _ h
        | tail _ h2 ih => exact ih.trans (inv.sound _ _ h2)
      · intro h
        induction h with
        | single h => exact .single (inv.mono _ _ h)
        | tail _ h2 ih => exact ih.tail (inv.mono _ _ h2)
    | false =>
      have := closeRound_false (n := n) (adj := adj) (by rw [hr])
      rw [hr] at this
      simp only at this
      obtain ⟨rfl, hcl⟩ := this
      exact ⟨adj', rfl, hl, fun i j => ⟨fun h => .single h, transGen_of_trans hcl⟩⟩

end Aps.Scc
