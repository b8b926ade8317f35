import Verif.Spec.Chunk
import Verif.Proofs.SccMain
import Verif.Proofs.Summary
import Verif.Proofs.Dep
/-! The closure loop of the chunk graph. -/
set_option linter.unusedVariables false
namespace Aps.Chunk
open Aps.Dnc Aps.Oag Aps.Scc

/-- the nonzero entries -/
def NZ (m : Nat) (g : List Dep) (i j : Nat) : Prop := i < m ∧ j < m ∧ mget m g i j ≠ 0

/-- number of bits set -/
def wt (d : Dep) : Nat := (List.range 32).countP fun b => d.getLsbD b

theorem wt_le (d : Dep) : wt d ≤ 32 := by
  unfold wt
  exact (List.countP_le_length).trans (by simp)

theorem wt_lt {a b : Dep} (h : Le a b) (hne : a ≠ b) : wt a < wt b := by
  unfold wt
  obtain ⟨i, hi⟩ : ∃ i, b.getLsbD i = true ∧ ¬ a.getLsbD i = true := by
    by_contra hc
    push Not at hc
    exact hne (h.antisymm hc)
  have hlt : i < 32 := by
    by_contra hc
    have := hi.1
    rw [BitVec.getLsbD_of_ge _ _ (by omega)] at this
    cases this
  have key : ∀ l : List Nat, i ∈ l → l.countP (fun x => a.getLsbD x) < l.countP (fun x => b.getLsbD x) := by
    intro l hl
    have mono : ∀ l : List Nat, l.countP (fun x => a.getLsbD x) ≤ l.countP (fun x => b.getLsbD x) :=
      fun l => List.countP_mono_left fun x _ hx => h x hx
    induction l with
    | nil => simp at hl
    | cons x l ih =>
      rcases List.mem_cons.1 hl with rfl | hl
      · have := mono l
        simp only [List.countP_cons, hi.1, if_true]
        have : (if a.getLsbD i = true then 1 else 0) = 0 := by simp [hi.2]
        omega
      · have := ih hl
        have := h x
        simp only [List.countP_cons]
        by_cases ha : a.getLsbD x = true
        · simp [ha, h x ha]; omega
        · have : (if a.getLsbD x = true then 1 else 0) = 0 := by simp [ha]
          omega
  exact key _ (by simpa using hlt)

/-- number of bits set in a matrix -/
def wts (g : List Dep) : Nat := (g.map wt).sum

theorem wts_le (g : List Dep) : wts g ≤ 32 * g.length := by
  induction g with
  | nil => simp [wts]
  | cons d g ih =>
    have := wt_le d
    simp only [wts, List.map_cons, List.sum_cons, List.length_cons] at *
    omega

theorem wts_set {g : List Dep} {i : Nat} (hi : i < g.length) {v : Dep} (h : wt g[i] < wt v) :
    wts g + 1 ≤ wts (g.set i v) := by
  induction g generalizing i with
  | nil => simp at hi
  | cons a g ih =>
    cases i with
    | zero => simp only [wts, List.set_cons_zero, List.map_cons, List.sum_cons] at *; simp at h; omega
    | succ i =>
      have := ih (i := i) (by simpa using hi) (by simpa using h)
      simp only [wts, List.set_cons_succ, List.map_cons, List.sum_cons] at *
      omega

theorem quiet_ccBody (m i j : Nat) : Quiet (ccBody m i j) := by
  intro s x h
  unfold ccBody at *
  simp only at *
  split at h
  · simp at h
  · rename_i hh; simp only [hh]; rfl

theorem quiet_ccMid (m i : Nat) : Quiet (fun (s : List Dep × Bool) j =>
      (List.range m).foldl (fun s k => ccBody m i j s k) s) :=
  fun s j h => ((quiet_ccBody m i j).foldl (List.range m) s h).1

theorem quiet_ccOut (m : Nat) : Quiet (fun (s : List Dep × Bool) i => (List.range m).foldl (fun s j =>
      (List.range m).foldl (fun s k => ccBody m i j s k) s) s) :=
  fun s i h => ((quiet_ccMid m i).foldl (List.range m) s h).1

theorem ccRound_false {m : Nat} {g : List Dep} (h : (ccRound m g).2 = false) :
    (ccRound m g).1 = g ∧ ∀ i j k, NZ m g i j → NZ m g j k → NZ m g i k := by
  obtain ⟨h1, h2⟩ := (quiet_ccOut m).foldl (List.range m) (g, false) h
  refine ⟨by unfold ccRound; rw [h1], ?_⟩
  rintro i j k ⟨hi, hj, e1⟩ ⟨_, hk, e2⟩
  refine ⟨hi, hk, ?_⟩
  have h3 := h2 i (List.mem_range.2 hi)
  have h4 := ((quiet_ccMid m i).foldl (List.range m) (g, false) (by rw [h3])).2 j (List.mem_range.2 hj)
  have h5 := ((quiet_ccBody m i j).foldl (List.range m) (g, false) (by rw [h4])).2 k (List.mem_range.2 hk)
  intro hc
  unfold ccBody at h5
  have := trans_ne_zero e1 e2
  simp only at h5
  rw [if_pos (by
    simp only [Bool.and_eq_true, bne_iff_ne]
    refine ⟨⟨e1, e2⟩, ?_⟩
    rw [hc]
    intro h
    exact this (by simpa using h))] at h5
  exact absurd (congrArg Prod.snd h5) (by simp)

/-- what a round maintains -/
structure CInv (m : Nat) (g : List Dep) (s : List Dep × Bool) : Prop where
  len : s.1.length = m * m
  mono : ∀ i j, NZ m g i j → NZ m s.1 i j
  sound : ∀ i j, NZ m s.1 i j → Relation.TransGen (NZ m g) i j
  dir : ∀ i j, i < m → j < m → (mget m s.1 i j).getLsbD 3 = (mget m g i j).getLsbD 3
  cnt : wts g + (if s.2 then 1 else 0) ≤ wts s.1

theorem trans_bit3 (a b : Dep) : (trans a b).getLsbD 3 = false := by
  by_contra hc
  have h := (trans_bit (a := a) (b := b) (i := 3)).1 (by simpa using hc)
  obtain ⟨_, _, h⟩ := h
  simp at h

theorem ccBody_inv {m : Nat} {g : List Dep} {s : List Dep × Bool} (h : CInv m g s) {i j k : Nat}
    (hi : i < m) (hj : j < m) (hk : k < m) : CInv m g (ccBody m i j s k) := by
  unfold ccBody
  simp only
  split
  · rename_i hc
    simp only [Bool.and_eq_true, bne_iff_ne, ne_eq] at hc
    obtain ⟨⟨h1, h2⟩, h3⟩ := hc
    have hlt : i * m + k < s.1.length := by rw [h.len]; exact cell_lt hi hk
    have old : mget m s.1 i k = s.1[i * m + k] := by simp [mget, hlt]
    refine ⟨by simp [h.len], fun a b hab => ?_, fun a b hab => ?_, fun a b ha hb => ?_, ?_⟩
    · obtain ⟨ha, hb, e⟩ := h.mono a b hab
      refine ⟨ha, hb, ?_⟩
      rw [mget_set h.len hi hk hb]
      split
      · exact join_ne_zero.2 (.inl (trans_ne_zero h1 h2))
      · exact e
    · obtain ⟨ha, hb, e⟩ := hab
      rw [mget_set h.len hi hk hb] at e
      split at e
      · rename_i hh
        obtain ⟨rfl, rfl⟩ := hh
        exact (h.sound a j ⟨hi, hj, h1⟩).trans (h.sound j b ⟨hj, hk, h2⟩)
      · exact h.sound a b ⟨ha, hb, e⟩
    · rw [mget_set h.len hi hk hb, ← h.dir a b ha hb]
      split
      · rename_i hh
        obtain ⟨rfl, rfl⟩ := hh
        rw [Bool.eq_iff_iff, join_bit, trans_bit3]
        simp
      · rfl
    · have hw : wt s.1[i * m + k] < wt (join (trans (mget m s.1 i j) (mget m s.1 j k)) (mget m s.1 i k)) := by
        rw [← old]
        refine wt_lt (Le.join_right _ _) fun he => h3 ?_
        show join (mget m s.1 i k) _ = _
        apply bit_ext
        intro b
        rw [join_bit]
        constructor
        · rintro (hb | hb)
          · exact hb
          · rw [he]; exact join_bit.2 (.inl hb)
        · exact .inl
      have := wts_set hlt hw
      have hcn := h.cnt
      simp only [if_true]
      split at hcn <;> omega
  · exact h

theorem ccRound_inv (m : Nat) (g : List Dep) (hl : g.length = m * m) : CInv m g (ccRound m g) := by
  unfold ccRound
  refine foldl_inv (CInv m g) _ (fun s i hi h => ?_) _
    ⟨hl, fun _ _ h => h, fun _ _ h => .single h, fun _ _ _ _ => rfl, by simp⟩
  refine foldl_inv (CInv m g) _ (fun s j hj h => ?_) _ h
  refine foldl_inv (CInv m g) _ (fun s k hk h => ?_) _ h
  exact ccBody_inv h (List.mem_range.1 hi) (List.mem_range.1 hj) (List.mem_range.1 hk)

/-- the closure loop ends with the transitive closure, the direct edges are the original ones -/
theorem ccLoop_spec (m fuel : Nat) (g : List Dep) (hl : g.length = m * m) (hf : 32 * (m * m) < fuel + wts g) :
    ∃ g', ccLoop m fuel g = .ok g' ∧ g'.length = m * m ∧
      (∀ i j, NZ m g' i j ↔ Relation.TransGen (NZ m g) i j) ∧
      ∀ i j, i < m → j < m → (mget m g' i j).getLsbD 3 = (mget m g i j).getLsbD 3 := by
  induction fuel generalizing g with
  | zero =>
    have := wts_le g
    rw [hl] at this
    omega
  | succ fuel ih =>
    rw [ccLoop]
    have inv := ccRound_inv m g hl
    rcases hr : ccRound m g with ⟨g', b⟩
    rw [hr] at inv
    cases b with
    | true =>
      have hc := inv.cnt
      simp only [if_true] at hc
      obtain ⟨g2, e, l2, h2, d2⟩ := ih g' inv.len (by omega)
      refine ⟨g2, e, l2, fun i j => ?_, fun i j hi hj => (d2 i j hi hj).trans (inv.dir i j hi hj)⟩
      rw [h2]
      constructor
      · intro h
        induction h with
        | single h => exact inv.sound _ _ h
        | tail _ h2 ih => exact ih.trans (inv.sound _ _ h2)
      · intro h
        induction h with
        | single h => exact .single (inv.mono _ _ h)
        | tail _ h2 ih => exact ih.tail (inv.mono _ _ h2)
    | false =>
      have := ccRound_false (m := m) (g := g) (by rw [hr])
      rw [hr] at this
      simp only at this
      obtain ⟨rfl, hcl⟩ := this
      exact ⟨g', rfl, hl, fun i j => ⟨fun h => .single h, transGen_of_trans hcl⟩, fun _ _ _ _ => rfl⟩

end Aps.Chunk
