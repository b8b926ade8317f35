import Verif.Proofs.Alloc
set_option linter.unusedVariables false
/-!
# C13: heap and stack allocation

`InUse fresh live s`: after some calls, `live` are the blocks of memory in use, oldest first.
`fresh` is what `malloc` returns, `Malloc fresh` its contract.
-/
namespace Aps.Props
open Aps.Alloc

/-- Any history of `SALLOC`/`HALLOC`, and of `release` to the address of a block in use (which ends
the use of that block and of all later ones) or to NULL (which ends the use of all). -/
inductive InUse (fresh : Nat → Nat) : List (Nat × Nat) → St → Prop
  | start : InUse fresh [] init
  | alloc {live s a s'} (n fuel : Nat) : InUse fresh live s → alloc fresh fuel n s = .ok a s' →
      InUse fresh (live ++ [(a, n)]) s'
  | release {l1 l2 a n s s'} : InUse fresh (l1 ++ (a, n) :: l2) s →
      release fresh a s = .ok () s' → InUse fresh l1 s'
  | releaseAll {live s s'} : InUse fresh live s → release fresh 0 s = .ok () s' → InUse fresh [] s'

theorem alloc_mono {fresh : Nat → Nat} (f : Nat) : ∀ {g n : Nat} {s s' : St} {a : Nat}, f ≤ g →
    alloc fresh f n s = .ok a s' → alloc fresh g n s = .ok a s' := by
  induction f with
  | zero => intro g n s s' a _ h; cases h
  | succ f ih =>
    intro g n s s' a hg h
    obtain ⟨g, rfl⟩ : ∃ k, g = k + 1 := ⟨g - 1, by omega⟩
    simp only [alloc] at h ⊢
    split
    · rename_i h1
      rw [if_pos h1] at h
      split
      · rename_i h2; rw [if_pos h2] at h; exact h
      · rename_i h2
        rw [if_neg h2] at h
        split at h
        · cases h
        · rename_i c hc; exact ih (by omega) h
    · rename_i h1; rw [if_neg h1] at h; exact h

theorem InUse.inv {fresh : Nat → Nat} (hm : Malloc fresh) {live : List (Nat × Nat)} {s : St}
    (h : InUse fresh live s) : ∃ bs : List Blk, bs.map (fun b => (b.addr, b.size)) = live ∧
      Inv fresh bs s := by
  induction h with
  | start => exact ⟨[], rfl, init_inv fresh⟩
  | @alloc live s a s' n f _ he ih =>
    obtain ⟨bs, h1, h2⟩ := ih
    have he' := alloc_mono f (g := f + 2) (by omega) he
    rcases alloc_spec hm h2 n f with ⟨e, _⟩ | ⟨a', t, c, e, hi⟩
    · rw [e] at he'; cases he'
    · rw [e] at he'; cases he'
      exact ⟨_, by simp [h1], hi⟩
  | @release l1 l2 a n s s' _ he ih =>
    obtain ⟨bs, h1, h2⟩ := ih
    obtain ⟨b1, b2, hb, hl1, hl2⟩ := List.map_eq_append_iff.1 h1
    obtain ⟨b, b3, hb2, hbb, hl3⟩ := List.map_eq_cons_iff.1 hl2
    subst hb2 hb
    obtain ⟨t, e, hi⟩ := release_spec hm h2
    have : b.addr = a := congrArg Prod.fst hbb
    rw [this] at e
    rw [e] at he; cases he
    exact ⟨b1, hl1, hi⟩
  | @releaseAll live s s' _ he ih =>
    simp only [Aps.Alloc.release, if_true] at he
    cases he
    exact ⟨[], rfl, Nat.zero_le _, rfl, Nat.le_refl _, Nat.le_refl _, ⟨0, rfl⟩, by simp, .nil⟩

/-- Blocks in use never overlap. -/
theorem C13_disjoint (fresh : Nat → Nat) (hm : Malloc fresh) (live : List (Nat × Nat)) (s : St)
    (h : InUse fresh live s) :
    live.Pairwise fun x y => x.1 + x.2 ≤ y.1 ∨ y.1 + y.2 ≤ x.1 := by
  obtain ⟨bs, rfl, hi⟩ := h.inv hm
  rw [List.pairwise_map]
  exact hi.disjoint hm

/-- Each block in use of size more than 0 lies within one chunk from `malloc`, and is aligned. -/
theorem C13_inside_aligned (fresh : Nat → Nat) (hm : Malloc fresh) (live : List (Nat × Nat))
    (s : St) (h : InUse fresh live s) (a n : Nat) (hb : (a, n) ∈ live) :
    8 ∣ a ∧ (0 < n → ∃ i, i < s.count ∧ fresh i ≤ a ∧ a + n ≤ fresh i + blockSize) := by
  obtain ⟨bs, rfl, hi⟩ := h.inv hm
  obtain ⟨b, hbm, hbe⟩ := List.mem_map.1 hb
  cases hbe
  obtain ⟨h1, h2, h3, h4, h5⟩ := hi.inside b hbm
  refine ⟨h4, fun hn => ?_⟩
  have hl := le_align b.size
  have hc := hi.curLe
  cases hbc : b.c with
  | zero => rw [hbc] at h2 h3; simp only [bot, len] at h2 h3; omega
  | succ c =>
    rw [hbc] at h2 h3
    simp only [bot, len] at h2 h3
    exact ⟨c, by omega, h2, by omega⟩

/-- Allocation of less than a chunk (10,000,000 bytes) always succeeds, in at most two rounds;
more is refused by `exit` (or served if it just fits). -/
theorem C13_succeeds (fresh : Nat → Nat) (hm : Malloc fresh) (live : List (Nat × Nat)) (s : St)
    (h : InUse fresh live s) (n fuel : Nat) :
    (∃ a s', alloc fresh (fuel + 2) n s = .ok a s') ∨
    (alloc fresh (fuel + 2) n s = .exit ∧ blockSize ≤ n) := by
  obtain ⟨bs, rfl, hi⟩ := h.inv hm
  rcases alloc_spec hm hi n fuel with h | ⟨a, s', c, h, _⟩
  · exact Or.inr h
  · exact Or.inl ⟨a, s', h⟩

/-- Releasing to a block in use always works. -/
theorem C13_release (fresh : Nat → Nat) (hm : Malloc fresh) (l1 l2 : List (Nat × Nat)) (a n : Nat)
    (s : St) (h : InUse fresh (l1 ++ (a, n) :: l2) s) :
    ∃ s', release fresh a s = .ok () s' := by
  obtain ⟨bs, h1, h2⟩ := h.inv hm
  obtain ⟨b1, b2, hb, hl1, hl2⟩ := List.map_eq_append_iff.1 h1
  obtain ⟨b, b3, hb2, hbb, hl3⟩ := List.map_eq_cons_iff.1 hl2
  subst hb2 hb
  obtain ⟨t, e, hi⟩ := release_spec hm h2
  have : b.addr = a := congrArg Prod.fst hbb
  rw [this] at e
  exact ⟨t, e⟩

/-- A case: a mark, blocks in two chunks, release to the mark, allocation again. -/
def demoMalloc (i : Nat) : Nat := 4096 + i * 20000000
example : Malloc demoMalloc := by
  refine ⟨fun i => by simp only [demoMalloc]; omega, fun i => ⟨512 + i * 2500000, by simp [demoMalloc]; omega⟩, ?_⟩
  intro i j h
  simp only [demoMalloc, blockSize]
  omega
example : ∃ s, InUse demoMalloc [(4096, 9000000), (9004096, 3), (9004104, 40)] s := by
  refine ⟨⟨2, some 0, 9004144, 10004096⟩, ?_⟩
  have h1 : InUse demoMalloc [(4096, 9000000)] ⟨1, some 0, 9004096, 10004096⟩ :=
    .alloc 9000000 2 .start (by decide +kernel)
  have h2 : InUse demoMalloc [(4096, 9000000), (9004096, 3)] ⟨1, some 0, 9004104, 10004096⟩ :=
    .alloc 3 2 h1 (by decide +kernel)
  have h3 : InUse demoMalloc [(4096, 9000000), (9004096, 3), (9004104, 0)]
      ⟨1, some 0, 9004104, 10004096⟩ := .alloc 0 2 h2 (by decide +kernel)
  have h4 : InUse demoMalloc [(4096, 9000000), (9004096, 3), (9004104, 0), (20004096, 2000000)]
      ⟨2, some 1, 22004096, 30004096⟩ := .alloc 2000000 2 h3 (by decide +kernel)
  have h5 : InUse demoMalloc [(4096, 9000000), (9004096, 3)] ⟨2, some 0, 9004104, 10004096⟩ :=
    .release (a := 9004104) (n := 0) (l1 := [(4096, 9000000), (9004096, 3)])
      (l2 := [(20004096, 2000000)]) h4 (by decide +kernel)
  exact .alloc 40 2 h5 (by decide +kernel)

end Aps.Props
