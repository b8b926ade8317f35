import Verif.Model.Alloc
import Mathlib.Data.List.Pairwise
import Mathlib.Tactic.Common
set_option linter.unusedVariables false
namespace Aps.Alloc

/-- What `malloc` promises: memory that is aligned, not at 0, and blocks with their two header
pointers (16 bytes) that do not overlap. -/
structure Malloc (fresh : Nat → Nat) : Prop where
  pos : ∀ i, 0 < fresh i
  aligned : ∀ i, 8 ∣ fresh i
  apart : ∀ i j, i ≠ j → fresh i + blockSize + 16 ≤ fresh j ∨ fresh j + blockSize + 16 ≤ fresh i

/-- Number of the current block plus one, 0 for none. -/
def cur (s : St) : Nat := match s.current with
  | none => 0
  | some c => c + 1

/-- Bottom of block number `c - 1`. -/
def bot (fresh : Nat → Nat) : Nat → Nat
  | 0 => 0
  | c + 1 => fresh c

def len : Nat → Nat
  | 0 => 0
  | _ + 1 => blockSize

/-- A block of memory in use: the number of the chunk (plus one; 0 for the NULL given for size 0
before there is a chunk), its address and size. -/
structure Blk where
  c : Nat
  addr : Nat
  size : Nat

structure Inv (fresh : Nat → Nat) (live : List Blk) (s : St) : Prop where
  curLe : cur s ≤ s.count
  top : s.top = bot fresh (cur s) + len (cur s)
  ptrGe : bot fresh (cur s) ≤ s.ptr
  ptrLe : s.ptr ≤ s.top
  al : 8 ∣ s.ptr
  inside : ∀ b ∈ live, b.c ≤ cur s ∧ bot fresh b.c ≤ b.addr ∧
    b.addr + align b.size ≤ bot fresh b.c + len b.c ∧ 8 ∣ b.addr ∧
    (b.c = cur s → b.addr + align b.size ≤ s.ptr)
  order : live.Pairwise fun x y => x.c < y.c ∨ (x.c = y.c ∧ x.addr + align x.size ≤ y.addr)

theorem align_dvd (n : Nat) : 8 ∣ align n := ⟨(n + 7) / 8, by simp only [align]; omega⟩
theorem le_align (n : Nat) : n ≤ align n := by simp only [align]; omega
theorem align_small {n : Nat} (h : n < blockSize) : align n ≤ blockSize := by
  simp only [align, blockSize] at *; omega

theorem init_inv (fresh : Nat → Nat) : Inv fresh [] init :=
  ⟨Nat.le_refl _, rfl, Nat.le_refl _, Nat.le_refl _, ⟨0, rfl⟩, by simp, .nil⟩

theorem addBlock_spec (s : St) (h : cur s ≤ s.count) :
    ∃ c, (addBlock s).current = some c ∧ c = cur s ∧ c + 1 ≤ (addBlock s).count := by
  unfold addBlock cur at *
  split
  · split
    · exact ⟨0, rfl, by simp_all, by simp; omega⟩
    · exact ⟨0, rfl, by simp_all, by simp⟩
  · rename_i c hc
    rw [hc] at h
    simp only at h
    split
    · exact ⟨c + 1, rfl, by simp_all, by simp; omega⟩
    · exact ⟨c + 1, rfl, by simp_all, by simp; omega⟩

theorem Inv.push {fresh : Nat → Nat} {live : List Blk} {s : St} (hi : Inv fresh live s) (n : Nat)
    (h : s.ptr + align n ≤ s.top) :
    Inv fresh (live ++ [⟨cur s, s.ptr, n⟩]) { s with ptr := s.ptr + align n } := by
  have hc : cur { s with ptr := s.ptr + align n } = cur s := rfl
  refine ⟨hi.curLe, hi.top, ?_, h, (Nat.dvd_add_right hi.al).2 (align_dvd n), ?_, ?_⟩
  · rw [hc]; have := hi.ptrGe; show _ ≤ s.ptr + align n; omega
  · intro b hb
    rw [hc]
    rcases List.mem_append.1 hb with hb | hb
    · obtain ⟨h1, h2, h3, h4, h5⟩ := hi.inside b hb
      exact ⟨h1, h2, h3, h4, fun e => by have := h5 e; show _ ≤ s.ptr + align n; omega⟩
    · rw [List.mem_singleton] at hb; subst hb
      refine ⟨Nat.le_refl _, hi.ptrGe, ?_, hi.al, fun _ => Nat.le_refl _⟩
      rw [← hi.top]; exact h
  · rw [List.pairwise_append]
    refine ⟨hi.order, List.pairwise_singleton _ _, ?_⟩
    intro a ha b hb
    rw [List.mem_singleton] at hb; subst hb
    obtain ⟨h1, h2, h3, h4, h5⟩ := hi.inside a ha
    rcases Nat.lt_or_eq_of_le h1 with h | h
    · exact Or.inl h
    · exact Or.inr ⟨h, h5 h⟩

/-- Allocation. -/
theorem alloc_spec {fresh : Nat → Nat} (hm : Malloc fresh) {live : List Blk} {s : St}
    (hi : Inv fresh live s) (n fuel : Nat) :
    (alloc fresh (fuel + 2) n s = .exit ∧ blockSize ≤ n) ∨
    ∃ a s' c, alloc fresh (fuel + 2) n s = .ok a s' ∧ Inv fresh (live ++ [⟨c, a, n⟩]) s' := by
  have hfit : ∀ {live : List Blk} {s : St} (f : Nat), Inv fresh live s → s.ptr + align n ≤ s.top →
      ∃ a s' c, alloc fresh (f + 1) n s = .ok a s' ∧ Inv fresh (live ++ [⟨c, a, n⟩]) s' := by
    intro live s f hi h
    refine ⟨s.ptr, _, cur s, ?_, hi.push n h⟩
    simp only [alloc]
    rw [if_neg (by omega)]
  by_cases h : s.ptr + align n ≤ s.top
  · exact Or.inr (hfit (fuel + 1) hi h)
  · by_cases hn : n ≥ blockSize
    · left
      refine ⟨?_, hn⟩
      rw [alloc]
      simp only
      rw [if_pos (by omega), if_pos hn]
    · right
      obtain ⟨c, h1, h2, h3⟩ := addBlock_spec { s with ptr := s.ptr + align n } hi.curLe
      have hcur : cur { s with ptr := s.ptr + align n } = cur s := rfl
      rw [hcur] at h2
      have e : alloc fresh (fuel + 2) n s = alloc fresh (fuel + 1) n
          { addBlock { s with ptr := s.ptr + align n } with
            ptr := fresh c, top := fresh c + blockSize } := by
        rw [alloc]
        simp only
        rw [if_pos (by omega), if_neg hn]
        simp only [h1]
      rw [e]
      have hc2 : ∀ x y, cur { addBlock { s with ptr := s.ptr + align n } with ptr := x, top := y }
          = c + 1 := by
        intro x y; simp [cur, h1]
      apply hfit
      · refine ⟨?_, ?_, ?_, ?_, hm.aligned c, ?_, hi.order⟩
        · rw [hc2]; exact h3
        · rw [hc2]; rfl
        · rw [hc2]; exact Nat.le_refl _
        · exact Nat.le_add_right _ _
        · intro b hb
          obtain ⟨g1, g2, g3, g4, g5⟩ := hi.inside b hb
          rw [hc2]
          exact ⟨by omega, g2, g3, g4, fun he => by omega⟩
      · show fresh c + align n ≤ fresh c + blockSize
        have := align_small (n := n) (by omega)
        omega

theorem findBlock_spec {fresh : Nat → Nat} (hm : Malloc fresh) {mark c : Nat}
    (h1 : fresh c ≤ mark) (h2 : mark ≤ fresh c + blockSize) : ∀ d, c ≤ d →
    findBlock fresh mark d = some c := by
  intro d
  induction d with
  | zero =>
    intro h
    have : c = 0 := by omega
    subst this
    simp only [findBlock]
    rw [if_neg (by omega)]
  | succ d ih =>
    intro h
    simp only [findBlock]
    by_cases hc : c = d + 1
    · subst hc
      rw [if_neg (by omega)]
    · have := hm.apart c (d + 1) hc
      rw [if_pos (by omega)]
      exact ih (by omega)

/-- Release to the address of a block in use. -/
theorem release_spec {fresh : Nat → Nat} (hm : Malloc fresh) {l1 l2 : List Blk} {b : Blk} {s : St}
    (hi : Inv fresh (l1 ++ b :: l2) s) :
    ∃ s', release fresh b.addr s = .ok () s' ∧ Inv fresh l1 s' := by
  obtain ⟨g1, g2, g3, g4, g5⟩ := hi.inside b (by simp)
  have hord := hi.order
  rw [List.pairwise_append] at hord
  have hbefore : ∀ a ∈ l1, a.c < b.c ∨ (a.c = b.c ∧ a.addr + align a.size ≤ b.addr) :=
    fun a ha => hord.2.2 a ha b (by simp)
  cases hbc : b.c with
  | zero =>
    rw [hbc] at g2 g3
    simp only [bot, len] at g2 g3
    have hz : b.addr = 0 := by omega
    refine ⟨{ s with current := none, ptr := 0, top := 0 }, by simp [release, hz], ?_⟩
    refine ⟨Nat.zero_le _, rfl, Nat.le_refl _, Nat.le_refl _, ⟨0, rfl⟩, ?_, hord.1⟩
    intro a ha
    obtain ⟨k1, k2, k3, k4, k5⟩ := hi.inside a (by simp [ha])
    rcases hbefore a ha with h | ⟨h, h'⟩
    · omega
    · rw [hz] at h'
      exact ⟨by omega, k2, k3, k4, fun _ => by show _ ≤ 0; omega⟩
  | succ c =>
    rw [hbc] at g1 g2 g3
    simp only [bot, len] at g2 g3
    have hpos := hm.pos c
    have hne : b.addr ≠ 0 := by omega
    obtain ⟨d, hd⟩ : ∃ d, s.current = some d := by
      cases h : s.current with
      | none => simp [cur, h] at g1
      | some d => exact ⟨d, rfl⟩
    have hcd : c ≤ d := by simp [cur, hd] at g1; omega
    have hfb := findBlock_spec hm g2 (by omega) d hcd
    refine ⟨{ s with current := some c, ptr := b.addr, top := fresh c + blockSize }, ?_, ?_⟩
    · simp [release, hne, hd, hfb]
    · have hcl := hi.curLe
      simp only [cur, hd] at hcl
      refine ⟨?_, rfl, g2, ?_, g4, ?_, hord.1⟩
      · simp [cur]; omega
      · show b.addr ≤ fresh c + blockSize; omega
      · intro a ha
        obtain ⟨k1, k2, k3, k4, k5⟩ := hi.inside a (by simp [ha])
        rcases hbefore a ha with h | ⟨h, h'⟩
        · exact ⟨by simp [cur]; omega, k2, k3, k4, fun e => by simp [cur] at e; omega⟩
        · exact ⟨by simp [cur]; omega, k2, k3, k4, fun _ => h'⟩

/-- Blocks in use do not overlap. -/
theorem Inv.disjoint {fresh : Nat → Nat} (hm : Malloc fresh) {live : List Blk} {s : St}
    (hi : Inv fresh live s) : live.Pairwise fun x y =>
      x.addr + x.size ≤ y.addr ∨ y.addr + y.size ≤ x.addr := by
  have h := hi.order
  refine List.Pairwise.imp_of_mem ?_ h
  intro x y hx hy hxy
  obtain ⟨h1, h2, h3, h4, h5⟩ := hi.inside x hx
  obtain ⟨k1, k2, k3, k4, k5⟩ := hi.inside y hy
  have lx := le_align x.size
  have ly := le_align y.size
  rcases hxy with h | ⟨h, h'⟩
  · cases hyc : y.c with
    | zero => omega
    | succ d =>
      rw [hyc] at k2 k3
      simp only [bot, len] at k2 k3
      cases hxc : x.c with
      | zero =>
        rw [hxc] at h3
        simp only [bot, len] at h3
        left; omega
      | succ e =>
        rw [hxc] at h2 h3
        simp only [bot, len] at h2 h3
        have := hm.apart e d (by omega)
        omega
  · left; omega

end Aps.Alloc
