import Verif.Proofs.HashCons
import Mathlib.Data.List.Sort
import Mathlib.Data.Finset.Dedup
import Mathlib.Data.Finset.Lattice.Basic
/-! Lemmas on the element arrays of hash-consed sets. -/
namespace Aps.HashCons

theorem setEqualLoop_iff : ∀ (a b : List Nat), a.length = b.length → (setEqualLoop a b = true ↔ a = b)
  | [], [], _ => by simp [setEqualLoop]
  | a :: as, b :: bs, h => by
    rw [setEqualLoop]
    by_cases hab : a = b
    · simp [hab, setEqualLoop_iff as bs (by simpa using h)]
    · simp [hab]

theorem setEqual_iff (a b : List Nat) : setEqual a b = true ↔ a = b := by
  unfold setEqual
  by_cases h : a.length = b.length
  · simp [h, setEqualLoop_iff a b h]
  · simp only [h, ne_eq, not_false_iff, if_true, Bool.false_eq_true, false_iff]
    rintro rfl; exact h rfl

theorem setOps_lawful : setOps.Lawful := by
  constructor
  · intro a; exact (setEqual_iff a a).2 rfl
  · intro a b h; exact (setEqual_iff b a).2 ((setEqual_iff a b).1 h).symm
  · intro a b c h1 h2; exact (setEqual_iff a c).2 (((setEqual_iff a b).1 h1).trans ((setEqual_iff b c).1 h2))
  · intro a b h; rw [(setEqual_iff a b).1 h]

theorem mem_mergeLoop (n : Nat) (a b : List Nat) (h : a.length + b.length < n) (x : Nat) :
    x ∈ mergeLoop n a b ↔ x ∈ a ∨ x ∈ b := by
  fun_induction mergeLoop n a b with
  | case1 => omega
  | case2 => simp
  | case3 => simp
  | case4 n a as bs ih =>
    have ih := ih (by simp at h; omega)
    simp only [List.mem_cons, ih]; tauto
  | case5 n a as b bs h1 h2 ih =>
    have ih := ih (by simp at h ⊢; omega)
    simp only [List.mem_cons, ih] at *; tauto
  | case6 n a as b bs h1 h2 ih =>
    have ih := ih (by simp at h ⊢; omega)
    simp only [List.mem_cons, ih] at *; tauto

theorem mem_merge (a b : List Nat) (x : Nat) : x ∈ mergeElements a b ↔ x ∈ a ∨ x ∈ b :=
  mem_mergeLoop _ a b (by omega) x

theorem sorted_mergeLoop (n : Nat) (a b : List Nat) (h : a.length + b.length < n) (ha : a.Pairwise (· < ·)) (hb : b.Pairwise (· < ·)) :
    (mergeLoop n a b).Pairwise (· < ·) := by
  fun_induction mergeLoop n a b with
  | case1 => omega
  | case2 => exact hb
  | case3 => exact ha
  | case4 n as a bs ih =>
    have hn : as.length + bs.length < n := by simp at h; omega
    rw [List.pairwise_cons] at ha hb ⊢
    refine ⟨fun x hx => ?_, ih hn ha.2 hb.2⟩
    rcases (mem_mergeLoop _ _ _ hn _).1 hx with h | h
    · exact ha.1 x h
    · exact hb.1 x h
  | case5 n a as b bs h1 h2 ih =>
    have hn : as.length + (b :: bs).length < n := by simp at h ⊢; omega
    have hb' := hb
    rw [List.pairwise_cons] at ha hb ⊢
    refine ⟨fun x hx => ?_, ih hn ha.2 hb'⟩
    rcases (mem_mergeLoop _ _ _ hn _).1 hx with h | h
    · exact ha.1 x h
    · rcases List.mem_cons.1 h with rfl | h
      · exact h2
      · exact lt_trans h2 (hb.1 x h)
  | case6 n a as b bs h1 h2 ih =>
    have hn : (a :: as).length + bs.length < n := by simp at h ⊢; omega
    have ha' := ha
    rw [List.pairwise_cons] at ha hb ⊢
    refine ⟨fun x hx => ?_, ih hn ha' hb.2⟩
    rcases (mem_mergeLoop _ _ _ hn _).1 hx with h | h
    · rcases List.mem_cons.1 h with rfl | h
      · omega
      · have := ha.1 x h; omega
    · exact hb.1 x h

theorem sorted_merge (a b : List Nat) (ha : a.Pairwise (· < ·)) (hb : b.Pairwise (· < ·)) :
    (mergeElements a b).Pairwise (· < ·) := sorted_mergeLoop _ a b (by omega) ha hb

theorem insertDesc_perm (k : Nat) (l : List Nat) : (insertDesc k l).Perm (k :: l) := by
  induction l with
  | nil => exact List.Perm.refl _
  | cons x xs ih =>
    rw [insertDesc]
    split
    · exact (List.Perm.cons x ih).trans (List.Perm.swap k x xs)
    · exact List.Perm.refl _

theorem insertDesc_sorted (k : Nat) (l : List Nat) (h : l.Pairwise (fun a b => toLong b ≤ toLong a)) :
    (insertDesc k l).Pairwise (fun a b => toLong b ≤ toLong a) := by
  induction l with
  | nil => simp [insertDesc]
  | cons x xs ih =>
    rw [List.pairwise_cons] at h
    rw [insertDesc]
    split
    · rename_i hgt
      rw [List.pairwise_cons]
      refine ⟨fun y hy => ?_, ih h.2⟩
      rcases List.mem_cons.1 ((insertDesc_perm k xs).mem_iff.1 hy) with rfl | hy
      · omega
      · exact h.1 y hy
    · rename_i hle
      rw [List.pairwise_cons, List.pairwise_cons]
      refine ⟨fun y hy => ?_, h⟩
      rcases List.mem_cons.1 hy with rfl | hy
      · omega
      · have := h.1 y hy; omega

theorem sort_aux (l acc : List Nat) (h : acc.Pairwise (fun a b => toLong b ≤ toLong a)) :
    (l.foldl (fun acc x => insertDesc x acc) acc).Perm (l ++ acc) ∧
    (l.foldl (fun acc x => insertDesc x acc) acc).Pairwise (fun a b => toLong b ≤ toLong a) := by
  induction l generalizing acc with
  | nil => exact ⟨List.Perm.refl _, h⟩
  | cons x xs ih =>
    obtain ⟨h1, h2⟩ := ih (insertDesc x acc) (insertDesc_sorted x acc h)
    refine ⟨h1.trans ?_, h2⟩
    refine ((insertDesc_perm x acc).append_left xs).trans ?_
    simp [List.perm_middle]

theorem sortElements_perm (l : List Nat) : (sortElements l).Perm l := by
  have := (sort_aux l [] List.Pairwise.nil).1
  simp only [List.append_nil] at this
  exact (List.reverse_perm _).trans this

theorem sortElements_sorted (l : List Nat) : (sortElements l).Pairwise (fun a b => toLong a ≤ toLong b) := by
  unfold sortElements
  rw [List.pairwise_reverse]
  exact (sort_aux l [] List.Pairwise.nil).2

theorem sortElements_strict (l : List Nat) (hnd : l.Nodup) (hlt : ∀ x ∈ l, x < 2 ^ 63) :
    (sortElements l).Pairwise (· < ·) := by
  have h1 := sortElements_sorted l
  have h2 : (sortElements l).Nodup := (sortElements_perm l).nodup_iff.2 hnd
  have h3 : ∀ x ∈ sortElements l, x < 2 ^ 63 := fun x hx => hlt x ((sortElements_perm l).mem_iff.1 hx)
  refine (h1.and h2).imp_of_mem ?_
  rintro a b ha hb ⟨hab, hne⟩
  have := h3 a ha
  have := h3 b hb
  simp only [toLong, *, if_true] at hab
  omega

/-- two strictly sorted arrays with the same elements are equal -/
theorem sorted_ext {a b : List Nat} (ha : a.Pairwise (· < ·)) (hb : b.Pairwise (· < ·))
    (h : a.toFinset = b.toFinset) : a = b := by
  have hp : a.Perm b := by
    refine (List.perm_ext_iff_of_nodup (ha.imp ne_of_lt) (hb.imp ne_of_lt)).2 fun x => ?_
    have := Finset.ext_iff.1 h x
    simpa using this
  exact hp.eq_of_pairwise (fun a b _ _ h1 h2 => by omega) ha hb

end Aps.HashCons
