import Verif.Model.Oag
import Verif.Spec.Oag
import Mathlib.Tactic.Common
import Mathlib.Data.List.Perm.Basic
import Mathlib.Data.List.Range
/-! Phase assignment: the invariant of the loop. -/
set_option linter.unusedVariables false
namespace Aps.Oag
open Aps.Dnc

/-- `l` (latest first) lists instances after everything they depend on -/
def Topo (n : Nat) (dep : Nat → Nat → Prop) : List Nat → Prop
  | [] => True
  | i :: r => i < n ∧ i ∉ r ∧ (∀ j, j < n → dep j i → j ∈ r) ∧ Topo n dep r

theorem idx_inj {n a b i j : Nat} (hi : i < n) (hj : j < n) (h : a * n + i = b * n + j) : a = b ∧ i = j := by
  have h1 : (a * n + i) / n = (b * n + j) / n := by rw [h]
  rw [Nat.mul_comm a, Nat.mul_comm b, Nat.mul_add_div (by omega), Nat.mul_add_div (by omega),
    Nat.div_eq_of_lt hi, Nat.div_eq_of_lt hj] at h1
  have : a = b := by omega
  subst this
  exact ⟨rfl, by omega⟩

theorem idx_lt {n a i : Nat} (ha : a < n) (hi : i < n) : a * n + i < n * n := by
  have : (a + 1) * n ≤ n * n := Nat.mul_le_mul_right _ ha
  rw [Nat.add_mul] at this; omega

theorem mget_set {n : Nat} {m : List Dep} (hl : m.length = n * n) {a b i j : Nat} (ha : a < n) (hb : b < n) (hi : i < n) (hj : j < n)
    (v : Dep) : mget n (m.set (a * n + b) v) i j = if i = a ∧ j = b then v else mget n m i j := by
  unfold mget
  rw [List.getElem?_set]
  by_cases h : a * n + b = i * n + j
  · obtain ⟨rfl, rfl⟩ := idx_inj hb hj h
    have := idx_lt ha hb
    simp [hl, this]
  · rw [if_neg h]
    have : ¬ (i = a ∧ j = b) := by rintro ⟨rfl, rfl⟩; exact h rfl
    rw [if_neg this]

theorem forceDeps_spec {n i : Nat} (hi : i < n) (val : Int) (sched : List Int) (m : List Dep) (hl : m.length = n * n) :
    (forceDeps n i val sched m).length = n * n ∧
    ∀ a b, a < n → b < n → mget n (forceDeps n i val sched m) a b =
      if b = i ∧ sget sched a ≠ 0 ∧ sget sched a ≠ val then indirectControl else mget n m a b := by
  unfold forceDeps
  have key : ∀ (js : List Nat), (∀ j ∈ js, j < n) → ∀ m : List Dep, m.length = n * n →
      (js.foldl (fun m j => let sch := sget sched j
        if sch ≠ 0 ∧ sch ≠ val then m.set (j * n + i) indirectControl else m) m).length = n * n ∧
      ∀ a b, a < n → b < n → mget n (js.foldl (fun m j => let sch := sget sched j
        if sch ≠ 0 ∧ sch ≠ val then m.set (j * n + i) indirectControl else m) m) a b =
        if a ∈ js ∧ b = i ∧ sget sched a ≠ 0 ∧ sget sched a ≠ val then indirectControl else mget n m a b := by
    intro js
    induction js with
    | nil => intro _ m hl; exact ⟨hl, by simp⟩
    | cons j js ih =>
      intro hjs m hl
      simp only [List.foldl_cons]
      have hj := hjs j (by simp)
      by_cases hc : sget sched j ≠ 0 ∧ sget sched j ≠ val
      · rw [if_pos hc]
        obtain ⟨h1, h2⟩ := ih (fun x hx => hjs x (by simp [hx])) (m.set (j * n + i) indirectControl) (by simpa using hl)
        refine ⟨h1, fun a b ha hb => ?_⟩
        rw [h2 a b ha hb, mget_set hl hj hi ha hb]
        by_cases hab : a = j
        · subst hab
          by_cases hb' : b = i <;> simp [hb', hc]
        · simp [hab]
      · rw [if_neg hc]
        obtain ⟨h1, h2⟩ := ih (fun x hx => hjs x (by simp [hx])) m hl
        refine ⟨h1, fun a b ha hb => ?_⟩
        rw [h2 a b ha hb]
        by_cases hab : a = j
        · subst hab; simp [hc]
        · simp [hab]
  obtain ⟨h1, h2⟩ := key (List.range n) (by simp) m hl
  refine ⟨h1, fun a b ha hb => ?_⟩
  rw [h2 a b ha hb]
  simp [ha]

theorem sget_set {s : List Int} {n i j : Nat} (hl : s.length = n) (hi : i < n) (v : Int) :
    sget (s.set i v) j = if j = i then v else sget s j := by
  unfold sget
  rw [List.getElem?_set]
  by_cases h : i = j
  · subst h; simp [hl, hi]
  · simp [h, Ne.symm h]

/-- The invariant; `l` is the list of the instances scheduled so far, latest first, `gc` the current group. -/
structure SInv (n : Nat) (dirs : List Dir) (m0 : List Dep) (gc : Nat) (l : List Nat) (st : SumSt) : Prop where
  ml : st.m.length = n * n
  sl : st.sched.length = n
  mem : ∀ i, i < n → (i ∈ l ↔ sget st.sched i ≠ 0)
  done : st.done = l.length
  topo : Topo n (fun j i => mget n m0 j i ≠ 0) l
  sorted : l.Pairwise (fun a b => place (sget st.sched b) ≤ place (sget st.sched a))
  le : ∀ i ∈ l, place (sget st.sched i) ≤ gc
  dir : ∀ i ∈ l, (dirs[i]? = some .inward ∧ sget st.sched i < 0) ∨ (dirs[i]? = some .outward ∧ 0 < sget st.sched i)
  grow : ∀ a b, a < n → b < n → (mget n st.m a b ≠ 0 ↔ mget n m0 a b ≠ 0 ∨
    (a ∈ l ∧ b ∈ l ∧ place (sget st.sched a) < place (sget st.sched b)))

theorem Topo.nodup {n dep} : ∀ {l : List Nat}, Topo n dep l → l.Nodup
  | [], _ => List.nodup_nil
  | _ :: _, h => List.nodup_cons.2 ⟨h.2.1, Topo.nodup h.2.2.2⟩

theorem Topo.lt {n dep} : ∀ {l : List Nat}, Topo n dep l → ∀ i ∈ l, i < n
  | [], _, i, hi => by cases hi
  | _ :: _, h, i, hi => by
    rcases List.mem_cons.1 hi with rfl | hi
    · exact h.1
    · exact Topo.lt h.2.2.2 i hi

theorem Topo.len {n dep} {l : List Nat} (h : Topo n dep l) : l.length ≤ n := by
  have h1 : l ⊆ List.range n := fun i hi => List.mem_range.2 (h.lt i hi)
  have := (List.subperm_of_subset h.nodup h1).length_le
  simpa using this

theorem sumReady_iff {n i : Nat} {st : SumSt} :
    sumReady n i st = true ↔ ∀ j, j < n → mget n st.m j i ≠ 0 → sget st.sched j ≠ 0 := by
  unfold sumReady
  simp only [List.all_eq_true, List.mem_range]
  constructor
  · intro h j hj h1 h2
    have := h j hj
    simp only [h2, BEq.rfl, Bool.true_and, Bool.not_eq_true'] at this
    exact h1 (by simpa using this)
  · intro h j hj
    have := h j hj
    by_cases h1 : mget n st.m j i = 0
    · simp [h1]
    · have := this h1
      simp [this]

theorem indirectControl_ne : indirectControl ≠ 0 := by decide

theorem sumStep_inv {n : Nat} {dirs : List Dir} {m0 : List Dep} {gc : Nat} {l : List Nat} {st : SumSt}
    {want : Dir} {val : Int} (hw : (want = .inward ∧ val < 0) ∨ (want = .outward ∧ 0 < val)) (hg : place val = gc)
    (h : SInv n dirs m0 gc l st) {i : Nat} (hi : i < n) :
    (sumStep n dirs want val st i = st ∧ ¬ (dirs[i]? = some want ∧ sget st.sched i = 0 ∧ sumReady n i st = true)) ∨
    (SInv n dirs m0 gc (i :: l) (sumStep n dirs want val st i) ∧ i ∉ l ∧
      (sumStep n dirs want val st i).localDone = st.localDone + 1) := by
  unfold sumStep
  by_cases h1 : dirs[i]? = some want ∧ sget st.sched i = 0
  · rw [if_pos h1]
    by_cases h2 : sumReady n i st = true
    · rw [if_pos h2]
      right
      have hne : i ∉ l := fun hm => (h.mem i hi).1 hm h1.2
      have hv0 : val ≠ 0 := by rcases hw with ⟨_, h⟩ | ⟨_, h⟩ <;> omega
      have hsg : ∀ j, sget (st.sched.set i val) j = if j = i then val else sget st.sched j := fun j => sget_set h.sl hi val
      have hsl : ∀ j ∈ l, sget (st.sched.set i val) j = sget st.sched j := by
        intro j hj
        rw [hsg, if_neg]; rintro rfl; exact hne hj
      obtain ⟨f1, f2⟩ := forceDeps_spec hi val (st.sched.set i val) st.m h.ml
      have hready := sumReady_iff.1 h2
      refine ⟨⟨f1, by simpa using h.sl, ?_, by simp [h.done], ?_, ?_, ?_, ?_, ?_⟩, hne, rfl⟩
      · intro j hj
        simp only [List.mem_cons]
        rw [hsg]
        by_cases hji : j = i
        · simp [hji, hv0]
        · simp [hji, h.mem j hj]
      · refine ⟨hi, hne, fun j hj hd => ?_, h.topo⟩
        have := (h.grow j i hj hi).2 (.inl hd)
        exact (h.mem j hj).2 (hready j hj this)
      · refine List.pairwise_cons.2 ⟨fun j hj => ?_, ?_⟩
        · simp only
          rw [hsl j hj, hsg, if_pos rfl, hg]; exact h.le j hj
        · refine h.sorted.imp_of_mem ?_
          intro a b ha hb hab
          simp only
          rw [hsl a ha, hsl b hb]; exact hab
      · intro j hj
        rcases List.mem_cons.1 hj with rfl | hj
        · simp only; rw [hsg, if_pos rfl, hg]
        · simp only; rw [hsl j hj]; exact h.le j hj
      · intro j hj
        rcases List.mem_cons.1 hj with rfl | hj
        · simp only
          rw [hsg, if_pos rfl]
          rcases hw with ⟨rfl, hv⟩ | ⟨rfl, hv⟩
          · exact .inl ⟨h1.1, hv⟩
          · exact .inr ⟨h1.1, hv⟩
        · simp only; rw [hsl j hj]; exact h.dir j hj
      · intro a b ha hb
        simp only
        rw [f2 a b ha hb]
        by_cases hbi : b = i
        · subst hbi
          by_cases hai : a = b
          · subst hai
            have hs : sget (st.sched.set a val) a = val := by rw [hsg, if_pos rfl]
            rw [if_neg (by simp [hs]), h.grow a a ha ha]
            simp [hne]
          · have hs : sget (st.sched.set b val) a = sget st.sched a := by rw [hsg, if_neg hai]
            rw [hs, hsg, if_pos rfl]
            by_cases ha0 : sget st.sched a = 0
            · have hal : a ∉ l := fun hm => (h.mem a ha).1 hm ha0
              rw [if_neg (by simp [ha0]), h.grow a b ha hb]
              simp [hai, hal, hne]
            · have hal : a ∈ l := (h.mem a ha).2 ha0
              have hle := h.le a hal
              by_cases hav : sget st.sched a = val
              · rw [if_neg (by simp [hav]), h.grow a b ha hb]
                simp [hav, hne]
              · rw [if_pos ⟨rfl, ha0, hav⟩]
                constructor
                · intro _
                  right
                  refine ⟨by simp [hal], by simp, ?_⟩
                  rw [hg]
                  apply Nat.lt_of_le_of_ne hle
                  intro he
                  apply hav
                  rw [← hg] at he
                  unfold place at he
                  split at he <;> split at he <;> omega
                · intro _; exact indirectControl_ne
        · rw [if_neg (by simp [hbi]), h.grow a b ha hb]
          rw [hsg b, if_neg hbi]
          simp only [List.mem_cons, hbi, false_or]
          constructor
          · rintro (hm | ⟨hal, hbl, hlt⟩)
            · exact .inl hm
            · right; rw [hsl a hal]; exact ⟨.inr hal, hbl, hlt⟩
          · rintro (hm | ⟨hal, hbl, hlt⟩)
            · exact .inl hm
            · right
              rcases hal with rfl | hal
              · exfalso
                rw [hsg, if_pos rfl, hg] at hlt
                have := h.le b hbl
                omega
              · rw [hsl a hal] at hlt; exact ⟨hal, hbl, hlt⟩
    · left
      rw [if_neg h2]
      exact ⟨rfl, fun hh => h2 hh.2.2⟩
  · left
    rw [if_neg h1]
    exact ⟨rfl, fun hh => h1 ⟨hh.1, hh.2.1⟩⟩

/-- One pass over the instances. -/
theorem sumPass_inv {n : Nat} {dirs : List Dir} {m0 : List Dep} {gc : Nat}
    {want : Dir} {val : Int} (hw : (want = .inward ∧ val < 0) ∨ (want = .outward ∧ 0 < val)) (hg : place val = gc) :
    ∀ (is : List Nat), (∀ i ∈ is, i < n) → ∀ {l : List Nat} {st : SumSt}, SInv n dirs m0 gc l st →
    ∃ l', SInv n dirs m0 gc (l' ++ l) (is.foldl (sumStep n dirs want val) st) ∧
      (is.foldl (sumStep n dirs want val) st).localDone = st.localDone + l'.length ∧
      (l' = [] → is.foldl (sumStep n dirs want val) st = st ∧
        ∀ i ∈ is, ¬ (dirs[i]? = some want ∧ sget st.sched i = 0 ∧ sumReady n i st = true))
  | [], _, l, st, h => ⟨[], by simpa using h, by simp, by simp⟩
  | i :: is, his, l, st, h => by
    simp only [List.foldl_cons]
    rcases sumStep_inv hw hg h (his i (by simp)) with ⟨he, hn⟩ | ⟨h', hne, hd⟩
    · rw [he]
      obtain ⟨l', h1, h2, h3⟩ := sumPass_inv hw hg is (fun x hx => his x (by simp [hx])) h
      refine ⟨l', h1, h2, fun hl => ?_⟩
      obtain ⟨h4, h5⟩ := h3 hl
      refine ⟨h4, fun x hx => ?_⟩
      rcases List.mem_cons.1 hx with rfl | hx
      · exact hn
      · exact h5 x hx
    · obtain ⟨l', h1, h2, h3⟩ := sumPass_inv hw hg is (fun x hx => his x (by simp [hx])) h'
      refine ⟨l' ++ [i], by simpa using h1, ?_, by simp⟩
      rw [h2, hd]; simp; omega

theorem SInv.weaken {n dirs m0 gc gc' l st} (h : SInv n dirs m0 gc l st) (hg : gc ≤ gc') : SInv n dirs m0 gc' l st :=
  ⟨h.ml, h.sl, h.mem, h.done, h.topo, h.sorted, fun i hi => Nat.le_trans (h.le i hi) hg, h.dir, h.grow⟩

theorem sumPhase_inv {n : Nat} {dirs : List Dir} {m0 : List Dep} {ph : Nat} {l : List Nat} {st : SumSt}
    (h : SInv n dirs m0 (2 * ph + 1) l st) :
    ∃ l', SInv n dirs m0 (2 * (ph + 1) + 1) (l' ++ l) (sumPhase n dirs (ph + 1) st) ∧
      (sumPhase n dirs (ph + 1) st).localDone = l'.length ∧
      (l' = [] → ∀ i, i < n → i ∉ l → dirs[i]? = some .inward ∨ dirs[i]? = some .outward →
        ∃ j, j < n ∧ mget n m0 j i ≠ 0 ∧ j ∉ l) := by
  unfold sumPhase
  have h0 : SInv n dirs m0 (2 * (ph + 1)) l { st with localDone := 0 } :=
    ⟨h.ml, h.sl, h.mem, h.done, h.topo, h.sorted, fun i hi => Nat.le_trans (h.le i hi) (by omega), h.dir, h.grow⟩
  obtain ⟨l1, a1, a2, a3⟩ := sumPass_inv (want := .inward) (val := -((ph + 1 : Nat) : Int)) (.inl ⟨rfl, by omega⟩)
    (by unfold place; rw [if_pos (by omega)]; omega) (List.range n) (by simp) h0
  obtain ⟨l2, b1, b2, b3⟩ := sumPass_inv (want := .outward) (val := ((ph + 1 : Nat) : Int)) (.inr ⟨rfl, by omega⟩)
    (by unfold place; rw [if_neg (by omega)]; omega) (List.range n) (by simp)
    (a1.weaken (gc' := 2 * (ph + 1) + 1) (by omega))
  refine ⟨l2 ++ l1, by simpa using b1, ?_, ?_⟩
  · simp only
    rw [b2, a2]; simp; omega
  · intro hl i hi hil hdir
    obtain ⟨rfl, rfl⟩ := List.append_eq_nil_iff.1 hl
    obtain ⟨c1, c2⟩ := a3 rfl
    obtain ⟨d1, d2⟩ := b3 rfl
    simp only [c1] at d2
    by_contra hcon
    push Not at hcon
    have hs : sget st.sched i = 0 := by
      by_contra hs; exact hil ((h.mem i hi).2 hs)
    have hr : sumReady n i { st with localDone := 0 } = true := by
      rw [sumReady_iff]
      intro j hj hm
      rcases (h.grow j i hj hi).1 hm with hm | ⟨_, hb, _⟩
      · exact (h.mem j hj).1 (hcon j hj hm)
      · exact absurd hb hil
    rcases hdir with hd | hd
    · exact c2 i (by simpa using hi) ⟨hd, hs, hr⟩
    · exact d2 i (by simpa using hi) ⟨hd, hs, hr⟩

theorem sumLoop_inv {n : Nat} {dirs : List Dir} {m0 : List Dep} : ∀ (fuel ph : Nat) {l : List Nat} {st : SumSt},
    SInv n dirs m0 (2 * ph + 1) l st → n + 1 ≤ fuel + st.done → ph ≤ st.done →
    (∃ st' l', sumLoop n dirs fuel ph st = .ok st' ∧ SInv n dirs m0 (2 * n + 1) l' st' ∧ l'.length = n) ∨
    (sumLoop n dirs fuel ph st = .stop ∧ ∃ l' : List Nat, l'.length < n ∧ l'.Nodup ∧ (∀ i ∈ l', i < n) ∧
      (∀ i, i < n → i ∉ l' → dirs[i]? = some .inward ∨ dirs[i]? = some .outward → ∃ j, j < n ∧ mget n m0 j i ≠ 0 ∧ j ∉ l'))
  | 0, ph, l, st, h, hf, hp => by
    have h1 := h.topo.len
    have h2 := h.done
    omega
  | fuel + 1, ph, l, st, h, hf, hp => by
    unfold sumLoop
    have h1 := h.topo.len
    have h2 := h.done
    by_cases hd : st.done < n
    · rw [if_pos hd]
      simp only
      obtain ⟨l', a1, a2, a3⟩ := sumPhase_inv h
      by_cases hz : (sumPhase n dirs (ph + 1) st).localDone = 0
      · rw [if_pos hz]
        right
        refine ⟨rfl, l, by omega, h.topo.nodup, h.topo.lt, ?_⟩
        apply a3
        rw [a2] at hz
        exact List.length_eq_zero_iff.1 hz
      · rw [if_neg hz]
        have e : (sumPhase n dirs (ph + 1) st).done = l'.length + l.length := by simpa using a1.done
        exact sumLoop_inv fuel (ph + 1) a1 (by omega) (by omega)
    · rw [if_neg hd]
      left
      exact ⟨st, l, rfl, h.weaken (by omega), by omega⟩

theorem initial_inv {n : Nat} {dirs : List Dir} {m0 : List Dep} (hl : m0.length = n * n) :
    SInv n dirs m0 1 [] ⟨m0, List.replicate n 0, 0, 0⟩ := by
  refine ⟨hl, by simp, ?_, rfl, trivial, List.Pairwise.nil, by simp, by simp, by simp⟩
  intro i hi
  simp [sget, List.getElem?_replicate, hi]

theorem Topo.order {n : Nat} {dep : Nat → Nat → Prop} : ∀ {l : List Nat}, Topo n dep l →
    ∀ pre i post, l.reverse = pre ++ i :: post → ∀ j, j < n → dep j i → j ∈ pre
  | [], _, pre, i, post, h, _, _, _ => by simp at h
  | a :: r, ht, pre, i, post, h, j, hj, hd => by
    rw [List.reverse_cons] at h
    rcases List.eq_nil_or_concat post with rfl | ⟨post', b, rfl⟩
    · have h' : r.reverse ++ [a] = pre ++ [i] := h
      obtain ⟨h1, h2⟩ := List.append_inj' h' rfl
      simp at h2; subst h2
      rw [← h1]; simpa using ht.2.2.1 j hj hd
    · have h' : r.reverse ++ [a] = (pre ++ i :: post') ++ [b] := by simpa using h
      obtain ⟨h1, h2⟩ := List.append_inj' h' rfl
      exact Topo.order ht.2.2.2 pre i post' h1 j hj hd

theorem full_of_length {n : Nat} {l : List Nat} (hn : l.Nodup) (hl : ∀ i ∈ l, i < n) (h : l.length = n) :
    ∀ i, i ∈ l ↔ i < n := by
  have h1 : l ⊆ List.range n := fun i hi => List.mem_range.2 (hl i hi)
  have h2 := (List.subperm_of_subset hn h1)
  have h3 := h2.perm_of_length_le (by simp [h])
  intro i
  rw [h3.mem_iff]; simp

theorem exists_missing {n : Nat} {l : List Nat} (h : l.length < n) : ∃ i, i < n ∧ i ∉ l := by
  by_contra hc
  push Not at hc
  have h1 : List.range n ⊆ l := fun i hi => hc i (List.mem_range.1 hi)
  have := (List.subperm_of_subset List.nodup_range h1).length_le
  simp at this; omega

/-- A total order excludes a set of instances each of which waits for another one of the set. -/
theorem TotalOrder.no_stuck {n : Nat} {dep : Nat → Nat → Prop} {o : List Nat} (h : TotalOrder n dep o) (U : Nat → Prop)
    (hU : ∀ i, U i → i < n ∧ ∃ j, j < n ∧ dep j i ∧ U j) : ∀ i, ¬ U i := by
  have key : ∀ (pre post : List Nat), o = pre ++ post → ∀ i ∈ pre, ¬ U i := by
    intro pre
    induction pre using List.reverseRecOn with
    | nil => intro _ _ i hi; cases hi
    | append_singleton pre a ih =>
      intro post ho i hi
      have hpre := ih (a :: post) (by simpa using ho)
      rw [List.mem_append] at hi
      rcases hi with hi | hi
      · exact hpre i hi
      · simp at hi; subst hi
        intro hu
        obtain ⟨_, j, hj, hd, huj⟩ := hU i hu
        exact hpre j (h.before pre i post (by simpa using ho) j hj hd) huj
  intro i hu
  exact key o [] (by simp) i ((h.all i).2 (hU i hu).1) hu

end Aps.Oag
