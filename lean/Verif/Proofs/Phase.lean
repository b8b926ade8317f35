import Verif.Model.Phase
import Verif.Proofs.OagSum
import Verif.Proofs.SccMain
/-! Phases with circular attributes: the invariants. -/
set_option linter.unusedVariables false
set_option linter.unusedSimpArgs false
namespace Aps.Phase
open Aps.Dnc Aps.Oag

/-- `a` and `b` belong to one of the cycles -/
def Same (cyc : List (List Nat)) (a b : Nat) : Prop := ∃ c ∈ cyc, a ∈ c ∧ b ∈ c
/-- `a` belongs to a cycle -/
def Circ (cyc : List (List Nat)) (a : Nat) : Prop := ∃ c ∈ cyc, a ∈ c

/-- what the list of cycles satisfies -/
structure CycOk (n : Nat) (m0 : List Dep) (cyc : List (List Nat)) : Prop where
  lt : ∀ c ∈ cyc, ∀ i ∈ c, i < n
  nodup : cyc.flatten.Nodup
  ne : ∀ c ∈ cyc, c ≠ []
  pred : ∀ c ∈ cyc, ∀ i ∈ c, ∃ j ∈ c, mget n m0 j i ≠ 0

theorem CycOk.uniq {n m0 cyc} (h : CycOk n m0 cyc) {c d : List Nat} {a : Nat} (hc : c ∈ cyc) (hd : d ∈ cyc) (h1 : a ∈ c) (h2 : a ∈ d) :
    c = d := by
  by_contra hne
  have := (List.nodup_flatten.1 h.nodup).2
  have hs : ∀ x ∈ cyc, ∀ y ∈ cyc, x ≠ y → List.Disjoint x y := by
    intro x hx y hy hxy
    have k1 : cyc.Pairwise (fun x y => x ≠ y → List.Disjoint x y) := this.imp fun {a b} h => fun _ => h
    have k2 : cyc.Pairwise (flip fun x y => x ≠ y → List.Disjoint x y) := this.imp fun {a b} h => fun _ _ h1 h2 => h h2 h1
    exact (List.Pairwise.forall_of_forall_of_flip (fun x _ h => absurd rfl h) k1 k2) hx hy hxy
  exact hs c hc d hd hne h1 h2

theorem CycOk.cnodup {n m0 cyc} (h : CycOk n m0 cyc) {c : List Nat} (hc : c ∈ cyc) : c.Nodup :=
  (List.nodup_flatten.1 h.nodup).1 c hc

/-- latest first: everything an instance depends on comes earlier or is in the same cycle -/
def TopoC (n : Nat) (cyc : List (List Nat)) (dep : Nat → Nat → Prop) : List Nat → Prop
  | [] => True
  | i :: r => i < n ∧ i ∉ r ∧ (∀ j, j < n → dep j i → j ∈ r ∨ Same cyc j i) ∧ TopoC n cyc dep r

theorem TopoC.nodup {n cyc dep} : ∀ {l : List Nat}, TopoC n cyc dep l → l.Nodup
  | [], _ => List.nodup_nil
  | _ :: _, h => List.nodup_cons.2 ⟨h.2.1, TopoC.nodup h.2.2.2⟩

theorem TopoC.lt {n cyc dep} : ∀ {l : List Nat}, TopoC n cyc dep l → ∀ i ∈ l, i < n
  | [], _, i, hi => by cases hi
  | _ :: _, h, i, hi => by
    rcases List.mem_cons.1 hi with rfl | hi
    · exact h.1
    · exact TopoC.lt h.2.2.2 i hi

theorem TopoC.len {n cyc dep} {l : List Nat} (h : TopoC n cyc dep l) : l.length ≤ n := by
  have h1 : l ⊆ List.range n := fun i hi => List.mem_range.2 (h.lt i hi)
  have := (List.subperm_of_subset h.nodup h1).length_le
  simpa using this

/-- The invariant about instances. -/
structure PInv (n : Nat) (dirs : List Dir) (m0 : List Dep) (cyc : List (List Nat)) (gc : Nat) (l : List Nat) (st : SumSt) : Prop where
  ml : st.m.length = n * n
  sl : st.sched.length = n
  mem : ∀ i, i < n → (i ∈ l ↔ sget st.sched i ≠ 0)
  done : st.done = l.length
  topo : TopoC n cyc (fun j i => mget n m0 j i ≠ 0) l
  sorted : l.Pairwise (fun a b => place (sget st.sched b) ≤ place (sget st.sched a) ∨ Same cyc a b)
  le : ∀ i ∈ l, place (sget st.sched i) ≤ gc
  dir : ∀ i ∈ l, (sget st.sched i < 0 ↔ dirs[i]? = some .inward) ∧
    (¬ Circ cyc i → dirs[i]? = some .inward ∨ dirs[i]? = some .outward)
  one : ∀ c ∈ cyc, (∀ a ∈ c, a ∉ l) ∨ ∃ p : Nat, ∀ a ∈ c, a ∈ l ∧ (sget st.sched a).natAbs = p
  grow : ∀ a b, a < n → b < n → (mget n st.m a b ≠ 0 ↔ mget n m0 a b ≠ 0 ∨
    (a ∈ l ∧ b ∈ l ∧ ¬ Circ cyc b ∧ place (sget st.sched a) < place (sget st.sched b)))

theorem place_inj {a b : Int} (ha : a ≠ 0) (hb : b ≠ 0) (h : place a = place b) : a = b := by
  unfold place at h
  split at h <;> split at h <;> omega

theorem PInv.diag {n dirs m0 cyc gc l st} (h : PInv n dirs m0 cyc gc l st) {i : Nat} (hi : i < n) :
    mget n st.m i i ≠ 0 ↔ mget n m0 i i ≠ 0 := by
  rw [h.grow i i hi hi]; simp

/-- What a step of the non-circular scheduler does not do. -/
def NotReady (n : Nat) (dirs : List Dir) (want : Dir) (st : SumSt) (i : Nat) : Prop :=
  ¬ (mget n st.m i i = 0 ∧ dirs[i]? = some want ∧ sget st.sched i = 0 ∧ sumReady n i st = true)

theorem ncStep_inv {n : Nat} {dirs : List Dir} {m0 : List Dep} {cyc : List (List Nat)} {gc : Nat} {l : List Nat} {st : SumSt}
    (hc : CycOk n m0 cyc)
    {want : Dir} {val : Int} (hw : (want = .inward ∧ val < 0) ∨ (want = .outward ∧ 0 < val)) (hg : place val = gc)
    (h : PInv n dirs m0 cyc gc l st) {i : Nat} (hi : i < n) :
    (ncStep n dirs want val st i = st ∧ NotReady n dirs want st i) ∨
    (PInv n dirs m0 cyc gc (i :: l) (ncStep n dirs want val st i) ∧ i ∉ l ∧ ¬ Circ cyc i ∧
      (ncStep n dirs want val st i).localDone = st.localDone + 1 ∧
      (ncStep n dirs want val st i).sched = st.sched.set i val) := by
  unfold ncStep
  by_cases h0 : mget n st.m i i ≠ 0
  · rw [if_pos h0]
    left; exact ⟨rfl, fun hh => h0 hh.1⟩
  rw [if_neg h0]
  push Not at h0
  unfold sumStep
  by_cases h1 : dirs[i]? = some want ∧ sget st.sched i = 0
  · rw [if_pos h1]
    by_cases h2 : sumReady n i st = true
    · rw [if_pos h2]
      right
      have hne : i ∉ l := fun hm => (h.mem i hi).1 hm h1.2
      have hv0 : val ≠ 0 := by rcases hw with ⟨_, h⟩ | ⟨_, h⟩ <;> omega
      have hsg : ∀ j, sget (st.sched.set i val) j = if j = i then val else sget st.sched j := fun j => sget_set h.sl hi val
      have hsl : ∀ j ∈ l, sget (st.sched.set i val) j = sget st.sched j := by
        intro j hj
        rw [hsg, if_neg]; rintro rfl; exact hne hj
      obtain ⟨f1, f2⟩ := forceDeps_spec hi val (st.sched.set i val) st.m h.ml
      have hready := sumReady_iff.1 h2
      have hnc : ¬ Circ cyc i := by
        rintro ⟨c, hcc, hic⟩
        obtain ⟨j, hj, hm⟩ := hc.pred c hcc i hic
        have hjn := hc.lt c hcc j hj
        have hjl : j ∈ l := (h.mem j hjn).2 (hready j hjn ((h.grow j i hjn hi).2 (.inl hm)))
        rcases h.one c hcc with h3 | ⟨p, h3⟩
        · exact h3 j hj hjl
        · exact hne (h3 i hic).1
      refine ⟨⟨f1, by simpa using h.sl, ?_, by simp [h.done], ?_, ?_, ?_, ?_, ?_, ?_⟩, hne, hnc, rfl, rfl⟩
      · intro j hj
        simp only [List.mem_cons]
        rw [hsg]
        by_cases hji : j = i
        · simp [hji, hv0]
        · simp [hji, h.mem j hj]
      · refine ⟨hi, hne, fun j hj hd => ?_, h.topo⟩
        have := (h.grow j i hj hi).2 (.inl hd)
        exact .inl ((h.mem j hj).2 (hready j hj this))
      · refine List.pairwise_cons.2 ⟨fun j hj => ?_, ?_⟩
        · simp only
          rw [hsl j hj, hsg, if_pos rfl, hg]; exact .inl (h.le j hj)
        · refine h.sorted.imp_of_mem ?_
          intro a b ha hb hab
          simp only
          rw [hsl a ha, hsl b hb]; exact hab
      · intro j hj
        rcases List.mem_cons.1 hj with rfl | hj
        · simp only; rw [hsg, if_pos rfl, hg]
        · simp only; rw [hsl j hj]; exact h.le j hj
      · intro j hj
        rcases List.mem_cons.1 hj with rfl | hj
        · simp only
          rw [hsg, if_pos rfl]
          rcases hw with ⟨rfl, hv⟩ | ⟨rfl, hv⟩
          · simp [h1.1, hv]
          · simp [h1.1]; omega
        · simp only; rw [hsl j hj]; exact h.dir j hj
      · intro c hcc
        rcases h.one c hcc with h3 | ⟨p, h3⟩
        · left
          intro a ha hm
          rcases List.mem_cons.1 hm with rfl | hm
          · exact hnc ⟨c, hcc, ha⟩
          · exact h3 a ha hm
        · right
          refine ⟨p, fun a ha => ?_⟩
          obtain ⟨h4, h5⟩ := h3 a ha
          simp only
          rw [hsl a h4]
          exact ⟨by simp [h4], h5⟩
      · intro a b ha hb
        simp only
        rw [f2 a b ha hb]
        by_cases hbi : b = i
        · subst hbi
          by_cases hai : a = b
          · subst hai
            have hs : sget (st.sched.set a val) a = val := by rw [hsg, if_pos rfl]
            rw [if_neg (by simp [hs]), h.grow a a ha ha]
            simp [hne]
          · have hs : sget (st.sched.set b val) a = sget st.sched a := by rw [hsg, if_neg hai]
            rw [hs, hsg, if_pos rfl]
            by_cases ha0 : sget st.sched a = 0
            · have hal : a ∉ l := fun hm => (h.mem a ha).1 hm ha0
              rw [if_neg (by simp [ha0]), h.grow a b ha hb]
              simp [hai, hal, hne]
            · have hal : a ∈ l := (h.mem a ha).2 ha0
              have hle := h.le a hal
              by_cases hav : sget st.sched a = val
              · rw [if_neg (by simp [hav]), h.grow a b ha hb]
                simp [hav, hne]
              · rw [if_pos ⟨rfl, ha0, hav⟩]
                constructor
                · intro _
                  right
                  refine ⟨by simp [hal], by simp, hnc, ?_⟩
                  rw [hg]
                  apply Nat.lt_of_le_of_ne hle
                  intro he
                  apply hav
                  rw [← hg] at he
                  exact place_inj ha0 hv0 he
                · intro _; exact indirectControl_ne
        · rw [if_neg (by simp [hbi]), h.grow a b ha hb]
          rw [hsg b, if_neg hbi]
          simp only [List.mem_cons, hbi, false_or]
          constructor
          · rintro (hm | ⟨hal, hbl, hnb, hlt⟩)
            · exact .inl hm
            · right; rw [hsl a hal]; exact ⟨.inr hal, hbl, hnb, hlt⟩
          · rintro (hm | ⟨hal, hbl, hnb, hlt⟩)
            · exact .inl hm
            · right
              rcases hal with rfl | hal
              · exfalso
                rw [hsg, if_pos rfl, hg] at hlt
                have := h.le b hbl
                omega
              · rw [hsl a hal] at hlt; exact ⟨hal, hbl, hnb, hlt⟩
    · left
      rw [if_neg h2]
      exact ⟨rfl, fun hh => h2 hh.2.2.2⟩
  · left
    rw [if_neg h1]
    exact ⟨rfl, fun hh => h1 ⟨hh.2.1, hh.2.2.1⟩⟩

/-- One pass over the instances. -/
theorem ncPass_inv {n : Nat} {dirs : List Dir} {m0 : List Dep} {cyc : List (List Nat)} {gc : Nat} (hc : CycOk n m0 cyc)
    {want : Dir} {val : Int} (hw : (want = .inward ∧ val < 0) ∨ (want = .outward ∧ 0 < val)) (hg : place val = gc) :
    ∀ (is : List Nat), (∀ i ∈ is, i < n) → ∀ {l : List Nat} {st : SumSt}, PInv n dirs m0 cyc gc l st →
    ∃ l', PInv n dirs m0 cyc gc (l' ++ l) (is.foldl (ncStep n dirs want val) st) ∧
      (is.foldl (ncStep n dirs want val) st).localDone = st.localDone + l'.length ∧
      (∀ i ∈ l', ¬ Circ cyc i ∧ sget (is.foldl (ncStep n dirs want val) st).sched i = val) ∧
      (∀ i ∈ l, sget (is.foldl (ncStep n dirs want val) st).sched i = sget st.sched i) ∧
      (l' = [] → is.foldl (ncStep n dirs want val) st = st ∧ ∀ i ∈ is, NotReady n dirs want st i)
  | [], _, l, st, h => ⟨[], by simpa using h, by simp, by simp, by simp, by simp⟩
  | i :: is, his, l, st, h => by
    simp only [List.foldl_cons]
    have hi := his i (by simp)
    rcases ncStep_inv hc hw hg h hi with ⟨he, hn⟩ | ⟨h', hne, hnc, hd, hs⟩
    · rw [he]
      obtain ⟨l', h1, h2, h6, h7, h3⟩ := ncPass_inv hc hw hg is (fun x hx => his x (by simp [hx])) h
      refine ⟨l', h1, h2, h6, h7, fun hl => ?_⟩
      obtain ⟨h4, h5⟩ := h3 hl
      refine ⟨h4, fun x hx => ?_⟩
      rcases List.mem_cons.1 hx with rfl | hx
      · exact hn
      · exact h5 x hx
    · obtain ⟨l', h1, h2, h6, h7, h3⟩ := ncPass_inv hc hw hg is (fun x hx => his x (by simp [hx])) h'
      refine ⟨l' ++ [i], by simpa using h1, ?_, ?_, ?_, by simp⟩
      · rw [h2, hd]; simp; omega
      · intro x hx
        rcases List.mem_append.1 hx with hx | hx
        · exact h6 x hx
        · simp at hx; subst hx
          refine ⟨hnc, ?_⟩
          rw [h7 x (by simp), hs, sget_set h.sl hi, if_pos rfl]
      · intro x hx
        rw [h7 x (by simp [hx]), hs, sget_set h.sl hi, if_neg]
        rintro rfl; exact hne hx

theorem PInv.weaken {n dirs m0 cyc gc gc' l st} (h : PInv n dirs m0 cyc gc l st) (hg : gc ≤ gc') : PInv n dirs m0 cyc gc' l st :=
  ⟨h.ml, h.sl, h.mem, h.done, h.topo, h.sorted, fun i hi => Nat.le_trans (h.le i hi) hg, h.dir, h.one, h.grow⟩

/-- every unscheduled instance outside cycles with a direction waits for an unscheduled one -/
def NcStuck (n : Nat) (dirs : List Dir) (m0 : List Dep) (l : List Nat) : Prop :=
  ∀ i, i < n → i ∉ l → mget n m0 i i = 0 → dirs[i]? = some .inward ∨ dirs[i]? = some .outward →
    ∃ j, j < n ∧ mget n m0 j i ≠ 0 ∧ j ∉ l

theorem ncPhase_inv {n : Nat} {dirs : List Dir} {m0 : List Dep} {cyc : List (List Nat)} (hc : CycOk n m0 cyc)
    {ph : Nat} {l : List Nat} {st : SumSt}
    (h : PInv n dirs m0 cyc (2 * ph + 1) l st) :
    ∃ l', PInv n dirs m0 cyc (2 * (ph + 1) + 1) (l' ++ l) (ncPhase n dirs (ph + 1) st) ∧
      (ncPhase n dirs (ph + 1) st).localDone = l'.length ∧
      (∀ i ∈ l', ¬ Circ cyc i ∧ (sget (ncPhase n dirs (ph + 1) st).sched i).natAbs = ph + 1) ∧
      (∀ i ∈ l, sget (ncPhase n dirs (ph + 1) st).sched i = sget st.sched i) ∧
      (l' = [] → NcStuck n dirs m0 l ∧ ncPhase n dirs (ph + 1) st = { st with localDone := 0 }) := by
  unfold ncPhase
  have h0 : PInv n dirs m0 cyc (2 * (ph + 1)) l { st with localDone := 0 } :=
    ⟨h.ml, h.sl, h.mem, h.done, h.topo, h.sorted, fun i hi => Nat.le_trans (h.le i hi) (by omega), h.dir, h.one, h.grow⟩
  obtain ⟨l1, a1, a2, a4, a5, a3⟩ := ncPass_inv hc (want := .inward) (val := -((ph + 1 : Nat) : Int)) (.inl ⟨rfl, by omega⟩)
    (by unfold place; rw [if_pos (by omega)]; omega) (List.range n) (by simp) h0
  obtain ⟨l2, b1, b2, b4, b5, b3⟩ := ncPass_inv hc (want := .outward) (val := ((ph + 1 : Nat) : Int)) (.inr ⟨rfl, by omega⟩)
    (by unfold place; rw [if_neg (by omega)]; omega) (List.range n) (by simp)
    (a1.weaken (gc' := 2 * (ph + 1) + 1) (by omega))
  refine ⟨l2 ++ l1, by simpa using b1, ?_, ?_, ?_, ?_⟩
  · simp only
    rw [b2, a2]; simp; omega
  · intro i hi
    rcases List.mem_append.1 hi with hi | hi
    · refine ⟨(b4 i hi).1, ?_⟩
      simp only
      rw [(b4 i hi).2]; omega
    · refine ⟨(a4 i hi).1, ?_⟩
      simp only
      rw [b5 i (by simp [hi]), (a4 i hi).2]; omega
  · intro i hi
    simp only
    rw [b5 i (by simp [hi]), a5 i hi]
  · intro hl
    obtain ⟨rfl, rfl⟩ := List.append_eq_nil_iff.1 hl
    obtain ⟨c1, c2⟩ := a3 rfl
    obtain ⟨d1, d2⟩ := b3 rfl
    simp only [c1] at d1 d2 ⊢
    refine ⟨?_, d1⟩
    intro i hi hil hdg hdir
    by_contra hcon
    push Not at hcon
    have hs : sget st.sched i = 0 := by
      by_contra hs; exact hil ((h.mem i hi).2 hs)
    have hr : sumReady n i { st with localDone := 0 } = true := by
      rw [sumReady_iff]
      intro j hj hm
      rcases (h.grow j i hj hi).1 hm with hm | ⟨_, hb, _⟩
      · exact (h.mem j hj).1 (hcon j hj hm)
      · exact absurd hb hil
    have hd0 : mget n st.m i i = 0 := by
      by_contra hh; exact (h.diag hi).1 hh hdg
    rcases hdir with hd | hd
    · exact c2 i (by simpa using hi) ⟨hd0, hd, hs, hr⟩
    · exact d2 i (by simpa using hi) ⟨hd0, hd, hs, hr⟩

theorem cycAssign_spec {n : Nat} {dirs : List Dir} {phase : Nat} : ∀ (c : List Nat), (∀ i ∈ c, i < n) → ∀ (s : List Int), s.length = n →
    (cycAssign dirs phase c s).length = n ∧
    ∀ i, sget (cycAssign dirs phase c s) i =
      if i ∈ c then (if dirs[i]? = some .inward then -(phase : Int) else (phase : Int)) else sget s i
  | [], _, s, hs => by simp [cycAssign, hs]
  | a :: c, hc, s, hs => by
    have ha := hc a (by simp)
    obtain ⟨h1, h2⟩ := cycAssign_spec (dirs := dirs) (phase := phase) c (fun i hi => hc i (by simp [hi]))
      (s.set a (if dirs[a]? = some .inward then -(phase : Int) else (phase : Int))) (by simpa using hs)
    refine ⟨h1, fun i => ?_⟩
    have : cycAssign dirs phase (a :: c) s = cycAssign dirs phase c (s.set a (if dirs[a]? = some .inward then -(phase : Int) else (phase : Int))) := rfl
    rw [this, h2 i]
    by_cases hic : i ∈ c
    · simp [hic]
    · rw [if_neg hic, sget_set hs ha]
      by_cases hia : i = a
      · subst hia; simp
      · simp [hia, hic]

/-- every unscheduled cycle waits for an unscheduled instance outside it -/
def CycStuck (n : Nat) (m0 : List Dep) (cyc : List (List Nat)) (l : List Nat) : Prop :=
  ∀ c ∈ cyc, (∀ a ∈ c, a ∉ l) → ∃ i ∈ c, ∃ j, j < n ∧ j ∉ c ∧ j ∉ l ∧ mget n m0 j i ≠ 0

theorem cycReady_iff {n : Nat} {st : SumSt} {c : List Nat} : cycReady n st c = true ↔
    ∀ i ∈ c, ∀ k, k < n → mget n st.m k i ≠ 0 → k ∈ c ∨ sget st.sched k ≠ 0 := by
  unfold cycReady
  simp only [List.all_eq_true, List.mem_range, Bool.or_eq_true, List.contains_eq_mem, decide_eq_true_eq, bne_iff_ne, beq_iff_eq]
  constructor
  · intro h i hi k hk hm
    rcases h i hi k hk with h | h
    · exact h
    · exact absurd h hm
  · intro h i hi k hk
    by_cases hm : mget n st.m k i = 0
    · exact .inr hm
    · exact .inl (h i hi k hk hm)

theorem place_phase_lt {s : Int} {ph : Nat} (h : place s ≤ 2 * ph + 1) : s.natAbs ≤ ph := by
  unfold place at h; split at h <;> omega

/-- A cycle is scheduled. -/
theorem cyc_inv {n : Nat} {dirs : List Dir} {m0 : List Dep} {cyc : List (List Nat)} (hc : CycOk n m0 cyc)
    {ph : Nat} {l : List Nat} {st : SumSt} (h : PInv n dirs m0 cyc (2 * ph + 1) l st)
    {c : List Nat} (hcc : c ∈ cyc) (hout : ∀ a ∈ c, a ∉ l) (hr : cycReady n st c = true) :
    PInv n dirs m0 cyc (2 * (ph + 1) + 1) (c ++ l)
      { st with sched := cycAssign dirs (ph + 1) c st.sched, done := st.done + c.length, localDone := c.length } := by
  have hlt := hc.lt c hcc
  obtain ⟨s1, s2⟩ := cycAssign_spec (dirs := dirs) (phase := ph + 1) c hlt st.sched h.sl
  have hready := cycReady_iff.1 hr
  have hin : ∀ a ∈ c, (sget (cycAssign dirs (ph + 1) c st.sched) a).natAbs = ph + 1 ∧
      (sget (cycAssign dirs (ph + 1) c st.sched) a < 0 ↔ dirs[a]? = some .inward) := by
    intro a ha
    rw [s2 a, if_pos ha]
    by_cases hd : dirs[a]? = some .inward
    · simp [hd]; omega
    · simp [hd]; omega
  have hl : ∀ a ∈ l, sget (cycAssign dirs (ph + 1) c st.sched) a = sget st.sched a := by
    intro a ha
    rw [s2 a, if_neg]; intro hac; exact hout a hac ha
  have hcirc : ∀ a ∈ c, Circ cyc a := fun a ha => ⟨c, hcc, ha⟩
  refine ⟨h.ml, s1, ?_, by simp [h.done]; omega, ?_, ?_, ?_, ?_, ?_, ?_⟩
  · intro i hi
    simp only [List.mem_append]
    by_cases hic : i ∈ c
    · have := (hin i hic).1
      simp only [hic, true_or, true_iff]
      intro h0; rw [h0] at this; simp at this
    · rw [s2 i, if_neg hic]; simp [hic, h.mem i hi]
  · have key : ∀ (d : List Nat), d ⊆ c → d.Nodup → TopoC n cyc (fun j i => mget n m0 j i ≠ 0) (d ++ l) := by
      intro d
      induction d with
      | nil => intro _ _; simpa using h.topo
      | cons a d ih =>
        intro hd hnd
        have hac := hd (List.mem_cons_self ..)
        rw [List.nodup_cons] at hnd
        refine ⟨hlt a hac, ?_, ?_, ih (fun x hx => hd (List.mem_cons_of_mem _ hx)) hnd.2⟩
        · show a ∉ d ++ l
          rw [List.mem_append]
          rintro (hx | hx)
          · exact hnd.1 hx
          · exact hout a hac hx
        · intro j hj hd
          rcases hready a hac j hj ((h.grow j a hj (hlt a hac)).2 (.inl hd)) with hjc | hjs
          · exact .inr ⟨c, hcc, hjc, hac⟩
          · exact .inl (List.mem_append.2 (.inr ((h.mem j hj).2 hjs)))
    exact key c (fun _ h => h) (hc.cnodup hcc)
  · simp only
    rw [List.pairwise_append]
    refine ⟨?_, ?_, ?_⟩
    · exact List.Pairwise.imp_of_mem (R := fun _ _ => True) (fun ha hb _ => .inr ⟨c, hcc, ha, hb⟩) (List.pairwise_of_forall (fun _ _ => trivial))
    · refine h.sorted.imp_of_mem ?_
      intro a b ha hb hab
      rw [hl a ha, hl b hb]; exact hab
    · intro a ha b hb
      left
      rw [hl b hb]
      have h1 := h.le b hb
      have h2 := (hin a ha).1
      refine Nat.le_trans h1 ?_
      unfold place
      split <;> omega
  · intro i hi
    simp only
    rcases List.mem_append.1 hi with hi | hi
    · have := (hin i hi).1
      unfold place; split <;> omega
    · rw [hl i hi]; exact Nat.le_trans (h.le i hi) (by omega)
  · intro i hi
    simp only
    rcases List.mem_append.1 hi with hi | hi
    · exact ⟨(hin i hi).2, fun hn => absurd (hcirc i hi) hn⟩
    · rw [hl i hi]; exact h.dir i hi
  · intro d hd
    simp only
    by_cases hdc : d = c
    · subst hdc
      right
      exact ⟨ph + 1, fun a ha => ⟨by simp [ha], (hin a ha).1⟩⟩
    · rcases h.one d hd with h3 | ⟨p, h3⟩
      · left
        intro a ha hm
        rcases List.mem_append.1 hm with hm | hm
        · exact hdc (hc.uniq hd hcc ha hm)
        · exact h3 a ha hm
      · right
        refine ⟨p, fun a ha => ?_⟩
        obtain ⟨h4, h5⟩ := h3 a ha
        rw [hl a h4]; exact ⟨by simp [h4], h5⟩
  · intro a b ha hb
    simp only
    rw [h.grow a b ha hb]
    constructor
    · rintro (hm | ⟨h1, h2, h3, h4⟩)
      · exact .inl hm
      · right; rw [hl a h1, hl b h2]; exact ⟨by simp [h1], by simp [h2], h3, h4⟩
    · rintro (hm | ⟨h1, h2, h3, h4⟩)
      · exact .inl hm
      · right
        have hbl : b ∈ l := by
          rcases List.mem_append.1 h2 with h2 | h2
          · exact absurd (hcirc b h2) h3
          · exact h2
        rw [hl b hbl] at h4
        rcases List.mem_append.1 h1 with h1 | h1
        · exfalso
          have h5 := h.le b hbl
          have h6 := (hin a h1).1
          unfold place at h4 h5
          split at h4 <;> split at h4 <;> split at h5 <;> omega
        · rw [hl a h1] at h4; exact ⟨h1, hbl, h3, h4⟩

/-- One call of the circular scheduler. -/
theorem cycPhase_inv {n : Nat} {dirs : List Dir} {m0 : List Dep} {cyc : List (List Nat)} (hc : CycOk n m0 cyc)
    {ph : Nat} {l : List Nat} {st : SumSt} (h : PInv n dirs m0 cyc (2 * ph + 1) l st) :
    ∀ (comps : List (List Nat × Bool)), (∀ c, (c, true) ∈ comps → c ∈ cyc) →
    (∃ c, (c, true) ∈ comps ∧ (∀ a ∈ c, a ∉ l) ∧
      cycPhase n dirs (ph + 1) comps st =
        .ok { st with sched := cycAssign dirs (ph + 1) c st.sched, done := st.done + c.length, localDone := c.length } ∧
      PInv n dirs m0 cyc (2 * (ph + 1) + 1) (c ++ l)
        { st with sched := cycAssign dirs (ph + 1) c st.sched, done := st.done + c.length, localDone := c.length }) ∨
    (cycPhase n dirs (ph + 1) comps st = .ok { st with localDone := 0 } ∧
      CycStuck n m0 (comps.filterMap fun c => if c.2 then some c.1 else none) l)
  | [], _ => by
    right
    exact ⟨rfl, by intro c hc; simp at hc⟩
  | (c, cy) :: rest, hcs => by
    unfold cycPhase
    have ih := cycPhase_inv hc h rest (fun d hd => hcs d (by simp [hd]))
    by_cases hcy : cy = false
    · rw [if_pos hcy]
      rcases ih with ⟨d, h1, h2, h3, h4⟩ | ⟨h1, h2⟩
      · exact .inl ⟨d, by simp [h1], h2, h3, h4⟩
      · refine .inr ⟨h1, ?_⟩
        simpa [hcy] using h2
    · rw [if_neg hcy]
      have hcy' : cy = true := by simpa using hcy
      subst hcy'
      have hcc := hcs c (by simp)
      cases c with
      | nil => exact absurd rfl (hc.ne _ hcc)
      | cons i c' =>
        simp only [List.head?_cons]
        have hin := hc.lt _ hcc i (by simp)
        by_cases hs : sget st.sched i ≠ 0
        · rw [if_pos hs]
          rcases ih with ⟨d, h1, h2, h3, h4⟩ | ⟨h1, h2⟩
          · exact .inl ⟨d, by simp [h1], h2, h3, h4⟩
          · refine .inr ⟨h1, ?_⟩
            intro d hd hdl
            simp only [List.filterMap_cons, if_true, List.mem_cons] at hd
            rcases hd with rfl | hd
            · exact absurd ((h.mem i hin).2 hs) (hdl i (by simp))
            · exact h2 d hd hdl
        · rw [if_neg hs]
          have hil : i ∉ l := fun hm => hs ((h.mem i hin).1 hm)
          have hout : ∀ a ∈ i :: c', a ∉ l := by
            rcases h.one _ hcc with h3 | ⟨p, h3⟩
            · exact h3
            · exact absurd (h3 i (by simp)).1 hil
          by_cases hr : cycReady n st (i :: c') = true
          · rw [if_pos hr]
            exact .inl ⟨_, by simp, hout, rfl, cyc_inv hc h hcc hout hr⟩
          · rw [if_neg hr]
            rcases ih with ⟨d, h1, h2, h3, h4⟩ | ⟨h1, h2⟩
            · exact .inl ⟨d, by simp [h1], h2, h3, h4⟩
            · refine .inr ⟨h1, ?_⟩
              intro d hd hdl
              simp only [List.filterMap_cons, if_true, List.mem_cons] at hd
              rcases hd with rfl | hd
              · rw [cycReady_iff] at hr
                push Not at hr
                obtain ⟨a, ha, k, hk, hm, hkc, hks⟩ := hr
                have hal := hout a ha
                have han := hc.lt _ hcc a ha
                refine ⟨a, ha, k, hk, hkc, ?_, ?_⟩
                · intro hkl; exact (h.mem k hk).1 hkl hks
                · rcases (h.grow k a hk han).1 hm with hm | ⟨_, hb, _⟩
                  · exact hm
                  · exact absurd hb hal
              · exact h2 d hd hdl

/-! ## The loop -/

/-- `circular_phase[p]`, `empty_phase[p]` -/
def fl (a : List Bool) (p : Nat) : Bool := a[p]?.getD false

theorem fl_set {a : List Bool} {p q : Nat} {v : Bool} (h : p < a.length) : fl (a.set p v) q = if q = p then v else fl a q := by
  unfold fl
  rw [List.getElem?_set]
  by_cases hpq : p = q
  · subst hpq; simp [h]
  · simp [hpq, Ne.symm hpq]

/-- The invariant at the head of the loop. `cl`: the cycles scheduled so far. -/
structure LInv (size n : Nat) (dirs : List Dir) (m0 : List Dep) (cyc : List (List Nat)) (l : List Nat) (cl : List (List Nat)) (st : PSt) : Prop where
  p : PInv n dirs m0 cyc (2 * (st.phase - 1) + 1) l st.sum
  pos : 1 ≤ st.phase
  cs : st.circ.length = size
  es : st.empty.length = size
  ge : ∀ i ∈ l, 1 ≤ (sget st.sum.sched i).natAbs
  cp : ∀ i ∈ l, (fl st.circ (sget st.sum.sched i).natAbs = true ↔ Circ cyc i)
  sm : ∀ i ∈ l, ∀ j ∈ l, Circ cyc i → (sget st.sum.sched i).natAbs = (sget st.sum.sched j).natAbs → Same cyc i j
  cn : ∀ q, fl st.circ q = true → 1 < q ∧ q < st.phase ∧ ∃ i ∈ l, (sget st.sum.sched i).natAbs = q
  ce : ∀ q, fl st.empty q = true ↔ 1 ≤ q ∧ q < st.phase ∧ ∀ i ∈ l, (sget st.sum.sched i).natAbs ≠ q
  adj : ∀ q, fl st.circ q = true → fl st.circ (q + 1) = false
  hap : st.happened = true ↔ fl st.circ (st.phase - 1) = true
  mx : st.phase = st.maxPhase + 1
  cln : cl.Nodup
  clc : ∀ c ∈ cl, c ∈ cyc ∧ ∀ a ∈ c, a ∈ l
  bound : st.phase + (if st.happened then 1 else 0) ≤ st.sum.done + cl.length + 1 + (if cyc = [] then 0 else 1)

/-- no write is beyond this index -/
def bound (n : Nat) (cyc : List (List Nat)) : Nat := if cyc = [] then n else n + cyc.length + 1

theorem LInv.le {size n dirs m0 cyc l cl st} (h : LInv size n dirs m0 cyc l cl st) : ∀ i ∈ l, (sget st.sum.sched i).natAbs < st.phase := by
  intro i hi
  have h1 := place_phase_lt (h.p.le i hi)
  have := h.pos
  omega

theorem LInv.cl_le {size n dirs m0 cyc l cl st} (h : LInv size n dirs m0 cyc l cl st) : cl.length ≤ cyc.length :=
  (List.subperm_of_subset h.cln (fun c hc => (h.clc c hc).1)).length_le

theorem wr_ok {α : Type} {a : List α} {i : Nat} {v : α} (h : i < a.length) : wr a i v = .ok (a.set i v) := by
  simp [wr, h]

/-- One non-circular phase. -/
theorem nc_linv {size n : Nat} {dirs : List Dir} {m0 : List Dep} {cyc : List (List Nat)} (hc : CycOk n m0 cyc)
    {l : List Nat} {cl : List (List Nat)} {st : PSt} (h : LInv size n dirs m0 cyc l cl st)
    {l' : List Nat} {s1 : SumSt} (hne : l' ≠ [])
    (a1 : PInv n dirs m0 cyc (2 * st.phase + 1) (l' ++ l) s1)
    (a3 : ∀ i ∈ l', ¬ Circ cyc i ∧ (sget s1.sched i).natAbs = st.phase)
    (a4 : ∀ i ∈ l, sget s1.sched i = sget st.sum.sched i) (hsz : st.phase < size) :
    LInv size n dirs m0 cyc (l' ++ l) cl
      { st with sum := s1, circ := st.circ.set st.phase false, maxPhase := st.phase, phase := st.phase + 1, happened := false } := by
  have hpos := h.pos
  have hfl : ∀ q, fl (st.circ.set st.phase false) q = if q = st.phase then false else fl st.circ q :=
    fun q => fl_set (by rw [h.cs]; exact hsz)
  have hold : ∀ q, q ≠ st.phase → fl (st.circ.set st.phase false) q = fl st.circ q := fun q hq => by rw [hfl, if_neg hq]
  refine ⟨by simpa using a1, by simp, by simpa using h.cs, h.es, ?_, ?_, ?_, ?_, ?_, ?_, ?_, rfl, h.cln, ?_, ?_⟩
  · intro i hi
    simp only
    rcases List.mem_append.1 hi with hi | hi
    · rw [(a3 i hi).2]; exact hpos
    · rw [a4 i hi]; exact h.ge i hi
  · intro i hi
    simp only
    rcases List.mem_append.1 hi with hi | hi
    · rw [(a3 i hi).2, hfl, if_pos rfl]
      simp [(a3 i hi).1]
    · rw [a4 i hi, hold _ (by have := h.le i hi; omega)]; exact h.cp i hi
  · intro i hi j hj hci he
    simp only at he
    rcases List.mem_append.1 hi with hi | hi
    · exact absurd hci (a3 i hi).1
    · rw [a4 i hi] at he
      have h1 := h.le i hi
      rcases List.mem_append.1 hj with hj | hj
      · rw [(a3 j hj).2] at he; omega
      · rw [a4 j hj] at he; exact h.sm i hi j hj hci he
  · intro q hq
    simp only at hq ⊢
    rw [hfl] at hq
    split at hq
    · cases hq
    · obtain ⟨h1, h2, i, hi, h3⟩ := h.cn q hq
      exact ⟨h1, by omega, i, by simp [hi], by rw [a4 i hi]; exact h3⟩
  · intro q
    simp only
    rw [h.ce q]
    constructor
    · rintro ⟨h1, h2, h3⟩
      refine ⟨h1, by omega, fun i hi => ?_⟩
      rcases List.mem_append.1 hi with hi | hi
      · rw [(a3 i hi).2]; omega
      · rw [a4 i hi]; exact h3 i hi
    · rintro ⟨h1, h2, h3⟩
      have hq : q ≠ st.phase := by
        rintro rfl
        obtain ⟨i, hi⟩ := List.exists_mem_of_ne_nil l' hne
        exact h3 i (by simp [hi]) (a3 i hi).2
      refine ⟨h1, by omega, fun i hi => ?_⟩
      rw [← a4 i hi]; exact h3 i (by simp [hi])
  · intro q hq
    simp only at hq ⊢
    rw [hfl] at hq
    split at hq
    · cases hq
    · rw [hfl]
      split
      · rfl
      · exact h.adj q hq
  · simp only [Nat.add_sub_cancel]
    rw [hfl, if_pos rfl]
  · intro c hcl
    exact ⟨(h.clc c hcl).1, fun a ha => by simp [(h.clc c hcl).2 a ha]⟩
  · have hb := h.bound
    have hd1 := h.p.done
    have hd2 := a1.done
    have : 0 < l'.length := List.length_pos_iff.2 hne
    simp only [List.length_append] at hd2
    simp only
    split at hb <;> split <;> simp at * <;> omega

/-- An empty phase. -/
theorem empty_linv {size n : Nat} {dirs : List Dir} {m0 : List Dep} {cyc : List (List Nat)}
    {l : List Nat} {cl : List (List Nat)} {st : PSt} (h : LInv size n dirs m0 cyc l cl st)
    (hh : st.happened = true ∨ st.phase = 1) (hcy : cyc ≠ []) (hsz : st.phase < size) :
    LInv size n dirs m0 cyc l cl { st with circ := st.circ.set st.phase false, empty := st.empty.set st.phase true, maxPhase := st.phase, phase := st.phase + 1, happened := false } := by
  have hpos := h.pos
  have hfl : ∀ q, fl (st.circ.set st.phase false) q = if q = st.phase then false else fl st.circ q :=
    fun q => fl_set (by rw [h.cs]; exact hsz)
  have hfe : ∀ q, fl (st.empty.set st.phase true) q = if q = st.phase then true else fl st.empty q :=
    fun q => fl_set (by rw [h.es]; exact hsz)
  have hold : ∀ q, q ≠ st.phase → fl (st.circ.set st.phase false) q = fl st.circ q := fun q hq => by rw [hfl, if_neg hq]
  refine ⟨h.p.weaken (by simp), by simp, by simpa using h.cs, by simpa using h.es, h.ge, ?_, h.sm, ?_, ?_, ?_, ?_, rfl, h.cln, h.clc, ?_⟩
  · intro i hi
    simp only
    rw [hold _ (by have := h.le i hi; omega)]; exact h.cp i hi
  · intro q hq
    simp only at hq ⊢
    rw [hfl] at hq
    split at hq
    · cases hq
    · obtain ⟨h1, h2, i, hi, h3⟩ := h.cn q hq
      exact ⟨h1, by omega, i, hi, h3⟩
  · intro q
    simp only
    rw [hfe q]
    by_cases hq : q = st.phase
    · subst hq
      simp only [if_true, true_iff]
      exact ⟨hpos, by omega, fun i hi => by have := h.le i hi; omega⟩
    · rw [if_neg hq, h.ce q]
      constructor
      · rintro ⟨h1, h2, h3⟩; exact ⟨h1, by omega, h3⟩
      · rintro ⟨h1, h2, h3⟩; exact ⟨h1, by omega, h3⟩
  · intro q hq
    simp only at hq ⊢
    rw [hfl] at hq
    split at hq
    · cases hq
    · rw [hfl]
      split
      · rfl
      · exact h.adj q hq
  · simp only [Nat.add_sub_cancel]
    rw [hfl, if_pos rfl]
  · have hb := h.bound
    simp only [hcy, if_false] at hb ⊢
    rcases hh with hh | hh
    · rw [hh] at hb; simp at hb ⊢; omega
    · simp; omega

/-- A circular phase. -/
theorem cyc_linv {size n : Nat} {dirs : List Dir} {m0 : List Dep} {cyc : List (List Nat)} (hc : CycOk n m0 cyc)
    {l : List Nat} {cl : List (List Nat)} {st : PSt} (h : LInv size n dirs m0 cyc l cl st)
    (hh : st.happened = false) (hp1 : 1 < st.phase) {c : List Nat} (hcc : c ∈ cyc) (hout : ∀ a ∈ c, a ∉ l) (lD : Nat)
    (a1 : PInv n dirs m0 cyc (2 * st.phase + 1) (c ++ l)
      { st.sum with sched := cycAssign dirs st.phase c st.sum.sched, done := st.sum.done + c.length, localDone := lD })
    (hsz : st.phase < size) :
    LInv size n dirs m0 cyc (c ++ l) (c :: cl)
      { st with sum := { st.sum with sched := cycAssign dirs st.phase c st.sum.sched, done := st.sum.done + c.length, localDone := lD },
                circ := st.circ.set st.phase true, maxPhase := st.phase, phase := st.phase + 1, happened := true } := by
  have hpos := h.pos
  have hfl : ∀ q, fl (st.circ.set st.phase true) q = if q = st.phase then true else fl st.circ q :=
    fun q => fl_set (by rw [h.cs]; exact hsz)
  have hold : ∀ q, q ≠ st.phase → fl (st.circ.set st.phase true) q = fl st.circ q := fun q hq => by rw [hfl, if_neg hq]
  obtain ⟨s1, s2⟩ := cycAssign_spec (dirs := dirs) (phase := st.phase) c (hc.lt c hcc) st.sum.sched h.p.sl
  have hin : ∀ a ∈ c, (sget (cycAssign dirs st.phase c st.sum.sched) a).natAbs = st.phase := by
    intro a ha
    rw [s2 a, if_pos ha]
    by_cases hd : dirs[a]? = some .inward <;> simp [hd]
  have hl : ∀ a ∈ l, sget (cycAssign dirs st.phase c st.sum.sched) a = sget st.sum.sched a := by
    intro a ha
    rw [s2 a, if_neg]; intro hac; exact hout a hac ha
  have hcne : c ≠ [] := hc.ne c hcc
  have hprev : fl st.circ (st.phase - 1) = false := by
    have := h.hap; rw [hh] at this; simpa using this
  refine ⟨by simpa using a1, by simp, by simpa using h.cs, h.es, ?_, ?_, ?_, ?_, ?_, ?_, ?_, rfl, ?_, ?_, ?_⟩
  · intro i hi
    simp only
    rcases List.mem_append.1 hi with hi | hi
    · rw [hin i hi]; exact hpos
    · rw [hl i hi]; exact h.ge i hi
  · intro i hi
    simp only
    rcases List.mem_append.1 hi with hi | hi
    · rw [hin i hi, hfl, if_pos rfl]
      simp only [true_iff]; exact ⟨c, hcc, hi⟩
    · rw [hl i hi, hold _ (by have := h.le i hi; omega)]; exact h.cp i hi
  · intro i hi j hj hci he
    simp only at he
    rcases List.mem_append.1 hi with hi | hi
    · rw [hin i hi] at he
      rcases List.mem_append.1 hj with hj | hj
      · exact ⟨c, hcc, hi, hj⟩
      · rw [hl j hj] at he
        have := h.le j hj; omega
    · rw [hl i hi] at he
      have h1 := h.le i hi
      rcases List.mem_append.1 hj with hj | hj
      · rw [hin j hj] at he; omega
      · rw [hl j hj] at he; exact h.sm i hi j hj hci he
  · intro q hq
    simp only at hq ⊢
    rw [hfl] at hq
    split at hq
    · rename_i hqe
      subst hqe
      obtain ⟨i, hi⟩ := List.exists_mem_of_ne_nil c hcne
      exact ⟨hp1, by omega, i, by simp [hi], hin i hi⟩
    · obtain ⟨h1, h2, i, hi, h3⟩ := h.cn q hq
      exact ⟨h1, by omega, i, by simp [hi], by rw [hl i hi]; exact h3⟩
  · intro q
    simp only
    rw [h.ce q]
    constructor
    · rintro ⟨h1, h2, h3⟩
      refine ⟨h1, by omega, fun i hi => ?_⟩
      rcases List.mem_append.1 hi with hi | hi
      · rw [hin i hi]; omega
      · rw [hl i hi]; exact h3 i hi
    · rintro ⟨h1, h2, h3⟩
      have hq : q ≠ st.phase := by
        rintro rfl
        obtain ⟨i, hi⟩ := List.exists_mem_of_ne_nil c hcne
        exact h3 i (by simp [hi]) (hin i hi)
      refine ⟨h1, by omega, fun i hi => ?_⟩
      rw [← hl i hi]; exact h3 i (by simp [hi])
  · intro q hq
    simp only at hq ⊢
    rw [hfl] at hq
    split at hq
    · rename_i hqe
      subst hqe
      rw [hold _ (by omega)]
      by_contra hx
      have := (h.cn (st.phase + 1) (by simpa using hx)).2.1
      omega
    · rename_i hqe
      rw [hfl]
      split
      · rename_i hq2
        exfalso
        have : q = st.phase - 1 := by omega
        subst this
        rw [hprev] at hq; cases hq
      · exact h.adj q hq
  · simp only [Nat.add_sub_cancel]
    rw [hfl, if_pos rfl]; simp
  · refine List.nodup_cons.2 ⟨fun hm => ?_, h.cln⟩
    obtain ⟨i, hi⟩ := List.exists_mem_of_ne_nil c hcne
    exact hout i hi ((h.clc c hm).2 i hi)
  · intro d hd
    rcases List.mem_cons.1 hd with rfl | hd
    · exact ⟨hcc, fun a ha => by simp [ha]⟩
    · exact ⟨(h.clc d hd).1, fun a ha => by simp [(h.clc d hd).2 a ha]⟩
  · have hb := h.bound
    have : 0 < c.length := List.length_pos_iff.2 hcne
    have hcy : cyc ≠ [] := List.ne_nil_of_mem hcc
    simp only [hh, hcy, if_false] at hb
    simp only [List.length_cons, if_true, hcy, if_false]
    simp at hb
    omega

/-- the cyclic components -/
def cycOf (comps : List (List Nat × Bool)) : List (List Nat) := comps.filterMap fun c => if c.2 then some c.1 else none

theorem mem_cycOf {comps : List (List Nat × Bool)} {c : List Nat} : c ∈ cycOf comps ↔ (c, true) ∈ comps := by
  unfold cycOf
  simp only [List.mem_filterMap, Option.ite_none_right_eq_some, Option.some.injEq]
  constructor
  · rintro ⟨⟨a, b⟩, h1, h2, rfl⟩
    simp at h2; subst h2; exact h1
  · intro h; exact ⟨_, h, rfl, rfl⟩

/-- how the loop ends -/
inductive Outcome (size n : Nat) (dirs : List Dir) (m0 : List Dep) (cyc : List (List Nat)) : Res PSt → Prop
  | full {st l cl} (h : LInv size n dirs m0 cyc l cl st) (hap : st.happened = false) (hl : l.length = n)
      : Outcome size n dirs m0 cyc (.ok st)
  | stuck {st : PSt} {l} (hd : st.sum.done < n) (hl : l.length < n) (nc : NcStuck n dirs m0 l) (cs : CycStuck n m0 cyc l)
      (one : ∀ c ∈ cyc, (∀ a ∈ c, a ∉ l) ∨ (∀ a ∈ c, a ∈ l)) (nd : l.Nodup) (lt : ∀ i ∈ l, i < n) (hap : st.happened = false)
      : Outcome size n dirs m0 cyc (.ok st)
  | over (h : size ≤ bound n cyc) : Outcome size n dirs m0 cyc .ub

theorem PInv.localDone {n dirs m0 cyc gc l} {st : SumSt} (h : PInv n dirs m0 cyc gc l st) (k : Nat) :
    PInv n dirs m0 cyc gc l { st with localDone := k } :=
  ⟨h.ml, h.sl, h.mem, h.done, h.topo, h.sorted, h.le, h.dir, h.one, h.grow⟩

theorem LInv.sum {size n dirs m0 cyc l cl st} (h : LInv size n dirs m0 cyc l cl st) (k : Nat) :
    LInv size n dirs m0 cyc l cl { st with sum := { st.sum with localDone := k } } :=
  ⟨h.p.localDone k, h.pos, h.cs, h.es, h.ge, h.cp, h.sm, h.cn, h.ce, h.adj, h.hap, h.mx, h.cln, h.clc, h.bound⟩

theorem LInv.unhap {size n dirs m0 cyc l cl st} (h : LInv size n dirs m0 cyc l cl st) (hh : st.happened = false) :
    { st with happened := false } = st := by cases st; simp at hh; subst hh; rfl

theorem LInv.done_lt {size n dirs m0 cyc l cl st} (h : LInv size n dirs m0 cyc l cl st) : st.sum.done ≤ n := by
  rw [h.p.done]; exact h.p.topo.len

/-- the end of the loop -/
theorem exit_outcome {size n : Nat} {dirs : List Dir} {m0 : List Dep} {cyc : List (List Nat)}
    {l : List Nat} {cl : List (List Nat)} {st : PSt} (h : LInv size n dirs m0 cyc l cl st) (hh : st.happened = false)
    (hnc : NcStuck n dirs m0 l) (hcs : CycStuck n m0 cyc l) : Outcome size n dirs m0 cyc (.ok st) := by
  by_cases hl : l.length = n
  · exact .full h hh hl
  · have := h.p.topo.len
    refine .stuck (l := l) (by rw [h.p.done]; omega) (by omega) hnc hcs ?_ h.p.topo.nodup h.p.topo.lt hh
    intro c hc
    rcases h.p.one c hc with h1 | ⟨p, h1⟩
    · exact .inl h1
    · exact .inr fun a ha => (h1 a ha).1

theorem phaseLoop_inv {size n : Nat} {dirs : List Dir} {m0 : List Dep} {comps : List (List Nat × Bool)} (hn : 0 < n)
    (hc : CycOk n m0 (cycOf comps)) : ∀ (fuel : Nat) {l : List Nat} {cl : List (List Nat)} {st : PSt},
    LInv size n dirs m0 (cycOf comps) l cl st → n + 1 ≤ fuel + st.sum.done →
    Outcome size n dirs m0 (cycOf comps) (phaseLoop n dirs comps fuel st)
  | 0, l, cl, st, h, hf => by
    have := h.done_lt
    omega
  | fuel + 1, l, cl, st, h, hf => by
    have hpos := h.pos
    have hmem : ∀ c, (c, true) ∈ comps → c ∈ cycOf comps := fun c h => mem_cycOf.2 h
    have hph : st.phase - 1 + 1 = st.phase := by omega
    unfold phaseLoop
    simp only
    obtain ⟨l', a1, a2, a3, a4, a5⟩ := ncPhase_inv hc (ph := st.phase - 1) h.p
    rw [hph] at a1 a2 a3 a4 a5
    have hdone := h.p.done
    have hb := h.bound
    have hcl := h.cl_le
    by_cases hz : (ncPhase n dirs st.phase st.sum).localDone ≠ 0
    · rw [if_pos hz]
      have hne : l' ≠ [] := by rintro rfl; simp at a2; exact hz a2
      by_cases hsz : st.phase < size
      · rw [wr_ok (by rw [h.cs]; exact hsz)]
        show Outcome _ _ _ _ _ (phaseLoop _ _ _ _ _)
        have hL := nc_linv hc h hne a1 a3 a4 hsz
        refine phaseLoop_inv hn hc fuel hL ?_
        have h1 := a1.done
        have : 0 < l'.length := List.length_pos_iff.2 hne
        simp only [List.length_append] at h1
        simp only; omega
      · have : wr st.circ st.phase false = .ub := by simp [wr, h.cs, hsz]
        rw [this]
        refine .over ?_
        have h1 := a1.topo.len
        have h2 : 0 < l'.length := List.length_pos_iff.2 hne
        simp only [List.length_append] at h1
        unfold bound
        split at hb <;> split at hb <;> simp_all <;> omega
    · rw [if_neg hz]
      push Not at hz
      have hl' : l' = [] := by rw [hz] at a2; exact List.length_eq_zero_iff.1 a2.symm
      obtain ⟨hstuck, hs1⟩ := a5 hl'
      rw [hs1]
      have h0 : LInv size n dirs m0 (cycOf comps) l cl { st with sum := { st.sum with localDone := 0 } } := h.sum 0
      -- continue after the empty phase
      have hcont : ∀ {st' : PSt}, LInv size n dirs m0 (cycOf comps) l cl st' → st'.happened = false → 1 < st'.phase →
          st'.sum.done = st.sum.done →
          Outcome size n dirs m0 (cycOf comps) (do
            let s2 ← cycPhase n dirs st'.phase comps st'.sum
            if s2.localDone ≠ 0 then do
              let circ ← wr st'.circ st'.phase true
              phaseLoop n dirs comps fuel
                { st' with sum := s2, circ := circ, maxPhase := st'.phase, phase := st'.phase + 1, happened := true }
            else return { st' with sum := s2, happened := false }) := by
        intro st' h' hh' hp' hd'
        have hph' : st'.phase - 1 + 1 = st'.phase := by omega
        have hb' := h'.bound
        have hcl' := h'.cl_le
        rcases cycPhase_inv hc (ph := st'.phase - 1) h'.p comps hmem with ⟨c, c1, c2, c3, c4⟩ | ⟨c1, c2⟩
        · rw [hph'] at c3 c4
          rw [c3]
          have hcc := hmem c c1
          have hne := hc.ne c hcc
          have hpos' : 0 < c.length := List.length_pos_iff.2 hne
          simp only [Res.ok_bind]
          rw [if_pos (by omega)]
          by_cases hsz : st'.phase < size
          · rw [wr_ok (by rw [h'.cs]; exact hsz)]
            show Outcome _ _ _ _ _ (phaseLoop _ _ _ _ _)
            have hL := cyc_linv hc h' hh' hp' hcc c2 c.length c4 hsz
            refine phaseLoop_inv hn hc fuel hL ?_
            simp only; omega
          · have : wr st'.circ st'.phase true = .ub := by simp [wr, h'.cs, hsz]
            rw [this]
            refine .over ?_
            have hcy : cycOf comps ≠ [] := List.ne_nil_of_mem hcc
            have h1 := c4.topo.len
            have h2 := h'.p.done
            simp only [List.length_append] at h1
            have h3 : (c :: cl).length ≤ (cycOf comps).length := by
              refine (List.subperm_of_subset (List.nodup_cons.2 ⟨fun hm => ?_, h'.cln⟩) ?_).length_le
              · obtain ⟨i, hi⟩ := List.exists_mem_of_ne_nil c hne
                exact c2 i hi ((h'.clc c hm).2 i hi)
              · intro x hx
                rcases List.mem_cons.1 hx with rfl | hx
                · exact hcc
                · exact (h'.clc x hx).1
            simp only [List.length_cons] at h3
            unfold bound
            simp only [hcy, if_false, hh'] at hb' ⊢
            simp at hb'; omega
        · rw [hph'] at c1
          rw [c1]
          simp only [Res.ok_bind]
          rw [if_neg (by simp)]
          have h2 := h'.sum 0
          have e : ({ st' with sum := { st'.sum with localDone := 0 }, happened := false } : PSt) =
              { st' with sum := { st'.sum with localDone := 0 } } := by cases st'; simp at hh'; subst hh'; rfl
          show Outcome _ _ _ _ _ (.ok _)
          rw [e]
          exact exit_outcome h2 hh' hstuck c2
      by_cases hem : st.happened = true ∨ st.phase = 1
      · rw [if_pos hem]
        by_cases hcy : cycOf comps = []
        · -- no cycles: the first phase is empty and everything is stuck
          have hh : st.happened = false := by
            by_contra hx
            have hx' : st.happened = true := by simpa using hx
            obtain ⟨_, _, i, hi, h3⟩ := h.cn _ (h.hap.1 hx')
            have := (h.cp i hi).1 (by rw [h3]; exact h.hap.1 hx')
            obtain ⟨c, h4, _⟩ := this
            rw [hcy] at h4; cases h4
          have hp1 : st.phase = 1 := by
            rcases hem with h1 | h1
            · rw [hh] at h1; cases h1
            · exact h1
          have hl0 : l = [] := by
            by_contra hx
            obtain ⟨i, hi⟩ := List.exists_mem_of_ne_nil l hx
            have h1 := h.ge i hi
            have h2 := h.le i hi
            omega
          by_cases hsz : st.phase < size
          · unfold emptyPhase
            simp only
            rw [wr_ok (by rw [h.cs]; exact hsz), Res.ok_bind, wr_ok (by rw [h.es]; exact hsz), Res.ok_bind]
            have hcn : ∀ (cs : List (List Nat × Bool)) (ph : Nat) (s : SumSt), cycOf cs = [] →
                cycPhase n dirs ph cs s = .ok { s with localDone := 0 } := by
              intro cs
              induction cs with
              | nil => intro ph s _; rfl
              | cons x cs ih =>
                intro ph s hx
                obtain ⟨c, b⟩ := x
                cases b with
                | false =>
                  unfold cycPhase
                  rw [if_pos rfl]
                  exact ih ph s (by simpa [cycOf] using hx)
                | true => simp [cycOf] at hx
            simp only [pure, Res.ok_bind]
            rw [hcn comps _ _ hcy]
            simp only [Res.ok_bind]
            rw [if_neg (by simp)]
            subst hl0
            refine .stuck (l := []) ?_ (by simpa using hn) hstuck ?_ ?_ List.nodup_nil (by simp) rfl
            · simp at hdone; simp [hdone, hn]
            · rw [hcy]; intro c hc; cases hc
            · rw [hcy]; intro c hc; cases hc
          · have : wr st.circ st.phase false = .ub := by simp [wr, h.cs, hsz]
            unfold emptyPhase
            simp only
            rw [this]
            refine .over ?_
            unfold bound
            rw [if_pos hcy]; omega
        · by_cases hsz : st.phase < size
          · unfold emptyPhase
            simp only
            rw [wr_ok (by rw [h.cs]; exact hsz), Res.ok_bind, wr_ok (by rw [h.es]; exact hsz), Res.ok_bind]
            have hL := empty_linv h0 hem hcy hsz
            exact hcont hL rfl (by simp only; omega) rfl
          · have : wr st.circ st.phase false = .ub := by simp [wr, h.cs, hsz]
            unfold emptyPhase
            simp only
            rw [this]
            refine .over ?_
            have h1 := h.done_lt
            unfold bound
            simp only [hcy, if_false] at hb ⊢
            rcases hem with hx | hx
            · rw [hx] at hb; simp at hb; omega
            · omega
      · rw [if_neg hem]
        push Not at hem
        have hh : st.happened = false := by simpa using hem.1
        exact hcont h0 hh (by simp only; omega) rfl

theorem initial_linv {size n : Nat} {dirs : List Dir} {m0 : List Dep} {cyc : List (List Nat)} (hl : m0.length = n * n)
    (hc : CycOk n m0 cyc) :
    LInv size n dirs m0 cyc [] []
      ⟨⟨m0, List.replicate n 0, 0, 0⟩, List.replicate size false, List.replicate size false, 0, 1, false⟩ := by
  have hf : ∀ q, fl (List.replicate size false) q = false := by
    intro q; unfold fl; rw [List.getElem?_replicate]; split <;> rfl
  refine ⟨⟨hl, by simp, ?_, rfl, trivial, List.Pairwise.nil, by simp, by simp, ?_, by simp⟩, by simp, by simp, by simp,
    by simp, by simp, by simp, ?_, ?_, ?_, ?_, rfl, List.nodup_nil, by simp, ?_⟩
  · intro i hi
    simp [sget, List.getElem?_replicate, hi]
  · intro c _; left; simp
  · intro q hq; simp only [hf] at hq; cases hq
  · intro q; simp only [hf]; simp; omega
  · intro q _; exact hf _
  · simp [hf]
  · simp

end Aps.Phase

namespace Aps.Phase
open Aps.Dnc Aps.Oag Aps.Scc

theorem R_adjOf {n : Nat} {m : List Dep} {i j : Nat} : R n (adjOf m) i j ↔ i < n ∧ j < n ∧ mget n m i j ≠ 0 := by
  unfold R containsEdge adjOf mget
  rw [List.getElem?_map]
  cases h : m[i * n + j]? <;> simp

/-- what the SCC library gives -/
structure CompsOk (n : Nat) (m : List Dep) (cs : List (List Nat)) : Prop where
  nd : cs.flatten.Nodup
  mem : ∀ x, x ∈ cs.flatten ↔ x < n
  scc : ∀ c ∈ cs, ∃ v ∈ c, ∀ x, x ∈ c ↔ (x = v ∨ (Reach n (adjOf m) x v ∧ Reach n (adjOf m) v x))

theorem CompsOk.mutual {n m cs} (h : CompsOk n m cs) {c : List Nat} (hc : c ∈ cs) {x y : Nat} (hx : x ∈ c) (hy : y ∈ c) :
    x = y ∨ (Reach n (adjOf m) x y ∧ Reach n (adjOf m) y x) := by
  obtain ⟨v, hv, hs⟩ := h.scc c hc
  rcases (hs x).1 hx with rfl | ⟨h1, h2⟩ <;> rcases (hs y).1 hy with rfl | ⟨h3, h4⟩
  · exact .inl rfl
  · exact .inr ⟨h4, h3⟩
  · exact .inr ⟨h1, h2⟩
  · exact .inr ⟨h1.trans h4, h3.trans h2⟩

theorem CompsOk.closed {n m cs} (h : CompsOk n m cs) {c : List Nat} (hc : c ∈ cs) {x y : Nat} (hx : x ∈ c)
    (h1 : Reach n (adjOf m) x y) (h2 : Reach n (adjOf m) y x) : y ∈ c := by
  obtain ⟨v, hv, hs⟩ := h.scc c hc
  rw [hs y]
  rcases (hs x).1 hx with rfl | ⟨h3, h4⟩
  · exact .inr ⟨h2, h1⟩
  · exact .inr ⟨h2.trans h3, h4.trans h1⟩

theorem mem_cyc {n : Nat} {m : List Dep} {cs : List (List Nat)} {c : List Nat} :
    c ∈ cycOf (cs.map fun c => (c, compCycle n m c)) ↔ c ∈ cs ∧ ∃ i ∈ c, mget n m i i ≠ 0 := by
  rw [mem_cycOf]
  simp only [List.mem_map, Prod.mk.injEq]
  constructor
  · rintro ⟨d, h1, rfl, h2⟩
    refine ⟨h1, ?_⟩
    unfold compCycle at h2
    simpa using h2
  · rintro ⟨h1, i, h2, h3⟩
    refine ⟨c, h1, rfl, ?_⟩
    unfold compCycle
    rw [List.any_eq_true]
    exact ⟨i, h2, by simpa using h3⟩

theorem cycOf_sublist {n : Nat} {m : List Dep} : ∀ (cs : List (List Nat)),
    (cycOf (cs.map fun c => (c, compCycle n m c))).Sublist cs
  | [] => by simp [cycOf]
  | c :: cs => by
    unfold cycOf
    simp only [List.map_cons, List.filterMap_cons]
    have ih := cycOf_sublist (n := n) (m := m) cs
    cases compCycle n m c
    · simp only [Bool.false_eq_true, if_false]; exact ih.cons _
    · simp only [if_true]; exact ih.cons_cons _

theorem cycOk_of {n : Nat} {m : List Dep} {cs : List (List Nat)} (h : CompsOk n m cs) :
    CycOk n m (cycOf (cs.map fun c => (c, compCycle n m c))) := by
  refine ⟨?_, ?_, ?_, ?_⟩
  · intro c hc i hi
    exact (h.mem i).1 (List.mem_flatten.2 ⟨c, (mem_cyc.1 hc).1, hi⟩)
  · obtain ⟨h1, h2⟩ := List.nodup_flatten.1 h.nd
    exact List.nodup_flatten.2 ⟨fun c hc => h1 c ((cycOf_sublist cs).subset hc), h2.sublist (cycOf_sublist cs)⟩
  · rintro c hc rfl
    obtain ⟨_, i, hi, _⟩ := mem_cyc.1 hc
    cases hi
  · intro c hc i hi
    obtain ⟨hcs, a, ha, hm⟩ := mem_cyc.1 hc
    rcases h.mutual hcs ha hi with rfl | ⟨h1, h2⟩
    · exact ⟨a, ha, hm⟩
    · obtain ⟨b, hb, hbi⟩ := Relation.TransGen.tail'_iff.1 h1
      have hbi' : Reach n (adjOf m) b i := .single hbi
      rcases Relation.reflTransGen_iff_eq_or_transGen.1 hb with rfl | hab
      · exact ⟨b, ha, (R_adjOf.1 hbi).2.2⟩
      · exact ⟨b, h.closed hcs hi (h2.trans hab) hbi', (R_adjOf.1 hbi).2.2⟩

theorem phyComponents_spec {n : Nat} {m : List Dep} (hn : 0 < n) (hl : m.length = n * n) :
    ∃ cs, phyComponents n m = .ok (cs.map fun c => (c, compCycle n m c)) ∧ CompsOk n m cs := by
  obtain ⟨cs, h1, h2, h3, h4, _⟩ := components_spec n (adjOf m) (by simpa [adjOf] using hl)
  refine ⟨cs, ?_, h2, h3, h4⟩
  unfold phyComponents
  rw [if_neg (by omega), h1]; rfl

/-- reachability in a closed graph -/
theorem reach_closed {n : Nat} {m : List Dep}
    (hcl : ∀ i j k, i < n → j < n → k < n → mget n m i j ≠ 0 → mget n m j k ≠ 0 → mget n m i k ≠ 0) {i j : Nat} :
    Reach n (adjOf m) i j ↔ i < n ∧ j < n ∧ mget n m i j ≠ 0 := by
  constructor
  · intro h
    induction h with
    | single h => exact R_adjOf.1 h
    | tail _ h ih =>
      have := R_adjOf.1 h
      exact ⟨ih.1, this.2.1, hcl _ _ _ ih.1 ih.2.1 this.2.1 ih.2.2 this.2.2⟩
  · intro h; exact .single (R_adjOf.2 h)

theorem circ_closed {n : Nat} {m : List Dep} {cs : List (List Nat)} (h : CompsOk n m cs)
    (hcl : ∀ i j k, i < n → j < n → k < n → mget n m i j ≠ 0 → mget n m j k ≠ 0 → mget n m i k ≠ 0) {i : Nat} (hi : i < n) :
    Circ (cycOf (cs.map fun c => (c, compCycle n m c))) i ↔ mget n m i i ≠ 0 := by
  constructor
  · rintro ⟨c, hc, hic⟩
    obtain ⟨hcs, a, ha, hm⟩ := mem_cyc.1 hc
    rcases h.mutual hcs ha hic with rfl | ⟨h1, h2⟩
    · exact hm
    · exact ((reach_closed hcl).1 (h2.trans h1)).2.2
  · intro hm
    obtain ⟨c, hc, hic⟩ := List.mem_flatten.1 ((h.mem i).2 hi)
    exact ⟨c, mem_cyc.2 ⟨hc, i, hic, hm⟩, hic⟩

theorem same_closed {n : Nat} {m : List Dep} {cs : List (List Nat)} (h : CompsOk n m cs)
    (hcl : ∀ i j k, i < n → j < n → k < n → mget n m i j ≠ 0 → mget n m j k ≠ 0 → mget n m i k ≠ 0) {i j : Nat}
    (hi : i < n) (hj : j < n) :
    Same (cycOf (cs.map fun c => (c, compCycle n m c))) i j ↔ mget n m i j ≠ 0 ∧ mget n m j i ≠ 0 := by
  constructor
  · rintro ⟨c, hc, hic, hjc⟩
    rcases h.mutual (mem_cyc.1 hc).1 hic hjc with rfl | ⟨h1, h2⟩
    · have := (circ_closed h hcl hi).1 ⟨c, hc, hic⟩
      exact ⟨this, this⟩
    · exact ⟨((reach_closed hcl).1 h1).2.2, ((reach_closed hcl).1 h2).2.2⟩
  · rintro ⟨h1, h2⟩
    obtain ⟨c, hc, hic⟩ := (circ_closed h hcl hi).2 (hcl i j i hi hj hi h1 h2)
    exact ⟨c, hc, hic, h.closed (mem_cyc.1 hc).1 hic ((reach_closed hcl).2 ⟨hi, hj, h1⟩) ((reach_closed hcl).2 ⟨hj, hi, h2⟩)⟩

/-- what a run does -/
theorem schedulePhases_cases {fuel size n : Nat} {dirs : List Dir} {m : List Dep} (hn : 0 < n) (hl : m.length = n * n)
    (hf : n < fuel) : ∃ cs, CompsOk n m cs ∧
    ((∃ st l cl, schedulePhases fuel size n dirs m = .ok st ∧
        LInv size n dirs m (cycOf (cs.map fun c => (c, compCycle n m c))) l cl st ∧ st.happened = false ∧ l.length = n) ∨
     (schedulePhases fuel size n dirs m = .stop ∧ ∃ l : List Nat, l.length < n ∧ NcStuck n dirs m l ∧
        CycStuck n m (cycOf (cs.map fun c => (c, compCycle n m c))) l ∧
        (∀ c ∈ cycOf (cs.map fun c => (c, compCycle n m c)), (∀ a ∈ c, a ∉ l) ∨ (∀ a ∈ c, a ∈ l)) ∧ l.Nodup ∧ ∀ i ∈ l, i < n) ∨
     (schedulePhases fuel size n dirs m = .ub ∧ size ≤ bound n (cycOf (cs.map fun c => (c, compCycle n m c))))) := by
  obtain ⟨cs, h1, h2⟩ := phyComponents_spec hn hl
  refine ⟨cs, h2, ?_⟩
  have hL := phaseLoop_inv (size := size) (dirs := dirs) hn (cycOk_of h2) fuel (initial_linv hl (cycOk_of h2)) (by simp only; omega)
  unfold schedulePhases
  rw [h1]
  simp only [Res.ok_bind]
  generalize hr : phaseLoop n dirs _ fuel _ = r at hL ⊢
  cases hL with
  | @full st l cl h hap hll =>
    left
    have hd : ¬ st.sum.done < n := by rw [h.p.done]; omega
    refine ⟨st, l, cl, ?_, h, hap, hll⟩
    simp [hap, hd]
  | @stuck st l hd hll nc cs' one nd lt hap =>
    right; left
    refine ⟨?_, l, hll, nc, cs', one, nd, lt⟩
    simp [hap, hd]
  | over h =>
    right; right
    exact ⟨rfl, h⟩

end Aps.Phase
