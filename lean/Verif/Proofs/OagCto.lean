import Verif.Model.Oag
import Verif.Spec.Oag
import Verif.Proofs.Close
import Verif.Proofs.OagSum
import Mathlib.Data.Finset.Card
import Mathlib.Data.Finset.Range
/-! The conditional total order. -/
set_option linter.unusedVariables false
namespace Aps.Oag
open Aps.Dnc

/-- The instances scheduled along the path chosen by a branch assignment; `rule i` is the number of the
conditional whose test is instance `i`. -/
def Cto.path (rule : Nat → Option Nat) (σ : Nat → Bool) : Cto → List Nat
  | .nil => []
  | .node i next => i :: next.path rule σ
  | .ifs i f t => i :: (if (rule i).map σ = some true then t.path rule σ else f.path rule σ)

/-- the index of the if-rule of an instance -/
def ruleOf (insts : List OInst) (i : Nat) : Option Nat := (insts[i]?).bind (·.rule)

/-- the condition of an instance -/
def condOf (insts : List OInst) (i : Nat) : Cond := ((insts[i]?).map (·.cond)).getD ⟨0, 0⟩

/-- under the branch assignment `σ`, `i` depends on `j` -/
def DepUnder (g : Aug) (σ : Nat → Bool) (j i : Nat) : Prop := ∃ e ∈ g.cell j i, Sat σ e.cond

theorem edgeBlocks_iff {c : Cond} {es : List Edge} : edgeBlocks c es = true ↔ ∃ e ∈ es, (both c e.cond).ok := by
  unfold edgeBlocks both Cond.ok
  simp

theorem ignored_iff {c i : Cond} : ignored c i = true ↔ ¬ (both c i).ok := by
  unfold ignored both Cond.ok
  simp

theorem findReady_some {g : Aug} {c : Cond} {s : List Bool} {i : Nat} (h : findReady g c s = some i) :
    i < g.n ∧ bget s i = false ∧ ∀ j, j < g.n → bget s j = false → ∀ e ∈ g.cell j i, ¬ (both c e.cond).ok := by
  unfold findReady at h
  have h1 := List.find?_some h
  have h2 := List.mem_of_find?_eq_some h
  simp at h1 h2
  refine ⟨h2, h1.1, fun j hj hb e he hok => ?_⟩
  have := h1.2
  unfold restReady at this
  rw [List.all_eq_true] at this
  have := this j (by simpa using hj)
  rw [hb, Bool.false_or] at this
  have hx : edgeBlocks c (g.cell j i) = true := edgeBlocks_iff.2 ⟨e, he, hok⟩
  rw [hx] at this; cases this

theorem findReady_least {g : Aug} {c : Cond} {s : List Bool} {i : Nat} (h : findReady g c s = some i) {r : Nat} (hr : r < i)
    (hs : bget s r = false) : ∃ j, j < g.n ∧ bget s j = false ∧ ∃ e ∈ g.cell j r, (both c e.cond).ok := by
  unfold findReady at h
  obtain ⟨_, as, bs, he, hall⟩ := List.find?_eq_some_iff_append.1 h
  have hlen : as.length = i := by
    have h1 : (List.range g.n)[as.length]? = some i := by rw [he]; simp
    rw [List.getElem?_range] at h1
    · exact Option.some.inj h1
    · have : (List.range g.n).length = (as ++ i :: bs).length := by rw [he]
      simp at this; omega
  have hm : r ∈ as := by
    have h1 : (List.range g.n)[r]? = as[r]? := by rw [he, List.getElem?_append_left (by omega)]
    have hn : r < g.n := by
      have : (List.range g.n).length = (as ++ i :: bs).length := by rw [he]
      simp at this; omega
    rw [List.getElem?_range hn] at h1
    exact List.mem_of_getElem? h1.symm
  have := hall r hm
  simp only [hs, Bool.not_false, Bool.true_and, restReady, Bool.not_eq_true', List.all_eq_false, List.mem_range,
    Bool.or_eq_true, not_or] at this
  obtain ⟨j, hj, h1, h2⟩ := this
  exact ⟨j, hj, by simpa using h1, edgeBlocks_iff.1 (by simpa using h2)⟩

theorem findReady_none {g : Aug} {c : Cond} {s : List Bool} (h : findReady g c s = none) :
    ∀ i, i < g.n → bget s i = false → ∃ j, j < g.n ∧ bget s j = false ∧ ∃ e ∈ g.cell j i, (both c e.cond).ok := by
  intro i hi hs
  unfold findReady at h
  rw [List.find?_eq_none] at h
  have := h i (by simpa using hi)
  simp only [hs, Bool.not_false, Bool.true_and, restReady, List.all_eq_true, List.mem_range,
    Bool.or_eq_true, Bool.not_eq_true'] at this
  push Not at this
  obtain ⟨j, hj, h1, h2⟩ := this
  refine ⟨j, hj, by simpa using h1, edgeBlocks_iff.1 (by simpa using h2)⟩

theorem bget_set {s : List Bool} {n i j : Nat} (hl : s.length = n) (hi : i < n) (v : Bool) :
    bget (s.set i v) j = if j = i then v else bget s j := by
  unfold bget
  rw [List.getElem?_set]
  by_cases h : i = j
  · subst h; simp [hl, hi]
  · simp [h, Ne.symm h]

theorem set_restore {s : List Bool} {i : Nat} (h : bget s i = false) (hi : i < s.length) : (s.set i true).set i false = s := by
  rw [List.set_set]
  apply List.ext_getElem?
  intro j
  rw [List.getElem?_set]
  by_cases hj : i = j
  · subst hj
    unfold bget at h
    rw [List.getElem?_eq_getElem hi] at h ⊢
    simp at h
    simp [hi, h]
  · simp [hj]

/-- number of instances not yet scheduled -/
def unsched (n : Nat) (s : List Bool) : Nat := ((List.range n).filter fun i => !bget s i).length

theorem unsched_pos {n : Nat} {s : List Bool} : unsched n s = 0 ↔ ∀ i, i < n → bget s i = true := by
  unfold unsched
  rw [List.length_eq_zero_iff, List.filter_eq_nil_iff]
  simp

theorem unsched_set {n : Nat} {s : List Bool} {i : Nat} (hl : s.length = n) (hi : i < n) (h : bget s i = false) :
    unsched n (s.set i true) + 1 = unsched n s := by
  unfold unsched
  have h1 : (List.range n).filter (fun j => !bget (s.set i true) j) =
      ((List.range n).filter (fun j => !bget s j)).filter (fun j => j != i) := by
    rw [List.filter_filter]
    apply List.filter_congr
    intro j _
    rw [bget_set hl hi]
    by_cases hj : j = i <;> simp [hj]
  rw [h1]
  have hnd : ((List.range n).filter (fun j => !bget s j)).Nodup := List.nodup_range.filter _
  have hm : i ∈ (List.range n).filter (fun j => !bget s j) := by simp [hi, h]
  rw [← List.Nodup.erase_eq_filter hnd, List.length_erase_of_mem hm]
  have := List.length_pos_of_mem hm
  omega

theorem cmask_bit {k i : Nat} (hk : k < 32) : (cmask k).getLsbD i = decide (i = k) := by
  unfold cmask
  rw [BitVec.getLsbD_shiftLeft]
  by_cases h : i = k
  · subst h; simp [hk]
  · by_cases h2 : i < k
    · simp [h, h2]
    · have : i - k ≠ 0 := by omega
      simp [h, BitVec.getLsbD_one, this]

theorem sat_false {σ : Nat → Bool} {c : Cond} {k : Nat} (hk : k < 32) (h : Sat σ c) (hs : σ k = false) :
    Sat σ ⟨c.pos, c.neg ||| cmask k⟩ := by
  intro i
  refine ⟨(h i).1, ?_⟩
  simp only [BitVec.getLsbD_or, cmask_bit hk, Bool.or_eq_true, decide_eq_true_eq]
  rintro (h' | rfl)
  · exact (h i).2 h'
  · exact hs

theorem sat_true {σ : Nat → Bool} {c : Cond} {k : Nat} (hk : k < 32) (h : Sat σ c) (hs : σ k = true) :
    Sat σ ⟨c.pos ||| cmask k, (c.neg ||| cmask k) &&& ~~~cmask k⟩ := by
  intro i
  simp only [BitVec.getLsbD_or, cmask_bit hk, Bool.or_eq_true, decide_eq_true_eq, BitVec.getLsbD_and,
    BitVec.getLsbD_not, Bool.and_eq_true, Bool.not_eq_true', decide_eq_false_iff_not]
  refine ⟨?_, ?_⟩
  · rintro (h' | rfl)
    · exact (h i).1 h'
    · exact hs
  · rintro ⟨h' | rfl, _, h2⟩
    · exact (h i).2 h'
    · exact absurd rfl h2

/-- What a (partial) conditional total order guarantees for the branch assignment `σ`: `l` is the order in
which the remaining instances are disposed of. -/
structure Good (g : Aug) (insts : List OInst) (σ : Nat → Bool) (s : List Bool) (t : Cto) (l : List Nat) : Prop where
  nodup : l.Nodup
  mem : ∀ i, i ∈ l ↔ i < g.n ∧ bget s i = false
  before : ∀ pre i post, l = pre ++ i :: post → ∀ j, j ∈ i :: post → ¬ DepUnder g σ j i
  sub : (t.path (ruleOf insts) σ).Sublist l
  cover : ∀ i ∈ l, Sat σ (condOf insts i) → i ∈ t.path (ruleOf insts) σ

theorem Good.cons {g insts σ s t l} {c : Cond} {i : Nat} (hl : s.length = g.n) (hfr : findReady g c s = some i)
    (hs : Sat σ c) (h : Good g insts σ (s.set i true) t l) (t' : Cto)
    (ht : t'.path (ruleOf insts) σ = i :: t.path (ruleOf insts) σ ∨
      (t'.path (ruleOf insts) σ = t.path (ruleOf insts) σ ∧ ¬ Sat σ (condOf insts i))) :
    Good g insts σ s t' (i :: l) := by
  obtain ⟨hi, hb, hr⟩ := findReady_some hfr
  have hil : i ∉ l := by
    intro hm
    have := ((h.mem i).1 hm).2
    rw [bget_set hl hi] at this; simp at this
  refine ⟨List.nodup_cons.2 ⟨hil, h.nodup⟩, ?_, ?_, ?_, ?_⟩
  · intro j
    rw [List.mem_cons, h.mem, bget_set hl hi]
    by_cases hj : j = i
    · subst hj; simp [hi, hb]
    · simp [hj]
  · intro pre a post hpre j hj ⟨e, he, hse⟩
    cases pre with
    | nil =>
      simp at hpre
      obtain ⟨rfl, rfl⟩ := hpre
      have hj' : j < g.n ∧ bget s j = false := by
        rcases List.mem_cons.1 hj with rfl | hj
        · exact ⟨hi, hb⟩
        · have := (h.mem j).1 hj
          rw [bget_set hl hi] at this
          by_cases hji : j = i
          · subst hji; exact ⟨hi, hb⟩
          · simpa [hji] using this
      exact hr j hj'.1 hj'.2 e he (ok_of_sat (sat_both.2 ⟨hs, hse⟩))
    | cons b pre =>
      simp at hpre
      exact h.before pre a post hpre.2 j hj ⟨e, he, hse⟩
  · rcases ht with ht | ⟨ht, _⟩ <;> rw [ht]
    · exact h.sub.cons_cons _
    · exact h.sub.cons _
  · intro j hj hsj
    rcases List.mem_cons.1 hj with rfl | hj
    · rcases ht with ht | ⟨ht, hn⟩
      · rw [ht]; simp
      · exact absurd hsj hn
    · have := h.cover j hj hsj
      rcases ht with ht | ⟨ht, _⟩ <;> rw [ht]
      · exact List.mem_cons_of_mem _ this
      · exact this

theorem scheduleRest_good {g : Aug} {insts : List OInst} (hrule : ∀ i k, ruleOf insts i = some k → k < 32) :
    ∀ (r : Nat) (c : Cond) (s : List Bool) (t : Cto) (s' : List Bool), s.length = g.n → unsched g.n s = r →
    scheduleRest g insts r c s = .ok (t, s') →
    s' = s ∧ ∀ σ, Sat σ c → ∃ l, Good g insts σ s t l
  | 0, c, s, t, s', hl, hu, h => by
    unfold scheduleRest at h
    simp at h
    obtain ⟨rfl, rfl⟩ := h
    refine ⟨rfl, fun σ _ => ⟨[], ?_⟩⟩
    have := unsched_pos.1 hu
    refine ⟨List.nodup_nil, ?_, by simp, by simp [Cto.path], by simp⟩
    intro i
    simp only [List.not_mem_nil, false_iff, not_and]
    intro hi
    simp [this i hi]
  | r + 1, c, s, t, s', hl, hu, h => by
    unfold scheduleRest at h
    cases hfr : findReady g c s with
    | none => rw [hfr] at h; cases h
    | some i =>
      rw [hfr] at h
      simp only at h
      obtain ⟨hi, hb, hr⟩ := findReady_some hfr
      cases hin : insts[i]? with
      | none => rw [hin] at h; cases h
      | some inst =>
        rw [hin] at h
        simp only at h
        have hci : condOf insts i = inst.cond := by simp [condOf, hin]
        have hri : ruleOf insts i = inst.rule := by simp [ruleOf, hin]
        have hl' : (s.set i true).length = g.n := by simpa using hl
        have hu' : unsched g.n (s.set i true) = r := by
          have := unsched_set hl hi hb; omega
        by_cases hig : ignored c inst.cond = true
        · rw [if_pos hig] at h
          obtain ⟨⟨t1, s1⟩, h1, h2⟩ := Res.bind_eq_ok.1 h
          simp at h2
          obtain ⟨rfl, rfl⟩ := h2
          obtain ⟨rfl, hg⟩ := scheduleRest_good hrule r c _ _ _ hl' hu' h1
          refine ⟨set_restore hb (by omega), fun σ hs => ?_⟩
          obtain ⟨l, hgl⟩ := hg σ hs
          refine ⟨i :: l, hgl.cons hl hfr hs _ (.inr ⟨rfl, fun hsi => ?_⟩)⟩
          rw [hci] at hsi
          exact ignored_iff.1 hig (ok_of_sat (sat_both.2 ⟨hs, hsi⟩))
        · rw [if_neg hig] at h
          cases hrl : inst.rule with
          | some k =>
            rw [hrl] at h
            simp only at h
            have hk := hrule i k (by rw [hri, hrl])
            obtain ⟨⟨t1, s1⟩, h1, h2⟩ := Res.bind_eq_ok.1 h
            obtain ⟨rfl, hg1⟩ := scheduleRest_good hrule r _ _ _ _ hl' hu' h1
            obtain ⟨⟨t2, s2⟩, h3, h4⟩ := Res.bind_eq_ok.1 h2
            obtain ⟨rfl, hg2⟩ := scheduleRest_good hrule r _ _ _ _ hl' hu' h3
            simp at h4
            obtain ⟨rfl, rfl⟩ := h4
            refine ⟨by simpa using set_restore hb (by omega), fun σ hs => ?_⟩
            cases hsk : σ k with
            | true =>
              obtain ⟨l, hgl⟩ := hg2 σ (sat_true hk hs hsk)
              refine ⟨i :: l, hgl.cons hl hfr hs _ (.inl ?_)⟩
              simp [Cto.path, hri, hrl, hsk]
            | false =>
              obtain ⟨l, hgl⟩ := hg1 σ (sat_false hk hs hsk)
              refine ⟨i :: l, hgl.cons hl hfr hs _ (.inl ?_)⟩
              simp [Cto.path, hri, hrl, hsk]
          | none =>
            rw [hrl] at h
            simp only at h
            obtain ⟨⟨t1, s1⟩, h1, h2⟩ := Res.bind_eq_ok.1 h
            simp at h2
            obtain ⟨rfl, rfl⟩ := h2
            obtain ⟨rfl, hg⟩ := scheduleRest_good hrule r c _ _ _ hl' hu' h1
            refine ⟨set_restore hb (by omega), fun σ hs => ?_⟩
            obtain ⟨l, hgl⟩ := hg σ hs
            exact ⟨i :: l, hgl.cons hl hfr hs _ (.inl rfl)⟩

theorem unsched_init (n : Nat) : unsched n (List.replicate n false) = n := by
  unfold unsched
  rw [List.filter_eq_self.2]
  · simp
  · intro i hi
    simp at hi
    simp [bget, List.getElem?_replicate, hi]

theorem sat_nil (σ : Nat → Bool) : Sat σ ⟨0, 0⟩ := fun i => by simp

/-! ## When an order is found, and exactly what is on a path -/

/-- the conditional `k` is mentioned in the condition -/
def _root_.Aps.Dnc.Cond.bit (c : Cond) (k : Nat) : Prop := c.pos.getLsbD k = true ∨ c.neg.getLsbD k = true

theorem both_ok_sub {c a b : Cond} (h : a.sub b) (hok : (both c b).ok) : (both c a).ok := by
  rw [Cond.ok_iff] at hok ⊢
  intro i hi
  apply hok i
  simp only [both, BitVec.getLsbD_or, Bool.or_eq_true] at hi ⊢
  exact ⟨hi.1.imp_right (h i).1, hi.2.imp_right (h i).2⟩

theorem both_ok_sub_left {a b c : Cond} (h : a.sub b) (hok : (both b c).ok) : (both a c).ok := by
  rw [Cond.ok_iff] at hok ⊢
  intro i hi
  apply hok i
  simp only [both, BitVec.getLsbD_or, Bool.or_eq_true] at hi ⊢
  exact ⟨hi.1.imp_left (h i).1, hi.2.imp_left (h i).2⟩

/-- Every conditional an edge depends on is itself an instance on which the sink of the edge depends. -/
def EdgesGuarded (g : Aug) (insts : List OInst) : Prop :=
  ∀ i j, i < g.n → j < g.n → ∀ e ∈ g.cell j i, ∀ k, e.cond.bit k →
    ∃ r, r < g.n ∧ ruleOf insts r = some k ∧ (condOf insts r).sub e.cond ∧
      ∃ e' ∈ g.cell r i, e'.cond.sub e.cond ∧ ¬ e'.cond.bit k

/-- Every conditional an instance is nested in is an instance on which it depends, or (as with an earlier match of the
same case statement) one that is numbered lower and depends on nothing on which the instance does not depend. -/
def InstsGuarded (g : Aug) (insts : List OInst) : Prop :=
  ∀ i, i < g.n → ∀ k, (condOf insts i).bit k →
    ∃ r, r < g.n ∧ ruleOf insts r = some k ∧ (condOf insts r).sub (condOf insts i) ∧
      ((∃ e' ∈ g.cell r i, e'.cond.sub (condOf insts i)) ∨
       (r < i ∧ ∀ σ j, j < g.n → DepUnder g σ j r → DepUnder g σ j i))

/-- The current condition knows the conditionals already scheduled. -/
structure Known (g : Aug) (insts : List OInst) (c : Cond) (s : List Bool) : Prop where
  sched : ∀ r k, r < g.n → ruleOf insts r = some k → bget s r = true → c.bit k ∨ ¬ (both c (condOf insts r)).ok
  bits : ∀ k, c.bit k → ∃ r, r < g.n ∧ ruleOf insts r = some k ∧ bget s r = true

theorem Known.ext {g insts c c' s} {i : Nat} (h : Known g insts c s) (hl : s.length = g.n) (hi : i < g.n) (hc : c.sub c')
    (hn : ∀ k, c'.bit k → c.bit k ∨ ruleOf insts i = some k)
    (hk : ∀ k, ruleOf insts i = some k → c'.bit k ∨ ¬ (both c' (condOf insts i)).ok) :
    Known g insts c' (s.set i true) := by
  constructor
  · intro r k hr hrk hb
    by_cases hri : r = i
    · subst hri; exact hk k hrk
    · rw [bget_set hl hi, if_neg hri] at hb
      rcases h.sched r k hr hrk hb with h' | h'
      · exact .inl (h'.imp (hc k).1 (hc k).2)
      · exact .inr fun hok => h' (both_ok_sub_left hc hok)
  · intro k hbit
    rcases hn k hbit with h' | h'
    · obtain ⟨r, h1, h2, h3⟩ := h.bits k h'
      refine ⟨r, h1, h2, ?_⟩
      rw [bget_set hl hi]; split <;> simp [h3]
    · exact ⟨i, hi, h', by rw [bget_set hl hi]; simp⟩

theorem Known.same {g insts c s} {i : Nat} (h : Known g insts c s) (hl : s.length = g.n) (hi : i < g.n)
    (hk : ruleOf insts i = none ∨ ¬ (both c (condOf insts i)).ok) : Known g insts c (s.set i true) :=
  h.ext hl hi (Cond.sub_refl c) (fun k hb => .inl hb) fun k hr => .inr (hk.resolve_left (by rw [hr]; simp))

theorem false_sub (c : Cond) (k : Nat) : c.sub ⟨c.pos, c.neg ||| cmask k⟩ :=
  fun i => ⟨id, fun h => by simp [BitVec.getLsbD_or, h]⟩

theorem true_sub {c : Cond} {k : Nat} (hk : k < 32) (hb : ¬ c.bit k) :
    c.sub ⟨c.pos ||| cmask k, (c.neg ||| cmask k) &&& ~~~cmask k⟩ := by
  intro i
  refine ⟨fun h => by simp [BitVec.getLsbD_or, h], fun h => ?_⟩
  have : i ≠ k := by rintro rfl; exact hb (.inr h)
  have hi : i < 32 := by
    by_contra hc
    rw [BitVec.getLsbD_of_ge _ _ (by omega)] at h; cases h
  simp only [BitVec.getLsbD_or, BitVec.getLsbD_and, BitVec.getLsbD_not, h, cmask_bit hk, this, hi]
  simp

theorem Known.ifs {g insts c s} {i k : Nat} (h : Known g insts c s) (hl : s.length = g.n) (hi : i < g.n) (hk : k < 32)
    (hb : bget s i = false) (hr : ruleOf insts i = some k)
    (hinj : ∀ a b k, ruleOf insts a = some k → ruleOf insts b = some k → a = b) :
    Known g insts ⟨c.pos, c.neg ||| cmask k⟩ (s.set i true) ∧
    Known g insts ⟨c.pos ||| cmask k, (c.neg ||| cmask k) &&& ~~~cmask k⟩ (s.set i true) := by
  have hnb : ¬ c.bit k := by
    intro hbit
    obtain ⟨r, _, h2, h3⟩ := h.bits k hbit
    rw [hinj r i k h2 hr, hb] at h3; cases h3
  constructor
  · refine h.ext hl hi (false_sub c k) ?_ ?_
    · rintro k' (h' | h')
      · exact .inl (.inl h')
      · simp only [BitVec.getLsbD_or, Bool.or_eq_true, cmask_bit hk, decide_eq_true_eq] at h'
        rcases h' with h' | rfl
        · exact .inl (.inr h')
        · exact .inr hr
    · intro k' hk'
      rw [hr] at hk'; cases hk'
      exact .inl (.inr (by simp [BitVec.getLsbD_or, cmask_bit hk]))
  · refine h.ext hl hi (true_sub hk hnb) ?_ ?_
    · rintro k' (h' | h')
      · simp only [BitVec.getLsbD_or, Bool.or_eq_true, cmask_bit hk, decide_eq_true_eq] at h'
        rcases h' with h' | rfl
        · exact .inl (.inl h')
        · exact .inr hr
      · simp only [BitVec.getLsbD_and, BitVec.getLsbD_or, Bool.or_eq_true, Bool.and_eq_true, cmask_bit hk,
          decide_eq_true_eq] at h'
        rcases h'.1 with h' | rfl
        · exact .inl (.inr h')
        · exact .inr hr
    · intro k' hk'
      rw [hr] at hk'; cases hk'
      exact .inl (.inl (by simp [BitVec.getLsbD_or, cmask_bit hk]))

/-- number of conditionals mentioned -/
def nbits (c : Cond) : Nat := ((Finset.range 32).filter fun i => c.pos.getLsbD i = true ∨ c.neg.getLsbD i = true).card

theorem bit_lt {c : Cond} {k : Nat} (h : c.bit k) : k < 32 := by
  by_contra hc
  rcases h with h | h <;> rw [BitVec.getLsbD_of_ge _ _ (by omega)] at h <;> cases h

theorem nbits_lt {a b : Cond} {k : Nat} (h : a.sub b) (hb : b.bit k) (ha : ¬ a.bit k) : nbits a < nbits b := by
  apply Finset.card_lt_card
  rw [Finset.ssubset_iff_of_subset]
  · refine ⟨k, ?_, ?_⟩
    · rw [Finset.mem_filter]; exact ⟨Finset.mem_range.2 (bit_lt hb), hb⟩
    · rw [Finset.mem_filter]; exact fun h' => ha h'.2
  · intro i hi
    rw [Finset.mem_filter] at hi ⊢
    exact ⟨hi.1, hi.2.imp (h i).1 (h i).2⟩

theorem not_sat {σ : Nat → Bool} {c : Cond} (h : ¬ Sat σ c) : ∃ k, c.bit k ∧
    ((c.pos.getLsbD k = true ∧ σ k = false) ∨ (c.neg.getLsbD k = true ∧ σ k = true)) := by
  unfold Sat at h
  rw [not_forall] at h
  obtain ⟨k, hk⟩ := h
  rw [not_and_or, Classical.not_imp, Classical.not_imp] at hk
  refine ⟨k, ?_⟩
  rcases hk with ⟨h1, h2⟩ | ⟨h1, h2⟩
  · exact ⟨.inl h1, .inl ⟨h1, by simpa using h2⟩⟩
  · exact ⟨.inr h1, .inr ⟨h1, by simpa using h2⟩⟩

theorem both_left_ok {c a : Cond} (h : (both c a).ok) : c.ok := by
  rw [Cond.ok_iff] at h ⊢
  intro i hi
  apply h i
  simp [both, BitVec.getLsbD_or, hi.1, hi.2]

/-- the branch assignment that differs from `τ` in conditional `k` -/
def flip (τ : Nat → Bool) (k : Nat) : Nat → Bool := fun x => if x = k then !τ k else τ x

/-- If whether there is a dependency depends on how a conditional goes, the conditional is one that is reached and whose
test the instance waits for even if it goes the other way. -/
def Tested (g : Aug) (insts : List OInst) : Prop :=
  ∀ (τ : Nat → Bool) (k i j : Nat), i < g.n → j < g.n → DepUnder g τ j i → ¬ DepUnder g (flip τ k) j i →
    ∃ r, r < g.n ∧ ruleOf insts r = some k ∧ Sat τ (condOf insts r) ∧ DepUnder g (flip τ k) r i

theorem sat_flip {τ : Nat → Bool} {c : Cond} {k : Nat} (h : Sat τ c) (hk : ¬ c.bit k) : Sat (flip τ k) c := by
  intro x
  by_cases hx : x = k
  · subst hx
    exact ⟨fun hb => absurd (.inl hb) hk, fun hb => absurd (.inr hb) hk⟩
  · simp only [flip, if_neg hx]; exact h x

theorem sat_sub {τ : Nat → Bool} {a b : Cond} (h : a.sub b) (hs : Sat τ b) : Sat τ a :=
  fun x => ⟨fun hb => (hs x).1 ((h x).1 hb), fun hb => (hs x).2 ((h x).2 hb)⟩

theorem EdgesGuarded.tested {g : Aug} {insts : List OInst} (h : EdgesGuarded g insts) : Tested g insts := by
  rintro τ k i j hi hj ⟨e, he, hs⟩ hn
  have hbit : e.cond.bit k := by
    by_contra hb
    exact hn ⟨e, he, sat_flip hs hb⟩
  obtain ⟨r, hr, hrk, hrs, e', he', hsub, hnb⟩ := h i j hi hj e he k hbit
  exact ⟨r, hr, hrk, sat_sub hrs hs, e', he', sat_flip (sat_sub hsub hs) hnb⟩

/-- in how many conditionals two assignments differ -/
def diffs (σ τ : Nat → Bool) : Nat := ((Finset.range 32).filter fun k => σ k ≠ τ k).card

theorem diffs_flip {σ τ : Nat → Bool} {k : Nat} (hk : k < 32) (h : σ k ≠ τ k) : diffs σ (flip τ k) < diffs σ τ := by
  apply Finset.card_lt_card
  rw [Finset.ssubset_iff_of_subset]
  · refine ⟨k, by simp [hk, h], fun hx => ?_⟩
    have := (Finset.mem_filter.1 hx).2
    rw [flip, if_pos rfl] at this
    cases hs : σ k <;> cases ht : τ k <;> simp_all
  · intro x hx
    rw [Finset.mem_filter] at hx
    refine Finset.mem_filter.2 ⟨hx.1, ?_⟩
    have h2 := hx.2
    by_cases hxk : x = k
    · rw [hxk]; exact h
    · rw [flip, if_neg hxk] at h2; exact h2

theorem not_bit_of_diff {σ τ : Nat → Bool} {c : Cond} (h1 : Sat σ c) (h2 : Sat τ c) {k : Nat} (h : σ k ≠ τ k) : ¬ c.bit k := by
  rintro (hb | hb)
  · exact h (((h1 k).1 hb).trans ((h2 k).1 hb).symm)
  · exact h (((h1 k).2 hb).trans ((h2 k).2 hb).symm)

theorem sat_congr {σ τ : Nat → Bool} (h : ∀ k, k < 32 → σ k = τ k) {c : Cond} (hs : Sat τ c) : Sat σ c := by
  intro x
  refine ⟨fun hb => ?_, fun hb => ?_⟩
  · rw [h x (bit_lt (.inl hb))]; exact (hs x).1 hb
  · rw [h x (bit_lt (.inr hb))]; exact (hs x).2 hb

theorem blocked_under {g : Aug} {insts : List OInst} (hg : Tested g insts) {c : Cond} {s : List Bool}
    (hk : Known g insts c s) {σ : Nat → Bool} (hs : Sat σ c) {i : Nat} (hi : i < g.n) :
    ∀ (d : Nat) (j : Nat) (τ : Nat → Bool), diffs σ τ = d → j < g.n → bget s j = false → Sat τ c → DepUnder g τ j i →
    ∃ j', j' < g.n ∧ bget s j' = false ∧ DepUnder g σ j' i := by
  intro d
  induction d using Nat.strong_induction_on with
  | _ d ih =>
    intro j τ hd hj hsj hτ hdep
    by_cases hex : ∃ k, k < 32 ∧ σ k ≠ τ k
    · obtain ⟨k, hk32, hne⟩ := hex
      have hlt := diffs_flip hk32 hne
      have hcb := not_bit_of_diff hs hτ hne
      have hτ' := sat_flip hτ hcb
      by_cases hdep' : DepUnder g (flip τ k) j i
      · exact ih _ (by rw [← hd]; exact hlt) j _ rfl hj hsj hτ' hdep'
      · obtain ⟨r, hr, hrk, hrs, hrd⟩ := hg τ k i j hi hj hdep hdep'
        refine ih _ (by rw [← hd]; exact hlt) r _ rfl hr ?_ hτ' hrd
        by_contra hsr
        have hsr : bget s r = true := by simpa using hsr
        rcases hk.sched r k hr hrk hsr with h | h
        · exact hcb h
        · exact h (ok_of_sat (sat_both.2 ⟨hτ, hrs⟩))
    · push Not at hex
      obtain ⟨e, he, hes⟩ := hdep
      exact ⟨j, hj, hsj, e, he, sat_congr hex hes⟩

/-- With guarded edges the construction cannot get stuck unless some branch assignment has a cycle. -/
theorem scheduleRest_total {g : Aug} {insts : List OInst} (hlen : insts.length = g.n)
    (hrule : ∀ i k, ruleOf insts i = some k → k < 32)
    (hinj : ∀ a b k, ruleOf insts a = some k → ruleOf insts b = some k → a = b)
    (hg : Tested g insts) (ho : ∀ σ, ∃ o, TotalOrder g.n (DepUnder g σ) o) :
    ∀ (r : Nat) (c : Cond) (s : List Bool), s.length = g.n → unsched g.n s = r → Known g insts c s →
    ∃ t, scheduleRest g insts r c s = .ok (t, s)
  | 0, c, s, hl, hu, hk => ⟨.nil, rfl⟩
  | r + 1, c, s, hl, hu, hk => by
    have ih := scheduleRest_total hlen hrule hinj hg ho r
    unfold scheduleRest
    cases hfr : findReady g c s with
    | none =>
      exfalso
      have hb := findReady_none hfr
      have hex : ∃ i, i < g.n ∧ bget s i = false := by
        by_contra hc
        push Not at hc
        have := unsched_pos.2 (fun i hi => by simpa using hc i hi)
        omega
      obtain ⟨i0, hi0, hs0⟩ := hex
      obtain ⟨_, _, _, e0, _, hok0⟩ := hb i0 hi0 hs0
      obtain ⟨σ, hσ⟩ := exists_sat (both_left_ok hok0)
      obtain ⟨o, ho⟩ := ho σ
      refine ho.no_stuck (fun i => i < g.n ∧ bget s i = false) ?_ i0 ⟨hi0, hs0⟩
      rintro i ⟨hi, hsi⟩
      obtain ⟨j, hj, hsj, e, he, hok⟩ := hb i hi hsi
      obtain ⟨τ, hτ⟩ := exists_sat hok
      obtain ⟨hτ1, hτ2⟩ := sat_both.1 hτ
      obtain ⟨j', a, b, d⟩ := blocked_under hg hk hσ hi _ j τ rfl hj hsj hτ1 ⟨e, he, hτ2⟩
      exact ⟨hi, j', a, d, a, b⟩
    | some i =>
      simp only
      obtain ⟨hi, hb, hr⟩ := findReady_some hfr
      have hin : insts[i]? = some (insts[i]'(by omega)) := List.getElem?_eq_getElem (by omega)
      generalize insts[i]'(by omega) = inst at hin
      rw [hin]
      simp only
      have hci : condOf insts i = inst.cond := by simp [condOf, hin]
      have hri : ruleOf insts i = inst.rule := by simp [ruleOf, hin]
      have hl' : (s.set i true).length = g.n := by simpa using hl
      have hu' : unsched g.n (s.set i true) = r := by
        have := unsched_set hl hi hb; omega
      have hre := set_restore hb (by omega)
      by_cases hig : ignored c inst.cond = true
      · rw [if_pos hig]
        obtain ⟨t, ht⟩ := ih c _ hl' hu' (hk.same hl hi (.inr (by rw [hci]; exact ignored_iff.1 hig)))
        rw [ht]
        refine ⟨t, ?_⟩
        show Res.ok (t, (s.set i true).set i false) = _
        rw [hre]
      · rw [if_neg hig]
        cases hrl : inst.rule with
        | none =>
          simp only
          obtain ⟨t, ht⟩ := ih c _ hl' hu' (hk.same hl hi (.inl (by rw [hri, hrl])))
          rw [ht]
          refine ⟨.node i t, ?_⟩
          show Res.ok (Cto.node i t, (s.set i true).set i false) = _
          rw [hre]
        | some k =>
          simp only
          obtain ⟨k1, k2⟩ := hk.ifs hl hi (hrule i k (by rw [hri, hrl])) hb (by rw [hri, hrl]) hinj
          obtain ⟨t1, ht1⟩ := ih _ _ hl' hu' k1
          obtain ⟨t2, ht2⟩ := ih _ _ hl' hu' k2
          rw [ht1]
          simp only [Res.ok_bind]
          rw [ht2]
          refine ⟨.ifs i t1 t2, ?_⟩
          show Res.ok (Cto.ifs i t1 t2, (s.set i true).set i false) = _
          rw [hre]

/-- With guarded instances only what control reaches is on a path. -/
theorem scheduleRest_exact {g : Aug} {insts : List OInst}
    (hrule : ∀ i k, ruleOf insts i = some k → k < 32)
    (hinj : ∀ a b k, ruleOf insts a = some k → ruleOf insts b = some k → a = b)
    (hg : InstsGuarded g insts) :
    ∀ (r : Nat) (c : Cond) (s : List Bool) (t : Cto) (s' : List Bool), s.length = g.n → unsched g.n s = r → Known g insts c s →
    scheduleRest g insts r c s = .ok (t, s') →
    ∀ σ, Sat σ c → ∀ i ∈ t.path (ruleOf insts) σ, Sat σ (condOf insts i)
  | 0, c, s, t, s', hl, hu, hk, h => by
    unfold scheduleRest at h
    simp at h
    obtain ⟨rfl, rfl⟩ := h
    simp [Cto.path]
  | r + 1, c, s, t, s', hl, hu, hk, h => by
    have ih := scheduleRest_exact hrule hinj hg r
    unfold scheduleRest at h
    cases hfr : findReady g c s with
    | none => rw [hfr] at h; cases h
    | some i =>
      rw [hfr] at h
      simp only at h
      obtain ⟨hi, hb, hr⟩ := findReady_some hfr
      cases hin : insts[i]? with
      | none => rw [hin] at h; cases h
      | some inst =>
        rw [hin] at h
        simp only at h
        have hci : condOf insts i = inst.cond := by simp [condOf, hin]
        have hri : ruleOf insts i = inst.rule := by simp [ruleOf, hin]
        have hl' : (s.set i true).length = g.n := by simpa using hl
        have hu' : unsched g.n (s.set i true) = r := by
          have := unsched_set hl hi hb; omega
        by_cases hig : ignored c inst.cond = true
        · rw [if_pos hig] at h
          obtain ⟨⟨t1, s1⟩, h1, h2⟩ := Res.bind_eq_ok.1 h
          simp at h2
          obtain ⟨rfl, rfl⟩ := h2
          exact ih c _ _ _ hl' hu' (hk.same hl hi (.inr (by rw [hci]; exact ignored_iff.1 hig))) h1
        · rw [if_neg hig] at h
          have hok : (both c (condOf insts i)).ok := by
            rw [hci]; by_contra hc; exact hig (ignored_iff.2 hc)
          have here : ∀ σ, Sat σ c → Sat σ (condOf insts i) := by
            intro σ hs
            by_contra hns
            obtain ⟨k, hbit, hcon⟩ := not_sat hns
            obtain ⟨q, hq, hqk, hqs, hqd⟩ := hg i hi k hbit
            have hsq : bget s q = true := by
              by_contra hsq
              have hsq : bget s q = false := by simpa using hsq
              rcases hqd with ⟨e', he', hsub⟩ | ⟨hlt, hall⟩
              · exact hr q hq hsq e' he' (both_ok_sub hsub hok)
              · obtain ⟨j, hj, hsj, e, he, hbo⟩ := findReady_least hfr hlt hsq
                obtain ⟨τ, hτ⟩ := exists_sat hbo
                obtain ⟨hτ1, hτ2⟩ := sat_both.1 hτ
                obtain ⟨e', he', hτ'⟩ := hall τ j hj ⟨e, he, hτ2⟩
                exact hr j hj hsj e' he' (ok_of_sat (sat_both.2 ⟨hτ1, hτ'⟩))
            rcases hk.sched q k hq hqk hsq with h | h
            · rw [Cond.ok_iff] at hok
              have hok := hok k
              simp only [both, BitVec.getLsbD_or, Bool.or_eq_true, not_and_or, not_or] at hok
              rcases h with h | h <;> rcases hcon with ⟨a, b⟩ | ⟨a, b⟩
              · have := (hs k).1 h; rw [b] at this; cases this
              · rcases hok with hok | hok
                · exact hok.1 h
                · exact hok.2 a
              · rcases hok with hok | hok
                · exact hok.2 a
                · exact hok.1 h
              · have := (hs k).2 h; rw [b] at this; cases this
            · exact h (both_ok_sub hqs hok)
          cases hrl : inst.rule with
          | some k =>
            rw [hrl] at h
            simp only at h
            have hk32 := hrule i k (by rw [hri, hrl])
            obtain ⟨k1, k2⟩ := hk.ifs hl hi hk32 hb (by rw [hri, hrl]) hinj
            obtain ⟨⟨t1, s1⟩, h1, h2⟩ := Res.bind_eq_ok.1 h
            obtain ⟨rfl, _⟩ := scheduleRest_good hrule r _ _ _ _ hl' hu' h1
            obtain ⟨⟨t2, s2⟩, h3, h4⟩ := Res.bind_eq_ok.1 h2
            simp at h4
            obtain ⟨rfl, rfl⟩ := h4
            intro σ hs j hj
            simp only [Cto.path, List.mem_cons, hri, hrl, Option.map_some, Option.some.injEq] at hj
            rcases hj with rfl | hj
            · exact here σ hs
            · cases hsk : σ k with
              | true =>
                rw [hsk, if_pos rfl] at hj
                exact ih _ _ _ _ hl' hu' k2 h3 σ (sat_true hk32 hs hsk) j hj
              | false =>
                rw [hsk, if_neg (by simp)] at hj
                exact ih _ _ _ _ hl' hu' k1 h1 σ (sat_false hk32 hs hsk) j hj
          | none =>
            rw [hrl] at h
            simp only at h
            obtain ⟨⟨t1, s1⟩, h1, h2⟩ := Res.bind_eq_ok.1 h
            simp at h2
            obtain ⟨rfl, rfl⟩ := h2
            intro σ hs j hj
            simp only [Cto.path, List.mem_cons] at hj
            rcases hj with rfl | hj
            · exact here σ hs
            · exact ih c _ _ _ hl' hu' (hk.same hl hi (.inl (by rw [hri, hrl]))) h1 σ hs j hj

theorem Good.pairwise {g insts σ s t l} (h : Good g insts σ s t l) :
    l.Pairwise (fun a b => ¬ DepUnder g σ b a) ∧ ∀ a ∈ l, ¬ DepUnder g σ a a := by
  have hb := h.before
  clear h
  constructor
  · induction l with
    | nil => exact .nil
    | cons a l ih =>
      refine List.pairwise_cons.2 ⟨fun b hb' => hb [] a l rfl b (by simp [hb']), ih ?_⟩
      intro pre i post hp
      exact hb (a :: pre) i post (by simp [hp])
  · intro a ha
    obtain ⟨pre, post, rfl⟩ := List.append_of_mem ha
    exact hb pre a post rfl a (by simp)

/-- The construction either succeeds or reports failure. -/
theorem scheduleRest_cases {g : Aug} {insts : List OInst} (hlen : insts.length = g.n) :
    ∀ (r : Nat) (c : Cond) (s : List Bool),
    (∃ x, scheduleRest g insts r c s = .ok x) ∨ scheduleRest g insts r c s = .stop
  | 0, c, s => .inl ⟨_, rfl⟩
  | r + 1, c, s => by
    have ih := scheduleRest_cases hlen r
    unfold scheduleRest
    cases hfr : findReady g c s with
    | none => exact .inr rfl
    | some i =>
      simp only
      obtain ⟨hi, _, _⟩ := findReady_some hfr
      have hin : insts[i]? = some (insts[i]'(by omega)) := List.getElem?_eq_getElem (by omega)
      generalize insts[i]'(by omega) = inst at hin
      rw [hin]
      simp only
      split
      · rcases ih c (s.set i true) with ⟨x, hx⟩ | hx <;> rw [hx]
        · exact .inl ⟨_, rfl⟩
        · exact .inr rfl
      · split
        · rename_i k _
          rcases ih ⟨c.pos, c.neg ||| cmask k⟩ (s.set i true) with ⟨x, hx⟩ | hx <;> rw [hx]
          · simp only [Res.ok_bind]
            rcases ih ⟨c.pos ||| cmask k, (c.neg ||| cmask k) &&& ~~~cmask k⟩ x.2 with ⟨y, hy⟩ | hy <;> rw [hy]
            · exact .inl ⟨_, rfl⟩
            · exact .inr rfl
          · exact .inr rfl
        · rcases ih c (s.set i true) with ⟨x, hx⟩ | hx <;> rw [hx]
          · exact .inl ⟨_, rfl⟩
          · exact .inr rfl

theorem known_init (g : Aug) (insts : List OInst) : Known g insts ⟨0, 0⟩ (List.replicate g.n false) := by
  constructor
  · intro r k hr _ hb
    simp [bget, hr] at hb
  · rintro k (h | h) <;> simp at h

end Aps.Oag
