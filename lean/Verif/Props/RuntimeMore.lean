import Verif.Props.Runtime
import Verif.Proofs.RuntimeColl
import Verif.Proofs.RuntimeCirc
import Verif.Proofs.RuntimeSelf
set_option linter.unusedSectionVars false
set_option linter.unusedVariables false
/-!
# C34 (what is not true), C35 (collections) and C36 (circular attributes) of the C++ runtime
-/
namespace Aps.Props
open Aps.Runtime
variable {A P V : Type} [DecidableEq A] [DecidableEq P]

/-! ## C34, the part that fails -/

/-- `get` (which static code uses) does not protect a value: after a `get` returned 5 an `assign`
is accepted and the next `get` returns 7. Only `evaluate` (C34_stable, C34_refused) protects. -/
theorem C34_get_does_not_protect_refuted :
    ∃ s0 s1 s2 s3 : St (Fin 6) Unit Nat, History demo init [.newNode (), .assign 0 ⟨(), 0⟩ 5] s0 ∧
      call demo 9 (.get 0 ⟨(), 0⟩) s0 = .ok (.value 5) s1 ∧
      call demo 9 (.assign 0 ⟨(), 0⟩ 7) s1 = .ok .unit s2 ∧
      call demo 9 (.get 0 ⟨(), 0⟩) s2 = .ok (.value 7) s3 :=
  ⟨_, _, _, _, .ok 9 rfl (.ok 9 rfl (.nil _)), rfl, rfl, rfl⟩

/-! ## C35 -/

/-- After contributions `vs` (the accepted `assign` calls for this attribute and node, in order;
any other calls in between, refused ones included) both `get` and `evaluate` return the
combination of the initial value with each contribution, once and in order. -/
theorem C35_combined (L : Lang A P V) (hL : ∀ a, L.circular a = false) (a : A) (n : Node P)
    (iv : V) (hiv : L.initial a = some iv) (hn : n.phylum = L.phylum a) (vs : List V)
    (s : St A P V) (h : Contributed L a n init vs s)
    (hc : n.index < (s.phyla n.phylum).count) (hvs : vs ≠ []) (fuel : Nat) :
    (∃ s', get L a n s = .ok (vs.foldl (L.combine a) iv) s') ∧
    (∃ s', evaluate L (fuel + 1) a n s = .ok (vs.foldl (L.combine a) iv) s') := by
  have h0 : CellInv L a n.index iv [] (init : St A P V) := by
    refine ⟨fun h => absurd rfl h, fun _ => ⟨?_, ?_⟩⟩ <;> simp [stOf, init]
  obtain ⟨hi, hcell⟩ := h.cell hL hn hiv [] (init_inv L) h0
  rw [List.nil_append] at hcell
  obtain ⟨hst, hv⟩ := hcell.1 hvs
  constructor
  · rcases get_cases L hi.wf a n with ⟨g, _⟩ | ⟨_, g, _⟩ |
      ⟨_, _, ⟨g, s', e, _⟩ | ⟨g, _⟩ | ⟨_, g, _⟩⟩
    · omega
    · exact absurd hn g
    · exact ⟨s', by rw [e, hv]⟩
    · rw [hst] at g; cases g
    · rw [hst] at g; cases g
  · simp only [evaluate, hL a, Bool.false_eq_true, if_false]
    rcases evalBase_cases L (evaluate L fuel) hi.wf a n (hL a) with ⟨g, e⟩ | ⟨h1, h2, e⟩ |
      ⟨h1, h2, s3, w1, f1, b1, c1, ⟨g, a1, l1, e⟩ | ⟨g, a1, l1, e⟩ | ⟨g, a1, l1, hrest⟩⟩
    · omega
    · exact absurd hn h2
    · rw [hst] at g; cases g
    · exact ⟨s3, by rw [e, hv]⟩
    · rw [hst] at g; rcases g with g | g <;> cases g

/-- With no contribution `get` returns the initial value, as long as the attribute was never
demanded. -/
theorem C35_default (L : Lang A P V) (hL : ∀ a, L.circular a = false) (a : A) (n : Node P)
    (iv : V) (hiv : L.initial a = some iv) (hn : n.phylum = L.phylum a)
    (s : St A P V) (h : Contributed L a n init [] s)
    (hc : n.index < (s.phyla n.phylum).count) (hs : (s.attr a).started = false) :
    ∃ s', get L a n s = .ok iv s' := by
  have h0 : CellInv L a n.index iv [] (init : St A P V) := by
    refine ⟨fun h => absurd rfl h, fun _ => ⟨?_, ?_⟩⟩ <;> simp [stOf, init]
  obtain ⟨hi, hcell⟩ := h.cell hL hn hiv [] (init_inv L) h0
  obtain ⟨hst, hv⟩ := hcell.2 rfl
  have hidle : stOf s a n.index = .uninit ∨ stOf s a n.index = .uneval := by
    cases hx : stOf s a n.index with
    | uninit => exact Or.inl rfl
    | uneval => exact Or.inr rfl
    | cycle => have := hi.cyc a _ hx; unfold started at this; rw [hs] at this; cases this
    | evaluated => have := (hi.evald a _ hx).1; unfold started at this; rw [hs] at this; cases this
    | assigned => exact absurd hx hst
  rcases get_cases L hi.wf a n with ⟨g, _⟩ | ⟨_, g, _⟩ |
    ⟨_, _, ⟨g, s', e, _⟩ | ⟨g, g', _⟩ | ⟨v, g, g', s', e, _⟩⟩
  · omega
  · exact absurd hn g
  · rw [e]
    exact ⟨s', by rw [hv (hidle.resolve_left g)]⟩
  · rw [hiv] at g'; cases g'
  · rw [hiv] at g'; cases g'
    exact ⟨s', e⟩

/-- One collection attribute (a list, initially `[0]`), combined by concatenation. -/
def collDemo : Lang Unit Unit (List Nat) where
  phylum _ := ()
  circular _ := false
  initial _ := some [0]
  combine _ := (· ++ ·)
  bottom _ := []
  join _ x y := x ++ y
  equal _ a b := a == b
  compute _ _ := .undef
  dflt := []

example : ∃ s, Contributed collDemo () ⟨(), 1⟩ init [[3], [1, 2]] s ∧ 1 < (s.phyla ()).count :=
  ⟨_, .other 5 (op := .newNode ()) (by simp) rfl (.other 5 (op := .newNode ()) (by simp) rfl
    (.accepted (v := [3]) rfl (.other 5 (op := .assign () ⟨(), 0⟩ [9]) (by simp) rfl
      (.accepted (v := [1, 2]) rfl
        (.other 5 (op := .evaluate () ⟨(), 0⟩) (by simp) rfl
          (.refused (v := [8]) rfl (.nil _))))))), by decide +kernel⟩

/-! ## C36 -/

/-- Calls of `evaluate` (each may throw), and node creation. -/
inductive Demanded (L : Lang A P V) : St A P V → St A P V → Prop
  | nil (s) : Demanded L s s
  | node {s s1 s2 p i} : newNode p s = .ok i s1 → Demanded L s1 s2 → Demanded L s s2
  | value {s s1 s2 a n v} (fuel : Nat) : evaluate L fuel a n s = .ok v s1 → Demanded L s1 s2 →
      Demanded L s s2
  | threw {s s1 s2 a n e} (fuel : Nat) : evaluate L fuel a n s = .exc e s1 → Demanded L s1 s2 →
      Demanded L s s2

theorem Demanded.good {L : Lang A P V} {le : A → V → V → Prop} {μ : A → Nat → V}
    (hs : Solution L le μ) (hin : ∀ a, L.initial a = none) {s s' : St A P V}
    (h : Demanded L s s') : Good L le μ s → Good L le μ s' := by
  induction h with
  | nil => exact id
  | @node s s1 s2 p i he _ ih =>
    intro hg
    apply ih
    unfold newNode at he
    split at he
    · cases he
    · cases he
      refine hg.congr ⟨hg.wf.1, ?_⟩ rfl rfl rfl
      intro a
      have := hg.wf.2 a
      show _ ≤ (if L.phylum a = p then _ else _ : Phylum).count
      split
      · rename_i h; rw [h] at this; exact Nat.le_succ_of_le this
      · exact this
  | @value s s1 s2 a n v f he _ ih =>
    intro hg
    have := evaluate_safe hs hin f a n s hg
    rw [he] at this
    exact ih this.1
  | @threw s s1 s2 a n e f he _ ih =>
    intro hg
    have := evaluate_safe hs hin f a n s hg
    rw [he] at this
    exact ih this.1

/-- Safety half of C36: for monotone equations no value returned by `evaluate` is above any
solution `μ` of the equations (in particular the least one), in any order of demands, and whether
attributes are circular or not. -/
theorem C36_never_above_partial (L : Lang A P V) (le : A → V → V → Prop) (μ : A → Nat → V)
    (hs : Solution L le μ) (hin : ∀ a, L.initial a = none) (s : St A P V)
    (hist : Demanded L init s) (fuel : Nat) (a : A) (n : Node P) (v : V) (s' : St A P V)
    (h : evaluate L fuel a n s = .ok v s') : le a v (μ a n.index) := by
  have := evaluate_safe hs hin fuel a n s (hist.good hs hin init_good)
  rw [h] at this
  exact this.2.2.1

/-- Node creations only. -/
inductive Created : St A P V → St A P V → Prop
  | nil (s) : Created s s
  | node {s s1 s2 p i} : newNode p s = .ok i s1 → Created s1 s2 → Created s s2

theorem Created.fresh {L : Lang A P V} {s s' : St A P V} (h : Created s s') :
    (WF L s ∧ (∀ a i, stOf s a i = .uninit) ∧ s.checks = 0 ∧ s.pending = []) →
    (WF L s' ∧ (∀ a i, stOf s' a i = .uninit) ∧ s'.checks = 0 ∧ s'.pending = []) := by
  induction h with
  | nil => exact id
  | @node s s1 s2 p i he _ ih =>
    rintro ⟨h1, h2, h3, h4⟩
    apply ih
    unfold newNode at he
    split at he
    · cases he
    · cases he
      refine ⟨⟨h1.1, ?_⟩, h2, h3, h4⟩
      intro a
      have := h1.2 a
      show _ ≤ (if L.phylum a = p then _ else _ : Phylum).count
      split
      · rename_i h; rw [h] at this; exact Nat.le_succ_of_le this
      · exact this

/-- A circular attribute that depends on nothing but itself (and is first demanded with nothing
else under way) gets the least solution of its equation `F`, over any lattice of finite height. -/
theorem C36_self_partial (L : Lang A P V) (a : A) (n : Node P)
    (hc : L.circular a = true) (hin : L.initial a = none)
    (hph : n.phylum = L.phylum a) (hs : SelfOnly a n (L.compute a n))
    (le : V → V → Prop) (F : V → V) (hF : ∀ x, selfVal L.dflt x (L.compute a n) = F x)
    (heq : ∀ x y, L.equal a x y = true ↔ x = y)
    (hj1 : ∀ x y, le x (L.join a x y)) (hj2 : ∀ x y, le y (L.join a x y))
    (hj3 : ∀ x y z, le x z → le y z → le (L.join a x y) z)
    (hrefl : ∀ x, le x x) (htr : ∀ x y z, le x y → le y z → le x z)
    (hanti : ∀ x y, le x y → le y x → x = y)
    (hbot : ∀ x, le (L.bottom a) x) (hmono : ∀ x y, le x y → le (F x) (F y))
    (ht : V → Nat) (H : Nat) (hH : ∀ x, ht x ≤ H) (hlt : ∀ x y, le x y → x ≠ y → ht x < ht y)
    (s : St A P V) (hist : Created init s) (hn : n.index < (s.phyla n.phylum).count)
    (fuel : Nat) (hf : H < fuel) :
    ∃ v s', evaluate L (fuel + 2) a n s = .ok v s' ∧ F v = v ∧ (∀ z, F z = z → le v z) := by
  obtain ⟨w, hst, hk, hp⟩ := hist.fresh (L := L)
    ⟨⟨fun _ => rfl, fun _ => Nat.zero_le _⟩, fun a i => by simp [stOf, init], rfl, rfl⟩
  obtain ⟨v, s', e, h1, h2⟩ := evaluate_self a n hc hin hph hs le F hF heq hj1 hj2 hj3 hrefl hbot
    hmono htr ht H hH hlt s w hn (Or.inl (hst a _)) hk hp fuel hf
  refine ⟨v, s', e, hanti _ _ h1 (h2 _ (hmono _ _ h1)), fun z hz => h2 z (by rw [hz]; exact hrefl z)⟩

/-- Two circular attributes `x = y`, `y = min (x + 1) 5`, over numbers with `max`; and a third,
`z = min (z + 2) 5`. -/
def circDemo : Lang (Fin 3) Unit Nat where
  phylum _ := ()
  circular _ := true
  initial _ := none
  combine _ _ y := y
  bottom _ := 0
  join _ := max
  equal _ a b := a == b
  compute a n := match a with
    | 0 => .read 1 n fun y => .ret y
    | 1 => .read 0 n fun x => .ret (min (x + 1) 5)
    | 2 => .read 2 n fun z => .ret (min (z + 2) 5)
  dflt := 0

/-- C36 fails in general: with `x = y` and `y = min (x + 1) 5`, whose only solution is 5,
demanding `x` returns 1. Only the attribute found to be on the cycle is iterated; the others on
the cycle keep the value computed from bottom. -/
theorem C36_least_fixpoint_refuted :
    (∃ s s', Created init s ∧ evaluate circDemo 100 0 ⟨(), 0⟩ s = .ok 1 s') ∧
    (∀ x y : Nat, x = y → y = min (x + 1) 5 → x = 5) := by
  refine ⟨⟨_, _, .node (p := ()) rfl (.nil _), rfl⟩, ?_⟩
  intro x y h1 h2
  omega

/-- Hypotheses of `C36_never_above_partial`: 5 everywhere is a solution. -/
example : Solution circDemo (fun _ => (· ≤ ·)) (fun _ _ => 5) where
  refl _ _ := Nat.le_refl _
  trans _ _ _ _ := Nat.le_trans
  bot _ _ := Nat.zero_le _
  join _ _ _ _ := Nat.max_le_of_le_of_le
  mono a n _ := by
    fin_cases a
    · exact .read fun v w h => .ret h
    · exact .read fun v w h => .ret (by omega)
    · exact .read fun v w h => .ret (by omega)
  sol a n w _ h := by
    fin_cases a <;> simp [circDemo, runUnder] at h <;> omega

/-- Hypotheses of `C36_self_partial`: attribute 2, on numbers up to 5. -/
def capDemo : Lang Unit Unit (Fin 6) where
  phylum _ := ()
  circular _ := true
  initial _ := none
  combine _ _ y := y
  bottom _ := 0
  join _ x y := if x.val ≤ y.val then y else x
  equal _ a b := a == b
  compute a n := .read () n fun z => .ret (if z.val < 4 then z + 2 else 5)
  dflt := 0

example : ∃ v s s', Created init s ∧ evaluate capDemo 100 () ⟨(), 0⟩ s = .ok v s' ∧ v = 5 := by
  obtain ⟨v, s', h, h1, h2⟩ := C36_self_partial capDemo () ⟨(), 0⟩ rfl rfl rfl
    (.read fun w => .ret _) (fun x y => x.val ≤ y.val) (fun z => if z.val < 4 then z + 2 else 5)
    (fun x => rfl) (by decide) (by decide) (by decide) (by decide) (by decide) (by decide)
    (by decide) (by decide) (by decide) (fun x => x.val) 5 (by decide) (by decide)
    _ (.node (p := ()) rfl (.nil _)) (by decide) 98 (by decide)
  exact ⟨v, _, s', .node (p := ()) rfl (.nil _), h, by clear h h2; revert v; decide⟩

end Aps.Props
