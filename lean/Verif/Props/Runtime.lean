import Verif.Proofs.RuntimeTotal
import Mathlib.Data.Fintype.Basic
import Mathlib.Data.Finset.Union
import Mathlib.Tactic.FinCases
set_option linter.unusedSectionVars false
set_option linter.unusedVariables false
/-!
# C32-C34: demand evaluation of attributes in the C++ runtime

`History L init ops s`: `s` is the state after the calls `ops` (node creation, assign, get,
evaluate, finish, in any order; a call may throw and the client may go on). `Den` (in
`Verif/Spec/Runtime.lean`) is the meaning of the equations. The theorems here are about attributes
that are not circular (`CircularAttribute` is C36).
-/
namespace Aps.Props
open Aps.Runtime
variable {A P V : Type} [DecidableEq A] [DecidableEq P]

/-- The equations never read a node that does not exist (in C++: a dangling pointer). -/
def ReadsExisting (L : Lang A P V) (s : St A P V) : Prop :=
  ∀ x y : A × Node P, x.2.index < (s.phyla x.2.phylum).count →
    Demands L (assignedIn s) x y → y.2.index < (s.phyla y.2.phylum).count

/-- Number of attribute occurrences. -/
def cells [Fintype A] (L : Lang A P V) (s : St A P V) : Finset (A × Nat) :=
  Finset.univ.biUnion fun a => (Finset.range (s.phyla (L.phylum a)).count).image fun i => (a, i)

/-! ## C32 -/

/-- The meaning of the equations gives at most one value. -/
theorem C32_meaning_unique (L : Lang A P V) (asg : A → Nat → Option V) (a : A) (n : Node P)
    (v w : V) (h : Den L asg a n v) (h' : Den L asg a n w) : v = w := h.det h'

/-- Whatever was called before, a value returned by `evaluate` is the one defined by the equations
(and the assignments made). -/
theorem C32_value (L : Lang A P V) (hL : ∀ a, L.circular a = false) (ops : List (Op A P V))
    (s : St A P V) (hist : History L init ops s) (fuel : Nat) (a : A) (n : Node P) (v : V)
    (s' : St A P V) (h : evaluate L fuel a n s = .ok v s') :
    Den L (assignedIn s) a n v ∧ assignedIn s' = assignedIn s := by
  have hi := (hist.inv hL (init_inv L)).1
  have h' := evaluate_spec hL fuel ∅ a n s hi (by simp)
  rw [h] at h'
  obtain ⟨h1, h2, _, h4, _⟩ := h'
  rw [assignedIn_eq hi.wf, assignedIn_eq h1.wf]
  exact ⟨h4.den, h2.asg⟩

/-- Over any history no equation is run twice. -/
theorem C32_once (L : Lang A P V) (hL : ∀ a, L.circular a = false) (ops : List (Op A P V))
    (s : St A P V) (hist : History L init ops s) : s.log.Nodup :=
  (hist.inv hL (init_inv L)).1.nodup

/-- Conversely if the equations define a value then `evaluate` returns it, whatever was called
(and failed) before. -/
theorem C32_complete [Fintype A] (L : Lang A P V) (hL : ∀ a, L.circular a = false)
    (ops : List (Op A P V)) (s : St A P V) (hist : History L init ops s)
    (hE : ReadsExisting L s) (a : A) (n : Node P) (hn : n.index < (s.phyla n.phylum).count) (v : V)
    (hd : Den L (assignedIn s) a n v) (fuel : Nat) (hf : (cells L s).card < fuel) :
    ∃ s', evaluate L fuel a n s = .ok v s' := by
  have hi := (hist.inv hL (init_inv L)).1
  have h' := evaluate_spec hL fuel ∅ a n s hi (by simp)
  have htot := evaluate_total hL (cells L s) fuel ∅ a n s hi (by simp)
    (by intro b i hb
        simp only [cells, Finset.mem_biUnion, Finset.mem_univ, true_and, Finset.mem_image,
          Finset.mem_range]
        exact ⟨b, i, hb, rfl⟩)
    (by intro x y hx hxy; exact hE x y hx (by rw [assignedIn_eq hi.wf]; exact hxy)) hn
    (lt_of_le_of_lt (Finset.card_filter_le _ _) hf)
  rw [assignedIn_eq hi.wf] at hd
  cases he : evaluate L fuel a n s with
  | ub => exact absurd he htot.1
  | nofuel => exact absurd he htot.2
  | ok w s1 =>
    rw [he] at h'
    rw [C32_meaning_unique L _ a n v w hd h'.2.2.2.1.den]
    exact ⟨s1, rfl⟩
  | exc e s1 =>
    exfalso
    rw [he] at h'
    obtain ⟨h1, h2, h3, _⟩ := h'
    refine Blocked.not_runs (fun b i hb => ?_) hd h3
    have := h1.stuck b i hb (Set.notMem_empty _)
    rw [h2.asg] at this
    exact this

/-! ## C33 -/

/-- `evaluate` always ends, with a value or an exception. -/
theorem C33_ends [Fintype A] (L : Lang A P V) (hL : ∀ a, L.circular a = false)
    (ops : List (Op A P V)) (s : St A P V) (hist : History L init ops s)
    (hE : ReadsExisting L s) (a : A) (n : Node P) (hn : n.index < (s.phyla n.phylum).count)
    (fuel : Nat) (hf : (cells L s).card < fuel) :
    (∃ v s', evaluate L fuel a n s = .ok v s') ∨ (∃ e s', evaluate L fuel a n s = .exc e s') := by
  have hi := (hist.inv hL (init_inv L)).1
  have htot := evaluate_total hL (cells L s) fuel ∅ a n s hi (by simp)
    (by intro b i hb
        simp only [cells, Finset.mem_biUnion, Finset.mem_univ, true_and, Finset.mem_image,
          Finset.mem_range]
        exact ⟨b, i, hb, rfl⟩)
    (by intro x y hx hxy; exact hE x y hx (by rw [assignedIn_eq hi.wf]; exact hxy)) hn
    (lt_of_le_of_lt (Finset.card_filter_le _ _) hf)
  cases he : evaluate L fuel a n s with
  | ub => exact absurd he htot.1
  | nofuel => exact absurd he htot.2
  | ok v s1 => left; exact ⟨v, s1, rfl⟩
  | exc e s1 => right; exact ⟨e, s1, rfl⟩

/-- If the attribute demands (directly or not) something that depends on itself, `evaluate` throws;
it neither returns a value nor loops. -/
theorem C33_cycle_throws [Fintype A] (L : Lang A P V) (hL : ∀ a, L.circular a = false)
    (ops : List (Op A P V)) (s : St A P V) (hist : History L init ops s)
    (hE : ReadsExisting L s) (a : A) (n : Node P) (hn : n.index < (s.phyla n.phylum).count)
    (y : A × Node P) (hy : Relation.ReflTransGen (Demands L (assignedIn s)) (a, n) y)
    (hc : Relation.TransGen (Demands L (assignedIn s)) y y)
    (fuel : Nat) (hf : (cells L s).card < fuel) :
    ∃ e s', evaluate L fuel a n s = .exc e s' := by
  rcases C33_ends L hL ops s hist hE a n hn fuel hf with ⟨v, s', h⟩ | h
  · exact absurd hc ((C32_value L hL ops s hist fuel a n v s' h).1.no_cycle y hy)
  · exact h

/-- A history in which no call threw. -/
inductive CleanHistory (L : Lang A P V) : St A P V → List (Op A P V) → St A P V → Prop
  | nil (s) : CleanHistory L s [] s
  | cons {s s1 s2 op ops r} (fuel : Nat) : call L fuel op s = .ok r s1 →
      CleanHistory L s1 ops s2 → CleanHistory L s (op :: ops) s2

theorem CleanHistory.inv {L : Lang A P V} (hL : ∀ a, L.circular a = false) {s s' : St A P V}
    {ops : List (Op A P V)} (h : CleanHistory L s ops s') (hi : Inv L ∅ s) (hk : Kof s = ∅) :
    Inv L ∅ s' ∧ Kof s' = ∅ := by
  induction h with
  | nil s => exact ⟨hi, hk⟩
  | @cons _ _ _ op _ _ f he _ ih =>
    have := call_inv hL f op hi
    rw [he] at this
    exact ih this.1 ((call_ok_K hL hi he).trans hk)

/-- When nothing failed before, the exception says what is wrong: "cyclic" means the attribute
demands something that depends on itself; "undefined" means it demands something whose equation,
run on the defined values, is undefined; "bad phylum" means it demands an attribute of a node of
the wrong phylum. There is no other exception. -/
theorem C33_reason (L : Lang A P V) (hL : ∀ a, L.circular a = false)
    (ops : List (Op A P V)) (s : St A P V) (hist : CleanHistory L init ops s)
    (a : A) (n : Node P) (fuel : Nat) (e : Exc) (s' : St A P V)
    (h : evaluate L fuel a n s = .exc e s') :
    (e = .cyclic ∧ ∃ y, Relation.ReflTransGen (Demands L (assignedIn s)) (a, n) y ∧
      Relation.TransGen (Demands L (assignedIn s)) y y) ∨
    (e = .undefined ∧ ∃ y, Relation.ReflTransGen (Demands L (assignedIn s)) (a, n) y ∧
      assignedIn s y.1 y.2.index = none ∧
      Reaches L (assignedIn s) (L.compute y.1 y.2) .undef) ∨
    (e = .badPhylum ∧ ∃ y, Relation.ReflTransGen (Demands L (assignedIn s)) (a, n) y ∧
      y.2.phylum ≠ L.phylum y.1) := by
  obtain ⟨hi, hk⟩ := hist.inv hL (init_inv L) (by
    ext c; simp [Kof, stOf, init])
  have h' := evaluate_spec hL fuel ∅ a n s hi (by simp)
  rw [h] at h'
  obtain ⟨_, _, _, hw⟩ := h'
  rw [assignedIn_eq hi.wf]
  cases e with
  | tooLate => exact hw.elim
  | undefined => exact Or.inr (Or.inl ⟨rfl, hw⟩)
  | badPhylum => exact Or.inr (Or.inr ⟨rfl, hw⟩)
  | cyclic =>
    obtain ⟨y, h1, h2⟩ := hw
    refine Or.inl ⟨rfl, y, h1, h2.resolve_right ?_⟩
    rw [hk]; simp

/-! ## C34 -/

/-- Once a value was demanded, every later demand gives the same value, whatever is called in
between. -/
theorem C34_stable (L : Lang A P V) (hL : ∀ a, L.circular a = false) (ops ops' : List (Op A P V))
    (s s1 s2 : St A P V) (hist : History L init ops s) (fuel fuel' : Nat) (a : A) (n : Node P)
    (v : V) (h : evaluate L fuel a n s = .ok v s1) (hist' : History L s1 ops' s2) :
    (∃ s3, evaluate L (fuel' + 1) a n s2 = .ok v s3) ∧ (∃ s3, get L a n s2 = .ok v s3) := by
  have hi := (hist.inv hL (init_inv L)).1
  have h' := evaluate_spec hL fuel ∅ a n s hi (by simp)
  rw [h] at h'
  obtain ⟨i1, e1, _, r1, st1, v1⟩ := h'
  obtain ⟨i2, k2⟩ := hist'.inv hL i1
  have hst : started s1 a = true := r1.phyl.2
  have hph : n.phylum = L.phylum a := r1.phyl.1
  obtain ⟨hs2, hv2⟩ := k2.value a n.index hst st1
  have hcount : n.index < (s2.phyla n.phylum).count := by
    refine lt_of_lt_of_le ?_ (k2.count _)
    have hl : n.index < (s1.attr a).stat.length :=
      stOf_lt (by rcases st1 with g | g <;> rw [g] <;> decide)
    have := i1.wf.bound a
    rw [hph]; omega
  constructor
  · simp only [evaluate, hL a, Bool.false_eq_true, if_false]
    rcases evalBase_cases L (evaluate L fuel') i2.wf a n (hL a) with ⟨g, e⟩ | ⟨h1, h2, e⟩ |
      ⟨h1, h2, s3, w1, f1, b1, c1, ⟨g, a1, l1, e⟩ | ⟨g, a1, l1, e⟩ | ⟨g, a1, l1, hrest⟩⟩
    · omega
    · exact absurd hph h2
    · rw [hs2] at g; rcases st1 with g' | g' <;> rw [g'] at g <;> cases g
    · exact ⟨s3, by rw [e, hv2, v1]⟩
    · rw [hs2] at g; rcases st1 with g' | g' <;> rw [g'] at g <;> rcases g with g | g <;> cases g
  · rcases get_cases L i2.wf a n with ⟨g, _⟩ | ⟨_, g, _⟩ |
      ⟨h1, h2, ⟨g, s3, e, _⟩ | ⟨g, _⟩ | ⟨v', g, _⟩⟩
    · omega
    · exact absurd hph g
    · exact ⟨s3, by rw [e, hv2, v1]⟩
    · rw [hs2] at g; rcases st1 with g' | g' <;> rw [g'] at g <;> cases g
    · rw [hs2] at g; rcases st1 with g' | g' <;> rw [g'] at g <;> cases g

/-- Once some value of an attribute was demanded, every assignment to that attribute (at any node)
is refused, and changes nothing. -/
theorem C34_refused (L : Lang A P V) (hL : ∀ a, L.circular a = false) (ops ops' : List (Op A P V))
    (s s1 s2 : St A P V) (hist : History L init ops s) (fuel : Nat) (a : A) (n : Node P)
    (v : V) (h : evaluate L fuel a n s = .ok v s1) (hist' : History L s1 ops' s2)
    (m : Node P) (w : V) : assign L a m w s2 = .exc .tooLate s2 := by
  have hi := (hist.inv hL (init_inv L)).1
  have h' := evaluate_spec hL fuel ∅ a n s hi (by simp)
  rw [h] at h'
  obtain ⟨i1, e1, _, r1, st1, v1⟩ := h'
  obtain ⟨i2, k2⟩ := hist'.inv hL i1
  have : (s2.attr a).started = true := k2.start a r1.phyl.2
  simp [assign, this]

/-! ## A concrete case -/

/-- Two phyla are not needed: attribute 0 is assigned, attribute 1 is `attr0 + attr2 + 1`,
attribute 2 is `10 + attr0`, attribute 3 depends on itself through attribute 4, attribute 5 is
undefined. -/
def demo : Lang (Fin 6) Unit Nat where
  phylum _ := ()
  circular _ := false
  initial _ := none
  combine _ := (· + ·)
  bottom _ := 0
  join _ := max
  equal _ a b := a == b
  compute a n := match a with
    | 0 => .undef
    | 1 => .read 0 n fun x => .read 2 n fun y => .ret (x + y + 1)
    | 2 => .read 0 n fun x => .ret (10 + x)
    | 3 => .read 4 n fun x => .ret x
    | 4 => .read 3 n fun x => .ret x
    | 5 => .undef
  dflt := 0

def outVal {α : Type} : Out (Fin 6) Unit Nat α → Option α
  | .ok a _ => some a
  | _ => none

def outExc {α : Type} : Out (Fin 6) Unit Nat α → Option Exc
  | .exc e _ => some e
  | _ => none

def demoState : St (Fin 6) Unit Nat :=
  match call demo 9 (.newNode ()) init with
  | .ok _ s => match call demo 9 (.assign 0 ⟨(), 0⟩ 5) s with
    | .ok _ s => s
    | _ => init
  | _ => init

/-- Hypotheses are met: a history with a node and an assignment, a value demanded through two
levels of equations, a cycle reported, an undefined attribute reported, assignment refused. -/
example : CleanHistory demo init [.newNode (), .assign 0 ⟨(), 0⟩ 5] demoState :=
  .cons 9 rfl (.cons 9 rfl (.nil _))
example : outVal (evaluate demo 9 1 ⟨(), 0⟩ demoState) = some 21 := by decide +kernel
example : outExc (evaluate demo 9 3 ⟨(), 0⟩ demoState) = some .cyclic := by decide +kernel
example : outExc (evaluate demo 9 5 ⟨(), 0⟩ demoState) = some .undefined := by decide +kernel
example : Den demo (assignedIn demoState) 1 ⟨(), 0⟩ 21 :=
  .eqn rfl trivial rfl
    (.given rfl trivial (w := 5) rfl
      (.eqn rfl trivial rfl (.given rfl trivial (w := 5) rfl (.ret 15)) (.ret 21))) (.ret 21)
example : Relation.TransGen (Demands demo (assignedIn demoState)) (3, ⟨(), 0⟩) (3, ⟨(), 0⟩) := by
  have h1 : Demands demo (assignedIn demoState) (3, ⟨(), 0⟩) (4, ⟨(), 0⟩) := ⟨rfl, _, .here _⟩
  have h2 : Demands demo (assignedIn demoState) (4, ⟨(), 0⟩) (3, ⟨(), 0⟩) := ⟨rfl, _, .here _⟩
  exact .tail (.single h1) h2

/-- all reads are of node `n` -/
def ReadsOnly (n : Node P) : Comp A P V → Prop
  | .ret _ => True
  | .undef => True
  | .read _ m k => m = n ∧ ∀ w, ReadsOnly n (k w)

theorem readsOnly_reaches {L : Lang A P V} {asg : A → Nat → Option V} {n : Node P}
    {c c' : Comp A P V} (h : Reaches L asg c c') (hc : ReadsOnly n c) : ReadsOnly n c' := by
  induction h with
  | here c => exact hc
  | step _ _ ih => exact ih (hc.2 _)

example : ReadsExisting demo demoState := by
  rintro ⟨a, n⟩ y hx ⟨_, k, hr⟩
  have : ReadsOnly n (demo.compute a n) := by fin_cases a <;> simp [demo, ReadsOnly]
  have h := (readsOnly_reaches hr this).1
  rw [h]; exact hx

end Aps.Props
