import Verif.Proofs.SEvalSim
import Verif.Proofs.SEvalTerm
import Verif.Proofs.SEvalFail

/-!
# C44, C56: demand evaluation with cycles in the Scala runtime

`evalC w (S.compute i)` is the value that the equation of `i` gives if every instance `j` it reads has
the value `w j`.
-/
set_option linter.unusedVariables false
namespace Aps.Props

open Aps Aps.ScalaEval

variable {V : Type}

/-! ## Specification -/

/-- `w` satisfies the equations from above: assigned instances have at least the assigned value, all
others at least what their equation gives. -/
structure PreSolution (S : Sys V) (asg : Nat → Option V) (le : Nat → V → V → Prop) (w : Nat → V) : Prop where
  assigned : ∀ i v, asg i = some v → le i v (w i)
  equation : ∀ i, asg i = none → ∀ v, evalC w (S.compute i) = some v → le i v (w i)

/-- The orders and the operations of the value types fit together. -/
structure Lattices (S : Sys V) (le : Nat → V → V → Prop) : Prop where
  refl : ∀ i a, le i a a
  trans : ∀ i a b c, le i a b → le i b c → le i a c
  bottom : ∀ i v, S.circular i = true → le i (S.bottom i) v
  less : ∀ i a b, S.circular i = true → le i a b → a ≠ b → S.less i a b = true
  equal : ∀ i a b, S.equal i a b = true ↔ a = b

/-- Circular instances start at the bottom: a collection because its initial value is the bottom, any
other because the value of the uninitialised field is. -/
structure StartsAtBottom (S : Sys V) : Prop where
  collection : ∀ i v, S.circular i = true → S.collection i = some v → v = S.bottom i
  other : ∀ i, S.circular i = true → S.collection i = none → S.null i = S.bottom i

/-- The equation reads `j` when the instances have the values `w`. -/
inductive Reads (w : Nat → V) : Comp V → Nat → Prop
  | here (j k) : Reads w (.read j k) j
  | later {i k j} : Reads w (k (w i)) j → Reads w (.read i k) j

/-- The value of `i` is fixed from now on. -/
def Done (s : St V) (i : Nat) : Prop := s.status i = .evaluated ∨ s.status i = .assigned

/-- Monotonicity in the usual sense is enough for equations that read no instance twice. -/
theorem monotone_of_once {S : Sys V} {le : Nat → V → V → Prop} (hr : ∀ i a, le i a a)
    (once : ∀ i l v, Run (S.compute i) l v → (l.map (·.1)).Nodup)
    (mono : ∀ i w w' v, (∀ j, le j (w j) (w' j)) → evalC w (S.compute i) = some v →
      ∃ v', evalC w' (S.compute i) = some v' ∧ le i v v') : ScalaEval.Monotone S le := by
  intro i l v w h hl
  let w0 : Nat → V := fun j => ((l.find? (fun p => p.1 == j)).map (·.2)).getD (w j)
  have key : ∀ (l : List (Nat × V)), (l.map (·.1)).Nodup → ∀ p ∈ l, l.find? (fun q => q.1 == p.1) = some p := by
    intro l
    induction l with
    | nil => intro _ p hp; cases hp
    | cons q l ih =>
      intro hn p hp
      simp only [List.map_cons, List.nodup_cons] at hn
      rcases List.mem_cons.1 hp with rfl | hp
      · simp [List.find?]
      · have : q.1 ≠ p.1 := fun e => hn.1 (e ▸ List.mem_map_of_mem hp)
        rw [List.find?_cons_of_neg (by simpa using this)]
        exact ih hn.2 p hp
  have h0 : ∀ p ∈ l, w0 p.1 = p.2 := by
    intro p hp
    simp only [w0, key l (once i l v h) p hp]; rfl
  refine mono i w0 w v (fun j => ?_) (h.evalC w0 h0)
  simp only [w0]
  cases e : l.find? (fun p => p.1 == j) with
  | none => exact hr j _
  | some p =>
    have h1 := List.mem_of_find?_eq_some e
    have h2 := List.find?_some e
    have h2 : p.1 = j := by simpa using h2
    subst h2
    exact hl p h1

/-! ## Proofs -/

theorem below_start {S : Sys V} {asg : Nat → Option V} {le : Nat → V → V → Prop} {w : Nat → V}
    (L : Lattices S le) (B : StartsAtBottom S) (P : PreSolution S asg le w) : Below S asg le w (start S asg) := by
  refine ⟨fun j hj => ?_, fun j hj => ?_, ⟨fun j p e => (by cases e), fun j p e => (by cases e)⟩, fun e he => (by cases he)⟩
  · show le j ((asg j).getD (S.null j)) (w j)
    cases ha : asg j with
    | some v => exact P.assigned j v ha
    | none =>
      have hs : (start S asg).status j = .uninit := by simp [start, ha]
      rcases hj with ⟨h1, h2 | h2⟩ | h | h
      · show le j (S.null j) (w j)
        rw [B.other j h1 h2]; exact L.bottom j _ h1
      · exact absurd hs h2
      · rw [hs] at h; cases h
      · rw [hs] at h; cases h
  · right
    show (if (asg j).isSome = true then Status.assigned else _) = _
    cases ha : asg j with
    | none => exact absurd ha hj
    | some v => rfl

theorem demands_below {S : Sys V} {asg : Nat → Option V} {le : Nat → V → V → Prop} {w : Nat → V}
    (H : UHyp S asg le w) {s s' : St V} {l : List (Nat × V)} (h : Demands S s l s') :
    Below S asg le w s → Below S asg le w s' ∧ ∀ p ∈ l, le p.1 p.2 (w p.1) := by
  induction h with
  | nil => intro h; exact ⟨h, by simp⟩
  | @cons s s1 s2 i v l fuel e _ ih =>
    intro h
    have := get_below H fuel i s h
    rw [e] at this
    obtain ⟨h1, h2, h3⟩ := this
    obtain ⟨a, b⟩ := ih h1
    refine ⟨a, fun p hp => ?_⟩
    rcases List.mem_cons.1 hp with rfl | hp
    · exact h2
    · exact b p hp

/-- Whatever is demanded, in whatever order: no value that is returned is above any solution of
the equations. -/
theorem C44_below_every_solution (S : Sys V) (asg : Nat → Option V) (le : Nat → V → V → Prop)
    (L : Lattices S le) (B : StartsAtBottom S) (M : ScalaEval.Monotone S le)
    (w : Nat → V) (P : PreSolution S asg le w) (l : List (Nat × V)) (s : St V)
    (h : Demands S (start S asg) l s) : ∀ p ∈ l, le p.1 p.2 (w p.1) :=
  (demands_below ⟨L.trans, L.bottom, B.collection, M, P.equation⟩ h (below_start L B P)).2

/-! ### Termination -/

theorem link_start {S : Sys V} {D : Nat → Prop} (asg : Nat → Option V) : Link S D (start S asg) := by
  refine ⟨fun j => ?_, fun _ _ => rfl, fun j h => absurd rfl h, fun j h => absurd rfl h, fun j h => (by cases h), fun r h => (by cases h)⟩
  show (if (asg j).isSome = true then Status.assigned else .uninit) ≠ .uneval
  split <;> simp

theorem demands_link {S : Sys V} {D : Nat → Prop} (hD : Closed S D)
    {s s' : St V} {l : List (Nat × V)} (h : Demands S s l s') : (∀ p ∈ l, D p.1) → Link S D s → Link S D s' := by
  induction h with
  | nil => intro _ h; exact h
  | @cons s s1 s2 i v l fuel e _ ih =>
    intro hl h
    have := get_link (rank := fun _ _ => 0) hD fuel i s (hl _ (List.mem_cons_self ..)) h
    rw [e] at this
    exact ih (fun p hp => hl p (by simp [hp])) this.1

/-- Every demand comes to an end: if there are finitely many instances (those in `D`) and the
values that `less` admits as later values of an instance have bounded ranks, then with enough fuel a
demand gives one outcome, whatever was demanded before.  (No equation needs to be monotone.) -/
theorem C44_terminates (S : Sys V) (asg : Nat → Option V) (D : List Nat) (hD : Closed S (· ∈ D))
    (rank : Nat → V → Nat) (N : Nat) (hN : ∀ i v, rank i v ≤ N)
    (heq : ∀ i a b, S.equal i a b = true → rank i a = rank i b)
    (hless : ∀ i a b, ¬ S.equal i a b = true → S.less i a b = true → rank i a < rank i b)
    (l : List (Nat × V)) (s : St V) (h : Demands S (start S asg) l s) (hl : ∀ p ∈ l, p.1 ∈ D)
    (i : Nat) (hi : i ∈ D) :
    ∃ o, o ≠ .nofuel ∧ ∃ fuel, ∀ f, fuel ≤ f → get S f i s = o := by
  have k := demands_link hD h hl (link_start asg)
  obtain ⟨o, ho, F, hF⟩ := get_halts hD (l := D) (fun _ h => h) ⟨heq, hless⟩ hN _ i s hi k (Nat.lt_succ_self _)
  exact ⟨o, ho, F, fun f hf => hF f F hf (Nat.le_refl _)⟩

/-- The bookkeeping of cycles never fails: a demand ends with a value or with one of the three
exceptions that tell the user of an error in the program. -/
theorem C44_no_internal_error (S : Sys V) (hg : S.guard = false) (asg : Nat → Option V) (D : Nat → Prop)
    (hD : Closed S D) (l : List (Nat × V)) (s : St V) (h : Demands S (start S asg) l s) (hl : ∀ p ∈ l, D p.1)
    (i : Nat) (hi : D i) (f : Nat) (x : Exc) (s' : St V) (hx : get S f i s = .exc x s') :
    x = .undefined ∨ x = .cyclic ∨ x = .nonMonotonic := by
  have aux := get_link (rank := fun _ _ => 0) hD f i s hi (demands_link hD h hl (link_start asg))
  rw [hx] at aux
  rcases aux with e | e | e | ⟨e, e'⟩
  · exact .inl e
  · exact .inr (.inl e)
  · exact .inr (.inr e)
  · rw [hg] at e'; cases e'

/-! ### Least fixpoint -/

theorem inv_start {S : Sys V} {D : Nat → Prop} (asg : Nat → Option V) : Inv S D (start S asg) [] (fun _ => 0) 1 := by
  have hs : ∀ j, (start S asg).status j = .assigned ∨ (start S asg).status j = .uninit := by
    intro j
    show (if (asg j).isSome = true then Status.assigned else .uninit) = _ ∨ (if (asg j).isSome = true then Status.assigned else .uninit) = _
    split <;> simp
  refine ⟨⟨fun j e => ?_, fun j e => ?_, fun _ _ => rfl, fun _ _ => rfl, fun _ _ => Nat.one_pos, fun j p e => (by cases e), fun j p e => (by cases e), fun r e => (by cases e)⟩, rfl, trivial, fun j e => ?_⟩
  all_goals rcases hs j with h | h <;> rw [h] at e <;> cases e

theorem vinv_start {S : Sys V} {le : Nat → V → V → Prop} (asg : Nat → Option V) (B : StartsAtBottom S) :
    VInv S le (start S asg) [] := by
  have hs : ∀ j, (start S asg).status j = .assigned ∨ ((start S asg).status j = .uninit ∧ asg j = none) := by
    intro j
    show (if (asg j).isSome = true then Status.assigned else .uninit) = _ ∨ ((if (asg j).isSome = true then Status.assigned else .uninit) = _ ∧ _)
    cases asg j <;> simp
  refine ⟨fun F hF => (by cases hF), fun j e hc => ?_, fun j e => ?_, fun _ j e => ?_⟩
  · rcases hs j with h | h
    · rw [h] at e; cases e
    · show (asg j).getD (S.null j) = _
      rw [h.2]; exact B.other j hc.1 hc.2
  all_goals rcases hs j with h | ⟨h, _⟩ <;> rw [h] at e <;> cases e

theorem Run.reads {w : Nat → V} {c : Comp V} {l : List (Nat × V)} {v : V} (h : Run c l v) :
    (∀ p ∈ l, w p.1 = p.2) → ∀ j, Reads w c j → ∃ p ∈ l, p.1 = j := by
  induction h with
  | ret => intro _ j hj; cases hj
  | read hr ih =>
    intro hl j hj
    cases hj with
    | here => exact ⟨_, List.mem_cons_self .., rfl⟩
    | later hj =>
      have e := hl _ (List.mem_cons_self ..)
      simp only at e
      rw [e] at hj
      obtain ⟨p, hp, e⟩ := ih (fun p hp => hl p (List.mem_cons_of_mem _ hp)) j hj
      exact ⟨p, List.mem_cons_of_mem _ hp, e⟩

theorem demands_inv {S : Sys V} {D : Nat → Prop} {le : Nat → V → V → Prop} (w : Wf S) (hD : Closed S D)
    {s s' : St V} {l : List (Nat × V)} (h : Demands S s l s') : (∀ p ∈ l, D p.1) →
    ∀ b clk, Inv S D s [] b clk → VInv S le s [] → ∃ b' clk', Step S D le s [] b clk s' b' clk' ∧
      ∀ p ∈ l, s'.value p.1 = p.2 ∧ Done s' p.1 := by
  induction h with
  | nil => intro _ b clk h hv; exact ⟨b, clk, ⟨h, hv, .refl _, fun _ _ => rfl, Nat.le_refl _⟩, by simp⟩
  | @cons s s1 s2 i v l fuel e _ ih =>
    intro hl b clk h hv
    have := get_spec (le := le) w hD fuel _ _ [] b clk (hl _ (List.mem_cons_self ..)) h hv
    rw [e] at this
    obtain ⟨b1, clk1, h1, h2, h3, h4⟩ := this
    obtain ⟨b2, clk2, k1, k2⟩ := ih (fun p hp => hl p (List.mem_cons_of_mem _ hp)) b1 clk1 h1.inv h1.vinv
    refine ⟨b2, clk2, h1.trans k1, fun p hp => ?_⟩
    rcases List.mem_cons.1 hp with rfl | hp
    · refine ⟨(k1.evo.value _ h3).trans h2.symm, ?_⟩
      simp only [Done, k1.evo.status _ h3]
      cases e : s1.status i with
      | uninit => exact absurd e h3
      | uneval => exact absurd e (h1.inv.core.noUneval _)
      | cycle => obtain ⟨_, _, e, _⟩ := h4 e; cases e
      | evaluated => exact .inl rfl
      | assigned => exact .inr rfl
    · exact k2 p hp

theorem wf_guarded {S : Sys V} {le : Nat → V → V → Prop} (L : Lattices S le) (B : StartsAtBottom S) : Wf S.guarded :=
  ⟨rfl, L.equal, B.collection⟩

/-- If no demand skips an instance when it looks for the members of a cycle (`S.guarded`; then the
code gives the very same values), then each returned value is the final value of the instance, the
final values satisfy their equations (which read only final values), assigned values are kept, and if
the equations are monotone, no final value is above any solution of the equations. -/
theorem C44_least_fixpoint_partial (S : Sys V) (hg : S.guard = false) (asg : Nat → Option V)
    (le : Nat → V → V → Prop) (L : Lattices S le) (B : StartsAtBottom S) (D : Nat → Prop)
    (hD : Closed S D) (l : List (Nat × V)) (s : St V) (h : Demands S.guarded (start S asg) l s)
    (hl : ∀ p ∈ l, D p.1) :
    Demands S (start S asg) l s ∧
    (∀ p ∈ l, s.value p.1 = p.2 ∧ Done s p.1) ∧
    (∀ i, asg i = none → Done s i → evalC s.value (S.compute i) = some (s.value i) ∧
      ∀ j, Reads s.value (S.compute i) j → Done s j) ∧
    (∀ i v, asg i = some v → s.value i = v ∧ Done s i) ∧
    (ScalaEval.Monotone S le → ∀ w, PreSolution S asg le w → ∀ i, Done s i → le i (s.value i) (w i)) := by
  have hk := Demands.guarded hg h
  obtain ⟨b, clk, k, kl⟩ := demands_inv (le := le) (wf_guarded L B) (D := D) hD h hl (fun _ => 0) 1
    (inv_start (S := S.guarded) asg) (vinv_start (S := S.guarded) asg ⟨B.collection, B.other⟩)
  refine ⟨hk, kl, fun i ha hi => ?_, fun i v ha => ?_, fun M w P i hi => ?_⟩
  · have hn : s.status i = .evaluated := by
      rcases hi with e | e
      · exact e
      · have : (if (asg i).isSome = true then Status.assigned else .uninit) = .assigned := k.evo.asgd i e
        rw [ha] at this; simp at this
    obtain ⟨l', r, hr⟩ := k.vinv.eqn i hn
    refine ⟨r.evalC s.value fun p hp => (hr p hp).1.symm, fun j hj => ?_⟩
    obtain ⟨p, hp, rfl⟩ := Run.reads r (fun p hp => (hr p hp).1.symm) j hj
    exact (hr p hp).2
  · have e : (start S asg).status i = .assigned := by
      show (if (asg i).isSome = true then Status.assigned else .uninit) = _
      rw [ha]; rfl
    have e' : (start S asg).value i = v := by
      show (asg i).getD (S.null i) = v
      rw [ha]; rfl
    have hn : (start S asg).status i ≠ .uninit := by rw [e]; simp
    exact ⟨(k.evo.value i hn).trans e', .inr ((k.evo.status i hn).trans e)⟩
  · have := (demands_below ⟨L.trans, L.bottom, B.collection, M, P.equation⟩ hk (below_start L B P)).1
    refine this.val i ?_
    rcases hi with e | e
    · exact .inr (.inl e)
    · exact .inr (.inr e)

/-- If no demand skips an instance, then with monotone equations evaluation fails only because an equation is
undefined or because an instance that is not circular depends on itself. -/
theorem C44_no_false_alarm_partial (S : Sys V) (hg : S.guard = false) (asg : Nat → Option V)
    (le : Nat → V → V → Prop) (L : Lattices S le) (B : StartsAtBottom S) (M : ScalaEval.Monotone S le)
    (D : Nat → Prop) (hD : Closed S D) (l : List (Nat × V)) (s : St V)
    (h : Demands S.guarded (start S asg) l s) (hl : ∀ p ∈ l, D p.1) (i : Nat) (hi : D i) (f : Nat)
    (x : Exc) (s' : St V) (hx : get S.guarded f i s = .exc x s') (hs : x ≠ .skipped) :
    get S f i s = .exc x s' ∧ (x = .undefined ∨ x = .cyclic) := by
  obtain ⟨b, clk, k, kl⟩ := demands_inv (le := le) (wf_guarded L B) (D := D) hD h hl (fun _ => 0) 1
    (inv_start (S := S.guarded) asg) (vinv_start (S := S.guarded) asg ⟨B.collection, B.other⟩)
  refine ⟨?_, ?_⟩
  · rcases get_sim hg f i s with e | ⟨t, e⟩ | e
    · rw [← e]; exact hx
    · rw [e] at hx; cases hx; exact absurd rfl hs
    · rw [e] at hx; cases hx
  · have := get_spec (le := le) (wf_guarded L B) hD f i s [] b clk hi k.inv k.vinv
    rw [hx] at this
    rcases this with e | e | e | ⟨_, e⟩
    · exact .inl e
    · exact .inr e
    · exact absurd e hs
    · exact absurd ⟨L.refl, L.trans, L.bottom, L.less, M⟩ e

/-! ### Concrete cases -/

/-- All instances circular, with the lattice of Booleans under "or". -/
def orSys (c : Nat → Comp Bool) : Sys Bool where
  circular := fun _ => true
  collection := fun _ => none
  bottom := fun _ => false
  null := fun _ => false
  equal := fun _ a b => a == b
  less := fun _ a b => !a && b
  compute := c

def orLe : Nat → Bool → Bool → Prop := fun _ a b => a = true → b = true

theorem or_lattices (c) : Lattices (orSys c) orLe where
  refl := fun _ _ h => h
  trans := fun _ _ _ _ h h' e => h' (h e)
  bottom := fun _ _ _ e => nomatch e
  less := fun _ a b _ h n => by
    revert h n; cases a <;> cases b <;> simp [orSys, orLe]
  equal := fun _ a b => by simp [orSys]

theorem or_bottom (c) : StartsAtBottom (orSys c) := ⟨fun _ _ _ e => (nomatch e), fun _ _ _ => rfl⟩

theorem run_ret {c v : V} {l} (h : Run (.ret c) l v) : l = [] ∧ v = c := by cases h; exact ⟨rfl, rfl⟩
theorem run_read {i : Nat} {v : V} {g : V → Comp V} {l} (h : Run (.read i g) l v) :
    ∃ x l', l = (i, x) :: l' ∧ Run (g x) l' v := by cases h; exact ⟨_, _, rfl, ‹_›⟩

/-- `0` is `1`; `1` is `0 or 2`; `2` is true. -/
def loopComp : Nat → Comp Bool
  | 0 => .read 1 fun a => .ret a
  | 1 => .read 0 fun a => .read 2 fun b => .ret (a || b)
  | 2 => .ret true
  | _ => .ret false

theorem loop_closed : Closed (orSys loopComp) (· ∈ [0, 1, 2]) := by
  intro i hi
  simp only [List.mem_cons, List.not_mem_nil, or_false] at hi
  rcases hi with rfl | rfl | rfl
  · exact .read (by simp) fun _ => .ret _
  · exact .read (by simp) fun _ => .read (by simp) fun _ => .ret _
  · exact .ret _

theorem loop_mono : ScalaEval.Monotone (orSys loopComp) orLe := by
  intro i l v w h hl
  have : ∀ (i : Nat) l v, Run (loopComp i) l v → (∀ p ∈ l, orLe p.1 p.2 (w p.1)) →
    ∃ v', evalC w (loopComp i) = some v' ∧ orLe i v v' := by
    intro i l v h hl
    match i, h with
    | 0, h =>
      obtain ⟨a, l1, rfl, h1⟩ := run_read h
      obtain ⟨rfl, rfl⟩ := run_ret h1
      exact ⟨_, rfl, hl (1, _) (by simp)⟩
    | 1, h =>
      obtain ⟨a, l1, rfl, h1⟩ := run_read h
      obtain ⟨b, l2, rfl, h2⟩ := run_read h1
      obtain ⟨rfl, rfl⟩ := run_ret h2
      refine ⟨_, rfl, fun e => ?_⟩
      have h0 := hl (0, a) (by simp)
      have h1 := hl (2, b) (by simp)
      simp only [orLe, Bool.or_eq_true] at *
      exact e.imp h0 h1
    | 2, h =>
      obtain ⟨rfl, rfl⟩ := run_ret h
      exact ⟨_, rfl, id⟩
    | n + 3, h =>
      obtain ⟨rfl, rfl⟩ := run_ret h
      exact ⟨_, rfl, id⟩
  exact this i l v h hl

/-- The hypotheses of the theorems above are met, with a cycle that takes more than one pass. -/
example : ∃ s, Demands (orSys loopComp).guarded (start (orSys loopComp) fun _ => none) [(0, true), (1, true)] s ∧
    Demands (orSys loopComp) (start (orSys loopComp) fun _ => none) [(0, true), (1, true)] s ∧
    PreSolution (orSys loopComp) (fun _ => none) orLe (fun _ => true) := by
  refine ⟨_, .cons 20 rfl (.cons 20 rfl (.nil _)), .cons 20 rfl (.cons 20 rfl (.nil _)), fun _ _ e => (nomatch e), fun _ _ _ _ _ => rfl⟩

/-- Ranks as in `C44_terminates`. -/
example : (∀ (i : Nat) v, (fun (_ : Nat) (v : Bool) => v.toNat) i v ≤ 1) ∧
    ∀ (i : Nat) a b, ¬ (orSys loopComp).equal i a b = true → (orSys loopComp).less i a b = true → a.toNat < b.toNat := by
  refine ⟨fun _ v => by cases v <;> simp, fun _ a b => by cases a <;> cases b <;> simp [orSys]⟩

/-- An equation that is undefined; evaluation fails also without skipping. -/
example : ∃ s', get (orSys fun _ => .read 1 fun _ => .undef).guarded 5 0 (start (orSys fun _ => .read 1 fun _ => .undef) fun _ => none) = .exc .undefined s' :=
  ⟨_, rfl⟩

/-- `0` reads `1` and is true; `1` is `2`; `2` is `3`; `3` is `2 or 0`. -/
def skipComp : Nat → Comp Bool
  | 0 => .read 1 fun _ => .ret true
  | 1 => .read 2 fun a => .ret a
  | 2 => .read 3 fun a => .ret a
  | 3 => .read 2 fun a => .read 0 fun b => .ret (a || b)
  | _ => .ret false

theorem skip_mono : ScalaEval.Monotone (orSys skipComp) orLe := by
  intro i l v w h hl
  have : ∀ (i : Nat) l v, Run (skipComp i) l v → (∀ p ∈ l, orLe p.1 p.2 (w p.1)) →
    ∃ v', evalC w (skipComp i) = some v' ∧ orLe i v v' := by
    intro i l v h hl
    match i, h with
    | 0, h =>
      obtain ⟨a, l1, rfl, h1⟩ := run_read h
      obtain ⟨rfl, rfl⟩ := run_ret h1
      exact ⟨_, rfl, id⟩
    | 1, h =>
      obtain ⟨a, l1, rfl, h1⟩ := run_read h
      obtain ⟨rfl, rfl⟩ := run_ret h1
      exact ⟨_, rfl, hl (2, _) (by simp)⟩
    | 2, h =>
      obtain ⟨a, l1, rfl, h1⟩ := run_read h
      obtain ⟨rfl, rfl⟩ := run_ret h1
      exact ⟨_, rfl, hl (3, _) (by simp)⟩
    | 3, h =>
      obtain ⟨a, l1, rfl, h1⟩ := run_read h
      obtain ⟨b, l2, rfl, h2⟩ := run_read h1
      obtain ⟨rfl, rfl⟩ := run_ret h2
      refine ⟨_, rfl, fun e => ?_⟩
      have h0 := hl (2, a) (by simp)
      have h1 := hl (0, b) (by simp)
      simp only [orLe, Bool.or_eq_true] at *
      exact e.imp h0 h1
    | n + 4, h =>
      obtain ⟨rfl, rfl⟩ := run_ret h
      exact ⟨_, rfl, id⟩
  exact this i l v h hl

/-- In general the values do not satisfy their equations, even though the equations are monotone, all
instances are circular and all start at the bottom: the search for the members of a cycle stops at the first instance on
the stack that is already in it, and leaves out those further down. -/
theorem C44_least_fixpoint_refuted : ¬ ∀ (S : Sys Bool) (asg : Nat → Option Bool) (le : Nat → Bool → Bool → Prop),
    S.guard = false → Lattices S le → StartsAtBottom S → ScalaEval.Monotone S le → ∀ l s, Demands S (start S asg) l s →
    ∀ i, asg i = none → Done s i → evalC s.value (S.compute i) = some (s.value i) := by
  intro H
  have h := H (orSys skipComp) (fun _ => none) orLe rfl (or_lattices _) (or_bottom _) skip_mono
    [(0, true), (1, false), (2, true)] _ (.cons 30 rfl (.cons 30 rfl (.cons 30 rfl (.nil _)))) 1 rfl (.inl rfl)
  exact absurd h (by decide)

/-- Booleans under "and": the bottom is true, but the uninitialised field reads as false. -/
def andSys (c : Nat → Comp Bool) : Sys Bool where
  circular := fun _ => true
  collection := fun _ => none
  bottom := fun _ => true
  null := fun _ => false
  equal := fun _ a b => a == b
  less := fun _ a b => a && !b
  compute := c

def andLe : Nat → Bool → Bool → Prop := fun _ a b => b = true → a = true

theorem and_lattices (c) : Lattices (andSys c) andLe where
  refl := fun _ _ h => h
  trans := fun _ _ _ _ h h' e => h (h' e)
  bottom := fun _ _ _ e => rfl
  less := fun _ a b _ h n => by
    revert h n; cases a <;> cases b <;> simp [andSys, andLe]
  equal := fun _ a b => by simp [andSys]

/-- `0` is `1`; `1` is `0 and 1`. -/
def nullComp : Nat → Comp Bool
  | 0 => .read 1 fun a => .ret a
  | 1 => .read 0 fun a => .read 1 fun b => .ret (a && b)
  | _ => .ret true

theorem null_mono : ScalaEval.Monotone (andSys nullComp) andLe := by
  intro i l v w h hl
  have : ∀ (i : Nat) l v, Run (nullComp i) l v → (∀ p ∈ l, andLe p.1 p.2 (w p.1)) →
    ∃ v', evalC w (nullComp i) = some v' ∧ andLe i v v' := by
    intro i l v h hl
    match i, h with
    | 0, h =>
      obtain ⟨a, l1, rfl, h1⟩ := run_read h
      obtain ⟨rfl, rfl⟩ := run_ret h1
      exact ⟨_, rfl, hl (1, _) (by simp)⟩
    | 1, h =>
      obtain ⟨a, l1, rfl, h1⟩ := run_read h
      obtain ⟨b, l2, rfl, h2⟩ := run_read h1
      obtain ⟨rfl, rfl⟩ := run_ret h2
      refine ⟨_, rfl, fun e => ?_⟩
      have h0 := hl (0, a) (by simp)
      have h1 := hl (1, b) (by simp)
      simp only [andLe, Bool.and_eq_true] at *
      exact ⟨h0 e.1, h1 e.2⟩
    | n + 2, h =>
      obtain ⟨rfl, rfl⟩ := run_ret h
      exact ⟨_, rfl, id⟩
  exact this i l v h hl

/-- Nor are the values the least ones if the uninitialised field does not read as the bottom of the lattice
(here even without skipping). -/
theorem C44_null_refuted : ¬ ∀ (S : Sys Bool) (asg : Nat → Option Bool) (le : Nat → Bool → Bool → Prop),
    S.guard = false → Lattices S le → (∀ i v, S.circular i = true → S.collection i = some v → v = S.bottom i) →
    ScalaEval.Monotone S le → ∀ l s, Demands S.guarded (start S asg) l s → Demands S (start S asg) l s →
    ∀ w, PreSolution S asg le w → ∀ p ∈ l, le p.1 p.2 (w p.1) := by
  intro H
  have h := H (andSys nullComp) (fun _ => none) andLe rfl (and_lattices _) (fun _ _ _ e => nomatch e) null_mono
    [(0, false), (1, false)] _ (.cons 30 rfl (.cons 30 rfl (.nil _))) (.cons 30 rfl (.cons 30 rfl (.nil _))) (fun _ => true)
    ⟨fun _ _ e => (nomatch e), fun i _ v e => ?_⟩ (0, false) (by simp)
  · exact absurd (h rfl) (by decide)
  · intro _
    match i, e with
    | 0, e => exact (Option.some.inj e).symm
    | 1, e => exact (Option.some.inj e).symm
    | n + 2, e => exact (Option.some.inj e).symm

/-! ## C56: after a failed demand -/

/-- A client makes demands one after the other, some of which may fail (it catches the exceptions). -/
inductive Attempts (S : Sys V) : St V → St V → Prop
  | nil (s) : Attempts S s s
  | value {s s1 s2 i v} (fuel : Nat) : get S fuel i s = .ok v s1 → Attempts S s1 s2 → Attempts S s s2
  | failure {s s1 s2 i x} (fuel : Nat) : get S fuel i s = .exc x s1 → Attempts S s1 s2 → Attempts S s s2

theorem attempts_held {S : Sys V} {i : Option Nat} (hi : ∀ k, i = some k → S.circular k = false) {s s' : St V}
    (h : Attempts S s s') : Held S i s → Held S i s' := by
  induction h with
  | nil => exact id
  | @value s s1 s2 j v fuel e _ ih =>
    intro h
    have := get_ends hi fuel j s h
    rw [e] at this
    exact ih this.1
  | @failure s s1 s2 j x fuel e _ ih =>
    intro h
    have := get_ends hi fuel j s h
    rw [e] at this
    exact ih this

/-- Once the demand of an instance that is not circular has failed, it fails forever, whatever else is
demanded in between: it never returns a value.  (Missing: it fails as before, and likewise for circular
instances; both are refuted below.) -/
theorem C56_failure_persists_partial (S : Sys V) (asg : Nat → Option V) (s : St V) (h : Attempts S (start S asg) s)
    (i : Nat) (hi : S.circular i = false) (f : Nat) (x : Exc) (s' : St V) (hx : get S f i s = .exc x s')
    (s'' : St V) (h' : Attempts S s' s'') (f' : Nat) : get S (f' + 1) i s'' = .exc .cyclic s'' := by
  have h0 : Held S none (start S asg) := ⟨⟨fun _ _ e => (nomatch e), fun _ _ e => (nomatch e)⟩, fun _ e => (nomatch e)⟩
  have h1 := attempts_held (i := none) (fun _ e => nomatch e) h h0
  have h2 := attempts_held (fun _ e => by cases e; exact hi) h' (get_fails hi h1.1 hx)
  have hs : s''.status i = .cycle := h2.2 i rfl
  have e : initValue S i s'' = s'' := by
    simp only [initValue]
    cases S.collection i with
    | none => rfl
    | some v => simp only [hs]; rfl
  simp only [ScalaEval.get, e, hs, detectedCycle, hi]
  rfl

/-- Nothing is circular, and instance 0 is undefined; the others read 0. -/
def undefSys (b : Bool) : Sys Bool where
  circular := fun _ => b
  collection := fun _ => none
  bottom := fun _ => false
  null := fun _ => false
  equal := fun _ a b => a == b
  less := fun _ a b => !a && b
  compute := fun i => if i = 0 then .undef else .read 0 fun a => .ret a

/-- The hypotheses are met: 1 fails because 0 does, then 0 fails. -/
example : ∃ s s' s'', Attempts (undefSys false) (start (undefSys false) fun _ => none) s ∧
    get (undefSys false) 5 1 s = .exc .undefined s' ∧ Attempts (undefSys false) s' s'' :=
  ⟨_, _, _, .nil _, rfl, .failure (i := 0) (x := .cyclic) 5 rfl (.nil _)⟩

/-- Repeating a failed demand does not give the same failure: here the first reports an
undefined attribute, the second a cycle, and there is no cycle. -/
theorem C56_same_failure_refuted : ¬ ∀ (S : Sys Bool) (asg : Nat → Option Bool) (f i : Nat) (x : Exc) (s' : St Bool),
    get S f i (start S asg) = .exc x s' → ∃ s'', get S f i s' = .exc x s'' := by
  intro H
  obtain ⟨s'', h⟩ := H (undefSys false) (fun _ => none) 5 0 .undefined _ rfl
  have h2 : ∀ s, s.status 0 = .cycle → get (undefSys false) 5 0 s = .exc .cyclic s := by
    intro s hs
    simp [ScalaEval.get, initValue, undefSys, hs, detectedCycle]
  rw [h2 _ rfl] at h
  cases h

/-- The second demand may even return a value, although the equation has none. -/
theorem C56_no_value_refuted : ¬ ∀ (S : Sys Bool) (asg : Nat → Option Bool) (f i : Nat) (x : Exc) (s' : St Bool),
    get S f i (start S asg) = .exc x s' → (∀ w : Nat → Bool, evalC w (S.compute i) = none) →
    ∀ v s'', get S f i s' ≠ .ok v s'' := by
  intro H
  exact H (undefSys true) (fun _ => none) 5 0 .undefined _ rfl (fun _ => rfl) false _ rfl

end Aps.Props
