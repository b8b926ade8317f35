import Verif.Proofs.DfaFinite
set_option linter.unusedVariables false
/-! # C63: the fiber automaton -/
namespace Aps.Props
open Aps Aps.Dfa Aps.Dfa.Spec

theorem fiberTree_rep {E : List Edge} {Ω fields : List Nat} {max fuel : Nat} {D : St} (h : fiberTree E Ω fields max fuel = .ok D) :
    ∃ g, Rep g E ∧ makeDFA g Ω fields max fuel = .ok D := by
  unfold fiberTree at h
  obtain ⟨g, hg, h⟩ := Res.bind_eq_ok.1 h
  exact ⟨g, fun s t l => by rw [addEdges_rep hg]; simp, h⟩

theorem fiberTree_total {E : List Edge} (hE : InRange E) (Ω fields : List Nat) (max fuel : Nat) :
    ∃ g, Rep g E ∧ fiberTree E Ω fields max fuel = makeDFA g Ω fields max fuel := by
  obtain ⟨g, hg⟩ := addEdges_total (fun _ => []) hE
  refine ⟨g, fun s t l => by rw [addEdges_rep hg]; simp, ?_⟩
  unfold fiberTree
  rw [hg, Res.ok_bind]

/-- C63 (termination): the construction comes to an end: a tree, or the error "more than … DFA nodes". -/
theorem C63_terminates (E : List Edge) (hE : InRange E) (Ω fields : List Nat) (max fuel : Nat) (hf : max + E.length + 1 < fuel) :
    (∃ D, fiberTree E Ω fields max fuel = .ok D) ∨ fiberTree E Ω fields max fuel = .stop := by
  obtain ⟨g, hg, he⟩ := fiberTree_total hE Ω fields max fuel
  rw [he]
  rcases makeDFA_ends hg hf Ω fields with ⟨D, hD, -⟩ | h
  · exact .inl ⟨D, hD⟩
  · exact .inr h

/-- C63 (finite): for every automaton there is a table size that is large enough, and every larger one is too. -/
theorem C63_enough (E : List Edge) (hE : InRange E) (Ω fields : List Nat) (hn : fields.Nodup) :
    ∃ K, ∀ max fuel, K ≤ max → max + E.length + 1 < fuel → ∃ D, fiberTree E Ω fields max fuel = .ok D := by
  obtain ⟨g, hg⟩ := addEdges_total (fun _ => []) hE
  have hr : Rep g E := fun s t l => by rw [addEdges_rep hg]; simp
  obtain ⟨K, hK⟩ := makeDFA_enough hr Ω fields hn
  refine ⟨K, fun max fuel h1 h2 => ?_⟩
  unfold fiberTree
  rw [hg, Res.ok_bind]
  exact hK max fuel h1 h2

/-- C63 (exact): every node of the tree is one fiber; its set of states is the set of the states that accept the fiber, its
direction is that of the fiber, and all the fibers it ends with are fibers of something. -/
theorem C63_exact (E : List Edge) (Ω fields : List Nat) (max fuel : Nat) (D : St) (h : fiberTree E Ω fields max fuel = .ok D)
    (i : Nat) (n : Node) (hn : D.nodes[i]? = some n) :
    ∃ w, (∀ v, Word D.nodes i v ↔ v = w) ∧ (∀ q, q ∈ n.ns ↔ Acc E Ω q w) ∧ n.fwd = isForward w ∧ Live E Ω w ∧ Over fields w := by
  obtain ⟨g, hg, hD⟩ := fiberTree_rep h
  obtain ⟨hinv, -⟩ := makeDFA_spec hg hD
  obtain ⟨w, h1, h2, h3, h4⟩ := hinv.word (i + 1) i (Nat.lt_succ_self i) hn
  exact ⟨w, fun v => ⟨fun hv => word_det hv h1, fun hv => hv ▸ h1⟩, h2.1, h2.2, h3, h4⟩

/-- C63 (complete): every fiber over the fields, of which every part it ends with is a fiber of something, is in the tree: some
node has exactly the states that accept it, and its direction. -/
theorem C63_complete (E : List Edge) (Ω fields : List Nat) (max fuel : Nat) (D : St) (h : fiberTree E Ω fields max fuel = .ok D)
    (w : List Lab) (hw : Live E Ω w) (ho : Over fields w) :
    ∃ (i : Nat) (n : Node), D.nodes[i]? = some n ∧ (∀ q, q ∈ n.ns ↔ Acc E Ω q w) ∧ n.fwd = isForward w := by
  obtain ⟨g, hg, hD⟩ := fiberTree_rep h
  obtain ⟨hinv, hall⟩ := makeDFA_spec hg hD
  obtain ⟨i, n, h1, h2⟩ := complete hinv hall hw ho
  exact ⟨i, n, h1, h2⟩

/-- C63 (the fiber set of a declaration): exactly the nodes, but for the base, whose fiber both nodes of the declaration
accept, by direction. -/
theorem C63_fiber_set (E : List Edge) (Ω fields : List Nat) (max fuel : Nat) (D : St) (h : fiberTree E Ω fields max fuel = .ok D)
    (q : Nat) (fwd : Bool) (i : Nat) :
    i ∈ fiberSet D q fwd ↔ 1 ≤ i ∧ ∃ w, Word D.nodes i w ∧ Acc E Ω q w ∧ Acc E Ω (q + 1) w ∧ isForward w = fwd := by
  rw [fiberSet_mem]
  constructor
  · rintro ⟨n, h1, h2, h3, h4, h5⟩
    obtain ⟨w, e1, e2, e3, -⟩ := C63_exact E Ω fields max fuel D h i n h2
    exact ⟨h1, w, (e1 w).2 rfl, (e2 _).1 h3, (e2 _).1 h4, e3.symm.trans h5⟩
  · rintro ⟨h1, w, h2, h3, h4, h5⟩
    have : ∃ n, D.nodes[i]? = some n := by
      cases h2 with
      | base h _ => exact ⟨_, h⟩
      | cons h _ _ _ => exact ⟨_, h⟩
    obtain ⟨n, hn⟩ := this
    obtain ⟨w', e1, e2, e3, -⟩ := C63_exact E Ω fields max fuel D h i n hn
    have := (e1 w).1 h2
    subst this
    exact ⟨n, h1, hn, (e2 _).2 h3, (e2 _).2 h4, e3.trans h5⟩

/-- C63 (no fiber is missed): a fiber of the declaration with the (even) node `q` is, up to the states that accept it, in its
fiber set, unless it is the base. -/
theorem C63_has_fiber (E : List Edge) (Ω fields : List Nat) (max fuel : Nat) (D : St) (h : fiberTree E Ω fields max fuel = .ok D)
    (q : Nat) (hq : q % 2 = 0) (l : Lab) (w : List Lab) (hw : Live E Ω w) (ho : Over fields (l :: w)) (h1 : Acc E Ω q (l :: w))
    (h2 : Acc E Ω (q + 1) (l :: w)) :
    (∃ i n, i ∈ fiberSet D q (isForward (l :: w)) ∧ D.nodes[i]? = some n ∧ ∀ p, p ∈ n.ns ↔ Acc E Ω p (l :: w)) ∨
      ((∀ p, Acc E Ω p (l :: w) ↔ Acc E Ω p []) ∧ isForward (l :: w) = true) := by
  obtain ⟨i, n, e1, e2, e3⟩ := C63_complete E Ω fields max fuel D h (l :: w)
    ⟨⟨q, q + 1, by omega, by omega, h1, h2⟩, hw⟩ ho
  rcases Nat.eq_zero_or_pos i with rfl | hpos
  · right
    obtain ⟨g, hg, hD⟩ := fiberTree_rep h
    obtain ⟨hinv, -⟩ := makeDFA_spec hg hD
    obtain ⟨b, b1, -, -, b4⟩ := hinv.base
    rw [b1] at e1; cases e1
    exact ⟨fun p => (e2 p).symm.trans (b4.1 p), e3.symm.trans b4.2⟩
  · exact .inl ⟨i, n, fiberSet_mem.2 ⟨n, hpos, e1, (e2 _).2 h1, (e2 _).2 h2, e3⟩, e1, e2⟩

/-- C63 (following fields): looking up a fiber, field by field, gives a node with exactly the states that accept it. -/
theorem C63_follow_sound (E : List Edge) (Ω fields : List Nat) (max fuel : Nat) (D : St) (h : fiberTree E Ω fields max fuel = .ok D)
    (w : List Lab) (i : Nat) (hi : follow D w = some i) :
    ∃ n, D.nodes[i]? = some n ∧ (∀ q, q ∈ n.ns ↔ Acc E Ω q w) ∧ n.fwd = isForward w := by
  obtain ⟨g, hg, hD⟩ := fiberTree_rep h
  obtain ⟨n, h1, h2⟩ := follow_sound (makeDFA_spec hg hD).1 hi
  exact ⟨n, h1, h2⟩

/-- C63 (following fields): and it finds every fiber, if no two fields lead from one fiber to the same states. -/
theorem C63_follow_complete (E : List Edge) (Ω fields : List Nat) (max fuel : Nat) (D : St)
    (h : fiberTree E Ω fields max fuel = .ok D) (hd : Distinct E Ω) (w : List Lab) (hw : Live E Ω w) (ho : Over fields w) :
    ∃ i, follow D w = some i := by
  obtain ⟨g, hg, hD⟩ := fiberTree_rep h
  obtain ⟨hinv, hall⟩ := makeDFA_spec hg hD
  exact follow_complete hinv hall hd hw ho

/-! ### a concrete automaton: `f` is read through itself, with a reversed field in front -/

def c63E : List Edge :=
  [⟨4, 6, some ⟨0, false⟩⟩, ⟨5, 7, some ⟨0, false⟩⟩, ⟨6, 4, none⟩, ⟨7, 5, none⟩, ⟨8, 4, some ⟨1, true⟩⟩, ⟨9, 5, some ⟨1, true⟩⟩]
def c63Ω : List Nat := [2, 3, 6, 7]

example : InRange c63E := by unfold InRange c63E; decide

/-- nodes: the base, `f`, `ḡ f`; `f` again is `f` -/
example : (match fiberTree c63E c63Ω [0, 1] 1000 1100 with
    | .ok D => decide (D.nodes.map (·.ns) = [[2, 3, 6, 7], [6, 7, 5, 4], [8, 9]] ∧ fiberSet D 4 true = [1] ∧ fiberSet D 8 false = [2] ∧
        follow D [⟨1, true⟩, ⟨0, false⟩, ⟨0, false⟩, ⟨0, false⟩] = some 2)
    | _ => false) = true := by decide +kernel

example : Live c63E c63Ω [⟨1, true⟩, ⟨0, false⟩] ∧ Over [0, 1] [⟨1, true⟩, ⟨0, false⟩] := by
  have a : Acc c63E c63Ω 4 [⟨0, false⟩] := .step (q' := 6) (by decide) (.fin (by decide))
  have b : Acc c63E c63Ω 5 [⟨0, false⟩] := .step (q' := 7) (by decide) (.fin (by decide))
  exact ⟨⟨⟨8, 9, by decide, by decide, .step (q' := 4) (by decide) a, .step (q' := 5) (by decide) b⟩,
    ⟨4, 5, by decide, by decide, a, b⟩, trivial⟩, by unfold Over; decide⟩

/-- every label of this automaton leads from its own states, so `Distinct` holds -/
example : Distinct c63E c63Ω := by
  have inv : ∀ {q w}, Acc c63E c63Ω q w → ∀ {l v}, w = l :: v → (l = ⟨0, false⟩ → q ≠ 8 ∧ q ≠ 9) ∧ (l = ⟨1, true⟩ → q = 8 ∨ q = 9) ∧
      (l = ⟨0, false⟩ ∨ l = ⟨1, true⟩) := by
    intro q w h
    induction h with
    | fin _ => intro l v hw; cases hw
    | eps he _ ih =>
      intro l v hw
      obtain ⟨a, b, c⟩ := ih hw
      simp only [c63E, List.mem_cons, Edge.mk.injEq, List.not_mem_nil, or_false] at he
      refine ⟨fun h => ?_, fun h => ?_, c⟩
      · have := a h; simp at he; omega
      · have := b h; simp at he; omega
    | step he _ _ =>
      intro l v hw
      cases hw
      simp only [c63E, List.mem_cons, Edge.mk.injEq, List.not_mem_nil, or_false, Option.some.injEq, reduceCtorEq, and_false, false_or] at he
      rcases he with ⟨rfl, rfl, rfl⟩ | ⟨rfl, rfl, rfl⟩ | ⟨rfl, rfl, rfl⟩ | ⟨rfl, rfl, rfl⟩ <;> simp
  rintro w l l' ⟨q, q', -, -, ha, -⟩ hall
  obtain ⟨a, b, c⟩ := inv ha rfl
  obtain ⟨a', b', c'⟩ := inv ((hall q).1 ha) rfl
  rcases c with rfl | rfl <;> rcases c' with rfl | rfl <;> first | rfl | (exfalso; simp at a b a' b'; omega)

/-! ### what is not so -/

/-- `_refuted`: without the hypothesis on the fields, looking up a fiber of something can fail: a transition to an older node is
recorded in a table indexed by the two nodes, so a second field between the same nodes replaces the first. -/
theorem C63_follow_refuted : ∃ (E : List Edge) (Ω fields : List Nat) (D : St) (w : List Lab),
    InRange E ∧ fields.Nodup ∧ fiberTree E Ω fields 1000 1100 = .ok D ∧ Live E Ω w ∧ Over fields w ∧ follow D w = none := by
  let E : List Edge := [⟨2, 2, some ⟨0, false⟩⟩, ⟨3, 3, some ⟨0, false⟩⟩, ⟨2, 2, some ⟨1, false⟩⟩, ⟨3, 3, some ⟨1, false⟩⟩]
  have hE : InRange E := by unfold InRange; decide
  have key : (match fiberTree E [2, 3] [0, 1] 1000 1100 with
    | .ok D => decide (follow D [⟨0, false⟩] = none) | _ => false) = true := by decide +kernel
  cases hD : fiberTree E [2, 3] [0, 1] 1000 1100 with
  | ok D =>
    rw [hD] at key
    refine ⟨E, [2, 3], [0, 1], D, [⟨0, false⟩], hE, by decide, hD, ⟨⟨2, 3, by decide, by decide, ?_, ?_⟩, trivial⟩, by unfold Over; decide,
      of_decide_eq_true key⟩
    · exact .step (q' := 2) (by decide) (.fin (by decide))
    · exact .step (q' := 3) (by decide) (.fin (by decide))
  | ub => rw [hD] at key; cases key
  | stop => rw [hD] at key; cases key
  | nofuel => rw [hD] at key; cases key

/-- `_refuted`: the number of a declaration is not checked against the size of the table: an edge to node 1800 is written
outside it. -/
theorem C63_range_refuted : ∃ (E : List Edge) (Ω fields : List Nat), (∀ e ∈ E, 1 < e.src ∧ 1 < e.dst) ∧
    ∀ max fuel, fiberTree E Ω fields max fuel = .ub :=
  ⟨[⟨1802, 1800, none⟩], [1800, 1801], [], by decide, fun _ _ => rfl⟩

end Aps.Props
