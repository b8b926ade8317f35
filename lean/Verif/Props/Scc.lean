import Verif.Proofs.SccGraph
/-! # C07, C08, C09, C10 — strongly connected components (utilities/scc.c) and the stack (utilities/stack.c) -/
namespace Aps.Props
open Aps.HashTable Aps.Scc

/-- A call of a client of the graph. -/
inductive SccCall
  | vertex (v : Nat)
  | edge (s t : Nat)

/-- Running a history of calls. -/
def runScc (ntp : Nat → Res Nat) : List SccCall → Graph → Res Graph
  | [], g => .ok g
  | .vertex v :: cs, g => do
    let g ← addVertex ntp g v
    runScc ntp cs g
  | .edge s t :: cs, g => do
    let g ← addEdge g s t
    runScc ntp cs g

/-- The vertices a history registers, in order. -/
def vertices : List SccCall → List Nat
  | [] => []
  | .vertex v :: cs => v :: vertices cs
  | .edge _ _ :: cs => vertices cs

/-- The edges a history adds, in order. -/
def edges : List SccCall → List (Nat × Nat)
  | [] => []
  | .vertex _ :: cs => edges cs
  | .edge s t :: cs => (s, t) :: edges cs

/-- No edge call names NULL. -/
def noNullEdge (cs : List SccCall) : Prop := ∀ p ∈ edges cs, p.1 ≠ 0 ∧ p.2 ≠ 0

/-- `g` was built by `scc_graph_initialize(g, n)` followed by the calls `cs`. -/
def Built (ntp : Nat → Res Nat) (n : Nat) (cs : List SccCall) (g : Graph) : Prop :=
  ∃ g₀, initialize' ntp n = .ok g₀ ∧ runScc ntp cs g₀ = .ok g

theorem runScc_inv {ntp : Nat → Res Nat} (hn : NtpOk ntp) (cs : List SccCall) (hc : noNullEdge cs)
    {g g' : Graph} {vs es} (h : GInv g vs es) (e : runScc ntp cs g = .ok g') :
    GInv g' (vs ++ vertices cs) (es ++ edges cs) ∧ g'.n = g.n := by
  induction cs generalizing g vs es with
  | nil => cases e; simpa [vertices, edges] using h
  | cons c cs ih =>
    cases c with
    | vertex v =>
      rw [runScc, Res.bind_eq_ok] at e
      obtain ⟨g1, e1, e⟩ := e
      have h1 := addVertex_inv hn h e1
      have := ih hc h1.1 e
      rw [List.append_assoc] at this
      exact ⟨this.1, this.2.trans h1.2.1⟩
    | edge s t =>
      rw [runScc, Res.bind_eq_ok] at e
      obtain ⟨g1, e1, e⟩ := e
      have hst := hc (s, t) (by simp [edges])
      have h1 := addEdge_inv h hst.1 hst.2 e1
      have := ih (fun p hp => hc p (by simp [edges, hp])) h1.1 e
      rw [List.append_assoc] at this
      exact ⟨this.1, this.2.trans h1.2.1⟩

theorem built_inv {ntp : Nat → Res Nat} (hn : NtpOk ntp) {n cs g} (hc : noNullEdge cs)
    (h : Built ntp n cs g) : GInv g (vertices cs) (edges cs) ∧ g.n = n := by
  obtain ⟨g₀, h0, h1⟩ := h
  have hi := initialize_inv hn h0
  have := runScc_inv hn cs hc hi.1 h1
  exact ⟨by simpa using this.1, this.2.trans hi.2⟩

/-- Specification: `a` can reach `b` along zero or more of the edges `es`. -/
def Reaches (es : List (Nat × Nat)) (a b : Nat) : Prop :=
  Relation.ReflTransGen (fun a b => (a, b) ∈ es) a b

theorem reaches_iff {es : List (Nat × Nat)} {a b : Nat} : Reaches es a b ↔ a = b ∨ PReach es a b := by
  unfold Reaches
  rw [Relation.reflTransGen_iff_eq_or_transGen, eq_comm]

/-- **C07.** On every graph all of whose `n > 0` vertices were registered, `scc_graph_components`
returns; its components list every vertex exactly once and nothing else; and two vertices share a
component exactly when each reaches the other along added edges. -/
theorem C07_components_exact {ntp : Nat → Res Nat} (hn : NtpOk ntp) {n : Nat} {cs : List SccCall} {g : Graph}
    (hc : noNullEdge cs) (h : Built ntp n cs g) (hfull : (vertices cs).length = n) (hpos : 0 < n) :
    ∃ comps, graphComponents g = .ok comps ∧
      (comps.flatten).Nodup ∧ (∀ x, x ∈ comps.flatten ↔ x ∈ vertices cs) ∧ (∀ c ∈ comps, c ≠ []) ∧
      ∀ x ∈ vertices cs, ∀ y ∈ vertices cs,
        ((∃ c ∈ comps, x ∈ c ∧ y ∈ c) ↔ (Reaches (edges cs) x y ∧ Reaches (edges cs) y x)) := by
  obtain ⟨gi, hgn⟩ := built_inv hn hc h
  obtain ⟨comps, e, nd, mem, scc, _⟩ := graphComponents_ok gi (hfull.trans hgn.symm) (by omega)
  refine ⟨comps, e, nd, mem, ?_, ?_⟩
  · intro c hcc
    obtain ⟨v, hv, _⟩ := scc c hcc
    exact List.ne_nil_of_mem hv
  intro x hx y hy
  have tr : ∀ {a b d}, PReach (edges cs) a b → PReach (edges cs) b d → PReach (edges cs) a d := fun h1 h2 => h1.trans h2
  constructor
  · rintro ⟨c, hcc, hxc, hyc⟩
    obtain ⟨v, hv, hs⟩ := scc c hcc
    rw [reaches_iff, reaches_iff]
    rcases (hs x hx).1 hxc with rfl | ⟨h1, h2⟩ <;> rcases (hs y hy).1 hyc with rfl | ⟨h3, h4⟩
    · exact ⟨.inl rfl, .inl rfl⟩
    · exact ⟨.inr h4, .inr h3⟩
    · exact ⟨.inr h1, .inr h2⟩
    · exact ⟨.inr (tr h1 h4), .inr (tr h3 h2)⟩
  · rintro ⟨h1, h2⟩
    obtain ⟨c, hcc, hxc⟩ := List.mem_flatten.1 ((mem x).2 hx)
    refine ⟨c, hcc, hxc, ?_⟩
    rw [reaches_iff] at h1 h2
    rcases h1 with rfl | h1
    · exact hxc
    rcases h2 with rfl | h2
    · exact hxc
    obtain ⟨v, hv, hs⟩ := scc c hcc
    rw [hs y hy]
    rcases (hs x hx).1 hxc with rfl | ⟨h3, h4⟩
    · exact .inr ⟨h2, h1⟩
    · exact .inr ⟨tr h2 h3, tr h4 h1⟩

/-- **C08.** If there is an edge from `x` to `y` and they are in different components, the component of
`x` comes before the component of `y` in the returned array. (More generally for paths.) -/
theorem C08_topological {ntp : Nat → Res Nat} (hn : NtpOk ntp) {n : Nat} {cs : List SccCall} {g : Graph}
    (hc : noNullEdge cs) (h : Built ntp n cs g) (hfull : (vertices cs).length = n) (hpos : 0 < n)
    {comps : List (List Nat)} (hr : graphComponents g = .ok comps)
    {i j : Nat} (hi : i < comps.length) (hj : j < comps.length) (hij : i ≠ j)
    {x y : Nat} (hx : x ∈ comps[i]) (hy : y ∈ comps[j]) (hxy : Reaches (edges cs) x y) : i < j := by
  obtain ⟨gi, hgn⟩ := built_inv hn hc h
  obtain ⟨comps', e, nd, mem, scc, topo⟩ := graphComponents_ok gi (hfull.trans hgn.symm) (by omega)
  rw [e] at hr; cases hr
  by_contra hcon
  have hji : j < i := by omega
  rw [reaches_iff] at hxy
  rcases hxy with rfl | hxy
  · have := (List.nodup_flatten.1 nd).2
    exact (List.pairwise_iff_getElem.1 this j i hj hi hji) hy hx
  · exact List.pairwise_iff_getElem.1 topo j i hj hi hji y hy x hx hxy

/-- **C09 (vertices).** In every history of calls that is accepted, every registered vertex is non-NULL,
none is registered twice, there are at most `n`; and registering one more is accepted (when the hash table
can grow) exactly if it is new, non-NULL and the graph is not full, and otherwise the program stops. -/
theorem C09_add_vertex {ntp : Nat → Res Nat} (hn : NtpOk ntp) {n : Nat} {cs : List SccCall} {g : Graph}
    (hc : noNullEdge cs) (h : Built ntp n cs g) :
    (vertices cs).Nodup ∧ (vertices cs).length ≤ n ∧ (∀ v ∈ vertices cs, v ≠ 0) ∧
    ∀ v, ((v = 0 ∨ v ∈ vertices cs ∨ (vertices cs).length = n) → addVertex ntp g v = .stop) ∧
      (v ≠ 0 → v ∉ vertices cs → (vertices cs).length < n →
        (∃ c c', ntp (2 * g.map.capacity + 1) = .ok c ∧ ntp c = .ok c') → ∃ g', addVertex ntp g v = .ok g') := by
  obtain ⟨gi, hgn⟩ := built_inv hn hc h
  refine ⟨gi.nodup, hgn ▸ gi.le, gi.nz, fun v => ⟨fun hv => ?_, fun h1 h2 h3 h4 => ?_⟩⟩
  · unfold addVertex
    have hnx := gi.next
    split
    · rfl
    rename_i hlt
    by_cases hv0 : v = 0
    · subst hv0
      have : contains ptrOps g.map 0 = .ok true := by
        obtain ⟨T, hT, e, hstop, hprev⟩ := candidateIndex_spec ptrOps gi.inv.wf 0
        unfold contains
        rw [e]
        have : ptrOps.equalf (keyAt g.map (slot g.map.capacity (ptrOps.hashf 0) T)) 0 = true := by
          rcases hstop with h | h
          · rw [h]; rfl
          · exact h
        simp [this]
      rw [this]; rfl
    · obtain ⟨m, r, hm⟩ := gi.rep
      have hmem : v ∈ vertices cs := by
        rcases hv with h | h | h
        · exact absurd h hv0
        · exact h
        · omega
      obtain ⟨i, hi⟩ := List.getElem?_of_mem hmem
      rw [(get_spec ptrOps_lawful gi.inv r hv0).2, (hm v i hv0).2 hi]
      rfl
  · obtain ⟨m, r, hm⟩ := gi.rep
    have hnx := gi.next
    have hnone : m v = none := by
      rcases hx : m v with _ | i
      · rfl
      · exact absurd (List.mem_of_getElem? ((hm v i h1).1 hx)) h2
    obtain ⟨c, c', e1, e2⟩ := h4
    obtain ⟨t', e⟩ := add_total ptrOps hn 0 gi.inv.wf (v := g.next) h1 e1 e2
    unfold addVertex
    rw [if_neg (by omega), (get_spec ptrOps_lawful gi.inv r h1).2, hnone]
    simp [e]

/-- The index the graph uses for a vertex is its rank of registration: distinct vertices get distinct
indices, and the index maps back to the same pointer. -/
theorem C09_index {ntp : Nat → Res Nat} (hn : NtpOk ntp) {n : Nat} {cs : List SccCall} {g : Graph}
    (hc : noNullEdge cs) (h : Built ntp n cs g) {i : Nat} {v : Nat} (hv : (vertices cs)[i]? = some v) :
    indexOfPtr g v = .ok i ∧ ptrOfIndex g i = .ok v := by
  obtain ⟨gi, hgn⟩ := built_inv hn hc h
  refine ⟨(indexOf_spec gi (gi.nz v (List.mem_of_getElem? hv))).1 i hv, ?_⟩
  have := (List.getElem?_eq_some_iff.1 hv).1
  have := gi.le
  unfold ptrOfIndex
  rw [if_neg (by omega), gi.ptr i v hv]

/-- **C09 (edges).** The adjacency matrix holds an edge between two registered vertices exactly when a
call of the history named that pair in that order; a further edge between registered vertices is accepted
and one naming an unregistered non-NULL pointer stops the program. -/
theorem C09_add_edge_partial {ntp : Nat → Res Nat} (hn : NtpOk ntp) {n : Nat} {cs : List SccCall} {g : Graph}
    (hc : noNullEdge cs) (h : Built ntp n cs g) :
    (∀ (i j a b : Nat), (vertices cs)[i]? = some a → (vertices cs)[j]? = some b →
      (containsEdge g.n g.adj i j = true ↔ (a, b) ∈ edges cs)) ∧
    (∀ s t, s ∈ vertices cs → t ∈ vertices cs → ∃ g', addEdge g s t = .ok g') ∧
    (∀ s t, s ≠ 0 → t ≠ 0 → (s ∉ vertices cs ∨ t ∉ vertices cs) → addEdge g s t = .stop) := by
  obtain ⟨gi, hgn⟩ := built_inv hn hc h
  refine ⟨?_, ?_, ?_⟩
  · intro i j a b ha hb
    have h1 := (List.getElem?_eq_some_iff.1 ha).1
    have h2 := (List.getElem?_eq_some_iff.1 hb).1
    have := gi.le
    rw [gi.edge i j (by omega) (by omega), ha, hb]
    simp
  · intro s t hs ht
    obtain ⟨i, hi⟩ := List.getElem?_of_mem hs
    obtain ⟨j, hj⟩ := List.getElem?_of_mem ht
    unfold addEdge
    rw [(indexOf_spec gi (gi.nz s hs)).1 i hi, (indexOf_spec gi (gi.nz t ht)).1 j hj]
    exact ⟨_, rfl⟩
  · intro s t hs ht hor
    unfold addEdge
    by_cases hsm : s ∈ vertices cs
    · obtain ⟨i, hi⟩ := List.getElem?_of_mem hsm
      rw [(indexOf_spec gi hs).1 i hi, Res.ok_bind, (indexOf_spec gi ht).2 (hor.resolve_left (fun h => h hsm))]
      rfl
    · rw [(indexOf_spec gi hs).2 hsm]; rfl

/-- A prime search that knows only the twin primes used below (an instance of `NtpOk`). -/
def smallTwin (p : Nat) : Res Nat := if p ≤ 5 then .ok 5 else if p ≤ 7 then .ok 7 else if p ≤ 13 then .ok 13 else .stop

theorem smallTwin_ok : NtpOk smallTwin := by
  intro p r h
  unfold smallTwin at h
  split at h
  · cases h; exact ⟨by omega, by norm_num, by omega, by norm_num⟩
  split at h
  · cases h; exact ⟨by omega, by norm_num, by omega, by norm_num⟩
  split at h
  · cases h; exact ⟨by omega, by norm_num, by omega, by norm_num⟩
  · cases h

/-- A three-vertex graph with a cycle between 40 and 8 and an edge from there to 16. -/
def exCalls : List SccCall := [.vertex 40, .vertex 8, .vertex 16, .edge 40 8, .edge 8 40, .edge 8 16]

/-- Non-vacuity of C07-C09: the example graph is built, is full, and its components come out as expected. -/
example : (do let g ← initialize' smallTwin 3
              let g ← runScc smallTwin exCalls g
              graphComponents g) = .ok [[40, 8], [16]] := by decide +kernel
example : noNullEdge exCalls ∧ (vertices exCalls).length = 3 := by
  refine ⟨?_, rfl⟩; intro p hp; simp [exCalls, edges] at hp; rcases hp with rfl | rfl | rfl <;> decide

/-- **C09 is false for NULL**: an edge naming the unregistered pointer NULL is not rejected; it is recorded
as an edge of the vertex registered first. -/
theorem C09_null_edge_refuted :
    ∃ (g g' : Graph), Built smallTwin 2 [.vertex 8, .vertex 16] g ∧ addEdge g 0 16 = .ok g' ∧
      graphComponents g' = .ok [[8], [16]] ∧ containsEdge g'.n g'.adj 0 1 = true := by
  have h0 : ∃ g₀, initialize' smallTwin 2 = .ok g₀ := ⟨_, rfl⟩
  obtain ⟨g₀, h0⟩ := h0
  cases h0
  refine ⟨_, _, ⟨_, rfl, rfl⟩, rfl, ?_, ?_⟩ <;> decide +kernel

/-! ### C10 — the stack -/

/-- A call of a client of the stack. -/
inductive StackCall (α : Type)
  | push (v : α)
  | pop

/-- Running a history from an empty stack: the results of the pops, and the final stack. -/
def runStack {α : Type} : List (StackCall α) → List α → List (Option α) × List α
  | [], s => ([], s)
  | .push v :: cs, s => runStack cs (stackPush s v)
  | .pop :: cs, s =>
    let r := runStack cs (stackPop s).2
    ((stackPop s).1 :: r.1, r.2)

/-- Specification of a stack by *matching*: the pushes of a history that no later pop of the same history
removes, oldest first. -/
def unpopped {α : Type} : List (StackCall α) → List α
  | cs => cs.foldl (fun acc c => match c with | .push v => acc ++ [v] | .pop => acc.dropLast) []

theorem unpopped_snoc {α : Type} (cs : List (StackCall α)) (c : StackCall α) :
    unpopped (cs ++ [c]) = match c with | .push v => unpopped cs ++ [v] | .pop => (unpopped cs).dropLast := by
  simp [unpopped]

theorem runStack_append {α : Type} (a b : List (StackCall α)) (s : List α) :
    runStack (a ++ b) s = ((runStack a s).1 ++ (runStack b (runStack a s).2).1, (runStack b (runStack a s).2).2) := by
  induction a generalizing s with
  | nil => simp [runStack]
  | cons c a ih => cases c <;> simp [runStack, ih]

/-- **C10.** After every history, the stack holds the un-popped pushes, newest on top: `pop` returns the
newest of them, fails exactly when there is none, and `is_empty` says exactly that; `destroy` empties it. -/
theorem C10_lifo {α : Type} (cs : List (StackCall α)) :
    let s := (runStack cs stackCreate).2
    s = (unpopped cs).reverse ∧ (stackPop s).1 = (unpopped cs).getLast? ∧
    ((stackPop s).1 = none ↔ unpopped cs = []) ∧ (stackIsEmpty s = true ↔ unpopped cs = []) ∧
    stackDestroy s = stackCreate := by
  have main : (runStack cs stackCreate).2 = (unpopped cs).reverse := by
    induction cs using List.reverseRecOn with
    | nil => rfl
    | append_singleton cs c ih =>
      rw [runStack_append, unpopped_snoc, ih]
      cases c with
      | push v => simp [runStack, stackPush]
      | pop =>
        simp only [runStack]
        generalize unpopped cs = u
        induction u using List.reverseRecOn <;> simp [stackPop]
  simp only [main]
  refine ⟨trivial, ?_, ?_, ?_, ?_⟩
  · generalize unpopped cs = u
    induction u using List.reverseRecOn <;> simp [stackPop]
  · generalize unpopped cs = u
    induction u using List.reverseRecOn <;> simp [stackPop]
  · simp [stackIsEmpty]
  · generalize (unpopped cs).reverse = s
    induction s with
    | nil => rfl
    | cons a s ih => simpa [stackDestroy, stackPop] using ih

/-- Histories in which every pop is matched by an earlier push and every push by a later pop. -/
inductive Balanced {α : Type} : List (StackCall α) → Prop
  | nil : Balanced []
  | step (v : α) {a b : List (StackCall α)} : Balanced a → Balanced b → Balanced (.push v :: (a ++ .pop :: b))

theorem balanced_stack {α : Type} {cs : List (StackCall α)} (h : Balanced cs) (s : List α) :
    (runStack cs s).2 = s := by
  induction h generalizing s with
  | nil => rfl
  | step v _ _ iha ihb =>
    simp only [runStack]
    rw [runStack_append, iha]
    simp [runStack, stackPop, stackPush, ihb]

/-- **C10 (a pop undoes its push).** Whatever balanced history of calls happens in between, a pop returns
the value of the push it matches and leaves the stack as it was before that push. -/
theorem C10_pop_push {α : Type} {cs : List (StackCall α)} (h : Balanced cs) (s : List α) (v : α) :
    stackPop (runStack (.push v :: cs) s).2 = (some v, s) := by
  simp only [runStack]
  rw [balanced_stack h]
  rfl

example : Balanced [StackCall.push 1, .push 2, .pop, .pop, .push 3, .pop] :=
  .step 1 (a := [.push 2, .pop]) (.step 2 (a := []) .nil .nil) (.step 3 (a := []) .nil .nil)
example : runStack [.push 1, .push 2, .pop, .push 3, .pop, .pop, .pop] stackCreate =
    ([some 2, some 3, some 1, none], []) := rfl

end Aps.Props
