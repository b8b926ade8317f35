import Verif.Proofs.Nodes
/-! # C104: the tree that constructors make -/
namespace Aps.Props
open Aps Aps.Nodes
open Aps.Service (Ty TDef)

/-- Phyla 0 (`E`) and 1 (`S`), a renaming 2 of `E`, a type 3; phylum module 0.  Constructors: 0 `leaf(): E`, 1 `plus(l,r : E): E`,
2 `print(e : E; n : Integer): S`, 3 `wrap(e : F): S` where `F` is the renaming, 4 `seq(l : SEQUENCE[..]): S`, 5 `box(e : E): Box` of a type. -/
def ndProg : Prog where
  con := fun c => match c with
    | 0 => ⟨0, true, []⟩
    | 1 => ⟨0, true, [.use 0, .use 0]⟩
    | 2 => ⟨1, true, [.use 0, .use 3]⟩
    | 3 => ⟨1, true, [.use 2]⟩
    | 4 => ⟨1, true, [.inst 0]⟩
    | _ => ⟨3, false, [.use 0]⟩
  tdef := fun u => match u with
    | 0 => .phylumDecl .noType
    | 1 => .phylumDecl .noType
    | 2 => .renaming (.use 0)
    | _ => .typeDecl .noType
  phylumModule := fun m => m = 0

/-- The part of `ndProg` with formals that C++ deals with. -/
def ndDirect : Prog := { ndProg with con := fun c => if c = 3 ∨ c = 4 then ⟨1, true, []⟩ else ndProg.con c }

theorem ndDirect_direct : Direct ndDirect := by
  intro c t ht hp
  have : t = .use 0 ∨ t = .use 3 := by
    match c with
    | 0 | 3 | 4 => cases ht
    | 1 => simp [ndDirect, ndProg] at ht; exact .inl ht
    | 2 => simp [ndDirect, ndProg] at ht; exact ht
    | _ + 5 => simp [ndDirect, ndProg] at ht; exact .inl ht
  rcases this with rfl | rfl
  · exact ⟨0, rfl, fun old h => (by cases h)⟩
  · exact ⟨3, rfl, fun old h => (by cases h)⟩

/-! ### Parents -/

/-- **C104 (C++).** If phyla are named directly: after any calls, the parent of a node is the last node that was made with it
for a formal of a phylum; if there is one, the parent is set. -/
theorem C104_cpp_partial (P : Prog) (hd : Direct P) (h : Heap) (H : History P (buildCpp P) empty h) (x : Nat) (n : Node)
    (hx : h.nodes[x]? = some n) (b : Nat) :
    n.par = .node b ↔ Child P h b x ∧ ∀ b', Child P h b' x → b' ≤ b := by
  obtain ⟨I, -⟩ := inv_cpp H
  have k : ∀ b, Kid (used P (cppMarks P)) h.nodes b x ↔ Child P h b x := fun b => kid_child (exact_cpp hd)
  constructor
  · intro e
    exact ⟨(k b).1 (I.of_par x n b hx e), fun b' hb' => I.last x n b b' hx e ((k b').2 hb')⟩
  · rintro ⟨hc, hl⟩
    obtain ⟨b', e⟩ := I.of_kid x n b hx ((k b).2 hc)
    have h1 := hl b' ((k b').1 (I.of_par x n b' hx e))
    have h2 := I.last x n b' b hx e ((k b).2 hc)
    rw [e, Nat.le_antisymm h1 h2]

/-- **C104 (Scala).** After any calls, a node's parent is `b` exactly if `b` was made with it for a formal of a phylum, and null
exactly if there is no such node. -/
theorem C104_scala (P : Prog) (fuel : Nat) (marks : Nat → List Bool) (hm : ∀ c, scalaMarks P fuel (P.con c).formals = .ok (marks c))
    (h : Heap) (H : History P (buildScala P marks) empty h) (x : Nat) (n : Node) (hx : h.nodes[x]? = some n) :
    (∀ b, n.par = .node b ↔ Child P h b x) ∧ (n.par = .null ↔ ¬ ∃ b, Child P h b x) := by
  obtain ⟨I, -⟩ := inv_scala H
  have k : ∀ b, n.par = .node b ↔ Child P h b x := fun b => (I.of_par x n b hx).trans (kid_child (exact_scala hm))
  refine ⟨k, fun e => ?_, fun e => ?_⟩
  · rintro ⟨b, hb⟩
    rw [(k b).2 hb] at e; cases e
  · cases hp : n.par with
    | null => rfl
    | garbage => exact absurd hp (I.clean x n hx)
    | node b => exact absurd ⟨b, (k b).1 hp⟩ e

/-- **C104 (Scala).** So no node has two parents: the calls that would give it a second one stop. -/
theorem C104_one_parent (P : Prog) (fuel : Nat) (marks : Nat → List Bool)
    (hm : ∀ c, scalaMarks P fuel (P.con c).formals = .ok (marks c)) (h : Heap) (H : History P (buildScala P marks) empty h)
    (b b' x : Nat) (hb : Child P h b x) (hb' : Child P h b' x) (hl : x < h.nodes.length) : b = b' := by
  have hx := List.getElem?_eq_getElem hl
  obtain ⟨k, -⟩ := C104_scala P fuel marks hm h H x _ hx
  have := ((k b).2 hb).symm.trans ((k b').2 hb')
  cases this; rfl

/-- **C104 (both).** Children are made before their parents, so there are no cycles. -/
theorem C104_order_cpp (P : Prog) (hd : Direct P) (h : Heap) (H : History P (buildCpp P) empty h) (b x : Nat)
    (hc : Child P h b x) : x < b := (inv_cpp H).1.lt b x ((kid_child (exact_cpp hd)).2 hc)

theorem C104_order_scala (P : Prog) (fuel : Nat) (marks : Nat → List Bool)
    (hm : ∀ c, scalaMarks P fuel (P.con c).formals = .ok (marks c)) (h : Heap) (H : History P (buildScala P marks) empty h)
    (b x : Nat) (hc : Child P h b x) : x < b := (inv_scala H).1.lt b x ((kid_child (exact_scala hm)).2 hc)

/-- `ndProg` in Scala. -/
def ndMarks : Nat → List Bool := fun c => match c with
  | 0 => []
  | 1 => [true, true]
  | 2 => [true, false]
  | _ => [true]

theorem ndMarks_ok : ∀ c, scalaMarks ndProg 3 (ndProg.con c).formals = .ok (ndMarks c) := by
  intro c
  match c with
  | 0 => rfl
  | 1 => rfl
  | 2 => rfl
  | 3 => rfl
  | 4 => rfl
  | _ + 5 => rfl

/-- `print(plus(leaf(),leaf()), 7)`, in `ndDirect` and C++. -/
theorem nd_cpp : ∃ h, History ndDirect (buildCpp ndDirect) empty h ∧
    h.nodes = [⟨0, 0, .node 2, []⟩, ⟨0, 1, .node 2, []⟩, ⟨1, 2, .node 3, [.node 0, .node 1]⟩, ⟨2, 0, .garbage, [.node 2, .prim 7]⟩] :=
  ⟨_, .call (c := 2) (args := [.node 2, .prim 7]) (.call (c := 1) (args := [.node 0, .node 1])
    (.call (c := 0) (args := []) (.call (c := 0) (args := []) .refl rfl rfl) rfl rfl) rfl rfl) rfl rfl, rfl⟩

/-- `wrap(plus(leaf(),leaf()))` in Scala; then `E` is closed. -/
theorem nd_scala : ∃ h, History ndProg (buildScala ndProg ndMarks) empty h ∧ h.closed 0 = true ∧
    h.nodes = [⟨0, 0, .node 2, []⟩, ⟨0, 1, .node 2, []⟩, ⟨1, 2, .node 3, [.node 0, .node 1]⟩, ⟨3, 0, .null, [.node 2]⟩] :=
  ⟨_, .finish (p := 0) (.call (c := 3) (args := [.node 2]) (.call (c := 1) (args := [.node 0, .node 1])
    (.call (c := 0) (args := []) (.call (c := 0) (args := []) .refl rfl rfl) rfl rfl) rfl rfl) rfl rfl), rfl, rfl⟩

example : ∃ h, History ndDirect (buildCpp ndDirect) empty h ∧ Child ndDirect h 2 0 ∧ Child ndDirect h 2 1 ∧ Child ndDirect h 3 2 := by
  obtain ⟨h, H, e⟩ := nd_cpp
  refine ⟨h, H, ⟨⟨1, 2, .node 3, [.node 0, .node 1]⟩, 0, .use 0, ?_⟩, ⟨⟨1, 2, .node 3, [.node 0, .node 1]⟩, 1, .use 0, ?_⟩,
    ⟨⟨2, 0, .garbage, [.node 2, .prim 7]⟩, 0, .use 0, ?_⟩⟩ <;> rw [e] <;>
    exact ⟨rfl, rfl, rfl, .decl rfl, rfl⟩

example : ∃ h, History ndProg (buildScala ndProg ndMarks) empty h ∧ Child ndProg h 3 2 := by
  obtain ⟨h, H, -, e⟩ := nd_scala
  refine ⟨h, H, ⟨3, 0, .null, [.node 2]⟩, 0, .use 2, ?_⟩
  rw [e]
  exact ⟨rfl, rfl, rfl, .again rfl (.decl rfl), rfl⟩

/-! ### What stays, and the lists of nodes -/

/-- **C104 (both).** What a node was made with does not change: its constructor, its number and its fields. -/
theorem C104_fields (P : Prog) (marks : Nat → List Bool) (build : Nat → List Val → Heap → Res Heap)
    (hb : build = buildCpp P ∨ build = buildScala P marks) (h h' : Heap) (H : History P build h h') (x : Nat) (n : Node)
    (hx : h.nodes[x]? = some n) :
    ∃ n', h'.nodes[x]? = some n' ∧ n'.con = n.con ∧ n'.number = n.number ∧ n'.fields = n.fields := by
  have : Same h.nodes h'.nodes := by
    rcases hb with rfl | rfl
    · exact same_history (same_cpp P) H
    · exact same_history (same_scala P marks) H
  obtain ⟨p, hp⟩ := this x n hx
  exact ⟨_, hp, rfl, rfl, rfl⟩

/-- **C104 (both).** A call makes one node, which is the last, with the constructor and the arguments of the call. -/
theorem C104_made (P : Prog) (marks : Nat → List Bool) (build : Nat → List Val → Heap → Res Heap)
    (hb : build = buildCpp P ∨ build = buildScala P marks) (c : Nat) (args : List Val) (h h' : Heap) (e : build c args h = .ok h') :
    h'.nodes.length = h.nodes.length + 1 ∧ ∃ n, h'.nodes[h.nodes.length]? = some n ∧ n.con = c ∧ n.fields = args := by
  rcases hb with rfl | rfl
  · obtain ⟨⟨p, -, b⟩, -⟩ := built_cpp e
    exact ⟨b.all, _, b.new, rfl, rfl⟩
  · obtain ⟨b, -⟩ := built_scala e
    exact ⟨b.all, _, b.new, rfl, rfl⟩

/-- **C104 (both).** After any calls the list of a phylum has its nodes, each at the index that is its number. -/
theorem C104_numbers (P : Prog) (marks : Nat → List Bool) (build : Nat → List Val → Heap → Res Heap)
    (hb : build = buildCpp P ∨ build = buildScala P marks) (h : Heap) (H : History P build empty h) (p k x : Nat) :
    (h.phyla p)[k]? = some x ↔
      ∃ n, h.nodes[x]? = some n ∧ (P.con n.con).syntax = true ∧ (P.con n.con).base = p ∧ n.number = k := by
  rcases hb with rfl | rfl
  · exact (inv_cpp H).2.num p k x
  · exact (inv_scala H).2.num p k x

/-- **C104 (both).** Once a phylum is closed it gets no nodes. -/
theorem C104_closed (P : Prog) (marks : Nat → List Bool) (build : Nat → List Val → Heap → Res Heap)
    (hb : build = buildCpp P ∨ build = buildScala P marks) (h h' : Heap) (H : History P build h h') (p : Nat)
    (hp : h.closed p = true) : h'.phyla p = h.phyla p := by
  rcases hb with rfl | rfl
  · exact (shut (shut_cpp P) H hp).1
  · exact (shut (shut_scala P marks) H hp).1

/-- **C104 (Scala).** A parent stays. -/
theorem C104_stays (P : Prog) (fuel : Nat) (marks : Nat → List Bool) (hm : ∀ c, scalaMarks P fuel (P.con c).formals = .ok (marks c))
    (h h' : Heap) (H : History P (buildScala P marks) empty h) (H' : History P (buildScala P marks) h h') (x b : Nat) (n n' : Node)
    (hx : h.nodes[x]? = some n) (hx' : h'.nodes[x]? = some n') (hp : n.par = .node b) : n'.par = .node b := by
  have H2 : History P (buildScala P marks) empty h' := by
    clear hx'
    induction H' with
    | refl => exact H
    | call _ l e ih => exact .call ih l e
    | finish _ ih => exact .finish ih
  refine ((C104_scala P fuel marks hm h' H2 x n' hx').1 b).2 ?_
  obtain ⟨m, i, t, h1, h2, h3, h4, h5⟩ := ((C104_scala P fuel marks hm h H x n hx).1 b).1 hp
  obtain ⟨q, hq⟩ := same_history (same_scala P marks) H' b m h1
  exact ⟨_, i, t, hq, h2, h3, h4, h5⟩

example : ∃ h, History ndProg (buildScala ndProg ndMarks) empty h ∧ h.closed 0 = true ∧ h.phyla 0 = [0, 1, 2] :=
  ⟨_, .finish (p := 0) (.call (c := 3) (args := [.node 2]) (.call (c := 1) (args := [.node 0, .node 1])
    (.call (c := 0) (args := []) (.call (c := 0) (args := []) .refl rfl rfl) rfl rfl) rfl rfl) rfl rfl), rfl, rfl⟩

/-- A call after the phylum was closed, of a constructor of another phylum, goes on. -/
example : ∃ h h', h.closed 0 = true ∧ h.phyla 0 = [0] ∧ History ndDirect (buildCpp ndDirect) h h' ∧ h'.phyla 1 = [1] :=
  ⟨⟨[⟨0, 0, .garbage, []⟩], fun p => if p = 0 then [0] else [], fun p => p = 0⟩, _, rfl, rfl,
    .call (c := 2) (args := [.node 0, .prim 7]) .refl rfl rfl, rfl⟩

/-! ### Tags -/

/-- **C104 (C++).** If the names in the body are different then all constructors are registered without a stop, and each type gets
its constructors in the order of the body: the tag printed into the `enum` of the type is the index of the constructor. -/
theorem C104_tags (body : List (Nat × Nat)) (hn : (body.map _root_.Prod.fst).Nodup) :
    ∃ reg, initAll body body (fun _ => []) = .ok reg ∧ ∀ t, reg t = (body.filter fun d => d.2 = t).map _root_.Prod.fst :=
  init_ok body hn body [] _ rfl (fun t => rfl)

example : (([(5, 0), (6, 1), (7, 0)] : List (Nat × Nat)).map _root_.Prod.fst).Nodup ∧
    ∃ reg, initAll [(5, 0), (6, 1), (7, 0)] [(5, 0), (6, 1), (7, 0)] (fun _ => []) = .ok reg ∧ reg 0 = [5, 7] ∧ reg 1 = [6] :=
  ⟨by decide, _, rfl, rfl, rfl⟩

/-! ### What goes wrong -/

/-- **C104, refuted for roots in C++.** The parent of a node that is nobody's child is not null: it is not initialized. -/
theorem C104_root_refuted : ∃ h n, History ndDirect (buildCpp ndDirect) empty h ∧ h.nodes[3]? = some n ∧ n.par = .garbage := by
  obtain ⟨h, H, e⟩ := nd_cpp
  exact ⟨h, ⟨2, 0, .garbage, [.node 2, .prim 7]⟩, H, by rw [e]; rfl, rfl⟩

/-- **C104, refuted for renamed phyla in C++.** The parent of a child whose formal's type is a renaming of a phylum is not set. -/
theorem C104_renaming_refuted : ∃ h n, History ndProg (buildCpp ndProg) empty h ∧ h.nodes[0]? = some n ∧ Child ndProg h 1 0 ∧
    n.par = .garbage :=
  ⟨_, ⟨0, 0, .garbage, []⟩, .call (c := 3) (args := [.node 0]) (.call (c := 0) (args := []) .refl rfl rfl) rfl rfl, rfl,
    ⟨⟨3, 0, .garbage, [.node 0]⟩, 0, .use 2, rfl, rfl, rfl, .again rfl (.decl rfl), rfl⟩, rfl⟩

/-- **C104, refuted for instances of phylum modules in C++** (such as sequences). -/
theorem C104_instance_refuted : ∃ h n, History ndProg (buildCpp ndProg) empty h ∧ h.nodes[0]? = some n ∧ Child ndProg h 1 0 ∧
    n.par = .garbage :=
  ⟨_, ⟨0, 0, .garbage, []⟩, .call (c := 4) (args := [.node 0]) (.call (c := 0) (args := []) .refl rfl rfl) rfl rfl, rfl,
    ⟨⟨4, 0, .garbage, [.node 0]⟩, 0, .inst 0, rfl, rfl, rfl, .inst rfl, rfl⟩, rfl⟩

/-- **C104, refuted for shared children in C++.** A node given to two constructors is a child of both; in Scala this stops. -/
theorem C104_shared_refuted : (∃ h, History ndDirect (buildCpp ndDirect) empty h ∧ Child ndDirect h 1 0 ∧ Child ndDirect h 2 0) ∧
    ∃ h, History ndProg (buildScala ndProg ndMarks) empty h ∧ Child ndProg h 1 0 ∧
      buildScala ndProg ndMarks 2 [.node 0, .prim 8] h = .stop :=
  ⟨⟨_, .call (c := 2) (args := [.node 0, .prim 8]) (.call (c := 2) (args := [.node 0, .prim 7])
    (.call (c := 0) (args := []) .refl rfl rfl) rfl rfl) rfl rfl,
    ⟨⟨2, 0, .garbage, [.node 0, .prim 7]⟩, 0, .use 0, rfl, rfl, rfl, .decl rfl, rfl⟩,
    ⟨⟨2, 1, .garbage, [.node 0, .prim 8]⟩, 0, .use 0, rfl, rfl, rfl, .decl rfl, rfl⟩⟩,
    _, .call (c := 2) (args := [.node 0, .prim 7]) (.call (c := 0) (args := []) .refl rfl rfl) rfl rfl,
    ⟨⟨2, 0, .null, [.node 0, .prim 7]⟩, 0, .use 0, rfl, rfl, rfl, .decl rfl, rfl⟩, rfl⟩

/-- **C104, refuted for nil.** A child that is nil is written through in C++, and stops in Scala. -/
theorem C104_nil_refuted : buildCpp ndDirect 2 [.nil, .prim 7] empty = .ub ∧ buildScala ndProg ndMarks 2 [.nil, .prim 7] empty = .stop :=
  ⟨rfl, rfl⟩

/-- **C104, refuted for types.** A constructor of a type that is not a phylum, with a formal of a phylum, does not compile in C++. -/
theorem C104_type_refuted : ∃ h, History ndDirect (buildCpp ndDirect) empty h ∧ buildCpp ndDirect 5 [.node 0] h = .stop ∧
    ∃ h', buildScala ndProg ndMarks 5 [.node 0] h = .ok h' :=
  ⟨_, .call (c := 0) (args := []) .refl rfl rfl, rfl, _, rfl⟩

end Aps.Props
