import Verif.Proofs.ChunkClose
import Verif.Proofs.OagCto
/-! The chunk graph and the parts it stands for. -/
set_option linter.unusedVariables false
namespace Aps.Chunk
open Aps.Dnc Aps.Oag

/-- the chunk of a part -/
def mkChunk (I : Input) : Part → Chunk
  | .left p => ⟨.halfLeft, p, -1, I.parent.circ p, I.members fun g => g.1 == -(p : Int) && g.2 == -1⟩
  | .right p => ⟨.halfRight, p, -1, I.parent.circ p, I.members fun g => g.1 == (p : Int) && g.2 == -1⟩
  | .visit ch p => ⟨.visit, p, ch,
      (match I.children[ch]? with | some (some info) => info.circ p | _ => false),
      I.members fun g => g.1.natAbs == p && g.2 == ch⟩
  | .loc i => ⟨.loc, 0, 0, I.kind i i != 0, [i]⟩

/-- the visits of a child -/
def childParts (I : Input) (ch : Nat) : List Part :=
  match I.children[ch]? with
  | some (some p) => (List.range p.maxPhase).map fun q => .visit ch (q + 1)
  | _ => []

/-- all parts in the order of the chunks -/
def parts (I : Input) : List Part :=
  ((List.range I.parent.maxPhase).flatMap fun q => [.left (q + 1), .right (q + 1)]) ++
  (List.range I.children.length).flatMap (childParts I) ++
  (I.members fun g => g.1 == 0 && g.2 == 0).map .loc

theorem chunks_eq (I : Input) : parentChunks I ++ visitChunks I ++ localChunks I = (parts I).map (mkChunk I) := by
  unfold parts
  simp only [List.map_append]
  congr 1
  · congr 1
    · simp [parentChunks, List.map_flatMap, mkChunk]
    · unfold visitChunks
      rw [List.map_flatMap]
      congr 1
      funext ch
      unfold childChunks childParts
      split
      · rename_i p hp
        simp [List.map_map, mkChunk, hp]
      · rename_i hx
        split
        · rename_i p hp
          exact (hx p hp).elim
        · rfl
  · simp [localChunks, List.map_map, mkChunk, Function.comp_def]

theorem mem_members {I : Input} {p : Int × Int → Bool} {i : Nat} : i ∈ I.members p ↔ i < I.n ∧ p (I.group i) = true := by
  simp [Input.members]

theorem mem_parts {I : Input} {k : Part} : k ∈ parts I ↔ I.Has k := by
  unfold parts
  simp only [List.mem_append, List.mem_flatMap, List.mem_range, List.mem_cons, List.not_mem_nil, or_false,
    List.mem_map, mem_members]
  cases k with
  | left p =>
    simp only [Input.Has, Part.left.injEq, reduceCtorEq, or_false, and_false, exists_false]
    have h2 : ¬ ∃ a, a < I.children.length ∧ Part.left p ∈ childParts I a := by
      rintro ⟨a, _, h⟩
      unfold childParts at h
      split at h <;> simp at h
    simp only [h2, or_false]
    constructor
    · rintro ⟨q, hq, rfl⟩; omega
    · rintro ⟨h1, h2⟩; exact ⟨p - 1, by omega, by omega⟩
  | right p =>
    simp only [Input.Has, Part.right.injEq, reduceCtorEq, false_or, and_false, exists_false]
    have h2 : ¬ ∃ a, a < I.children.length ∧ Part.right p ∈ childParts I a := by
      rintro ⟨a, _, h⟩
      unfold childParts at h
      split at h <;> simp at h
    simp only [h2, or_false]
    constructor
    · rintro ⟨q, hq, rfl⟩; omega
    · rintro ⟨h1, h2⟩; exact ⟨p - 1, by omega, by omega⟩
  | visit ch p =>
    simp only [Input.Has, reduceCtorEq, or_false, and_false, exists_false, false_or]
    constructor
    · rintro ⟨a, ha, h⟩
      unfold childParts at h
      split at h
      · rename_i info hi
        simp only [List.mem_map, List.mem_range, Part.visit.injEq] at h
        obtain ⟨q, hq, rfl, rfl⟩ := h
        exact ⟨info, hi, by omega, by omega⟩
      · simp at h
    · rintro ⟨info, hi, h1, h2⟩
      refine ⟨ch, ?_, ?_⟩
      · by_contra hc
        rw [List.getElem?_eq_none (by omega)] at hi
        cases hi
      · unfold childParts
        rw [hi]
        simp only [List.mem_map, List.mem_range, Part.visit.injEq, true_and]
        exact ⟨p - 1, by omega, by omega⟩
  | loc i =>
    simp only [Input.Has, reduceCtorEq, or_false, and_false, exists_false, false_or, Part.loc.injEq,
      Bool.and_eq_true, beq_iff_eq]
    have h2 : ¬ ∃ a, a < I.children.length ∧ Part.loc i ∈ childParts I a := by
      rintro ⟨a, _, h⟩
      unfold childParts at h
      split at h <;> simp at h
    simp only [h2, false_or]
    constructor
    · rintro ⟨a, ⟨h1, h4, h3⟩, rfl⟩
      exact ⟨h1, Prod.ext h4 h3⟩
    · rintro ⟨h1, h2⟩
      exact ⟨i, ⟨h1, by rw [h2], by rw [h2]⟩, rfl⟩

theorem nodup_parts (I : Input) : (parts I).Nodup := by
  unfold parts
  rw [List.nodup_append, List.nodup_append]
  refine ⟨⟨?_, ?_, ?_⟩, ?_, ?_⟩
  · rw [List.nodup_flatMap]
    refine ⟨by simp, ?_⟩
    refine List.Pairwise.imp ?_ (List.nodup_range (n := I.parent.maxPhase))
    intro a b hab
    simp [Function.onFun, List.disjoint_left]
    omega
  · rw [List.nodup_flatMap]
    constructor
    · intro ch _
      unfold childParts
      split
      · exact (List.nodup_range).map (fun a b h => by simpa using h)
      · simp
    · refine List.Pairwise.imp ?_ (List.nodup_range (n := I.children.length))
      intro a b hab
      simp only [Function.onFun, List.disjoint_left]
      intro x h1 h2
      unfold childParts at h1 h2
      split at h1
      · split at h2
        · simp only [List.mem_map] at h1 h2
          obtain ⟨q, _, rfl⟩ := h1
          obtain ⟨q', _, h⟩ := h2
          injection h with h h'
          omega
        · simp at h2
      · simp at h1
  · intro x h1 y h2 e
    subst e
    simp only [List.mem_flatMap, List.mem_cons, List.not_mem_nil, or_false] at h1 h2
    obtain ⟨q, _, h1⟩ := h1
    obtain ⟨ch, _, h2⟩ := h2
    unfold childParts at h2
    split at h2
    · simp only [List.mem_map] at h2
      obtain ⟨q', _, rfl⟩ := h2
      simp at h1
    · simp at h2
  · refine List.Nodup.map (fun a b h => by simpa using h) ?_
    exact (List.nodup_range).filter _
  · intro x h1 y h2 e
    subst e
    simp only [List.mem_map] at h2
    obtain ⟨i, _, rfl⟩ := h2
    simp only [List.mem_append, List.mem_flatMap, List.mem_cons, List.not_mem_nil, or_false, reduceCtorEq,
      and_false, exists_false, false_or] at h1
    obtain ⟨ch, _, h1⟩ := h1
    unfold childParts at h1
    split at h1 <;> simp at h1

/-- the instances of the chunk of a part -/
theorem mem_mkChunk {I : Input} (hw : Wf I) {k : Part} (hk : I.Has k) {i : Nat} :
    i ∈ (mkChunk I k).insts ↔ i < I.n ∧ I.part i = k := by
  cases k with
  | left p =>
    simp only [mkChunk, mem_members, Bool.and_eq_true, beq_iff_eq]
    refine and_congr_right fun hi => ?_
    have hp : 1 ≤ p := hk.1
    unfold Input.part
    simp only
    constructor
    · rintro ⟨h1, h2⟩
      rw [h1, h2]
      have : ¬ (-(p : Int) = 0 ∧ (-1 : Int) = 0) := by omega
      rw [if_neg this, if_pos rfl, if_pos (by omega)]
      congr 1
      omega
    · intro h
      split at h
      · cases h
      · split at h
        · split at h
          · injection h; omega
          · cases h
        · cases h
  | right p =>
    simp only [mkChunk, mem_members, Bool.and_eq_true, beq_iff_eq]
    refine and_congr_right fun hi => ?_
    have hp : 1 ≤ p := hk.1
    unfold Input.part
    simp only
    constructor
    · rintro ⟨h1, h2⟩
      rw [h1, h2]
      have : ¬ ((p : Int) = 0 ∧ (-1 : Int) = 0) := by omega
      rw [if_neg this, if_pos rfl, if_neg (by omega)]
      congr 1
    · intro h
      split at h
      · cases h
      · split at h
        · split at h
          · cases h
          · injection h; omega
        · cases h
  | visit ch p =>
    simp only [mkChunk, mem_members, Bool.and_eq_true, beq_iff_eq]
    refine and_congr_right fun hi => ?_
    obtain ⟨info, _, hp, _⟩ := hk
    have hg := hw.group i hi
    unfold Input.part
    simp only
    constructor
    · rintro ⟨h1, h2⟩
      have h0 : ¬ ((I.group i).1 = 0 ∧ (I.group i).2 = 0) := by omega
      rw [if_neg h0, if_neg (by omega)]
      congr 1
      omega
    · intro h
      split at h
      · cases h
      · split at h
        · split at h <;> cases h
        · injection h with h1 h2
          rcases hg with hg | hg
          · rename_i h3 _
            exact absurd ⟨by rw [hg], by rw [hg]⟩ h3
          · omega
  | loc j =>
    simp only [mkChunk, List.mem_singleton]
    obtain ⟨h1, h2⟩ := hk
    constructor
    · rintro rfl
      refine ⟨h1, ?_⟩
      unfold Input.part
      simp [h2]
    · rintro ⟨hi, h⟩
      unfold Input.part at h
      simp only at h
      split at h
      · injection h
      · split at h
        · split at h <;> cases h
        · cases h

theorem guiding_iff {I : Input} {a b : Part} : guiding (mkChunk I a) (mkChunk I b) = true ↔ Guide a b := by
  unfold guiding
  simp only [Bool.or_eq_true, Bool.and_eq_true, beq_iff_eq, decide_eq_true_eq]
  cases a <;> cases b <;> simp [mkChunk, Guide]

theorem ignored_iff_together {c d : Cond} : ignored c d = false ↔ Together c d := by
  rw [← Bool.not_eq_true, ignored_iff, not_not]
  constructor
  · intro h
    obtain ⟨σ, hσ⟩ := exists_sat h
    exact ⟨σ, (sat_both.1 hσ).1, (sat_both.1 hσ).2⟩
  · rintro ⟨σ, h1, h2⟩
    rw [Cond.ok_iff]
    rintro i ⟨h3, h4⟩
    have := sat_both.2 ⟨h1, h2⟩ i
    rw [this.1 h3] at this
    exact absurd (this.2 h4) (by simp)

theorem instDep_bit {I : Input} {s t : List Nat} {b : Nat} : (instDep I s t).getLsbD b = true ↔
    ∃ i ∈ s, ∃ j ∈ t, ignored (I.cond i) (I.cond j) = false ∧ (I.kind i j).getLsbD b = true := by
  unfold instDep
  have inner : ∀ (i : Nat) (t : List Nat) (d : Dep), (t.foldl (fun d j =>
      if ignored (I.cond i) (I.cond j) then d else if I.kind i j == 0 then d else join (I.kind i j) d) d).getLsbD b = true ↔
      d.getLsbD b = true ∨ ∃ j ∈ t, ignored (I.cond i) (I.cond j) = false ∧ (I.kind i j).getLsbD b = true := by
    intro i t
    induction t with
    | nil => simp
    | cons j t ih =>
      intro d
      rw [List.foldl_cons, ih]
      by_cases h : ignored (I.cond i) (I.cond j) = true
      · simp [h]
      · simp only [Bool.not_eq_true] at h
        by_cases hz : I.kind i j = 0
        · simp [h, hz]
        · have hz' : (I.kind i j == 0) = false := by simpa using hz
          simp only [h, hz', Bool.false_eq_true, if_false, join_bit, List.exists_mem_cons_iff, true_and]
          tauto
  have outer : ∀ (s : List Nat) (d : Dep), (s.foldl (fun d i => t.foldl (fun d j =>
      if ignored (I.cond i) (I.cond j) then d else if I.kind i j == 0 then d else join (I.kind i j) d) d) d).getLsbD b = true ↔
      d.getLsbD b = true ∨ ∃ i ∈ s, ∃ j ∈ t, ignored (I.cond i) (I.cond j) = false ∧ (I.kind i j).getLsbD b = true := by
    intro s
    induction s with
    | nil => simp
    | cons i s ih =>
      intro d
      rw [List.foldl_cons, ih, inner, List.exists_mem_cons_iff, or_assoc]
  rw [outer]
  simp

theorem and_direct_ne {d : Dep} : d &&& MAYBE_DIRECT ≠ 0 ↔ d.getLsbD 3 = true := by
  rw [dep_ne_zero]
  constructor
  · rintro ⟨i, hi⟩
    rw [BitVec.getLsbD_and, Bool.and_eq_true, bit8] at hi
    exact hi.2 ▸ hi.1
  · intro h
    exact ⟨3, by rw [BitVec.getLsbD_and, h, (bit8).2 rfl]; rfl⟩

theorem chunkDep_ne {I : Input} (hw : Wf I) {a b : Part} (ha : I.Has a) (hb : I.Has b) :
    chunkDep I (mkChunk I a) (mkChunk I b) ≠ 0 ↔ Step I a b := by
  have hi : instDep I (mkChunk I a).insts (mkChunk I b).insts ≠ 0 ↔ ∃ i j, i < I.n ∧ j < I.n ∧ I.part i = a ∧
      I.part j = b ∧ I.kind i j ≠ 0 ∧ Together (I.cond i) (I.cond j) := by
    rw [dep_ne_zero]
    simp only [instDep_bit, mem_mkChunk hw ha, mem_mkChunk hw hb, ignored_iff_together]
    constructor
    · rintro ⟨x, i, ⟨h1, h2⟩, j, ⟨h3, h4⟩, h5, h6⟩
      exact ⟨i, j, h1, h3, h2, h4, dep_ne_zero.2 ⟨x, h6⟩, h5⟩
    · rintro ⟨i, j, h1, h3, h2, h4, h6, h5⟩
      obtain ⟨x, h6⟩ := dep_ne_zero.1 h6
      exact ⟨x, i, ⟨h1, h2⟩, j, ⟨h3, h4⟩, h5, h6⟩
  unfold chunkDep Step
  by_cases hg : guiding (mkChunk I a) (mkChunk I b) = true
  · have hg' := guiding_iff.1 hg
    simp only [hg, if_true, join_ne_zero, hi, ha, hb, hg', and_self, or_true, iff_true]
    right; decide
  · have hg' : ¬ Guide a b := fun h => hg (guiding_iff.2 h)
    rw [if_neg hg, hi]
    simp [hg']

theorem chunkDep_dir {I : Input} (hw : Wf I) {a b : Part} (ha : I.Has a) (hb : I.Has b) :
    (chunkDep I (mkChunk I a) (mkChunk I b)).getLsbD 3 = true ↔ Direct I a b := by
  have hi : (instDep I (mkChunk I a).insts (mkChunk I b).insts).getLsbD 3 = true ↔ Direct I a b := by
    unfold Direct
    simp only [instDep_bit, mem_mkChunk hw ha, mem_mkChunk hw hb, ignored_iff_together, and_direct_ne]
    constructor
    · rintro ⟨i, ⟨h1, h2⟩, j, ⟨h3, h4⟩, h5, h6⟩
      exact ⟨i, j, h1, h3, h2, h4, h6, h5⟩
    · rintro ⟨i, j, h1, h3, h2, h4, h6, h5⟩
      exact ⟨i, ⟨h1, h2⟩, j, ⟨h3, h4⟩, h5, h6⟩
  unfold chunkDep
  split
  · rw [join_bit, hi]
    have : indirectControl.getLsbD 3 = false := by decide
    constructor
    · rintro (h | h)
      · exact h
      · rw [this] at h; cases h
    · exact .inl
  · exact hi

/-- What the chunk graph stands for. -/
structure Rep (I : Input) (C : CG) : Prop where
  chunks : C.chunks = (parts I).map (mkChunk I)
  dep : ∀ a b x y, (parts I)[a]? = some x → (parts I)[b]? = some y → (C.dep a b ≠ 0 ↔ Reach I x y)
  dir : ∀ a b x y, (parts I)[a]? = some x → (parts I)[b]? = some y → (C.direct a b = true ↔ Direct I x y)
  nodup : C.comps.flatten.Nodup
  cover : ∀ a, a ∈ C.comps.flatten ↔ a < C.m
  comp : ∀ c ∈ C.comps, ∀ a ∈ c, ∀ b x y, (parts I)[a]? = some x → (parts I)[b]? = some y →
    (b ∈ c ↔ (x = y ∨ (Reach I x y ∧ Reach I y x)))

theorem Rep.m {I : Input} {C : CG} (h : Rep I C) : C.m = (parts I).length := by
  unfold CG.m; rw [h.chunks]; simp

theorem reach_has {I : Input} (hw : Wf I) {a b : Part} (h : Reach I a b) : I.Has a ∧ I.Has b := by
  have step : ∀ a b, Step I a b → I.Has a ∧ I.Has b := by
    rintro a b (⟨i, j, hi, hj, rfl, rfl, _⟩ | ⟨h1, h2, _⟩)
    · exact ⟨hw.has i hi, hw.has j hj⟩
    · exact ⟨h1, h2⟩
  induction h with
  | single h => exact step _ _ h
  | tail _ h ih => exact ⟨ih.1, (step _ _ h).2⟩

theorem direct_step {I : Input} {a b : Part} (h : Direct I a b) : Step I a b := by
  obtain ⟨i, j, hi, hj, h1, h2, h3, h4⟩ := h
  refine .inl ⟨i, j, hi, hj, h1, h2, fun h => h3 (by simp [h]), h4⟩

theorem mget_flatMap {α : Type} (cs : List α) (f : α → α → Dep) {a b : Nat} {x y : α} (ha : cs[a]? = some x)
    (hb : cs[b]? = some y) : mget cs.length (cs.flatMap fun a => cs.map fun b => f a b) a b = f x y := by
  unfold mget
  have key : ∀ (l : List α) (a : Nat), l[a]? = some x →
      (l.flatMap fun a => cs.map fun b => f a b)[a * cs.length + b]? = some (f x y) := by
    intro l
    induction l with
    | nil => intro a h; simp at h
    | cons z l ih =>
      intro a h
      have hbl : b < cs.length := by
        by_contra hc
        rw [List.getElem?_eq_none (by omega)] at hb
        cases hb
      cases a with
      | zero =>
        simp only [List.getElem?_cons_zero, Option.some.injEq] at h
        subst h
        rw [List.flatMap_cons, List.getElem?_append_left (by simp; omega)]
        simp [hb]
      | succ a =>
        simp only [List.getElem?_cons_succ] at h
        rw [List.flatMap_cons, List.getElem?_append_right (by simp; rw [Nat.succ_mul]; omega)]
        have : (a + 1) * cs.length + b - (cs.map fun b => f z b).length = a * cs.length + b := by
          rw [List.length_map, Nat.succ_mul]; omega
        rw [this]
        exact ih a h
  rw [key cs a ha]
  rfl

theorem length_flatMap {α β : Type} (cs : List α) (f : α → α → β) :
    (cs.flatMap fun a => cs.map fun b => f a b).length = cs.length * cs.length := by
  simp [List.length_flatMap, List.map_const', List.sum_replicate]

theorem lt_of_getElem? {α : Type} {l : List α} {a : Nat} {x : α} (h : l[a]? = some x) : a < l.length := by
  by_contra hc
  rw [List.getElem?_eq_none (by omega)] at h
  cases h

/-- a chunk graph can be built whenever the array of chunks is large enough -/
theorem collect_ok {I : Input} (hw : Wf I) (h10 : (parts I).length ≤ 10 * I.n) (hpos : 0 < (parts I).length) :
    ∃ C, collect I = .ok C := by
  unfold collect collectChunks
  simp only [chunks_eq, List.length_map]
  rw [if_neg (by omega), Res.ok_bind, List.length_map, if_neg (by omega)]
  obtain ⟨g', e, hl, _⟩ := ccLoop_spec (parts I).length (32 * ((parts I).length * (parts I).length) + 1)
    (initGraph I ((parts I).map (mkChunk I))) (by unfold initGraph; rw [length_flatMap]; simp) (by omega)
  rw [e, Res.ok_bind]
  obtain ⟨cs, e2, _⟩ := Scc.components_spec (parts I).length (Phase.adjOf g') (by simp [Phase.adjOf, hl])
  rw [e2, Res.ok_bind]
  exact ⟨_, rfl⟩

theorem transGen_map {α β : Type} {r : α → α → Prop} {s : β → β → Prop} (f : α → β → Prop)
    (h : ∀ a b x, r a b → f a x → ∃ y, f b y ∧ s x y) {a b : α} (hab : Relation.TransGen r a b) {x : β} (hx : f a x) :
    ∃ y, f b y ∧ Relation.TransGen s x y := by
  induction hab with
  | single hab =>
    obtain ⟨y, hy, hs⟩ := h _ _ _ hab hx
    exact ⟨y, hy, .single hs⟩
  | tail _ hbc ih =>
    obtain ⟨y, hy, hs⟩ := ih
    obtain ⟨z, hz, hs'⟩ := h _ _ _ hbc hy
    exact ⟨z, hz, hs.tail hs'⟩

theorem transGen_index {ps : List Part} {r : Nat → Nat → Prop} {s : Part → Part → Prop}
    (h1 : ∀ a b, r a b → a < ps.length ∧ b < ps.length) (h2 : ∀ x y, s x y → x ∈ ps ∧ y ∈ ps)
    (hnd : ps.Nodup)
    (h : ∀ a b x y, ps[a]? = some x → ps[b]? = some y → (r a b ↔ s x y)) {a b : Nat} {x y : Part}
    (ha : ps[a]? = some x) (hb : ps[b]? = some y) : Relation.TransGen r a b ↔ Relation.TransGen s x y := by
  constructor
  · intro hab
    obtain ⟨z, hz, hs⟩ := transGen_map (s := s) (fun a x => ps[a]? = some x) (fun a b x hab hx => by
      have := (h1 a b hab).2
      exact ⟨ps[b], by simp, (h a b x _ hx (by simp)).1 hab⟩) hab ha
    rw [hb] at hz
    cases hz
    exact hs
  · intro hxy
    obtain ⟨c, hc, hs⟩ := transGen_map (s := r) (fun x a => ps[a]? = some x) (fun x y a hxy hx => by
      have := (h2 x y hxy).2
      obtain ⟨b, hb⟩ := List.getElem?_of_mem this
      exact ⟨b, hb, (h a b x y hx hb).2 hxy⟩) hxy ha
    have : c = b := (List.getElem?_inj (lt_of_getElem? hc) hnd).1 (hc.trans hb.symm)
    exact this ▸ hs

theorem collect_rep {I : Input} (hw : Wf I) {C : CG} (h : collect I = .ok C) : Rep I C := by
  unfold collect collectChunks at h
  simp only [chunks_eq, List.length_map] at h
  by_cases h10 : 10 * I.n < (parts I).length
  · rw [if_pos h10] at h; cases h
  rw [if_neg h10, Res.ok_bind, List.length_map] at h
  by_cases h0 : (parts I).length = 0
  · rw [if_pos h0] at h; cases h
  rw [if_neg h0] at h
  have hil : (initGraph I ((parts I).map (mkChunk I))).length = (parts I).length * (parts I).length := by
    unfold initGraph; rw [length_flatMap]; simp
  obtain ⟨g', e, hl, hcl, hdir⟩ := ccLoop_spec (parts I).length (32 * ((parts I).length * (parts I).length) + 1)
    (initGraph I ((parts I).map (mkChunk I))) hil (by omega)
  rw [e, Res.ok_bind] at h
  obtain ⟨cs, e2, nd, cov, hcomp, _⟩ := Scc.components_spec (parts I).length (Phase.adjOf g') (by simp [Phase.adjOf, hl])
  rw [e2, Res.ok_bind] at h
  simp only [Res.pure_eq, Res.ok.injEq] at h
  subst h
  have hnd := nodup_parts I
  have init : ∀ a b x y, (parts I)[a]? = some x → (parts I)[b]? = some y →
      mget (parts I).length (initGraph I ((parts I).map (mkChunk I))) a b = chunkDep I (mkChunk I x) (mkChunk I y) := by
    intro a b x y ha hb
    have := mget_flatMap ((parts I).map (mkChunk I)) (fun a b => chunkDep I a b) (a := a) (b := b)
      (x := mkChunk I x) (y := mkChunk I y) (by simp [ha]) (by simp [hb])
    rwa [List.length_map] at this
  have hstep : ∀ a b x y, (parts I)[a]? = some x → (parts I)[b]? = some y →
      (NZ (parts I).length (initGraph I ((parts I).map (mkChunk I))) a b ↔ Step I x y) := by
    intro a b x y ha hb
    have hx := mem_parts.1 (List.mem_of_getElem? ha)
    have hy := mem_parts.1 (List.mem_of_getElem? hb)
    unfold NZ
    rw [init a b x y ha hb, chunkDep_ne hw hx hy]
    exact ⟨fun h => h.2.2, fun h => ⟨lt_of_getElem? ha, lt_of_getElem? hb, h⟩⟩
  have hreach : ∀ a b x y, (parts I)[a]? = some x → (parts I)[b]? = some y →
      (NZ (parts I).length g' a b ↔ Reach I x y) := by
    intro a b x y ha hb
    rw [hcl]
    exact transGen_index (fun a b h => ⟨h.1, h.2.1⟩) (fun x y h => by
      have := reach_has hw (.single h)
      exact ⟨mem_parts.2 this.1, mem_parts.2 this.2⟩) hnd hstep ha hb
  refine ⟨rfl, ?_, ?_, nd, fun a => by rw [cov]; simp [CG.m], ?_⟩
  · intro a b x y ha hb
    rw [← hreach a b x y ha hb]
    unfold CG.dep CG.m NZ
    simp only [List.length_map]
    exact ⟨fun h => ⟨lt_of_getElem? ha, lt_of_getElem? hb, h⟩, fun h => h.2.2⟩
  · intro a b x y ha hb
    have hx := mem_parts.1 (List.mem_of_getElem? ha)
    have hy := mem_parts.1 (List.mem_of_getElem? hb)
    rw [← chunkDep_dir hw hx hy, ← init a b x y ha hb, ← hdir a b (lt_of_getElem? ha) (lt_of_getElem? hb)]
    unfold CG.direct CG.dep CG.m
    simp only [List.length_map]
    rw [bne_iff_ne, and_direct_ne]
  · intro c hc a hac b x y ha hb
    obtain ⟨v, hv, hmem⟩ := hcomp c hc
    have hR : ∀ i j, Scc.R (parts I).length (Phase.adjOf g') i j ↔ NZ (parts I).length g' i j := by
      intro i j
      unfold Scc.R NZ Scc.containsEdge mget Phase.adjOf
      refine and_congr_right fun hi => and_congr_right fun hj => ?_
      have := Scc.cell_lt hi hj
      rw [List.getElem?_map, List.getElem?_eq_getElem (by omega)]
      simp
    have hRe : ∀ i j z w, (parts I)[i]? = some z → (parts I)[j]? = some w →
        (Scc.Reach (parts I).length (Phase.adjOf g') i j ↔ Reach I z w) := by
      intro i j z w hi hj
      have hh := transGen_index (r := Scc.R (parts I).length (Phase.adjOf g')) (s := Reach I)
        (fun a b h => ⟨h.1, h.2.1⟩) (fun x y h => by
        have := reach_has hw h
        exact ⟨mem_parts.2 this.1, mem_parts.2 this.2⟩) hnd
        (fun a b x y ha hb => (hR a b).trans (hreach a b x y ha hb)) hi hj
      refine hh.trans ?_
      exact ⟨Scc.transGen_of_trans (fun a b c h1 h2 => h1.trans h2), fun h => .single h⟩
    have hvl : v < (parts I).length := (cov v).1 (List.mem_flatten.2 ⟨c, hc, hv⟩)
    have hvz : (parts I)[v]? = some (parts I)[v] := by simp
    rw [hmem b]
    have ha' := (hmem a).1 hac
    rw [hRe _ _ _ _ ha hvz, hRe _ _ _ _ hvz ha] at ha'
    rw [hRe _ _ _ _ hb hvz, hRe _ _ _ _ hvz hb]
    have ev : ∀ i z, (parts I)[i]? = some z → (i = v ↔ z = (parts I)[v]) := by
      intro i z hi
      constructor
      · rintro rfl; rw [hvz] at hi; exact (Option.some.inj hi).symm
      · rintro rfl; exact (List.getElem?_inj (lt_of_getElem? hi) hnd).1 (hi.trans hvz.symm)
    rw [ev a x ha] at ha'
    rw [ev b y hb]
    rcases ha' with rfl | ⟨h1, h2⟩
    · constructor
      · rintro (h | ⟨h1, h2⟩)
        · exact .inl h.symm
        · exact .inr ⟨h2, h1⟩
      · rintro (h | ⟨h1, h2⟩)
        · exact .inl h.symm
        · exact .inr ⟨h2, h1⟩
    · constructor
      · rintro (rfl | ⟨h3, h4⟩)
        · exact .inr ⟨h1, h2⟩
        · exact .inr ⟨h1.trans h4, h3.trans h2⟩
      · rintro (rfl | ⟨h3, h4⟩)
        · exact .inr ⟨h1, h2⟩
        · exact .inr ⟨h4.trans h1, h2.trans h3⟩

theorem mget_flatMapB {α : Type} (cs : List α) (f : α → α → Bool) {a b : Nat} {x y : α} (ha : cs[a]? = some x)
    (hb : cs[b]? = some y) :
    Scc.containsEdge cs.length (cs.flatMap fun a => cs.map fun b => f a b) a b = f x y := by
  unfold Scc.containsEdge
  have key : ∀ (l : List α) (a : Nat), l[a]? = some x →
      (l.flatMap fun a => cs.map fun b => f a b)[a * cs.length + b]? = some (f x y) := by
    intro l
    induction l with
    | nil => intro a h; simp at h
    | cons z l ih =>
      intro a h
      have hbl := lt_of_getElem? hb
      cases a with
      | zero =>
        simp only [List.getElem?_cons_zero, Option.some.injEq] at h
        subst h
        rw [List.flatMap_cons, List.getElem?_append_left (by simp; omega)]
        simp [hb]
      | succ a =>
        simp only [List.getElem?_cons_succ] at h
        rw [List.flatMap_cons, List.getElem?_append_right (by simp; rw [Nat.succ_mul]; omega)]
        have : (a + 1) * cs.length + b - (cs.map fun b => f z b).length = a * cs.length + b := by
          rw [List.length_map, Nat.succ_mul]; omega
        rw [this]
        exact ih a h
  rw [key cs a ha]
  rfl

theorem Rep.comp_lt {I : Input} {C : CG} (h : Rep I C) {c : List Nat} (hc : c ∈ C.comps) {a : Nat} (ha : a ∈ c) :
    a < (parts I).length := by
  rw [← h.m]
  exact (h.cover a).1 (List.mem_flatten.2 ⟨c, hc, ha⟩)

theorem Rep.comp_nodup {I : Input} {C : CG} (h : Rep I C) {c : List Nat} (hc : c ∈ C.comps) : c.Nodup :=
  (List.nodup_flatten.1 h.nodup).1 c hc

theorem directs_reach {I : Input} {x y : Part} (h : Relation.TransGen (Direct I) x y) : Reach I x y := by
  induction h with
  | single h => exact .single (direct_step h)
  | tail _ h ih => exact ih.tail (direct_step h)

/-- the positions of a component with a direct cycle -/
theorem inDirectCycle_iff {I : Input} (hw : Wf I) {C : CG} (h : Rep I C) {comp : List Nat} (hc : comp ∈ C.comps)
    {a b : Nat} (ha : a ∈ comp) (hb : b ∈ comp) (hab : a ≠ b) {x y : Part} (hx : (parts I)[a]? = some x)
    (hy : (parts I)[b]? = some y) :
    C.inDirectCycle comp a b = true ↔ (Relation.TransGen (Direct I) x y ∧ Relation.TransGen (Direct I) y x) := by
  have hnd := h.comp_nodup hc
  have hpn := nodup_parts I
  unfold CG.inDirectCycle
  obtain ⟨cs, e, nd, cov, hcomp, _⟩ := Scc.components_spec comp.length
    (comp.flatMap fun x => comp.map fun y => C.direct x y) (length_flatMap _ _)
  rw [e]
  simp only [List.any_eq_true, Bool.and_eq_true, decide_eq_true_eq, beq_iff_eq]
  -- the relation on positions
  have hR : ∀ i j u v z w, comp[i]? = some u → comp[j]? = some v → (parts I)[u]? = some z → (parts I)[v]? = some w →
      (Scc.R comp.length (comp.flatMap fun x => comp.map fun y => C.direct x y) i j ↔ Direct I z w) := by
    intro i j u v z w hi hj hu hv
    unfold Scc.R
    rw [mget_flatMapB comp _ hi hj, h.dir u v z w hu hv]
    exact ⟨fun h => h.2.2, fun h => ⟨lt_of_getElem? hi, lt_of_getElem? hj, h⟩⟩
  have toD : ∀ i j u v z w, comp[i]? = some u → comp[j]? = some v → (parts I)[u]? = some z → (parts I)[v]? = some w →
      Scc.Reach comp.length (comp.flatMap fun x => comp.map fun y => C.direct x y) i j →
      Relation.TransGen (Direct I) z w := by
    intro i j u v z w hi hj hu hv hr
    obtain ⟨w', ⟨v', h1, h2⟩, h3⟩ := transGen_map (s := Direct I)
      (fun i z => ∃ u, comp[i]? = some u ∧ (parts I)[u]? = some z) (fun i j z hij hz => by
        obtain ⟨u, hu1, hu2⟩ := hz
        have hjl := hij.2.1
        have hv1 : comp[j]? = some comp[j] := by simp
        have hlt := h.comp_lt hc (List.mem_of_getElem? hv1)
        have hv2 : (parts I)[comp[j]]? = some (parts I)[comp[j]] := by simp
        exact ⟨_, ⟨_, hv1, hv2⟩, (hR i j _ _ _ _ hu1 hv1 hu2 hv2).1 hij⟩) hr ⟨u, hi, hu⟩
    rw [hj] at h1
    cases h1
    rw [hv] at h2
    cases h2
    exact h3
  have ofD : ∀ i j u v z w, comp[i]? = some u → comp[j]? = some v → (parts I)[u]? = some z → (parts I)[v]? = some w →
      Relation.TransGen (Direct I) z w → Relation.TransGen (Direct I) w z →
      Scc.Reach comp.length (comp.flatMap fun x => comp.map fun y => C.direct x y) i j := by
    intro i j u v z w hi hj hu hv hzw hwz
    have key : ∀ q, Relation.TransGen (Direct I) z q → Relation.ReflTransGen (Direct I) q w → ∃ t k, comp[k]? = some t ∧
        (parts I)[t]? = some q ∧
        Scc.Reach comp.length (comp.flatMap fun x => comp.map fun y => C.direct x y) i k := by
      intro q hq
      induction hq with
      | single hd =>
        rename_i q
        intro hqw
        have hqz : Reach I q z := by
          rcases Relation.reflTransGen_iff_eq_or_transGen.1 hqw with he | hh
          · rw [← he]; exact directs_reach hwz
          · exact directs_reach (hh.trans hwz)
        have hzq : Reach I z q := .single (direct_step hd)
        have hqp := (reach_has hw hqz).1
        obtain ⟨t, ht⟩ := List.getElem?_of_mem (mem_parts.2 hqp)
        have htc : t ∈ comp := (h.comp comp hc u (List.mem_of_getElem? hi) t z q hu ht).2 (.inr ⟨hzq, hqz⟩)
        obtain ⟨k, hk⟩ := List.getElem?_of_mem htc
        exact ⟨t, k, hk, ht, .single ((hR i k u t z q hi hk hu ht).2 hd)⟩
      | tail hzq' hd ih =>
        rename_i q' q
        intro hqw
        obtain ⟨t', k', hk', ht', hr'⟩ := ih (.head hd hqw)
        have hqz : Reach I q z := by
          rcases Relation.reflTransGen_iff_eq_or_transGen.1 hqw with he | hh
          · rw [← he]; exact directs_reach hwz
          · exact directs_reach (hh.trans hwz)
        have hzq : Reach I z q := directs_reach (hzq'.tail hd)
        have hqp := (reach_has hw hqz).1
        obtain ⟨t, ht⟩ := List.getElem?_of_mem (mem_parts.2 hqp)
        have htc : t ∈ comp := (h.comp comp hc u (List.mem_of_getElem? hi) t z q hu ht).2 (.inr ⟨hzq, hqz⟩)
        obtain ⟨k, hk⟩ := List.getElem?_of_mem htc
        exact ⟨t, k, hk, ht, hr'.tail ((hR k' k t' t q' q hk' hk ht' ht).2 hd)⟩
    obtain ⟨t, k, hk, ht, hr⟩ := key w hzw .refl
    have : t = v := (List.getElem?_inj (lt_of_getElem? ht) hpn).1 (ht.trans hv.symm)
    subst this
    have : k = j := (List.getElem?_inj (lt_of_getElem? hk) hnd).1 (hk.trans hj.symm)
    exact this ▸ hr
  obtain ⟨i, hi⟩ := List.getElem?_of_mem ha
  obtain ⟨j, hj⟩ := List.getElem?_of_mem hb
  have uniq : ∀ k u, comp[k]? = some u → ∀ k', comp[k']? = some u → k' = k := fun k u hk k' hk' =>
    (List.getElem?_inj (lt_of_getElem? hk') hnd).1 (hk'.trans hk.symm)
  constructor
  · rintro ⟨c, hcc, ⟨hlen, i', hi'c, hi'⟩, j', hj'c, hj'⟩
    obtain rfl := uniq _ _ hi _ hi'
    obtain rfl := uniq _ _ hj _ hj'
    obtain ⟨v, hvc, hmem⟩ := hcomp c hcc
    have hv : v < comp.length := (cov v).1 (List.mem_flatten.2 ⟨c, hcc, hvc⟩)
    have hne : i' ≠ j' := by
      rintro rfl
      rw [hi] at hj
      exact hab (Option.some.inj hj)
    have m1 := (hmem i').1 hi'c
    have m2 := (hmem j').1 hj'c
    have hr : Scc.Reach comp.length (comp.flatMap fun x => comp.map fun y => C.direct x y) i' j' ∧
        Scc.Reach comp.length (comp.flatMap fun x => comp.map fun y => C.direct x y) j' i' := by
      rcases m1 with rfl | ⟨h1, h2⟩
      · rcases m2 with rfl | ⟨h3, h4⟩
        · exact absurd rfl hne
        · exact ⟨h4, h3⟩
      · rcases m2 with rfl | ⟨h3, h4⟩
        · exact ⟨h1, h2⟩
        · exact ⟨h1.trans h4, h3.trans h2⟩
    exact ⟨toD _ _ _ _ _ _ hi hj hx hy hr.1, toD _ _ _ _ _ _ hj hi hy hx hr.2⟩
  · rintro ⟨h1, h2⟩
    have r1 := ofD _ _ _ _ _ _ hi hj hx hy h1 h2
    have r2 := ofD _ _ _ _ _ _ hj hi hy hx h2 h1
    have : i ∈ cs.flatten := (cov i).2 (lt_of_getElem? hi)
    obtain ⟨c, hcc, hic⟩ := List.mem_flatten.1 this
    obtain ⟨v, hvc, hmem⟩ := hcomp c hcc
    have hjc : j ∈ c := by
      rw [hmem j]
      rcases (hmem i).1 hic with rfl | ⟨h3, h4⟩
      · exact .inr ⟨r2, r1⟩
      · exact .inr ⟨r2.trans h3, h4.trans r1⟩
    have hne : i ≠ j := by
      rintro rfl
      rw [hi] at hj
      exact hab (Option.some.inj hj)
    refine ⟨c, hcc, ⟨?_, i, hic, hi⟩, j, hjc, hj⟩
    match c, hic, hjc with
    | [z], hic, hjc =>
      simp only [List.mem_singleton] at hic hjc
      exact absurd (hic.trans hjc.symm) hne
    | _ :: _ :: _, _, _ => simp

end Aps.Chunk
