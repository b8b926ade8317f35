import Verif.Proofs.ChunkGraph
/-! What the scheduler does along one path, in terms of parts. -/
set_option linter.unusedVariables false
namespace Aps.Chunk
open Aps.Dnc Aps.Oag

/-- same component -/
def Same (I : Input) (x y : Part) : Prop := x = y ∨ (Reach I x y ∧ Reach I y x)

theorem Same.symm {I : Input} {x y : Part} (h : Same I x y) : Same I y x :=
  h.elim (fun e => .inl e.symm) (fun e => .inr e.symm)

theorem Same.trans {I : Input} {x y z : Part} (h : Same I x y) (h' : Same I y z) : Same I x z := by
  rcases h with rfl | h
  · exact h'
  · rcases h' with rfl | h'
    · exact .inr h
    · exact .inr ⟨h.1.trans h'.1, h'.2.trans h.2⟩

/-- not a visit that may not be made in this phase -/
def Prevented (I : Input) (ph : Nat) : Part → Prop
  | .visit ch p => (∀ info, I.children[ch]? = some (some info) → info.circ p = false) ∧ I.parent.circ ph = true
  | _ => False

/-- `z` blocks `y` -/
def Blocks (I : Input) (z y : Part) : Prop := Direct I z y ∧ ¬ Relation.TransGen (Direct I) y z

/-- available in its component -/
def Avail (I : Input) (ph : Nat) (cd : List Part) (y : Part) : Prop :=
  I.Has y ∧ y ∉ cd ∧ ¬ Prevented I ph y ∧ ∀ z, Same I y z → Blocks I z y → z ∈ cd

/-- everything outside its component it depends on is done -/
def Open (I : Input) (cd : List Part) (y : Part) : Prop := ∀ z, Reach I z y → ¬ Reach I y z → z ∈ cd

/-- all parts of the component are parent's synthesised attributes -/
def OnlyRight (I : Input) (y : Part) : Prop := ∀ z, Same I y z → ∃ p, z = .right p

/-- a ready component -/
def CReady (I : Input) (cd : List Part) (y : Part) : Prop := I.Has y ∧ Open I cd y ∧ ∃ z, Same I y z ∧ z ∉ cd

/-- the events for some instances -/
def emit (I : Input) (c : Cond) (l : List Nat) : List Ev :=
  (l.filter fun i => !ignored c (I.cond i)).map .inst

/-- the events for a part -/
def evsOf (I : Input) (c : Cond) : Part → List Ev
  | .left p => emit I c (I.members fun g => g == (-(p : Int), -1))
  | .right p => emit I c (I.members fun g => g == ((p : Int), -1)) ++ [.finish p]
  | .visit ch p => emit I c (I.members fun g => g == (-(p : Int), (ch : Int))) ++ [.visit ch p] ++
      emit I c (I.members fun g => g == ((p : Int), (ch : Int)))
  | .loc i => emit I c [i]

/-- the condition after a part -/
def upd (I : Input) (σ : Nat → Bool) (c : Cond) : Part → Cond
  | .loc i =>
    if ignored c (I.cond i) then c else
    match I.rule i with
    | some r => if σ r then ⟨c.pos ||| cmask r, c.neg⟩ else ⟨(c.pos ||| cmask r) &&& ~~~cmask r, c.neg ||| cmask r⟩
    | none => c
  | _ => c

/-- between two parts -/
inductive Mode
  | start
  | comp (x : Part)

/-- a run along the path chosen by `σ` -/
inductive Run (I : Input) (σ : Nat → Bool) : Mode → Cond → List Part → Nat → List Ev → Prop
  | finish {c cd ph} : I.parent.maxPhase < ph → Run I σ .start c cd ph []
  | start {c cd ph es} : ph ≤ I.parent.maxPhase → Run I σ (.comp (.left ph)) c (.left ph :: cd) ph es →
      Run I σ .start c cd ph ((if .left ph ∈ cd then [] else evsOf I c (.left ph)) ++ es)
  | pick {x y c cd ph es} : Same I x y → Avail I ph cd y → (∀ p, y ≠ .right p) →
      Run I σ (.comp x) (upd I σ c y) (y :: cd) ph es → Run I σ (.comp x) c cd ph (evsOf I c y ++ es)
  | pickRight {x c cd ph p es} : Same I x (.right p) → Avail I ph cd (.right p) →
      (∀ z, Same I x z → Avail I ph cd z → ∃ q, z = .right q) →
      Run I σ .start c (.right p :: cd) (ph + 1) es → Run I σ (.comp x) c cd ph (evsOf I c (.right p) ++ es)
  | switch {x y c cd ph es} : (∀ z, Same I x z → ¬ Avail I ph cd z) → ¬ Same I x y → CReady I cd y →
      (OnlyRight I y → ∀ w, ¬ Same I x w → CReady I cd w → OnlyRight I w) →
      Run I σ (.comp y) c cd ph es → Run I σ (.comp x) c cd ph es

/-- the state stands for the parts done -/
structure Rel (I : Input) (st : St) (cd : List Part) : Prop where
  chunk : ∀ a x, (parts I)[a]? = some x → (a ∈ st.cdone ↔ x ∈ cd)
  inst : ∀ i, i < I.n → (i ∈ st.done ↔ I.part i ∈ cd)

theorem sat_possible {σ : Nat → Bool} {c : Cond} (h : Sat σ c) : impossible c = false := by
  unfold impossible
  rw [bne_eq_false_iff_eq]
  show c.ok
  rw [Cond.ok_iff]
  rintro i ⟨h1, h2⟩
  have := h i
  rw [this.1 h1] at this
  exact absurd (this.2 h2) (by simp)

theorem sat_upd {I : Input} (hw : Wf I) {σ : Nat → Bool} {c : Cond} (h : Sat σ c) (y : Part) : Sat σ (upd I σ c y) := by
  cases y with
  | loc i =>
    unfold upd
    simp only
    split
    · exact h
    · cases hr : I.rule i with
      | none => exact h
      | some r =>
        have hr32 := hw.rules i r hr
        have hm : ∀ k, (cmask r).getLsbD k = true ↔ k = r := fun k => by rw [cmask_bit hr32]; simp
        simp only
        split
        · rename_i hs
          intro k
          simp only [BitVec.getLsbD_or, Bool.or_eq_true, hm]
          refine ⟨?_, (h k).2⟩
          rintro (h1 | rfl)
          · exact (h k).1 h1
          · exact hs
        · rename_i hs
          intro k
          simp only [andnot_getLsbD, BitVec.getLsbD_or, Bool.or_eq_true, Bool.and_eq_true, hm, Bool.not_eq_true']
          refine ⟨?_, ?_⟩
          · rintro ⟨h1 | rfl, h2⟩
            · exact (h k).1 h1
            · rw [(hm k).2 rfl] at h2; cases h2
          · rintro (h1 | rfl)
            · exact (h k).2 h1
            · simpa using hs
  | _ => exact h

/-! ## Choosing -/

theorem pickMax_spec (rank : Nat → Nat) (l : List Nat) :
    (pickMax rank l = none ∧ ∀ j ∈ l, rank j = 0) ∨
    ∃ k, pickMax rank l = some k ∧ k ∈ l ∧ 0 < rank k ∧ ∀ j ∈ l, rank j ≤ rank k := by
  unfold pickMax
  have key : ∀ (l pre : List Nat) (b : Nat × Option Nat),
      ((b = (0, none) ∧ ∀ j ∈ pre, rank j = 0) ∨ ∃ k, b = (rank k, some k) ∧ k ∈ pre ∧ 0 < rank k ∧ ∀ j ∈ pre, rank j ≤ rank k) →
      let r := l.foldl (fun (b : Nat × Option Nat) x => if b.1 < rank x then (rank x, some x) else b) b
      ((r = (0, none) ∧ ∀ j ∈ pre ++ l, rank j = 0) ∨
        ∃ k, r = (rank k, some k) ∧ k ∈ pre ++ l ∧ 0 < rank k ∧ ∀ j ∈ pre ++ l, rank j ≤ rank k) := by
    intro l
    induction l with
    | nil => intro pre b h; simpa using h
    | cons x l ih =>
      intro pre b h
      have := ih (pre ++ [x]) (if b.1 < rank x then (rank x, some x) else b) (by
        rcases h with ⟨rfl, h⟩ | ⟨k, rfl, hk, hp, h⟩
        · simp only
          split
          · rename_i hx
            refine .inr ⟨x, rfl, by simp, hx, ?_⟩
            intro j hj
            rcases List.mem_append.1 hj with hj | hj
            · rw [h j hj]; omega
            · simp only [List.mem_singleton] at hj; subst hj; exact Nat.le_refl _
          · rename_i hx
            refine .inl ⟨rfl, ?_⟩
            intro j hj
            rcases List.mem_append.1 hj with hj | hj
            · exact h j hj
            · simp only [List.mem_singleton] at hj; subst hj; omega
        · simp only
          split
          · rename_i hx
            refine .inr ⟨x, rfl, by simp, by omega, ?_⟩
            intro j hj
            rcases List.mem_append.1 hj with hj | hj
            · have := h j hj; omega
            · simp only [List.mem_singleton] at hj; subst hj; exact Nat.le_refl _
          · rename_i hx
            refine .inr ⟨k, rfl, by simp [hk], hp, ?_⟩
            intro j hj
            rcases List.mem_append.1 hj with hj | hj
            · exact h j hj
            · simp only [List.mem_singleton] at hj; subst hj; omega)
      simpa using this
  have := key l [] (0, none) (.inl ⟨rfl, by simp⟩)
  simp only [List.nil_append] at this
  rcases this with ⟨h1, h2⟩ | ⟨k, h1, h2⟩
  · exact .inl ⟨by rw [h1], h2⟩
  · exact .inr ⟨k, by rw [h1], h2⟩

section
variable {I : Input} (hw : Wf I) {C : CG} (hr : Rep I C)
include hw hr

theorem chunk_at {a : Nat} {x : Part} (h : (parts I)[a]? = some x) : C.chunks[a]? = some (mkChunk I x) := by
  rw [hr.chunks, List.getElem?_map, h]; rfl

theorem rank_at {a : Nat} {x : Part} (h : (parts I)[a]? = some x) :
    C.rank a = match x with | .left _ => 8 | .right _ => 2 | _ => 4 := by
  unfold CG.rank
  rw [chunk_at hw hr h]
  cases x <;> rfl

theorem prevented_at {a : Nat} {x : Part} (h : (parts I)[a]? = some x) {ph : Nat} :
    C.prevented I ph a = true ↔ Prevented I ph x := by
  unfold CG.prevented
  rw [chunk_at hw hr h]
  cases x with
  | visit ch p =>
    simp only [mkChunk, Prevented, Bool.and_eq_true, Bool.not_eq_true', beq_self_eq_true, true_and]
    refine and_congr_left fun _ => ?_
    have hk : I.Has (.visit ch p) := mem_parts.1 (List.mem_of_getElem? h)
    obtain ⟨info, hi, _⟩ := hk
    rw [hi]
    simp
  | _ => simp [mkChunk, Prevented]

theorem same_at {c : List Nat} (hc : c ∈ C.comps) {a b : Nat} {x y : Part} (ha : a ∈ c) (hx : (parts I)[a]? = some x)
    (hy : (parts I)[b]? = some y) : b ∈ c ↔ Same I x y := hr.comp c hc a ha b x y hx hy

theorem part_of {c : List Nat} (hc : c ∈ C.comps) {a : Nat} (ha : a ∈ c) : ∃ x, (parts I)[a]? = some x := by
  have := hr.comp_lt hc ha
  exact ⟨_, List.getElem?_eq_getElem this⟩

theorem chunkRank_at {st : St} {cd : List Part} (hrel : Rel I st cd) {c : List Nat} (hc : c ∈ C.comps) {b : Nat} (hb : b ∈ c)
    {y : Part} (hy : (parts I)[b]? = some y) {ph : Nat} : C.chunkRank I st c ph b ≠ 0 ↔ Avail I ph cd y := by
  have hk : I.Has y := mem_parts.1 (List.mem_of_getElem? hy)
  have hrank : C.rank b ≠ 0 := by rw [rank_at hw hr hy]; cases y <;> simp
  have hnp := nodup_parts I
  unfold CG.chunkRank Avail
  have hblock : (c.all fun a => a == b || st.cdone.contains a || !C.direct a b || C.direct b a || C.inDirectCycle c a b) = true ↔
      ∀ z, Same I y z → Blocks I z y → z ∈ cd := by
    rw [List.all_eq_true]
    constructor
    · intro h z hz hbl
      obtain ⟨a, ha⟩ := List.getElem?_of_mem (mem_parts.2 (reach_has hw (.single (direct_step hbl.1))).1)
      have hac : a ∈ c := (same_at hw hr hc hb hy ha).2 hz
      have := h a hac
      simp only [Bool.or_eq_true, beq_iff_eq, List.contains_iff_mem, Bool.not_eq_true'] at this
      rcases this with (((rfl | h1) | h1) | h1) | h1
      · rw [ha] at hy
        cases hy
        exact absurd (.single hbl.1) hbl.2
      · exact (hrel.chunk a z ha).1 h1
      · rw [(hr.dir a b z y ha hy).2 hbl.1] at h1; cases h1
      · exact absurd (.single ((hr.dir b a y z hy ha).1 h1)) hbl.2
      · by_cases hab : a = b
        · subst hab
          rw [ha] at hy
          cases hy
          exact absurd (.single hbl.1) hbl.2
        · exact absurd ((inDirectCycle_iff hw hr hc hac hb hab ha hy).1 h1).2 hbl.2
    · intro h a hac
      obtain ⟨z, ha⟩ := part_of hw hr hc hac
      simp only [Bool.or_eq_true, beq_iff_eq, List.contains_iff_mem, Bool.not_eq_true']
      by_cases hab : a = b
      · simp [hab]
      by_cases hd : C.direct a b = true
      · by_cases hcd : a ∈ st.cdone
        · simp [hcd]
        · by_cases ht : Relation.TransGen (Direct I) y z
          · right
            exact (inDirectCycle_iff hw hr hc hac hb hab ha hy).2 ⟨.single ((hr.dir a b z y ha hy).1 hd), ht⟩
          · exact absurd ((hrel.chunk a z ha).2 (h z ((same_at hw hr hc hb hy ha).1 hac) ⟨(hr.dir a b z y ha hy).1 hd, ht⟩)) hcd
      · simp [hd]
  by_cases hp : C.prevented I ph b = true
  · rw [if_pos hp]
    have := (prevented_at hw hr hy).1 hp
    simp [this]
  · rw [if_neg hp]
    have hp' : ¬ Prevented I ph y := fun h => hp ((prevented_at hw hr hy).2 h)
    by_cases hcd : b ∈ st.cdone
    · have := (hrel.chunk b y hy).1 hcd
      simp [hcd, this]
    · have hcd' : y ∉ cd := fun h => hcd ((hrel.chunk b y hy).2 h)
      have hins : ((mkChunk I y).insts.isEmpty || (mkChunk I y).insts.any fun i => !st.done.contains i) = true := by
        rcases hl : (mkChunk I y).insts with _ | ⟨i, l⟩
        · rfl
        · have : i ∈ (mkChunk I y).insts := by rw [hl]; simp
          obtain ⟨h1, h2⟩ := (mem_mkChunk hw hk).1 this
          have : i ∉ st.done := fun h => hcd' (h2 ▸ (hrel.inst i h1).1 h)
          simp [this]
      have hready : C.ready st c b = true ↔ ∀ z, Same I y z → Blocks I z y → z ∈ cd := by
        unfold CG.ready
        rw [chunk_at hw hr hy]
        simp only [hins, Bool.true_and]
        exact hblock
      simp only [List.contains_iff_mem, hcd, Bool.or_eq_true, Bool.not_eq_true', false_or, hk, hcd', hp',
        not_false_eq_true, true_and]
      by_cases hre : C.ready st c b = true
      · simp only [hre, Bool.true_eq_false, if_false]
        exact ⟨fun _ => hready.1 hre, fun _ => hrank⟩
      · have : C.ready st c b = false := by simpa using hre
        simp only [this, if_true, ne_eq, not_true_eq_false, false_iff]
        exact fun h => hre (hready.2 h)

omit hw hr in
theorem chunkRank_val {st : St} {c : List Nat} {b ph : Nat} (h : C.chunkRank I st c ph b ≠ 0) :
    C.chunkRank I st c ph b = C.rank b := by
  unfold CG.chunkRank at h ⊢
  split
  · rename_i h1; rw [if_pos h1] at h; exact absurd rfl h
  · rename_i h1
    rw [if_neg h1] at h
    split
    · rename_i h2; rw [if_pos h2] at h; exact absurd rfl h
    · rfl

/-- if the end of a phase is chosen, nothing else is available -/
theorem only_right {st : St} {cd : List Part} (hrel : Rel I st cd) {c : List Nat} (hc : c ∈ C.comps) {k b : Nat} {x : Part}
    (hk : k ∈ c) (hx : (parts I)[k]? = some x) (hb : b ∈ c)
    {p : Nat} (hy : (parts I)[b]? = some (.right p)) {ph : Nat} (hpos : 0 < C.chunkRank I st c ph b)
    (hmax : ∀ j ∈ c, C.chunkRank I st c ph j ≤ C.chunkRank I st c ph b) :
    ∀ z, Same I x z → Avail I ph cd z → ∃ q, z = .right q := by
  intro z hz hav
  obtain ⟨a, ha⟩ := List.getElem?_of_mem (mem_parts.2 hav.1)
  have hac := (same_at hw hr hc hk hx ha).2 hz
  have h1 := (chunkRank_at hw hr hrel hc hac ha).2 hav
  have h2 := hmax a hac
  rw [chunkRank_val h1, chunkRank_val (by omega), rank_at hw hr ha, rank_at hw hr hy] at h2
  cases z with
  | right q => exact ⟨q, rfl⟩
  | left q => simp only at h2; omega
  | visit ch q => simp only at h2; omega
  | loc i => simp only at h2; omega

theorem compReady_at {st : St} {cd : List Part} (hrel : Rel I st cd) {ci : Nat} {c : List Nat} (hci : C.comps[ci]? = some c)
    {b : Nat} (hb : b ∈ c) {y : Part} (hy : (parts I)[b]? = some y) : C.compReady st ci = true ↔ CReady I cd y := by
  have hc := List.mem_of_getElem? hci
  have hk : I.Has y := mem_parts.1 (List.mem_of_getElem? hy)
  unfold CG.compReady CReady
  rw [hci]
  simp only [hk, true_and, Bool.and_eq_true, List.any_eq_true, List.all_eq_true, List.mem_range, Bool.or_eq_true,
    beq_iff_eq, Bool.not_eq_true']
  rw [and_comm]
  refine and_congr ?_ ?_
  · constructor
    · intro h z hzy hyz
      obtain ⟨a, ha⟩ := List.getElem?_of_mem (mem_parts.2 (reach_has hw hzy).1)
      have haf : a ∈ C.comps.flatten := (hr.cover a).2 (by rw [hr.m]; exact lt_of_getElem? ha)
      obtain ⟨src, hsrc, has⟩ := List.mem_flatten.1 haf
      obtain ⟨cj, hcj⟩ := List.getElem?_of_mem hsrc
      rcases h cj (lt_of_getElem? hcj) with rfl | h
      · rw [hci] at hcj
        cases hcj
        rcases (same_at hw hr hc hb hy ha).1 has with rfl | ⟨h1, _⟩
        · exact absurd hzy hyz
        · exact absurd h1 hyz
      · rw [hcj] at h
        simp only [List.all_eq_true, Bool.or_eq_true, List.contains_iff_mem, beq_iff_eq] at h
        rcases h a has with h | h
        · exact (hrel.chunk a z ha).1 h
        · exact absurd (h b hb) ((hr.dep a b z y ha hy).2 hzy)
    · intro h cj hcj
      by_cases he : cj = ci
      · exact .inl he
      right
      have e : C.comps[cj]? = some C.comps[cj] := by simp
      rw [e]
      simp only [List.all_eq_true, Bool.or_eq_true, List.contains_iff_mem, beq_iff_eq]
      intro a ha
      have hsrc := List.mem_of_getElem? e
      obtain ⟨z, hz⟩ := part_of hw hr hsrc ha
      by_cases hac : a ∈ st.cdone
      · exact .inl hac
      right
      intro b' hb'
      obtain ⟨y', hy'⟩ := part_of hw hr hc hb'
      by_contra hd
      have hreach := (hr.dep a b' z y' hz hy').1 hd
      have hnot : a ∉ c := by
        intro hac'
        have hd := List.pairwise_iff_getElem.1 (List.nodup_flatten.1 hr.nodup).2
        have hci' := lt_of_getElem? hci
        have e2 : C.comps[ci] = c := by rw [List.getElem?_eq_getElem hci'] at hci; exact Option.some.inj hci
        rcases Nat.lt_or_gt_of_ne he with hlt | hlt
        · exact hd cj ci hcj hci' hlt ha (e2 ▸ hac')
        · exact hd ci cj hci' hcj hlt (e2 ▸ hac') ha
      have hsame : Same I y y' := (same_at hw hr hc hb hy hy').1 hb'
      have h1 : Reach I z y := by
        rcases hsame with rfl | ⟨_, h2⟩
        · exact hreach
        · exact hreach.trans h2
      have h2 : ¬ Reach I y z := fun h2 => hnot ((same_at hw hr hc hb hy hz).2 (.inr ⟨h2, h1⟩))
      exact hac ((hrel.chunk a z hz).2 (h z h1 h2))
  · constructor
    · rintro ⟨a, ha, h⟩
      obtain ⟨z, hz⟩ := part_of hw hr hc ha
      refine ⟨z, (same_at hw hr hc hb hy hz).1 ha, fun h' => ?_⟩
      have := (hrel.chunk a z hz).2 h'
      simp [this] at h
    · rintro ⟨z, hs, h⟩
      have hz : I.Has z := by
        rcases hs with rfl | ⟨h1, _⟩
        · exact hk
        · exact (reach_has hw h1).2
      obtain ⟨a, ha⟩ := List.getElem?_of_mem (mem_parts.2 hz)
      refine ⟨a, (same_at hw hr hc hb hy ha).2 hs, ?_⟩
      have : a ∉ st.cdone := fun h' => h ((hrel.chunk a z ha).1 h')
      simpa using this

end

theorem or_le_left (a b : Nat) : a ≤ a ||| b := Nat.left_le_or

theorem foldl_or_ge (f : Nat → Nat) (l : List Nat) (r : Nat) : r ≤ l.foldl (fun r a => r ||| f a) r ∧
    ∀ a ∈ l, f a ≤ l.foldl (fun r a => r ||| f a) r := by
  induction l generalizing r with
  | nil => simp
  | cons x l ih =>
    obtain ⟨h1, h2⟩ := ih (r ||| f x)
    refine ⟨Nat.le_trans Nat.left_le_or h1, ?_⟩
    intro a ha
    rcases List.mem_cons.1 ha with rfl | ha
    · exact Nat.le_trans Nat.right_le_or h1
    · exact h2 a ha

theorem foldl_or_two (f : Nat → Nat) (l : List Nat) (h : ∀ a ∈ l, f a = 2) (r : Nat) (hr : r = 0 ∨ r = 2) :
    l.foldl (fun r a => r ||| f a) r ≤ 2 := by
  induction l generalizing r with
  | nil => simp; omega
  | cons x l ih =>
    refine ih (fun a ha => h a (by simp [ha])) _ ?_
    show r ||| f x = 0 ∨ r ||| f x = 2
    rw [h x (by simp)]
    rcases hr with rfl | rfl <;> simp

section
variable {I : Input} (hw : Wf I) {C : CG} (hr : Rep I C)
include hw hr

theorem compRank_at {st : St} {cd : List Part} (hrel : Rel I st cd) {ci : Nat} {c : List Nat} (hci : C.comps[ci]? = some c)
    {b : Nat} (hb : b ∈ c) {y : Part} (hy : (parts I)[b]? = some y) {prev : Nat} :
    (C.compRank st prev ci ≠ 0 ↔ prev ≠ ci ∧ CReady I cd y) ∧
    (C.compRank st prev ci ≠ 0 → (C.compRank st prev ci ≤ 2 ↔ OnlyRight I y)) := by
  have hc := List.mem_of_getElem? hci
  have hge := foldl_or_ge (fun a => C.rank a) c 0
  have hrk : ∀ a ∈ c, 2 ≤ C.rank a := by
    intro a ha
    obtain ⟨z, hz⟩ := part_of hw hr hc ha
    rw [rank_at hw hr hz]
    cases z <;> simp
  unfold CG.compRank
  by_cases hp : prev = ci
  · simp [hp]
  · have hp' : (prev == ci) = false := by simpa using hp
    simp only [hp', Bool.false_eq_true, if_false]
    by_cases hre : C.compReady st ci = true
    · simp only [hre, if_true, hci]
      have hcr := (compReady_at hw hr hrel hci hb hy).1 hre
      have h2 : 2 ≤ c.foldl (fun r a => r ||| C.rank a) 0 := Nat.le_trans (hrk b hb) (hge.2 b hb)
      refine ⟨⟨fun _ => ⟨hp, hcr⟩, fun _ => by omega⟩, fun _ => ?_⟩
      constructor
      · intro hle z hz
        have hkz : I.Has z := by
          rcases hz with rfl | ⟨h1, _⟩
          · exact hcr.1
          · exact (reach_has hw h1).2
        obtain ⟨a, ha⟩ := List.getElem?_of_mem (mem_parts.2 hkz)
        have hac := (same_at hw hr hc hb hy ha).2 hz
        have h3 := hge.2 a hac
        have hra := rank_at hw hr ha
        cases z with
        | right p => exact ⟨p, rfl⟩
        | left p => simp only at hra h3; omega
        | visit ch p => simp only at hra h3; omega
        | loc i => simp only at hra h3; omega
      · intro ho
        refine foldl_or_two _ _ (fun a ha => ?_) 0 (.inl rfl)
        obtain ⟨z, hz⟩ := part_of hw hr hc ha
        obtain ⟨p, rfl⟩ := ho z ((same_at hw hr hc hb hy hz).1 ha)
        rw [rank_at hw hr hz]
    · have : C.compReady st ci = false := by simpa using hre
      simp only [this, Bool.false_eq_true, if_false, ne_eq, not_true_eq_false, false_iff, false_implies, and_true]
      exact fun h => hre ((compReady_at hw hr hrel hci hb hy).2 h.2)

end

end Aps.Chunk
