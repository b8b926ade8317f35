import Verif.Spec.Pipeline
import Verif.Proofs.PipelineOag
import Verif.Proofs.StaticSched
set_option linter.unusedVariables false
/-! # From dependency graphs to visit procedures -/
namespace Aps.Static
open Aps.Oag Aps.Dnc Aps.Props

variable {V : Type}

/-! ## Phases -/

/-- schedules for all phyla -/
structure Scheds (phyla : List Phylum) (scheds : List (Nat × List Int)) : Prop where
  keys : scheds.map (·.1) = List.range phyla.length
  nodup : ∀ q ∈ phyla, q.attrs.Nodup
  good : ∀ x ∈ scheds, ∃ q, phyla[x.1]? = some q ∧ x.2.length = q.attrs.length ∧
    ∀ i, i < q.attrs.length → (q.dirs[i]? = some .inward ∧ sget x.2 i < 0) ∨ (q.dirs[i]? = some .outward ∧ 0 < sget x.2 i)

variable {phyla : List Phylum} {scheds : List (Nat × List Int)}

theorem schedOf_mem {p : Nat} {sch : List Int} (h : schedOf scheds p = some sch) : (p, sch) ∈ scheds := by
  unfold schedOf at h
  obtain ⟨q, hq, rfl⟩ := Option.map_eq_some_iff.1 h
  have h1 := List.mem_of_find?_eq_some hq
  have h2 := List.find?_some hq
  simp only [decide_eq_true_eq] at h2
  rw [← h2]; exact h1

theorem Scheds.of_lt (h : Scheds phyla scheds) {p : Nat} {q : Phylum} (hp : phyla[p]? = some q) : ∃ sch, schedOf scheds p = some sch := by
  have hlt := (List.getElem?_eq_some_iff.1 hp).1
  have hm : p ∈ scheds.map (·.1) := by rw [h.keys]; simpa using hlt
  obtain ⟨x, hx, rfl⟩ := List.mem_map.1 hm
  unfold schedOf
  cases hf : scheds.find? fun q => q.1 = x.1 with
  | some y => exact ⟨y.2, rfl⟩
  | none =>
    have := List.find?_eq_none.1 hf x hx
    simp at this

theorem Scheds.mem_of (h : Scheds phyla scheds) {p : Nat} {sch : List Int} (hm : (p, sch) ∈ scheds) : schedOf scheds p = some sch := by
  obtain ⟨q, hq, _⟩ := h.good _ hm
  obtain ⟨sch', hs⟩ := h.of_lt hq
  have h1 := schedOf_mem hs
  have hnd : (scheds.map (·.1)).Nodup := by rw [h.keys]; exact List.nodup_range
  have : sch' = sch := by
    obtain ⟨i, hi⟩ := List.getElem?_of_mem h1
    obtain ⟨j, hj⟩ := List.getElem?_of_mem hm
    have e1 : (scheds.map (·.1))[i]? = some p := by simp [hi]
    have e2 : (scheds.map (·.1))[j]? = some p := by simp [hj]
    have hil := (List.getElem?_eq_some_iff.1 e1).1
    have := (List.nodup_iff_injective_getElem.1 hnd) (a₁ := ⟨i, hil⟩) (a₂ := ⟨j, (List.getElem?_eq_some_iff.1 e2).1⟩) (by
      have f1 := (List.getElem?_eq_some_iff.1 e1).2
      have f2 := (List.getElem?_eq_some_iff.1 e2).2
      simp only [f1, f2])
    have hij : i = j := by simpa using this
    subst hij
    rw [hi] at hj
    exact congrArg Prod.snd (Option.some.inj hj)
  rw [← this]; exact hs

theorem attributeSchedule_at {attrs : List Nat} (hn : attrs.Nodup) {sched : List Int} {a x : Nat} (h : attrs[a]? = some x) :
    attributeSchedule attrs sched x = some (sget sched a) := by
  unfold attributeSchedule
  have ha := (List.getElem?_eq_some_iff.1 h).1
  cases hf : (List.range attrs.length).find? fun i => attrs[i]? = some x with
  | none =>
    have := List.find?_eq_none.1 hf a (by simpa using ha)
    simp [h] at this
  | some i =>
    have h2 := List.find?_some hf
    simp only [decide_eq_true_eq] at h2
    have hi := (List.getElem?_eq_some_iff.1 h2).1
    have : i = a := by
      have := (List.nodup_iff_injective_getElem.1 hn) (a₁ := ⟨i, hi⟩) (a₂ := ⟨a, ha⟩) (by
        have f1 := (List.getElem?_eq_some_iff.1 h2).2
        have f2 := (List.getElem?_eq_some_iff.1 h).2
        simp only [f1, f2])
      simpa using this
    rw [this]; rfl

theorem attributeSchedule_some {attrs : List Nat} {sched : List Int} {x : Nat} {s : Int} (h : attributeSchedule attrs sched x = some s) :
    ∃ a, attrs[a]? = some x ∧ s = sget sched a := by
  unfold attributeSchedule at h
  obtain ⟨i, hi, rfl⟩ := Option.map_eq_some_iff.1 h
  have h2 := List.find?_some hi
  simp only [decide_eq_true_eq] at h2
  exact ⟨i, h2, rfl⟩

theorem Scheds.at (h : Scheds phyla scheds) {p : Nat} {q : Phylum} (hp : phyla[p]? = some q) {a x : Nat} (ha : q.attrs[a]? = some x) :
    ∃ sch, (p, sch) ∈ scheds ∧ (phylaOf phyla scheds).sched p x = some (sget sch a) ∧ sch.length = q.attrs.length ∧
      ((q.dirs[a]? = some .inward ∧ sget sch a < 0) ∨ (q.dirs[a]? = some .outward ∧ 0 < sget sch a)) := by
  obtain ⟨sch, hs⟩ := h.of_lt hp
  have hm := schedOf_mem hs
  obtain ⟨q', hq', hl, hd⟩ := h.good _ hm
  rw [hp] at hq'; cases hq'
  refine ⟨sch, hm, ?_, hl, hd a (List.getElem?_eq_some_iff.1 ha).1⟩
  simp only [phylaOf, hp, hs]
  exact attributeSchedule_at (h.nodup q (List.mem_of_getElem? hp)) ha

theorem Scheds.inv (h : Scheds phyla scheds) {p x : Nat} {s : Int} (hs : (phylaOf phyla scheds).sched p x = some s) :
    ∃ q sch a, phyla[p]? = some q ∧ (p, sch) ∈ scheds ∧ q.attrs[a]? = some x ∧ s = sget sch a := by
  simp only [phylaOf] at hs
  cases hp : phyla[p]? with
  | none => simp [hp] at hs
  | some q =>
    cases hsc : schedOf scheds p with
    | none => simp [hp, hsc] at hs
    | some sch =>
      simp only [hp, hsc] at hs
      obtain ⟨a, h1, h2⟩ := attributeSchedule_some hs
      exact ⟨q, sch, a, rfl, schedOf_mem hsc, h1, h2⟩

theorem le_maxPhase {sched : List Int} {s : Int} (h : s ∈ sched) : s.toNat ≤ maxPhase sched := by
  induction sched with
  | nil => cases h
  | cons a l ih =>
    unfold maxPhase
    rw [List.foldr_cons]
    rcases List.mem_cons.1 h with rfl | h
    · exact Nat.le_max_left _ _
    · exact Nat.le_trans (ih h) (Nat.le_max_right _ _)

theorem maxPhase_mem {sched : List Int} (h : 1 ≤ maxPhase sched) : ∃ s ∈ sched, s.toNat = maxPhase sched := by
  induction sched with
  | nil => simp [maxPhase] at h
  | cons a l ih =>
    have e : maxPhase (a :: l) = max a.toNat (maxPhase l) := rfl
    rw [e] at h ⊢
    by_cases hle : maxPhase l ≤ a.toNat
    · exact ⟨a, by simp, by omega⟩
    · obtain ⟨s, hs, hm⟩ := ih (by omega)
      exact ⟨s, by simp [hs], by omega⟩

theorem sget_mem {sch : List Int} {a : Nat} (h : a < sch.length) : sget sch a ∈ sch := by
  unfold sget
  rw [List.getElem?_eq_getElem h]
  exact List.getElem_mem h

theorem Scheds.phased (h : Scheds phyla scheds) (hprod : Productive scheds) : Phased (phylaOf phyla scheds) := by
  constructor
  · intro p x s hs
    obtain ⟨q, sch, a, hq, hm, ha, rfl⟩ := h.inv hs
    obtain ⟨q', hq', hl, hd⟩ := h.good _ hm
    rw [hq] at hq'; cases hq'
    have hal := (List.getElem?_eq_some_iff.1 ha).1
    simp only at hl hd
    have hne : sget sch a ≠ 0 := by rcases hd a hal with ⟨_, h⟩ | ⟨_, h⟩ <;> omega
    refine ⟨hne, ?_⟩
    have := hprod _ hm _ (sget_mem (sch := sch) (a := a) (by omega)) (sget sch a).natAbs (by omega) (Nat.le_refl _)
    have hle := le_maxPhase this
    simp only [phylaOf, h.mem_of hm]
    simp only at hle
    omega
  · intro p k h1 h2
    simp only [phylaOf] at h2
    cases hsc : schedOf scheds p with
    | none => simp [hsc] at h2; omega
    | some sch =>
      simp only [hsc] at h2
      have hm := schedOf_mem hsc
      obtain ⟨q, hq, hl, hd⟩ := h.good _ hm
      obtain ⟨s, hs, he⟩ := maxPhase_mem (by omega : 1 ≤ maxPhase sch)
      have hk := hprod _ hm s hs k h1 (by omega)
      obtain ⟨a, ha⟩ := List.getElem?_of_mem hk
      simp only at ha hl
      have hal := (List.getElem?_eq_some_iff.1 ha).1
      obtain ⟨x, hx⟩ : ∃ x, q.attrs[a]? = some x := ⟨_, List.getElem?_eq_getElem (by omega)⟩
      refine ⟨x, ?_⟩
      simp only [phylaOf, hq, hsc]
      rw [attributeSchedule_at (h.nodup q (List.mem_of_getElem? hq)) hx]
      simp [sget, ha]

theorem Scheds.visited (h : Scheds phyla scheds) (hprod : Productive scheds) {p : Nat} {q : Phylum} (hp : phyla[p]? = some q)
    (ha : 0 < q.attrs.length) : 1 ≤ (phylaOf phyla scheds).visits p := by
  obtain ⟨sch, hm, hs, hl, hd⟩ := h.at hp (List.getElem?_eq_getElem ha)
  have hne : sget sch 0 ≠ 0 := by rcases hd with ⟨_, h⟩ | ⟨_, h⟩ <;> omega
  have := hprod _ hm _ (sget_mem (sch := sch) (a := 0) (by omega)) 1 (by omega) (by omega)
  have hle := le_maxPhase this
  simp only [phylaOf, h.mem_of hm]
  simpa using hle

/-! ## Productions -/

variable {P : Prod V} {g g' : Aug} {oi : List OInst} {t : Cto} {b : Nat} {kb : Nat → Nat}

theorem fill_get {ph : Phyla} {i : Nat} {inst' : Inst V} : (P.fill ph t).insts[i]? = some inst' ↔
    ∃ inst, P.insts[i]? = some inst ∧ inst' = { inst with ph := phaseOf ph P inst } := by
  simp only [Prod.fill, List.getElem?_map, Option.map_eq_some_iff]
  constructor <;> rintro ⟨x, h1, h2⟩ <;> exact ⟨x, h1, h2.symm⟩

theorem fill_rule {ph : Phyla} {i : Nat} : (P.fill ph t).IsRule i ↔ P.IsRule i := by
  constructor
  · rintro ⟨x, hx, hr⟩
    obtain ⟨inst, hi, rfl⟩ := fill_get.1 hx
    exact ⟨inst, hi, hr⟩
  · rintro ⟨x, hx, hr⟩
    exact ⟨_, fill_get.2 ⟨x, hx, rfl⟩, hr⟩

theorem fill_stored {ph : Phyla} {i : Nat} (h : P.Stored i) : (P.fill ph t).Stored i := by
  obtain ⟨x, hx, h1, h2⟩ := h
  exact ⟨_, fill_get.2 ⟨x, hx, rfl⟩, h1, h2⟩

theorem Laid.lhsAt (hL : Laid phyla P g b kb) (hS : Scheds phyla scheds) {i : Nat} {inst : Inst V} (hi : P.insts[i]? = some inst)
    (hl : inst.lhs = true) : inst.ch = none ∧ ∃ (q : Phylum) (a : Nat) (sch : List Int), phyla[P.lhsPhy]? = some q ∧ q.attrs[a]? = some inst.attr ∧
      i = b + a ∧ inst.kind = .node (q.implicit inst.attr) ∧ (P.lhsPhy, sch) ∈ scheds ∧
      (phylaOf phyla scheds).sched P.lhsPhy inst.attr = some (sget sch a) ∧ phaseOf (phylaOf phyla scheds) P inst = sget sch a ∧
      (inst.inward = true ↔ sget sch a < 0) := by
  obtain ⟨h1, q, a, h2, h3, h4, h5, h6⟩ := hL.lhs i inst hi hl
  obtain ⟨sch, k1, k2, k3, k4⟩ := hS.at h2 h3
  refine ⟨h1, q, a, sch, h2, h3, h4, h5, k1, k2, by simp [phaseOf, h1, hl, k2], ?_⟩
  rw [h6]
  rcases k4 with ⟨u, v⟩ | ⟨u, v⟩
  · simp [u, v]
  · rw [u]; simp; omega

theorem Laid.chAt (hL : Laid phyla P g b kb) (hS : Scheds phyla scheds) {i c : Nat} {inst : Inst V} (hi : P.insts[i]? = some inst)
    (hc : inst.ch = some c) : ∃ (k : Nat) (q : Phylum) (a : Nat) (sch : List Int), P.kidPhy[c]? = some (some k) ∧ phyla[k]? = some q ∧ q.attrs[a]? = some inst.attr ∧
      i = kb c + a ∧ inst.kind = .node (q.implicit inst.attr) ∧ (k, sch) ∈ scheds ∧
      (phylaOf phyla scheds).sched k inst.attr = some (sget sch a) ∧ phaseOf (phylaOf phyla scheds) P inst = sget sch a ∧
      (inst.inward = true ↔ 0 < sget sch a) := by
  obtain ⟨k, q, a, h1, h2, h3, h4, h5, h6⟩ := hL.ch i inst c hi hc
  obtain ⟨sch, k1, k2, k3, k4⟩ := hS.at h2 h3
  refine ⟨k, q, a, sch, h1, h2, h3, h4, h5, k1, k2, by simp [phaseOf, hc, h1, k2], ?_⟩
  rw [h6]
  rcases k4 with ⟨u, v⟩ | ⟨u, v⟩
  · rw [u]; simp; omega
  · simp [u, v]

theorem Laid.lhsInst (hL : Laid phyla P g b kb) {q : Phylum} (hq : phyla[P.lhsPhy]? = some q) {a x : Nat} (ha : q.attrs[a]? = some x) :
    ∃ inst : Inst V, P.insts[b + a]? = some inst ∧ inst.lhs = true ∧ inst.attr = x := by
  obtain ⟨inst, h1, h2⟩ := hL.lhsAll q a hq (List.getElem?_eq_some_iff.1 ha).1
  obtain ⟨_, q', a', h3, h4, h5, _⟩ := hL.lhs _ inst h1 h2
  rw [hq] at h3; cases h3
  have : a = a' := by omega
  subst this
  rw [ha] at h4
  exact ⟨inst, h1, h2, (Option.some.inj h4).symm⟩

theorem Laid.chInst (hL : Laid phyla P g b kb) {c k : Nat} (hk : P.kidPhy[c]? = some (some k)) {q : Phylum} (hq : phyla[k]? = some q) {a x : Nat}
    (ha : q.attrs[a]? = some x) : ∃ inst : Inst V, P.insts[kb c + a]? = some inst ∧ inst.ch = some c ∧ inst.attr = x := by
  obtain ⟨inst, h1, h2⟩ := hL.chAll c k q a hk hq (List.getElem?_eq_some_iff.1 ha).1
  obtain ⟨k', q', a', h0, h3, h4, h5, _⟩ := hL.ch _ inst c h1 h2
  rw [hk] at h0; cases h0
  rw [hq] at h3; cases h3
  have : a = a' := by omega
  subst this
  rw [ha] at h4
  exact ⟨inst, h1, h2, (Option.some.inj h4).symm⟩

theorem filled_described (hS : Scheds phyla scheds) (hL : Laid phyla P g b kb) (hD : Declared P) :
    Described (phylaOf phyla scheds) (P.fill (phylaOf phyla scheds) t) := by
  have himp : ∀ (p : Nat) (q : Phylum) (x : Nat), phyla[p]? = some q → (phylaOf phyla scheds).implicit p x = q.implicit x := by
    intro p q x hp; simp [phylaOf, hp]
  have hattr : ∀ {p : Nat} {q q' : Phylum} {a a' x : Nat}, phyla[p]? = some q → phyla[p]? = some q' → q.attrs[a]? = some x → q'.attrs[a']? = some x → a = a' := by
    intro p q q' a a' x h1 h2 h3 h4
    rw [h1] at h2; cases h2
    have hn := hS.nodup q (List.mem_of_getElem? h1)
    have := (List.nodup_iff_injective_getElem.1 hn) (a₁ := ⟨a, (List.getElem?_eq_some_iff.1 h3).1⟩) (a₂ := ⟨a', (List.getElem?_eq_some_iff.1 h4).1⟩) (by
      have f1 := (List.getElem?_eq_some_iff.1 h3).2
      have f2 := (List.getElem?_eq_some_iff.1 h4).2
      simp only [f1, f2])
    simpa using this
  refine ⟨by simp [Prod.fill, hD.defaults], ?_, ?_, ?_, ?_, ?_, ?_, ?_, hD.unique⟩
  · intro i inst' h hr
    obtain ⟨inst, hi, rfl⟩ := fill_get.1 h
    exact hD.rule i inst hi hr
  · intro i inst' h hl
    obtain ⟨inst, hi, rfl⟩ := fill_get.1 h
    obtain ⟨h1, q, a, sch, h2, h3, h4, h5, h6, h7, h8, h9⟩ := hL.lhsAt hS hi hl
    refine ⟨h1, ?_, ?_, ?_⟩
    · show (phylaOf phyla scheds).sched P.lhsPhy inst.attr = some (phaseOf (phylaOf phyla scheds) P inst)
      rw [h7, h8]
    · show inst.kind = .node ((phylaOf phyla scheds).implicit P.lhsPhy inst.attr)
      rw [himp _ _ _ h2]; exact h5
    · show inst.inward = true ↔ phaseOf (phylaOf phyla scheds) P inst < 0
      rw [h8]; exact h9
  · intro i inst' c h hc
    obtain ⟨inst, hi, rfl⟩ := fill_get.1 h
    obtain ⟨k, q, a, sch, h1, h2, h3, h4, h5, h6, h7, h8, h9⟩ := hL.chAt hS hi hc
    refine ⟨k, h1, ?_, ?_, ?_⟩
    · show (phylaOf phyla scheds).sched k inst.attr = some (phaseOf (phylaOf phyla scheds) P inst)
      rw [h7, h8]
    · show inst.kind = .node ((phylaOf phyla scheds).implicit k inst.attr)
      rw [himp _ _ _ h2]; exact h5
    · show inst.inward = true ↔ 0 < phaseOf (phylaOf phyla scheds) P inst
      rw [h8]; exact h9
  · intro i inst' h hr hl hc
    obtain ⟨inst, hi, rfl⟩ := fill_get.1 h
    exact hD.loc i inst hi hr hl hc
  · intro i j x' y' hx hy hrx hry hl hc ha
    obtain ⟨x, hi, rfl⟩ := fill_get.1 hx
    obtain ⟨y, hj, rfl⟩ := fill_get.1 hy
    simp only at hrx hry hl hc ha
    cases hlx : x.lhs with
    | true =>
      obtain ⟨_, q, a, h2, h3, h4, _⟩ := hL.lhs i x hi hlx
      obtain ⟨_, q', a', k2, k3, k4, _⟩ := hL.lhs j y hj (by rw [← hl]; exact hlx)
      rw [← ha] at k3
      have := hattr h2 k2 h3 k3
      omega
    | false =>
      cases hcx : x.ch with
      | some c =>
        obtain ⟨k, q, a, h1, h2, h3, h4, _⟩ := hL.ch i x c hi hcx
        obtain ⟨k', q', a', k1, k2, k3, k4, _⟩ := hL.ch j y c hj (by rw [← hc]; exact hcx)
        rw [h1] at k1; cases k1
        rw [← ha] at k3
        have := hattr h2 k2 h3 k3
        omega
      | none => exact hD.locs i j x y hi hj hrx hry hlx (by rw [← hl]; exact hlx) hcx (by rw [← hc]; exact hcx) ha
  · intro r t' f hh
    obtain ⟨inst, rule, h1, h2, h3⟩ := hD.body r t' f hh
    exact ⟨_, rule, fill_get.2 ⟨inst, h1, rfl⟩, h2, h3⟩
  · intro σ q hq
    have := hD.assigned σ q hq
    simpa [Prod.fill] using this

theorem insts_lt {i : Nat} {inst : Inst V} (h : P.insts[i]? = some inst) : i < P.insts.length := (List.getElem?_eq_some_iff.1 h).1

theorem filled_graphed {s : List Phy} {info : Nat → Nat} (hS : Scheds phyla scheds) (hL : Laid phyla P g b kb) (hD : Declared P) (hW : Wired P g oi)
    (hI : Informed phyla P g b kb) (hins : InstsOk g oi) (hsrc : Source g g' oi s info scheds t)
    (hs : ∀ (p : Nat) q, phyla[p]? = some q → s[p]? = some q.start) (hinfo : ∀ (p : Nat) q, phyla[p]? = some q → info p = q.info ∧ q.info < q.attrs.length)
    (hphy : ∃ q, phyla[P.lhsPhy]? = some q) : Graphed (phylaOf phyla scheds) (P.fill (phylaOf phyla scheds) t) g' oi := by
  have hstored : ∀ j, P.Stored j → j < g.n := by
    rintro j ⟨inst, hj, _⟩; rw [← hL.size]; exact insts_lt hj
  have hlhsl : (b, P.lhsPhy) ∈ g.links := (hL.links _).2 (.inl rfl)
  obtain ⟨q0, hq0⟩ := hphy
  obtain ⟨hi0, hi1⟩ := hinfo _ _ hq0
  constructor
  · rw [hsrc.n]; exact hins.len
  · simp [Prod.fill, hL.size, hsrc.n]
  · intro i; rw [fill_rule]; exact hW.rule i
  · exact hins.rule
  · exact hins.inj
  · exact hsrc.guarded hW.nested
  · intro i inst' h hc
    obtain ⟨inst, hi, rfl⟩ := fill_get.1 h
    exact hW.attrs i inst hi hc
  · intro σ r hr
    exact hW.tested σ r (fill_rule.1 hr)
  · intro σ i inst' h h1 h2
    obtain ⟨inst, hi, rfl⟩ := fill_get.1 h
    exact hW.locals σ i inst hi h1 h2
  · intro x s' hx
    obtain ⟨q, sch, a, h1, h2, h3, _⟩ := hS.inv hx
    obtain ⟨inst, h4, h5, h6⟩ := hL.lhsInst h1 h3
    exact ⟨b + a, _, fill_get.2 ⟨inst, h4, rfl⟩, h5, h6⟩
  · intro c k x s' hk hx
    obtain ⟨q, sch, a, h1, h2, h3, _⟩ := hS.inv hx
    obtain ⟨inst, h4, h5, h6⟩ := hL.chInst hk h1 h3
    exact ⟨kb c + a, _, fill_get.2 ⟨inst, h4, rfl⟩, h5, h6⟩
  · intro i j x' y' hx hy hc hlt τ
    obtain ⟨x, hi, rfl⟩ := fill_get.1 hx
    obtain ⟨y, hj, rfl⟩ := fill_get.1 hy
    simp only at hc hlt
    rcases hc with ⟨hlx, hly⟩ | ⟨hcx, hcy⟩
    · obtain ⟨_, q, a, sch, h2, h3, rfl, h5, h6, h7, h8, h9⟩ := hL.lhsAt hS hi hlx
      obtain ⟨_, q', a', sch', k2, k3, rfl, k5, k6, k7, k8, k9⟩ := hL.lhsAt hS hj hly
      rw [h2] at k2; cases k2
      have : sch = sch' := by
        have := hS.mem_of h6
        rw [hS.mem_of k6] at this
        exact (Option.some.inj this).symm
      subst this
      rw [h8, k8] at hlt
      exact hsrc.phases τ _ hlhsl _ (hs _ _ h2) sch h6 a a' (List.getElem?_eq_some_iff.1 h3).1 (List.getElem?_eq_some_iff.1 k3).1 hlt
    · obtain ⟨c, hc⟩ := Option.ne_none_iff_exists'.1 hcx
      obtain ⟨k, q, a, sch, h1, h2, h3, rfl, h5, h6, h7, h8, h9⟩ := hL.chAt hS hi hc
      obtain ⟨k', q', a', sch', k1, k2, k3, rfl, k5, k6, k7, k8, k9⟩ := hL.chAt hS hj (hcy ▸ hc)
      rw [h1] at k1; cases k1
      rw [h2] at k2; cases k2
      have : sch = sch' := by
        have := hS.mem_of h6
        rw [hS.mem_of k6] at this
        exact (Option.some.inj this).symm
      subst this
      rw [h8, k8] at hlt
      exact hsrc.phases τ _ ((hL.links _).2 (.inr ⟨c, k, h1, rfl⟩)) _ (hs _ _ h2) sch h6 a a' (List.getElem?_eq_some_iff.1 h3).1
        (List.getElem?_eq_some_iff.1 k3).1 hlt
  · obtain ⟨inst, h4, h5, h6⟩ := hL.lhsInst hq0 (List.getElem?_eq_getElem hi1)
    refine ⟨b + q0.info, ?_, ?_, hW.attrs _ inst h4 (.inl h5), ?_, ?_⟩
    · rw [hsrc.n, ← hL.size]; exact insts_lt h4
    · have := hsrc.first _ hlhsl (by simp only; rw [hi0]; exact hI.lhs q0 hq0)
      simp only [hi0] at this
      exact this
    · rw [fill_rule]
      rintro ⟨x, hx, hr⟩
      rw [h4] at hx; cases hx
      have := (hD.rule _ inst h4 hr).1
      rw [h5] at this; cases this
    · intro i hi hnr
      rw [fill_rule] at hnr
      have hge : b ≤ i := by
        by_contra hlt
        exact hnr (hL.before i (by omega))
      obtain ⟨inst', k1, k2⟩ := hL.lhsAll q0 (i - b) hq0 (by omega)
      rw [show b + (i - b) = i by omega] at k1
      exact ⟨_, fill_get.2 ⟨inst', k1, rfl⟩, k2⟩
  · intro σ r inst' rule h hr hact j hj
    obtain ⟨inst, hi, rfl⟩ := fill_get.1 h
    obtain ⟨h1, h2, h3⟩ := hW.tests σ r inst rule hi hr hact j hj
    exact ⟨fill_stored h1, h2, hsrc.deps _ _ _ (hstored j h1) (by rw [← hL.size]; exact insts_lt hi) h3⟩
  · intro σ i e he hact j hj
    have he' : P.rhs σ i = some e := he
    obtain ⟨h1, h2, h3⟩ := hW.reads σ i e he' hact j hj
    refine ⟨fill_stored h1, h2, hsrc.deps _ _ _ (hstored j h1) ?_ h3⟩
    rw [← hL.size]
    unfold Prod.rhs at he'
    cases hf : (P.body.active σ).find? fun q => q.1 = i with
    | some q =>
      have h4 := List.mem_of_find?_eq_some hf
      have h5 := List.find?_some hf
      simp only [decide_eq_true_eq] at h5
      rw [← h5]; exact hD.assigned σ q h4
    | none =>
      rw [hf] at he'
      simp only at he'
      by_contra hge
      rw [List.getElem?_eq_none (by rw [hD.defaults]; omega)] at he'
      cases he'
  · intro σ i hnr hact r hr t' f hh hown
    have hnr' := fun h => hnr (fill_rule.2 h)
    have h3 := hW.guards σ i hnr' hact r hr t' f hh hown
    obtain ⟨inst, rule, hri, hru, ht, hf⟩ := hD.body r t' f hh
    refine hsrc.deps _ _ _ (by rw [← hL.size]; exact insts_lt hri) ?_ h3
    rw [← hL.size]
    obtain ⟨e, he⟩ := hown
    obtain ⟨t2, f2, hh2, hsub⟩ := tested_source (show r ∈ P.body.tested σ from hr)
    obtain ⟨inst2, rule2, hri2, hru2, ht2, hf2⟩ := hD.body r t2 f2 hh2
    rw [hri] at hri2; cases hri2
    rw [hru] at hru2; cases hru2
    have : (if σ r then t' else f).own = (if σ r then t2 else f2).own := by
      cases σ r with
      | true => simp [← ht, ← ht2]
      | false =>
        simp only [Bool.false_eq_true, if_false]
        rcases hf with hf | ⟨hf, hfo⟩ <;> rcases hf2 with hf2 | ⟨hf2, hfo2⟩
        · rw [hf] at hf2; cases hf2; rfl
        · rw [hf] at hf2; cases hf2
        · rw [hf] at hf2; cases hf2
        · rw [hfo, hfo2]
    rw [this] at he
    exact hD.assigned σ _ (hsub _ he)

theorem filled_defined (hS : Scheds phyla scheds) (hL : Laid phyla P g b kb) (hD : Declared P) (σ : Nat → Bool) (i : Nat)
    (h : (P.fill (phylaOf phyla scheds) t).Output σ i) : (P.fill (phylaOf phyla scheds) t).rhs σ i ≠ none := by
  obtain ⟨inst', hi', hc⟩ := h
  obtain ⟨inst, hi, rfl⟩ := fill_get.1 hi'
  refine hD.defined σ i ⟨inst, hi, ?_⟩
  simp only at hc
  rcases hc with ⟨hl, hpos, hk⟩ | ⟨hch, hneg, hk⟩ | ⟨hk, hr, hm⟩
  · obtain ⟨_, q, a, sch, h2, h3, h4, h5, h6, h7, h8, h9⟩ := hL.lhsAt hS hi hl
    refine ⟨?_, .inl ⟨.inl hl, hk⟩⟩
    rw [h8] at hpos
    cases hw : inst.inward with
    | false => rfl
    | true => have := h9.1 hw; omega
  · obtain ⟨c, hcc⟩ := Option.ne_none_iff_exists'.1 hch
    obtain ⟨k, q, a, sch, h1, h2, h3, h4, h5, h6, h7, h8, h9⟩ := hL.chAt hS hi hcc
    refine ⟨?_, .inl ⟨.inr hch, hk⟩⟩
    rw [h8] at hneg
    cases hw : inst.inward with
    | false => rfl
    | true => have := h9.1 hw; omega
  · refine ⟨?_, .inr ⟨hk, hr, hm⟩⟩
    cases hl : inst.lhs with
    | true => obtain ⟨_, q, a, _, _, _, h5, _⟩ := hL.lhs i inst hi hl; rw [hk] at h5; cases h5
    | false =>
      cases hcc : inst.ch with
      | some c => obtain ⟨k, q, a, _, _, _, _, h5, _⟩ := hL.ch i inst c hi hcc; rw [hk] at h5; cases h5
      | none => exact (hD.loc i inst hi hr hl hcc).2

end Aps.Static
