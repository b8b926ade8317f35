import Verif.Proofs.Cycle
import Mathlib.Data.List.Range
/-! `get_fiber_cycles` of analyze/aps-cycle.c. -/
set_option linter.unusedVariables false
namespace Aps.Cycle
open Aps.Dnc

/-- every instance points to its representative -/
def Flat (P : Par) : Prop := ∀ i r : Nat, P[i]? = some (some r) → P[r]? = some (some r)

theorem Flat.rep {P : Par} (h : Flat P) {i r : Nat} : Rep P i r ↔ P[i]? = some (some r) := by
  constructor
  · rintro ⟨n, hr⟩
    cases hr with
    | root e => exact e
    | step e hne hr =>
      have := h _ _ e
      have := Rep.det ⟨_, hr⟩ ⟨0, .root this⟩
      subst this; exact e
  · intro e
    exact Rep.step e ⟨0, .root (h i r e)⟩

/-- all instances are alive with a representative or dead -/
def Total (P : Par) : Prop := ∀ i : Nat, i < P.length → P[i]? = some none ∨ ∃ r, Rep P i r

theorem Flat.getSet {P : Par} (h : Flat P) {i r : Nat} (e : P[i]? = some (some r)) : getSet (P.length + 1) P i = .ok (r, P) := by
  by_cases hir : r = i
  · subst hir; simp [Cycle.getSet, e]
  · have hr := h i r e
    have hlt : i < P.length := (List.getElem?_eq_some_iff.1 e).1
    obtain ⟨f, hf⟩ : ∃ f, P.length = f + 1 := ⟨P.length - 1, by omega⟩
    have : P.set i (some r) = P := by
      apply List.ext_getElem?
      intro j
      rw [List.getElem?_set]
      split
      · rename_i hh; subst hh; exact e.symm
      · rfl
    rw [hf]
    simp [Cycle.getSet, e, hir, hr, this]

theorem compress_spec (is : List Nat) {P : Par} (ht : Total P) (his : ∀ i ∈ is, i < P.length) (c : Nat) :
    ∃ P' c', compress is P c = .ok (P', c') ∧ Same P P' ∧ (∀ i ∈ is, ∀ r, Rep P i r → P'[i]? = some (some r)) ∧
      (∀ i r : Nat, Rep P i r → P[i]? = some (some r) → P'[i]? = some (some r)) ∧
      c' = c + is.countP (fun i => decide (P[i]? = some (some i))) := by
  induction is generalizing P c with
  | nil => exact ⟨P, c, rfl, Same.refl P, by simp, fun _ _ _ h => h, by simp⟩
  | cons i is ih =>
    rcases ht i (his i (by simp)) with hd | ⟨r, hr⟩
    · obtain ⟨P', c', e, s, h1, h2, h3⟩ := ih ht (fun j hj => his j (by simp [hj])) c
      refine ⟨P', c', by rw [compress, if_pos hd]; exact e, s, ?_, h2, ?_⟩
      · intro j hj r hr
        rcases List.mem_cons.1 hj with rfl | hj
        · exact absurd hd hr.not_dead
        · exact h1 j hj r hr
      · rw [h3, List.countP_cons_of_neg (by simp [hd])]
    · obtain ⟨Q, eq, sq, hq, hkeep⟩ := getSet_ok hr
      have htQ : Total Q := by
        intro j hj
        rcases ht j (by rw [← sq.len]; exact hj) with h | ⟨t, h⟩
        · exact .inl ((sq.dead j).2 h)
        · exact .inr ⟨t, (sq.rep j t).2 h⟩
      obtain ⟨P', c', e, s, h1, h2, h3⟩ := ih htQ (fun j hj => by rw [sq.len]; exact his j (by simp [hj])) (if r = i then c + 1 else c)
      refine ⟨P', c', ?_, sq.trans s, ?_, ?_, ?_⟩
      · rw [compress, if_neg hr.not_dead, eq]; exact e
      · intro j hj t ht'
        rcases List.mem_cons.1 hj with rfl | hj
        · have := ht'.det hr; subst this
          exact h2 j t ((sq.rep _ _).2 ht') hq
        · exact h1 j hj t ((sq.rep _ _).2 ht')
      · intro j t ht' hj
        refine h2 j t ((sq.rep _ _).2 ht') ?_
        by_cases hrt : t = r
        · subst hrt; exact hkeep j hj
        · -- `j` is not on the path compressed
          have key : ∀ {n i r}, RepN P n i r → ∀ fuel, n < fuel → ∀ j t : Nat, Rep P j t → t ≠ r → P[j]? = some (some t) →
              ∀ Q, Cycle.getSet fuel P i = .ok (r, Q) → Q[j]? = some (some t) := by
            intro n i r hn
            induction hn with
            | @root i e0 =>
              intro fuel hf j t hjt hne hj Q hQ
              obtain ⟨f, rfl⟩ : ∃ f, fuel = f + 1 := ⟨fuel - 1, by omega⟩
              simp [Cycle.getSet, e0] at hQ
              subst hQ; exact hj
            | @step n i p r e0 hne0 hn ih =>
              intro fuel hf j t hjt hne hj Q hQ
              obtain ⟨f, rfl⟩ : ∃ f, fuel = f + 1 := ⟨fuel - 1, by omega⟩
              obtain ⟨Q', e', -⟩ := getSet_fuel hn f (by omega)
              simp [Cycle.getSet, e0, hne0, e'] at hQ
              subst hQ
              rw [List.getElem?_set_ne]
              · exact ih f (by omega) j t hjt hne hj Q' e'
              · rintro rfl
                exact hne (hjt.det ⟨n + 1, .step e0 hne0 hn⟩)
          obtain ⟨n, hn⟩ := hr
          exact key hn _ (by have := hn.short; omega) j t ht' hrt hj Q eq
      · rw [h3]
        have : ∀ j ∈ is, (decide (Q[j]? = some (some j)) = true ↔ decide (P[j]? = some (some j)) = true) := by
          intro j hj
          simp only [decide_eq_true_eq]
          have hroot : ∀ R : Par, R[j]? = some (some j) ↔ Rep R j j :=
            fun R => ⟨fun h => ⟨0, .root h⟩, fun h => h.isRoot⟩
          rw [hroot, hroot, sq.rep]
        rw [List.countP_congr this]
        by_cases hri : r = i
        · subst hri
          rw [if_pos rfl, List.countP_cons_of_pos (by simp [hr.isRoot])]; omega
        · rw [if_neg hri, List.countP_cons_of_neg]
          simp only [decide_eq_true_eq]
          intro h
          exact hri (hr.det ⟨0, .root h⟩)

theorem countMembers_spec (root : Nat) (js : List Nat) {P : Par} (hf : Flat P) (hl : ∀ j ∈ js, j < P.length) (c : Nat) :
    countMembers root js P c = .ok (P, c + js.countP (fun j => decide (P[j]? = some (some root)))) := by
  induction js generalizing c with
  | nil => simp [countMembers]
  | cons j js ih =>
    have hj := hl j (by simp)
    rw [countMembers]
    by_cases hd : P[j]? = some none
    · rw [if_pos hd, ih (fun x hx => hl x (by simp [hx])), List.countP_cons_of_neg (by simp [hd])]
    · rw [if_neg hd]
      obtain ⟨r, hr⟩ : ∃ r, P[j]? = some (some r) := by
        cases h : P[j]? with
        | none => simp at h; omega
        | some o =>
          cases o with
          | none => exact absurd h hd
          | some r => exact ⟨r, rfl⟩
      rw [hf.getSet hr]
      simp only [Res.ok_bind]
      rw [ih (fun x hx => hl x (by simp [hx]))]
      by_cases hrr : r = root
      · subst hrr; rw [if_pos rfl, List.countP_cons_of_pos (by simp [hr])]; congr 2; omega
      · rw [if_neg hrr, List.countP_cons_of_neg (by simp [hr, hrr])]

theorem collect_fst (root b : Nat) (P : Par) (self : Nat → Dep) (ks : List Nat) (a : List Nat × Dep) :
    (collect root b P self ks a).1 = a.1 ++ (ks.map (b + ·)).filter (fun j => decide (P[j]? = some (some root))) := by
  induction ks generalizing a with
  | nil => simp [collect]
  | cons k ks ih =>
    rw [collect]
    split
    · rename_i h; rw [ih]; simp [h]
    · rename_i h; rw [ih]; simp [h]

theorem collect_snd (root b : Nat) (P : Par) (self : Nat → Dep) (ks : List Nat) (a : List Nat × Dep) (t : Nat) :
    (collect root b P self ks a).2.getLsbD t = true ↔ a.2.getLsbD t = true ∨
      ∃ k ∈ ks, P[b + k]? = some (some root) ∧ (self k).getLsbD t = true := by
  induction ks generalizing a with
  | nil => simp [collect]
  | cons k ks ih =>
    rw [collect]
    split
    · rename_i h; rw [ih]; simp [h, join_bit, or_assoc]
    · rename_i h; rw [ih]; simp [h]

theorem map_range' (b n : Nat) : (List.range n).map (b + ·) = List.range' b n := by
  rw [List.range'_eq_map_range]

theorem collectPhys_fst (root : Nat) (P : Par) (ps : List Phy) (b : Nat) (a : List Nat × Dep) :
    (collectPhys root P ps (starts (ps.map (·.n)) b).1 a).1 =
      a.1 ++ (List.range' b (ps.map (·.n)).sum).filter (fun j => decide (P[j]? = some (some root))) := by
  induction ps generalizing b a with
  | nil => simp [collectPhys]
  | cons p ps ih =>
    simp only [List.map_cons, starts, collectPhys, List.sum_cons]
    rw [ih, collect_fst, map_range', List.append_assoc, ← List.filter_append, List.range'_append_1]

theorem collectAugs_fst (root : Nat) (P : Par) (gs : List Aug) (b : Nat) (a : List Nat × Dep) :
    (collectAugs root P gs (starts (gs.map (·.n)) b).1 a).1 =
      a.1 ++ (List.range' b (gs.map (·.n)).sum).filter (fun j => decide (P[j]? = some (some root))) := by
  induction gs generalizing b a with
  | nil => simp [collectAugs]
  | cons p ps ih =>
    simp only [List.map_cons, starts, collectAugs, List.sum_cons]
    rw [ih, collect_fst, map_range', List.append_assoc, ← List.filter_append, List.range'_append_1]

theorem starts_total (ns : List Nat) (b : Nat) : (starts ns b).2 = b + ns.sum := by
  induction ns generalizing b with
  | nil => rfl
  | cons n ns ih => simp [starts, ih]; omega

theorem starts_get {ns : List Nat} {i : Nat} (h : i < ns.length) (b : Nat) : (starts ns b).1[i]? = some (b + (ns.take i).sum) := by
  induction ns generalizing b i with
  | nil => simp at h
  | cons n ns ih =>
    cases i with
    | zero => simp [starts]
    | succ i => simp only [starts, List.getElem?_cons_succ]; rw [ih (by simpa using h)]; simp; omega

theorem collectPhys_snd (root : Nat) (P : Par) (ps : List Phy) (b : Nat) (a : List Nat × Dep) (t : Nat) :
    (collectPhys root P ps (starts (ps.map (·.n)) b).1 a).2.getLsbD t = true ↔ a.2.getLsbD t = true ∨
      ∃ (i : Nat) (p : Phy) (s : Nat), ps[i]? = some p ∧ (starts (ps.map (·.n)) b).1[i]? = some s ∧ ∃ k, k < p.n ∧
        P[s + k]? = some (some root) ∧ (mget p.n p.m k k).getLsbD t = true := by
  induction ps generalizing b a with
  | nil => simp [collectPhys]
  | cons p ps ih =>
    simp only [List.map_cons, starts, collectPhys]
    rw [ih, collect_snd, or_assoc]
    apply or_congr_right
    constructor
    · rintro (⟨k, hk, h⟩ | ⟨i, q, s, h1, h2, h3⟩)
      · exact ⟨0, p, b, rfl, rfl, k, List.mem_range.1 hk, h⟩
      · exact ⟨i + 1, q, s, by simpa using h1, by simpa using h2, h3⟩
    · rintro ⟨i, q, s, h1, h2, h3⟩
      cases i with
      | zero =>
        simp at h1 h2; subst h1 h2
        obtain ⟨k, hk, h⟩ := h3
        exact .inl ⟨k, List.mem_range.2 hk, h⟩
      | succ i => exact .inr ⟨i, q, s, by simpa using h1, by simpa using h2, h3⟩

theorem collectAugs_snd (root : Nat) (P : Par) (gs : List Aug) (b : Nat) (a : List Nat × Dep) (t : Nat) :
    (collectAugs root P gs (starts (gs.map (·.n)) b).1 a).2.getLsbD t = true ↔ a.2.getLsbD t = true ∨
      ∃ (i : Nat) (g : Aug) (s : Nat), gs[i]? = some g ∧ (starts (gs.map (·.n)) b).1[i]? = some s ∧ ∃ k, k < g.n ∧
        P[s + k]? = some (some root) ∧ (edgesetKind (g.cell k k)).getLsbD t = true := by
  induction gs generalizing b a with
  | nil => simp [collectAugs]
  | cons p ps ih =>
    simp only [List.map_cons, starts, collectAugs]
    rw [ih, collect_snd, or_assoc]
    apply or_congr_right
    constructor
    · rintro (⟨k, hk, h⟩ | ⟨i, q, s, h1, h2, h3⟩)
      · exact ⟨0, p, b, rfl, rfl, k, List.mem_range.1 hk, h⟩
      · exact ⟨i + 1, q, s, by simpa using h1, by simpa using h2, h3⟩
    · rintro ⟨i, q, s, h1, h2, h3⟩
      cases i with
      | zero =>
        simp at h1 h2; subst h1 h2
        obtain ⟨k, hk, h⟩ := h3
        exact .inl ⟨k, List.mem_range.2 hk, h⟩
      | succ i => exact .inr ⟨i, q, s, by simpa using h1, by simpa using h2, h3⟩

theorem layout_num (s : State) : (layout s).num = (s.phys.map (·.n)).sum + (s.augs.map (·.n)).sum := by
  simp [layout, starts_total]

/-- the cycle of a root -/
def cycOf (s : State) (P : Par) (i : Nat) : Cyc :=
  let a := collectAugs i P s.augs (layout s).aug (collectPhys i P s.phys (layout s).phy ([], 0))
  ⟨i, a.1, a.2⟩

theorem cycOf_insts (s : State) (P : Par) (i : Nat) :
    (cycOf s P i).insts = (List.range (layout s).num).filter (fun j => decide (P[j]? = some (some i))) := by
  have e1 : (layout s).phy = (starts (s.phys.map (·.n)) 0).1 := rfl
  have e2 : (layout s).aug = (starts (s.augs.map (·.n)) (starts (s.phys.map (·.n)) 0).2).1 := rfl
  simp only [cycOf, e1, e2]
  rw [collectAugs_fst, collectPhys_fst, starts_total, List.nil_append, ← List.filter_append, List.range'_append_1, layout_num,
    List.range_eq_range']

theorem gather_spec (s : State) (is : List Nat) {P : Par} (hf : Flat P) (hl : P.length = (layout s).num) :
    gather s (layout s) is P = .ok (P, (is.filter (fun i => decide (P[i]? = some (some i)))).map (cycOf s P)) := by
  induction is with
  | nil => rfl
  | cons i is ih =>
    rw [gather]
    by_cases hi : P[i]? = some (some i)
    · rw [if_pos hi, countMembers_spec i _ hf (fun j hj => by rw [hl]; exact List.mem_range.1 hj)]
      simp only [Res.ok_bind]
      have := cycOf_insts s P i
      have hc : (collectAugs i P s.augs (layout s).aug (collectPhys i P s.phys (layout s).phy ([], 0))).1.length =
          0 + (List.range (layout s).num).countP (fun j => decide (P[j]? = some (some i))) := by
        rw [show (collectAugs i P s.augs (layout s).aug (collectPhys i P s.phys (layout s).phy ([], 0))).1 = (cycOf s P i).insts from rfl,
          this, List.countP_eq_length_filter]; omega
      rw [if_neg (by rw [hc]; simp), ih]
      simp only [Res.ok_bind, Res.pure_eq]
      rw [List.filter_cons_of_pos (by simp [hi]), List.map_cons]
      rfl
    · rw [if_neg hi, ih, List.filter_cons_of_neg (by simp [hi])]

/-- `get_fiber_cycles` succeeds and lists the classes. -/
theorem fiberCycles_spec (s : State) {P : Par} (ht : Total P) (hl : P.length = (layout s).num) :
    ∃ P', fiberCycles s P = .ok (P', ((List.range (layout s).num).filter (fun i => decide (P'[i]? = some (some i)))).map (cycOf s P')) ∧
      Same P P' ∧ Flat P' := by
  obtain ⟨P', c, e, sm, h1, h2, h3⟩ := compress_spec (List.range (layout s).num) ht (fun i hi => by rw [hl]; exact List.mem_range.1 hi) 0
  have hf : Flat P' := by
    intro i r hi
    have hlt : i < P.length := by rw [← sm.len]; exact (List.getElem?_eq_some_iff.1 hi).1
    rcases ht i hlt with hd | ⟨t, hr⟩
    · rw [(sm.dead i).2 hd] at hi; cases hi
    · have := h1 i (List.mem_range.2 (hl ▸ hlt)) t hr
      rw [hi] at this; cases this
      exact ((sm.rep i r).2 hr).isRoot
  refine ⟨P', ?_, sm, hf⟩
  simp only [fiberCycles, e, Res.ok_bind]
  rw [gather_spec s _ hf (by rw [sm.len, hl])]
  simp only [Res.ok_bind, List.length_map, h3]
  have : ((List.range (layout s).num).filter (fun i => decide (P'[i]? = some (some i)))).length ≤
      0 + (List.range (layout s).num).countP (fun i => decide (P[i]? = some (some i))) := by
    rw [List.countP_eq_length_filter, Nat.zero_add]
    apply le_of_eq
    congr 1
    apply List.filter_congr
    intro i hi
    have hroot : ∀ R : Par, R[i]? = some (some i) ↔ Rep R i i :=
      fun R => ⟨fun h => ⟨0, .root h⟩, fun h => h.isRoot⟩
    rw [decide_eq_decide, hroot P', hroot P, sm.rep]
  rw [if_pos this]
  rfl

end Aps.Cycle
