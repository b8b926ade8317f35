import Verif.Proofs.StaticInv
set_option linter.unusedVariables false
/-!
# Static visit procedures: one round of the generator
-/
namespace Aps.Static

open Aps.Oag

variable {V : Type} {ph : Phyla} {P : Prod V}

/-- the code printed for an instance that is not a conditional, in front of the code of the rest -/
def wrap (inst : Inst V) (i : Nat) (asg : Asg V) (cps : List Nat) (rest : Code V) : Code V :=
  let rest := match emits inst (asg[i]?.getD none) with | none => rest | some e => .assign i e rest
  match childChange inst cps with
  | some c => .visit c inst.ph.toNat rest
  | none => rest

theorem cps_snoc_same {l : List Nat} {i : Nat} {inst : Inst V} (hp : Pos ph P l i inst)
    (h : ∀ c, inst.ch = some c → 0 < inst.ph → inst.ph.natAbs = P.cp c l) : P.cps (l ++ [i]) = P.cps l := by
  unfold Prod.cps
  apply List.map_congr_left
  intro c _
  rw [cp_snoc P c l hp.found]
  split
  · rename_i hc; exact h c hc.1 hc.2
  · rfl

theorem cps_snoc_change {l : List Nat} {i c : Nat} {inst : Inst V} (hp : Pos ph P l i inst) (hc : inst.ch = some c)
    (h0 : 0 < inst.ph) (h : inst.ph.natAbs = P.cp c l + 1) : P.cps (l ++ [i]) = (P.cps l).set c (P.cp c l + 1) := by
  have hcl := (hp.ch c hc).1
  apply List.ext_getElem?
  intro d
  by_cases hd : d < P.kidPhy.length
  · simp only [Prod.cps, List.getElem?_map, List.getElem?_range hd, Option.map_some, List.getElem?_set, List.length_map,
      List.length_range]
    rw [cp_snoc P d l hp.found]
    by_cases hcd : c = d
    · subst hcd; simp [hc, h0, hd, h]
    · simp [hc, hcd]
  · rw [List.getElem?_eq_none (by simp [Prod.cps]; omega), List.getElem?_eq_none (by simp [Prod.cps]; omega)]

theorem lhs_of_ch (hd : Described ph P) {i c : Nat} {inst : Inst V} (hi : P.insts[i]? = some inst) (hc : inst.ch = some c) :
    inst.lhs = false := by
  cases hl : inst.lhs with
  | false => rfl
  | true => have := (hd.lhs i inst hi hl).1; rw [hc] at this; cases this

theorem change_iff {l : List Nat} {i c : Nat} {inst : Inst V} (hp : Pos ph P l i inst) :
    childChange inst (P.cps l) = some c ↔ inst.ch = some c ∧ 0 < inst.ph ∧ inst.ph.natAbs = P.cp c l + 1 := by
  unfold childChange
  cases hc : inst.ch with
  | none => simp
  | some d =>
    obtain ⟨hdl, hd⟩ := hp.ch d hc
    simp only
    rw [cps_get P l hdl]
    constructor
    · intro h
      split at h
      · rename_i hh
        cases h
        exact ⟨rfl, by omega⟩
      · cases h
    · rintro ⟨h1, h2, h3⟩
      cases h1
      rw [if_pos (by omega)]

theorem change_none_iff {l : List Nat} {i : Nat} {inst : Inst V} (hp : Pos ph P l i inst) :
    childChange inst (P.cps l) = none ↔ ∀ c, inst.ch = some c → 0 < inst.ph → inst.ph.natAbs = P.cp c l := by
  constructor
  · intro h c hc h0
    obtain ⟨hcl, hd⟩ := hp.ch c hc
    by_contra hne
    have : childChange inst (P.cps l) = some c := (change_iff hp).2 ⟨hc, h0, by omega⟩
    rw [h] at this; cases this
  · intro h
    cases hc : childChange inst (P.cps l) with
    | none => rfl
    | some c =>
      obtain ⟨h1, h2, h3⟩ := (change_iff hp).1 hc
      have := h c h1 h2
      omega

/-- the same instance again, after the phase of its child has been changed -/
theorem change_again {l : List Nat} {i c : Nat} {inst : Inst V} (hp : Pos ph P l i inst)
    (h : childChange inst (P.cps l) = some c) : childChange inst (P.cps (l ++ [i])) = none := by
  obtain ⟨h1, h2, h3⟩ := (change_iff hp).1 h
  have hcl := (hp.ch c h1).1
  unfold childChange
  rw [h1]
  simp only
  have hcp : P.cp c (l ++ [i]) = inst.ph.natAbs := by rw [cp_snoc P c l hp.found, if_pos ⟨h1, h2⟩]
  rw [cps_get P _ hcl, hcp, if_neg (by omega)]

theorem parent_eq {l : List Nat} {i : Nat} {inst : Inst V} (hp : Pos ph P l i inst) (phase : Nat) :
    parentPhase inst phase (P.cur l) =
      if inst.lhs = true ∧ inst.ph.natAbs = P.cur l + 1 ∧ P.cur l = phase then none else some (P.cur (l ++ [i])) := by
  unfold parentPhase
  rw [cur_snoc P l hp.found]
  by_cases hl : inst.lhs = true
  · obtain ⟨h0, hph⟩ := hp.lhs hl
    simp only [hl, true_and, if_true]
    by_cases hcc : inst.ph ≠ (P.cur l : Int) ∧ inst.ph ≠ -(P.cur l : Int)
    · rw [if_pos hcc]
      have : inst.ph.natAbs = P.cur l + 1 := by omega
      by_cases he : P.cur l = phase
      · rw [if_pos he, if_pos ⟨this, he⟩]
      · rw [if_neg he, if_neg fun h => he h.2, this]
    · rw [if_neg hcc]
      have : inst.ph.natAbs = P.cur l := by omega
      rw [if_neg (by omega), this]
  · simp only [hl]
    simp

/-- one round at a node that is not a conditional: the visit is over, or the rest is printed after what is printed
for the instance -/
theorem step_node (hd : Described ph P) {phase fuel : Nat} {l : List Nat} {i : Nat} {inst : Inst V} {next : Cto} {asg : Asg V}
    {r : Code V × Bool} (hp : Pos ph P l i inst) (hr : ¬ P.IsRule i)
    (h : implement P phase fuel (P.cur l) (.node i next) asg (P.cps l) = .ok r) :
    (inst.lhs = true ∧ inst.ph.natAbs = P.cur l + 1 ∧ P.cur l = phase ∧ r = (.done, true)) ∨
    ∃ fuel' r', fuel' < fuel ∧ ¬ (inst.lhs = true ∧ inst.ph.natAbs = P.cur l + 1 ∧ P.cur l = phase) ∧ implement P phase fuel' (P.cur (l ++ [i])) next asg (P.cps (l ++ [i])) = .ok r' ∧
      r = (if P.cur (l ++ [i]) = phase then wrap inst i asg (P.cps l) r'.1 else r'.1, r'.2) := by
  have hrn : inst.rule = none := by
    cases hru : inst.rule with
    | none => rfl
    | some x => exact absurd ⟨inst, hp.found, by rw [hru]; rfl⟩ hr
  have hlast : ∀ (f : Nat), childChange inst (P.cps (l ++ [i])) = none →
      implement P phase (f + 1) (P.cur (l ++ [i])) (.node i next) asg (P.cps (l ++ [i])) = .ok r → inst.lhs = false →
      ∃ r', implement P phase f (P.cur (l ++ [i])) next asg (P.cps (l ++ [i])) = .ok r' ∧
        r = (if P.cur (l ++ [i]) = phase then (match emits inst (asg[i]?.getD none) with | none => r'.1 | some e => .assign i e r'.1)
          else r'.1, r'.2) := by
    intro f hc hh hl
    simp only [implement, hp.found] at hh
    rw [show parentPhase inst phase (P.cur (l ++ [i])) = some (P.cur (l ++ [i])) by simp [parentPhase, hl]] at hh
    simp only [hc, hrn, Option.isSome_none] at hh
    by_cases hph : phase ≠ P.cur (l ++ [i])
    · simp only [if_pos hph] at hh
      refine ⟨r, by simpa using hh, ?_⟩
      rw [if_neg (fun e => hph e.symm)]
    · simp only [if_neg hph] at hh
      obtain ⟨r', h1, h2⟩ := Res.bind_eq_ok.1 (show _ = Res.ok r by simpa using hh)
      refine ⟨r', h1, ?_⟩
      rw [if_pos (by omega)]
      cases he : emits inst (asg[i]?.getD none) with
      | none => rw [he] at h2; simp only [Res.pure_eq] at h2; cases h2; rfl
      | some e => rw [he] at h2; simp only [Res.pure_eq] at h2; cases h2; rfl
  cases fuel with
  | zero => simp only [implement] at h; cases h
  | succ fuel =>
    simp only [implement, hp.found] at h
    rw [parent_eq hp phase] at h
    by_cases hover : inst.lhs = true ∧ inst.ph.natAbs = P.cur l + 1 ∧ P.cur l = phase
    · rw [if_pos hover] at h
      simp only at h
      cases h
      exact .inl ⟨hover.1, hover.2.1, hover.2.2, rfl⟩
    · rw [if_neg hover] at h
      simp only at h
      right
      cases hc : childChange inst (P.cps l) with
      | none =>
        rw [hc] at h
        simp only [hrn, Option.isSome_none] at h
        have hsame := cps_snoc_same hp ((change_none_iff hp).1 hc)
        by_cases hph : phase ≠ P.cur (l ++ [i])
        · simp only [if_pos hph] at h
          refine ⟨fuel, r, by omega, hover, by rw [hsame]; simpa using h, ?_⟩
          rw [if_neg (fun e => hph e.symm)]
        · simp only [if_neg hph] at h
          obtain ⟨r', h1, h2⟩ := Res.bind_eq_ok.1 (show _ = Res.ok r by simpa using h)
          refine ⟨fuel, r', by omega, hover, by rw [hsame]; exact h1, ?_⟩
          rw [if_pos (by omega)]
          unfold wrap
          rw [hc]
          cases he : emits inst (asg[i]?.getD none) with
          | none => rw [he] at h2; simp only [Res.pure_eq] at h2; cases h2; rfl
          | some e => rw [he] at h2; simp only [Res.pure_eq] at h2; cases h2; rfl
      | some c =>
        obtain ⟨h1, h2, h3⟩ := (change_iff hp).1 hc
        have hcl := (hp.ch c h1).1
        rw [hc] at h
        simp only [cps_get P l hcl, ← cps_snoc_change hp h1 h2 h3] at h
        have hl := lhs_of_ch hd hp.found h1
        cases fuel with
        | zero =>
          simp only [implement] at h
          split at h
          · split at h
            · cases h
            · simp at h
          · cases h
        | succ f =>
          by_cases hph : P.cur (l ++ [i]) = phase
          · rw [if_pos hph, if_neg (by omega)] at h
            obtain ⟨r1, h4, h5⟩ := Res.bind_eq_ok.1 h
            simp only [Res.pure_eq] at h5
            have hr1 : r = (.visit c inst.ph.toNat r1.1, r1.2) := by cases h5; rfl
            have hc2 := change_again hp hc
            simp only [implement, hp.found] at h4
            rw [show parentPhase inst phase (P.cur (l ++ [i])) = some (P.cur (l ++ [i])) by simp [parentPhase, hl]] at h4
            simp only [hc2, hrn, Option.isSome_none] at h4
            rw [if_neg (by simp), if_neg (by omega)] at h4
            obtain ⟨r', h6, h7⟩ := Res.bind_eq_ok.1 h4
            refine ⟨f, r', by omega, hover, h6, ?_⟩
            rw [if_pos hph, hr1]
            unfold wrap
            rw [hc]
            cases he : emits inst (asg[i]?.getD none) with
            | none => rw [he] at h7; simp only [Res.pure_eq] at h7; cases h7; rfl
            | some e => rw [he] at h7; simp only [Res.pure_eq] at h7; cases h7; rfl
          · rw [if_neg hph] at h
            obtain ⟨r', h4, h5⟩ := hlast f (change_again hp hc) h hl
            rw [if_neg hph] at h5
            exact ⟨f, r', by omega, hover, h4, by rw [if_neg hph]; exact h5⟩

/-- one round at a conditional -/
theorem step_ifs (hd : Described ph P) {phase fuel : Nat} {l : List Nat} {i : Nat} {inst : Inst V} {rule : Rule V} {f t : Cto}
    {σ : Nat → Bool} {r : Code V × Bool} (hp : Pos ph P l i inst) (hr : inst.rule = some rule)
    (h : implement P phase fuel (P.cur l) (.ifs i f t) (P.asg σ l) (P.cps l) = .ok r) :
    ∃ fuel' rt rf, fuel' < fuel ∧
      (∀ τ : Nat → Bool, (∀ q ∈ l, τ q = σ q) →
        implement P phase fuel' (P.cur (l ++ [i])) (if τ i = true then t else f) (P.asg τ (l ++ [i])) (P.cps (l ++ [i])) =
          .ok (if τ i = true then rt else rf)) ∧
      r = (condHead rule.test rt.1 rf.1, rf.2) := by
  obtain ⟨hl, hch⟩ := hd.rule i inst hp.found (by rw [hr]; rfl)
  have hcur : P.cur (l ++ [i]) = P.cur l := by rw [cur_snoc P l hp.found, hl]; rfl
  have hcps : P.cps (l ++ [i]) = P.cps l := cps_snoc_same hp (by rw [hch]; intro c hc; cases hc)
  cases fuel with
  | zero => simp only [implement] at h; cases h
  | succ fuel =>
    simp only [implement, hp.found] at h
    rw [show parentPhase inst phase (P.cur l) = some (P.cur l) by simp [parentPhase, hl],
      show childChange inst (P.cps l) = none by simp [childChange, hch]] at h
    simp only [hr] at h
    obtain ⟨at_, ha, h⟩ := Res.bind_eq_ok.1 h
    obtain ⟨rt, ht, h⟩ := Res.bind_eq_ok.1 h
    have hat : at_ = over (P.asg σ l) (rule.branch true) := by
      rw [assignLoop_ok ha]; rfl
    have hgen : ∀ {af : Asg V}, af = over (P.asg σ l) (rule.branch false) →
        ∀ {rf : Code V × Bool}, implement P phase fuel (P.cur l) f af (P.cps l) = .ok rf →
        r = (condHead rule.test rt.1 rf.1, rf.2) →
        ∃ fuel' rt rf, fuel' < fuel + 1 ∧
          (∀ τ : Nat → Bool, (∀ q ∈ l, τ q = σ q) →
            implement P phase fuel' (P.cur (l ++ [i])) (if τ i = true then t else f) (P.asg τ (l ++ [i])) (P.cps (l ++ [i])) =
              .ok (if τ i = true then rt else rf)) ∧
          r = (condHead rule.test rt.1 rf.1, rf.2) := by
      intro af haf rf hf hrr
      refine ⟨fuel, rt, rf, by omega, ?_, hrr⟩
      intro τ hτ
      rw [hcur, hcps, asg_snoc_rule P τ l hp.found hr, asg_congr P hτ]
      cases τ i with
      | true => rw [← hat]; simpa using ht
      | false => rw [← haf]; simpa using hf
    cases hif : rule.ifFalse with
    | some b =>
      rw [hif] at h
      simp only at h
      obtain ⟨af, hb, h⟩ := Res.bind_eq_ok.1 h
      obtain ⟨rf, hf, h⟩ := Res.bind_eq_ok.1 h
      simp only [Res.pure_eq] at h
      exact hgen (by rw [assignLoop_ok hb]; simp [Rule.branch, hif]) hf (by cases h; rfl)
    | none =>
      rw [hif] at h
      simp only [Res.ok_bind] at h
      obtain ⟨rf, hf, h⟩ := Res.bind_eq_ok.1 h
      simp only [Res.pure_eq] at h
      exact hgen (by simp [Rule.branch, hif, over]) hf (by cases h; rfl)

end Aps.Static
