import Verif.Spec.Static
import Mathlib.Tactic.Common
import Mathlib.Data.List.Basic
set_option linter.unusedVariables false
/-!
# Static visit procedures: where an instance stands on a path
-/
namespace Aps.Static

open Aps.Oag

variable {V : Type}

/-- the phase of the parent after the instances `l` -/
def Prod.cur (P : Prod V) (l : List Nat) : Nat :=
  l.foldl (fun c i => match P.insts[i]? with | some inst => if inst.lhs then inst.ph.natAbs else c | none => c) 0

/-- the phase of child `c` after the instances `l` -/
def Prod.cp (P : Prod V) (c : Nat) (l : List Nat) : Nat :=
  l.foldl (fun k i => match P.insts[i]? with
    | some inst => if inst.ch = some c ∧ 0 < inst.ph then inst.ph.natAbs else k | none => k) 0

/-- `child_phase` after the instances `l` -/
def Prod.cps (P : Prod V) (l : List Nat) : List Nat := (List.range P.kidPhy.length).map fun c => P.cp c l

theorem cur_snoc (P : Prod V) (l : List Nat) {i : Nat} {inst : Inst V} (h : P.insts[i]? = some inst) :
    P.cur (l ++ [i]) = if inst.lhs then inst.ph.natAbs else P.cur l := by
  simp [Prod.cur, h]

theorem cp_snoc (P : Prod V) (c : Nat) (l : List Nat) {i : Nat} {inst : Inst V} (h : P.insts[i]? = some inst) :
    P.cp c (l ++ [i]) = if inst.ch = some c ∧ 0 < inst.ph then inst.ph.natAbs else P.cp c l := by
  simp [Prod.cp, h]

theorem cps_get (P : Prod V) (l : List Nat) {c : Nat} (h : c < P.kidPhy.length) : (P.cps l)[c]?.getD 0 = P.cp c l := by
  simp [Prod.cps, h]

theorem place_le {a b : Int} (h : place a ≤ place b) : a.natAbs ≤ b.natAbs := by
  unfold place at h; split at h <;> split at h <;> omega

theorem cur_mem (P : Prod V) (l : List Nat) (hl : ∀ i ∈ l, i < P.insts.length) :
    P.cur l = 0 ∨ ∃ j ∈ l, ∃ inst, P.insts[j]? = some inst ∧ inst.lhs = true ∧ P.cur l = inst.ph.natAbs := by
  induction l using List.reverseRecOn with
  | nil => exact .inl rfl
  | append_singleton l i ih =>
    have hi := hl i (by simp)
    obtain ⟨inst, hi'⟩ : ∃ inst, P.insts[i]? = some inst := ⟨_, List.getElem?_eq_getElem hi⟩
    rw [cur_snoc P l hi']
    by_cases hc : inst.lhs = true
    · rw [if_pos hc]; exact .inr ⟨i, by simp, inst, hi', hc, rfl⟩
    · rw [if_neg hc]
      rcases ih fun j hj => hl j (by simp [hj]) with h | ⟨j, hj, r⟩
      · exact .inl h
      · exact .inr ⟨j, by simp [hj], r⟩

theorem cp_mem (P : Prod V) (c : Nat) (l : List Nat) (hl : ∀ i ∈ l, i < P.insts.length) :
    P.cp c l = 0 ∨ ∃ j ∈ l, ∃ inst, P.insts[j]? = some inst ∧ inst.ch = some c ∧ 0 < inst.ph ∧ P.cp c l = inst.ph.natAbs := by
  induction l using List.reverseRecOn with
  | nil => exact .inl rfl
  | append_singleton l i ih =>
    have hi := hl i (by simp)
    obtain ⟨inst, hi'⟩ : ∃ inst, P.insts[i]? = some inst := ⟨_, List.getElem?_eq_getElem hi⟩
    rw [cp_snoc P c l hi']
    by_cases hc : inst.ch = some c ∧ 0 < inst.ph
    · rw [if_pos hc]; exact .inr ⟨i, by simp, inst, hi', hc.1, hc.2, rfl⟩
    · rw [if_neg hc]
      rcases ih fun j hj => hl j (by simp [hj]) with h | ⟨j, hj, r⟩
      · exact .inl h
      · exact .inr ⟨j, by simp [hj], r⟩

/-- the order of phases on a list -/
def Prod.Sorted (P : Prod V) (l : List Nat) : Prop :=
  l.Pairwise fun i j => ∀ (a b : Inst V), P.insts[i]? = some a → P.insts[j]? = some b →
    (a.lhs = true ∧ b.lhs = true ∨ a.ch ≠ none ∧ a.ch = b.ch) → place a.ph ≤ place b.ph

theorem cur_max (P : Prod V) (l : List Nat) (hs : P.Sorted l) (hl : ∀ i ∈ l, i < P.insts.length) {j : Nat} (hj : j ∈ l)
    {inst : Inst V} (hi : P.insts[j]? = some inst) (hlhs : inst.lhs = true) : inst.ph.natAbs ≤ P.cur l := by
  induction l using List.reverseRecOn with
  | nil => cases hj
  | append_singleton l i ih =>
    obtain ⟨b, hb⟩ : ∃ b, P.insts[i]? = some b := ⟨_, List.getElem?_eq_getElem (hl i (by simp))⟩
    have hp := List.pairwise_append.1 hs
    rw [cur_snoc P l hb]
    by_cases hc : b.lhs = true
    · rw [if_pos hc]
      rcases List.mem_append.1 hj with h | h
      · exact place_le (hp.2.2 j h i (by simp) inst b hi hb (.inl ⟨hlhs, hc⟩))
      · simp at h; subst h; rw [hi] at hb; cases hb; exact Nat.le_refl _
    · rw [if_neg hc]
      rcases List.mem_append.1 hj with h | h
      · exact ih hp.1 (fun k hk => hl k (by simp [hk])) h
      · simp at h; subst h; rw [hi] at hb; cases hb; exact absurd hlhs hc

theorem cp_max (P : Prod V) (c : Nat) (l : List Nat) (hs : P.Sorted l) (hl : ∀ i ∈ l, i < P.insts.length) {j : Nat} (hj : j ∈ l)
    {inst : Inst V} (hi : P.insts[j]? = some inst) (hch : inst.ch = some c) (hpos : 0 < inst.ph) :
    inst.ph.natAbs ≤ P.cp c l := by
  induction l using List.reverseRecOn with
  | nil => cases hj
  | append_singleton l i ih =>
    obtain ⟨b, hb⟩ : ∃ b, P.insts[i]? = some b := ⟨_, List.getElem?_eq_getElem (hl i (by simp))⟩
    have hp := List.pairwise_append.1 hs
    rw [cp_snoc P c l hb]
    by_cases hc : b.ch = some c ∧ 0 < b.ph
    · rw [if_pos hc]
      rcases List.mem_append.1 hj with h | h
      · exact place_le (hp.2.2 j h i (by simp) inst b hi hb (.inr ⟨by simp [hch], hch.trans hc.1.symm⟩))
      · simp at h; subst h; rw [hi] at hb; cases hb; exact Nat.le_refl _
    · rw [if_neg hc]
      rcases List.mem_append.1 hj with h | h
      · exact ih hp.1 (fun k hk => hl k (by simp [hk])) h
      · simp at h; subst h; rw [hi] at hb; cases hb; exact absurd ⟨hch, hpos⟩ hc

/-- everything about the position of an instance -/
structure Pos (ph : Phyla) (P : Prod V) (l : List Nat) (i : Nat) (inst : Inst V) : Prop where
  found : P.insts[i]? = some inst
  notin : i ∉ l
  lhs : inst.lhs = true → inst.ph ≠ 0 ∧ (inst.ph.natAbs = P.cur l ∨ inst.ph.natAbs = P.cur l + 1)
  ch : ∀ c, inst.ch = some c → c < P.kidPhy.length ∧
    (inst.ph < 0 ∧ inst.ph.natAbs = P.cp c l + 1 ∨ 0 < inst.ph ∧ (inst.ph.natAbs = P.cp c l ∨ inst.ph.natAbs = P.cp c l + 1))

theorem pos_of_path {ph : Phyla} {P : Prod V} (hph : Phased ph) (hd : Described ph P) (hs : Scheduled ph P)
    {σ : Nat → Bool} {l post : List Nat} {i : Nat} (hp : P.path σ = l ++ i :: post) :
    ∃ inst, Pos ph P l i inst := by
  have hin : i ∈ P.path σ := by rw [hp]; simp
  obtain ⟨inst, hi⟩ : ∃ inst, P.insts[i]? = some inst := ⟨_, List.getElem?_eq_getElem (hs.known σ i hin)⟩
  have hl : ∀ j ∈ l, j < P.insts.length := fun j hj => hs.known σ j (by rw [hp]; simp [hj])
  have hsort := hs.phases σ
  have hnd := hs.nodup σ
  rw [hp] at hsort hnd
  obtain ⟨hsl, hsr, hcross⟩ := List.pairwise_append.1 hsort
  refine ⟨inst, hi, ?_, ?_, ?_⟩
  · intro hm
    exact (List.nodup_append.1 hnd).2.2 i hm i (by simp) rfl
  · intro hlhs
    obtain ⟨_, hsc, _, _⟩ := hd.lhs i inst hi hlhs
    obtain ⟨h0, hv⟩ := hph.range _ _ _ hsc
    refine ⟨h0, ?_⟩
    have hge : P.cur l ≤ inst.ph.natAbs := by
      rcases cur_mem P l hl with h | ⟨j, hj, b, hb, hbl, he⟩
      · omega
      · rw [he]; exact place_le (hcross j hj i (by simp) b inst hb hi (.inl ⟨hbl, hlhs⟩))
    by_contra hne
    push Not at hne
    obtain ⟨x, hx⟩ := hph.syn P.lhsPhy (P.cur l + 1) (by omega) (by omega)
    obtain ⟨j, hj, b, hb, hbl, rfl⟩ := hs.lhs σ x _ hx
    obtain ⟨_, hsc', _, _⟩ := hd.lhs j b hb hbl
    rw [hx] at hsc'
    have hbph : b.ph = ((P.cur l + 1 : Nat) : Int) := (Option.some.inj hsc').symm
    rw [hp] at hj
    rcases List.mem_append.1 hj with h | h
    · have := cur_max P l hsl hl h hb hbl
      omega
    · rcases List.mem_cons.1 h with rfl | h
      · rw [hi] at hb; cases hb; omega
      · have := place_le ((List.pairwise_cons.1 hsr).1 j h inst b hi hb (.inl ⟨hlhs, hbl⟩))
        omega
  · intro c hch
    obtain ⟨k, hk, hsc, _, _⟩ := hd.ch i inst c hi hch
    obtain ⟨h0, hv⟩ := hph.range _ _ _ hsc
    have hcl : c < P.kidPhy.length := by
      by_contra h; rw [List.getElem?_eq_none (by omega)] at hk; cases hk
    refine ⟨hcl, ?_⟩
    have hge : P.cp c l = 0 ∨ 2 * P.cp c l + 1 ≤ place inst.ph := by
      rcases cp_mem P c l hl with h | ⟨j, hj, b, hb, hbl, hpos, he⟩
      · exact .inl h
      · right
        have := hcross j hj i (by simp) b inst hb hi (.inr ⟨by simp [hbl], hbl.trans hch.symm⟩)
        have h2 : place b.ph = 2 * b.ph.natAbs + 1 := by unfold place; rw [if_neg (by omega)]
        omega
    have hle : inst.ph.natAbs ≤ P.cp c l + 1 := by
      by_contra hne
      obtain ⟨x, hx⟩ := hph.syn k (P.cp c l + 1) (by omega) (by omega)
      obtain ⟨j, hj, b, hb, hbl, rfl⟩ := hs.ch σ c k x _ hk hx
      obtain ⟨k', hk', hsc', _, _⟩ := hd.ch j b c hb hbl
      rw [hk] at hk'; cases hk'
      rw [hx] at hsc'
      have hbph : b.ph = ((P.cp c l + 1 : Nat) : Int) := (Option.some.inj hsc').symm
      rw [hp] at hj
      rcases List.mem_append.1 hj with h | h
      · have := cp_max P c l hsl hl h hb hbl (by omega)
        omega
      · rcases List.mem_cons.1 h with rfl | h
        · rw [hi] at hb; cases hb; omega
        · have := place_le ((List.pairwise_cons.1 hsr).1 j h inst b hi hb (.inr ⟨(by simp [hch]), hch.trans hbl.symm⟩))
          omega
    by_cases hneg : inst.ph < 0
    · left
      refine ⟨hneg, ?_⟩
      have h2 : place inst.ph = 2 * inst.ph.natAbs := by unfold place; rw [if_pos hneg]
      omega
    · right
      have h2 : place inst.ph = 2 * inst.ph.natAbs + 1 := by unfold place; rw [if_neg hneg]
      omega

/-! ## The assignment in force -/

/-- the assignments of a block put over an array -/
def over (arr : Asg V) (l : List (Nat × Expr V)) : Asg V := l.foldl (fun arr q => arr.set q.1 (some q.2)) arr

theorem assignLoop_ok {n : Nat} {b : Block V} : ∀ {arr arr' : Asg V}, assignLoop n b arr = .ok arr' → arr' = over arr b.own := by
  induction b with
  | nil => intro arr arr' h; simp only [assignLoop] at h; cases h; rfl
  | decl i rest ih => intro arr arr' h; simp only [assignLoop] at h; exact ih h
  | assign i e rest ih =>
    intro arr arr' h
    simp only [assignLoop] at h
    by_cases hi : i ≥ n
    · rw [if_pos hi] at h; cases h
    · rw [if_neg hi] at h; exact ih h
  | cond r t f rest _ _ ih => intro arr arr' h; simp only [assignLoop] at h; exact ih h

/-- the branch of a conditional taken -/
def Rule.branch (r : Rule V) (b : Bool) : List (Nat × Expr V) :=
  if b then r.ifTrue.own else match r.ifFalse with | some b => b.own | none => []

/-- the assignments of the blocks entered by the conditionals in `l` -/
def Prod.owns (P : Prod V) (σ : Nat → Bool) (l : List Nat) : List (Nat × Expr V) :=
  P.body.own ++ l.flatMap fun r => match (P.insts[r]?).bind (·.rule) with | some rule => rule.branch (σ r) | none => []

/-- `instance_assignment` after the instances `l` -/
def Prod.asg (P : Prod V) (σ : Nat → Bool) (l : List Nat) : Asg V := over P.defaults (P.owns σ l)

theorem over_append (arr : Asg V) (l m : List (Nat × Expr V)) : over arr (l ++ m) = over (over arr l) m := by
  simp [over]

theorem asg_snoc_rule (P : Prod V) (σ : Nat → Bool) (l : List Nat) {r : Nat} {inst : Inst V} {rule : Rule V}
    (h : P.insts[r]? = some inst) (hr : inst.rule = some rule) :
    P.asg σ (l ++ [r]) = over (P.asg σ l) (rule.branch (σ r)) := by
  unfold Prod.asg
  rw [← over_append]
  congr 1
  simp [Prod.owns, h, hr]

theorem asg_snoc_other (P : Prod V) (σ : Nat → Bool) (l : List Nat) {i : Nat} {inst : Inst V}
    (h : P.insts[i]? = some inst) (hr : inst.rule = none) : P.asg σ (l ++ [i]) = P.asg σ l := by
  unfold Prod.asg
  congr 1
  simp [Prod.owns, h, hr]

theorem owns_congr (P : Prod V) {σ τ : Nat → Bool} {l : List Nat} (h : ∀ r ∈ l, σ r = τ r) : P.owns σ l = P.owns τ l := by
  unfold Prod.owns
  congr 1
  induction l with
  | nil => rfl
  | cons r l ih =>
    simp only [List.flatMap_cons]
    rw [ih fun q hq => h q (by simp [hq]), h r (by simp)]

theorem asg_congr (P : Prod V) {σ τ : Nat → Bool} {l : List Nat} (h : ∀ r ∈ l, σ r = τ r) : P.asg σ l = P.asg τ l := by
  unfold Prod.asg; rw [owns_congr P h]

theorem over_length (arr : Asg V) (l : List (Nat × Expr V)) : (over arr l).length = arr.length := by
  induction l generalizing arr with
  | nil => rfl
  | cons q l ih => exact (ih _).trans (by simp)

theorem over_get_none {arr : Asg V} {l : List (Nat × Expr V)} {i : Nat} (h : ∀ e, (i, e) ∉ l) :
    (over arr l)[i]?.getD none = arr[i]?.getD none := by
  induction l generalizing arr with
  | nil => rfl
  | cons q l ih =>
    have : q.1 ≠ i := by rintro rfl; exact h q.2 (by simp)
    show (over (arr.set q.1 (some q.2)) l)[i]?.getD none = _
    rw [ih fun e he => h e (by simp [he]), List.getElem?_set_ne this]

theorem over_get_some {arr : Asg V} {l : List (Nat × Expr V)} {i : Nat} {e : Expr V} (hi : i < arr.length) (h : (i, e) ∈ l)
    (hu : ∀ e', (i, e') ∈ l → e' = e) : (over arr l)[i]?.getD none = some e := by
  induction l generalizing arr with
  | nil => cases h
  | cons q l ih =>
    show (over (arr.set q.1 (some q.2)) l)[i]?.getD none = _
    by_cases hl : ∃ e', (i, e') ∈ l
    · obtain ⟨e', he'⟩ := hl
      have : e' = e := hu e' (by simp [he'])
      subst this
      exact ih (by simpa using hi) he' fun e'' h'' => hu e'' (by simp [h''])
    · rw [over_get_none fun e' he' => hl ⟨e', he'⟩]
      rcases List.mem_cons.1 h with rfl | h
      · simp [hi]
      · exact absurd ⟨e, h⟩ hl

theorem active_of_own {σ : Nat → Bool} {b : Block V} {q : Nat × Expr V} (h : q ∈ b.own) : q ∈ b.active σ := by
  induction b with
  | nil => cases h
  | decl i rest ih => exact ih h
  | assign i e rest ih =>
    rcases List.mem_cons.1 h with rfl | h
    · exact List.mem_cons_self
    · exact List.mem_cons_of_mem _ (ih h)
  | cond r t f rest _ _ ih => exact List.mem_append_right _ (ih h)

theorem active_source {σ : Nat → Bool} {b : Block V} {q : Nat × Expr V} (h : q ∈ b.active σ) :
    q ∈ b.own ∨ ∃ r ∈ b.tested σ, ∃ t f, b.Has r t f ∧ q ∈ (if σ r then t else f).own := by
  induction b with
  | nil => cases h
  | decl i rest ih =>
    rcases ih h with h | ⟨r, hr, t, f, hh, hq⟩
    · exact .inl h
    · exact .inr ⟨r, hr, t, f, .decl hh, hq⟩
  | assign i e rest ih =>
    rcases List.mem_cons.1 h with rfl | h
    · exact .inl List.mem_cons_self
    · rcases ih h with h | ⟨r, hr, t, f, hh, hq⟩
      · exact .inl (List.mem_cons_of_mem _ h)
      · exact .inr ⟨r, hr, t, f, .assign hh, hq⟩
  | cond r t f rest iht ihf ih =>
    simp only [Block.active, List.mem_append] at h
    rcases h with h | h
    · right
      by_cases hσ : σ r = true
      · rw [if_pos hσ] at h
        rcases iht h with h | ⟨r', hr', t', f', hh, hq⟩
        · exact ⟨r, by simp [Block.tested], t, f, .here, by rw [if_pos hσ]; exact h⟩
        · exact ⟨r', by simp [Block.tested, hσ, hr'], t', f', .inTrue hh, hq⟩
      · rw [if_neg hσ] at h
        rcases ihf h with h | ⟨r', hr', t', f', hh, hq⟩
        · exact ⟨r, by simp [Block.tested], t, f, .here, by rw [if_neg hσ]; exact h⟩
        · exact ⟨r', by simp [Block.tested, hσ, hr'], t', f', .inFalse hh, hq⟩
    · rcases ih h with h | ⟨r', hr', t', f', hh, hq⟩
      · exact .inl h
      · exact .inr ⟨r', by simp [Block.tested, hr'], t', f', .rest hh, hq⟩

theorem tested_source {σ : Nat → Bool} {b : Block V} {r : Nat} (h : r ∈ b.tested σ) :
    ∃ t f, b.Has r t f ∧ ∀ q ∈ (if σ r then t else f).own, q ∈ b.active σ := by
  induction b with
  | nil => cases h
  | decl i rest ih => obtain ⟨t, f, hh, hq⟩ := ih h; exact ⟨t, f, .decl hh, hq⟩
  | assign i e rest ih =>
    obtain ⟨t, f, hh, hq⟩ := ih h
    exact ⟨t, f, .assign hh, fun q h => List.mem_cons_of_mem _ (hq q h)⟩
  | cond r' t' f' rest iht ihf ih =>
    simp only [Block.tested, List.mem_cons, List.mem_append] at h
    rcases h with rfl | h | h
    · refine ⟨t', f', .here, fun q hq => List.mem_append_left _ ?_⟩
      by_cases hσ : σ r = true
      · rw [if_pos hσ] at hq ⊢; exact active_of_own hq
      · rw [if_neg hσ] at hq ⊢; exact active_of_own hq
    · by_cases hσ : σ r' = true
      · rw [if_pos hσ] at h
        obtain ⟨t, f, hh, hq⟩ := iht h
        exact ⟨t, f, .inTrue hh, fun q h => List.mem_append_left _ (by rw [if_pos hσ]; exact hq q h)⟩
      · rw [if_neg hσ] at h
        obtain ⟨t, f, hh, hq⟩ := ihf h
        exact ⟨t, f, .inFalse hh, fun q h => List.mem_append_left _ (by rw [if_neg hσ]; exact hq q h)⟩
    · obtain ⟨t, f, hh, hq⟩ := ih h
      exact ⟨t, f, .rest hh, fun q h => List.mem_append_right _ (hq q h)⟩

theorem branch_own {ph : Phyla} {P : Prod V} (hd : Described ph P) {r : Nat} {t f : Block V} (hh : P.body.Has r t f)
    {inst : Inst V} {rule : Rule V} (hi : P.insts[r]? = some inst) (hr : inst.rule = some rule) (b : Bool) :
    rule.branch b = (if b then t else f).own := by
  obtain ⟨inst', rule', hi', hr', ht, hf⟩ := hd.body r t f hh
  rw [hi] at hi'; cases hi'
  rw [hr] at hr'; cases hr'
  unfold Rule.branch
  cases b
  · rcases hf with hf | ⟨hf, ho⟩
    · simp [hf]
    · simp [hf, ho]
  · simp [ht]

theorem nodup_fst_inj {l : List (Nat × Expr V)} (h : (l.map (·.1)).Nodup) {i : Nat} {e e' : Expr V}
    (h1 : (i, e) ∈ l) (h2 : (i, e') ∈ l) : e = e' := by
  induction l with
  | nil => cases h1
  | cons q l ih =>
    obtain ⟨hn, hnd⟩ := List.nodup_cons.1 (show (q.1 :: l.map (·.1)).Nodup from h)
    rcases List.mem_cons.1 h1 with r1 | h1 <;> rcases List.mem_cons.1 h2 with r2 | h2
    · rw [← r1] at r2; cases r2; rfl
    · exact absurd (List.mem_map.2 ⟨_, h2, rfl⟩) (by rw [← r1] at hn; exact hn)
    · exact absurd (List.mem_map.2 ⟨_, h1, rfl⟩) (by rw [← r2] at hn; exact hn)
    · exact ih hnd h1 h2

/-- at its position, the assignment in force is the one that defines the instance -/
theorem asg_eq_rhs {ph : Phyla} {P : Prod V} (hd : Described ph P) (hs : Scheduled ph P)
    {σ : Nat → Bool} {l post : List Nat} {i : Nat} (hp : P.path σ = l ++ i :: post) (hi : ¬ P.IsRule i) :
    (P.asg σ l)[i]?.getD none = P.rhs σ i := by
  have hlen : i < P.defaults.length := by
    rw [hd.defaults]; exact hs.known σ i (by rw [hp]; simp)
  have hsub : ∀ e, (i, e) ∈ P.owns σ l ↔ (i, e) ∈ P.body.active σ := by
    intro e
    constructor
    · intro h
      rcases List.mem_append.1 h with h | h
      · exact active_of_own h
      · obtain ⟨r, hr, hq⟩ := List.mem_flatMap.1 h
        cases hri : (P.insts[r]?).bind (·.rule) with
        | none => rw [hri] at hq; cases hq
        | some rule =>
          rw [hri] at hq
          obtain ⟨inst, hin, hrule⟩ := Option.bind_eq_some_iff.1 hri
          have ht : r ∈ P.body.tested σ :=
            (hs.tested σ r).2 ⟨by rw [hp]; simp [hr], inst, hin, by rw [hrule]; rfl⟩
          obtain ⟨t, f, hh, hsub⟩ := tested_source ht
          rw [show (match some rule with | some rule => Rule.branch rule (σ r) | none => []) = rule.branch (σ r) from rfl,
            branch_own hd hh hin hrule] at hq
          exact hsub _ hq
    · intro h
      rcases active_source h with h | ⟨r, hr, t, f, hh, hq⟩
      · exact List.mem_append_left _ h
      · have hrl := hs.guards σ l i post hp hi r hr t f hh ⟨e, hq⟩
        obtain ⟨inst, rule, hin, hrule, _⟩ := hd.body r t f hh
        refine List.mem_append_right _ (List.mem_flatMap.2 ⟨r, hrl, ?_⟩)
        simp only [hin, Option.bind_some, hrule]
        rw [branch_own hd hh hin hrule]
        exact hq
  unfold Prod.asg Prod.rhs
  cases hf : (P.body.active σ).find? fun q => q.1 = i with
  | none =>
    simp only
    apply over_get_none
    intro e he
    have := List.find?_eq_none.1 hf _ ((hsub e).1 he)
    simp at this
  | some q =>
    simp only
    have hq := List.mem_of_find?_eq_some hf
    have hqi : q.1 = i := by simpa using List.find?_some hf
    obtain ⟨q1, q2⟩ := q
    simp only at hqi; subst hqi
    exact over_get_some hlen ((hsub q2).2 hq) fun e' he' => nodup_fst_inj (hd.unique σ) ((hsub e').1 he') hq

end Aps.Static
