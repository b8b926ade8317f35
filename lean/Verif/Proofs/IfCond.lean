import Verif.Spec.IfCond
import Verif.Proofs.OagCto
/-! Numbering and conditions of conditionals. -/
set_option linter.unusedVariables false
namespace Aps.IfCond
open Aps.Dnc Aps.Oag

/-! ## numbering -/

/-- number of matches -/
def matLen : Mats → Nat
  | .nil => 0
  | .cons _ _ _ rest => matLen rest + 1

theorem numMats_count : ∀ (ms : Mats) (c : Nat), (numMats ms c).2 = c + matLen ms
  | .nil, c => rfl
  | .cons id ix body rest, c => by
    simp only [numMats, matLen, numMats_count rest (c + 1)]; omega

mutual
theorem countD_le : ∀ (d : Dcl) (k : Nat), k ≤ (countD d k).2
  | .plain _, k => Nat.le_refl _
  | .modul _ _, k => Nat.le_refl _
  | .group _ body, k => countB_le body k
  | .ifS _ _ t f, k => by
    simp only [countD]
    have h1 := countB_le t (k + 1)
    have h2 := countB_le f (countB t (k + 1)).2
    omega
  | .caseS _ ms d, k => by
    simp only [countD]
    have h0 := numMats_count ms k
    have h1 := countM_le ms (numMats ms k).2
    have h2 := countB_le d (countM ms (numMats ms k).2).2
    omega
  | .forS _ ms, k => countM_le ms k
theorem countB_le : ∀ (b : Blk) (k : Nat), k ≤ (countB b k).2
  | .nil, k => Nat.le_refl _
  | .cons d rest, k => by
    simp only [countB]
    have h1 := countD_le d k
    have h2 := countB_le rest (countD d k).2
    omega
theorem countM_le : ∀ (ms : Mats) (k : Nat), k ≤ (countM ms k).2
  | .nil, k => Nat.le_refl _
  | .cons _ _ body rest, k => by
    simp only [countM]
    have h1 := countB_le body k
    have h2 := countM_le rest (countB body k).2
    omega
end

theorem countM_len : ∀ (ms : Mats) (k : Nat), matLen (countM ms k).1 = matLen ms
  | .nil, k => by simp [countM, matLen]
  | .cons _ _ body rest, k => by
    simp only [countM, matLen, countM_len rest]

/-- numbering the matches does not change what is inside them -/
theorem rulesM_num : ∀ (ms : Mats) (c : Nat), rulesM (numMats ms c).1 = rulesM ms
  | .nil, c => rfl
  | .cons _ _ body rest, c => by simp only [numMats, rulesM, rulesM_num rest]

theorem ruleMats_num : ∀ (ms : Mats) (c : Nat), (ruleMats (numMats ms c).1).map Prod.fst = List.range' c (matLen ms)
  | .nil, c => rfl
  | .cons _ _ body rest, c => by
    simp only [numMats, ruleMats, List.map_cons, ruleMats_num rest, matLen, List.range'_succ]

theorem range'_join (a b c : Nat) (h1 : a ≤ b) (h2 : b ≤ c) :
    List.range' a (b - a) ++ List.range' b (c - b) = List.range' a (c - a) := by
  have : List.range' a (b - a) ++ List.range' (a + (b - a)) (c - b) = List.range' a ((b - a) + (c - b)) := by
    have := List.range'_append (s := a) (m := b - a) (n := c - b) (step := 1)
    simpa using this
  rw [show a + (b - a) = b by omega] at this
  rw [this]; congr 1; omega

mutual
/-- The indices given out are exactly the numbers between the counts, each once, in order. -/
theorem rulesD_range : ∀ (d : Dcl) (k : Nat), noForD d →
    (rulesD (countD d k).1).map Prod.fst = List.range' k ((countD d k).2 - k)
  | .plain _, k, _ => by simp [countD, rulesD]
  | .modul _ _, k, _ => by simp [countD, rulesD]
  | .group _ body, k, h => by simpa [countD, rulesD] using rulesB_range body k h
  | .ifS _ _ t f, k, h => by
    simp only [countD, rulesD, List.map_cons, List.map_append, rulesB_range t (k + 1) h.1,
      rulesB_range f (countB t (k + 1)).2 h.2]
    have h1 := countB_le t (k + 1)
    have h2 := countB_le f (countB t (k + 1)).2
    rw [range'_join _ _ _ h1 h2]
    rw [show (countB f (countB t (k + 1)).2).2 - k = ((countB f (countB t (k + 1)).2).2 - (k + 1)) + 1 by omega,
      List.range'_succ]
  | .caseS _ ms d, k, h => by
    have h0 := numMats_count ms k
    have h1 := countM_le ms (numMats ms k).2
    have h2 := countB_le d (countM ms (numMats ms k).2).2
    simp only [countD, rulesD, List.map_append, rulesM_num, ruleMats_num, countM_len]
    rw [rulesM_range ms _ h.1, rulesB_range d _ h.2, range'_join _ _ _ h1 h2]
    have : matLen ms = (numMats ms k).2 - k := by omega
    rw [this, range'_join _ _ _ (by omega) (by omega)]
  | .forS _ ms, k, h => h.elim
theorem rulesB_range : ∀ (b : Blk) (k : Nat), noForB b →
    (rulesB (countB b k).1).map Prod.fst = List.range' k ((countB b k).2 - k)
  | .nil, k, _ => by simp [countB, rulesB]
  | .cons d rest, k, h => by
    have h1 := countD_le d k
    have h2 := countB_le rest (countD d k).2
    simp only [countB, rulesB, List.map_append]
    rw [rulesD_range d k h.1, rulesB_range rest _ h.2, range'_join _ _ _ h1 h2]
theorem rulesM_range : ∀ (ms : Mats) (k : Nat), noForM ms →
    (rulesM (countM ms k).1).map Prod.fst = List.range' k ((countM ms k).2 - k)
  | .nil, k, _ => by simp [countM, rulesM]
  | .cons _ _ body rest, k, h => by
    have h1 := countB_le body k
    have h2 := countM_le rest (countB body k).2
    simp only [countM, rulesM, List.map_append]
    rw [rulesB_range body k h.1, rulesM_range rest _ h.2, range'_join _ _ _ h1 h2]
end

/-! ## conditions -/

/-- positive literal added -/
theorem sat_pos {σ : Nat → Bool} {c : Cond} {k : Nat} (hk : k < 32) :
    Sat σ ⟨c.pos ||| cmask k, c.neg⟩ ↔ Sat σ c ∧ σ k = true := by
  constructor
  · intro h
    refine ⟨fun i => ⟨fun hp => (h i).1 (by simp [BitVec.getLsbD_or, hp]), (h i).2⟩, (h k).1 ?_⟩
    simp [BitVec.getLsbD_or, cmask_bit hk]
  · rintro ⟨h, hs⟩ i
    refine ⟨?_, (h i).2⟩
    simp only [BitVec.getLsbD_or, cmask_bit hk, Bool.or_eq_true, decide_eq_true_eq]
    rintro (h' | rfl)
    · exact (h i).1 h'
    · exact hs

/-- negative literal added -/
theorem sat_neg {σ : Nat → Bool} {c : Cond} {k : Nat} (hk : k < 32) :
    Sat σ ⟨c.pos, c.neg ||| cmask k⟩ ↔ Sat σ c ∧ σ k = false := by
  constructor
  · intro h
    refine ⟨fun i => ⟨(h i).1, fun hp => (h i).2 (by simp [BitVec.getLsbD_or, hp])⟩, (h k).2 ?_⟩
    simp [BitVec.getLsbD_or, cmask_bit hk]
  · rintro ⟨h, hs⟩; exact sat_false hk h hs

theorem clear_pos {c : Cond} {k : Nat} (hk : k < 32) (hb : ¬ c.bit k) : (c.pos ||| cmask k) &&& ~~~cmask k = c.pos := by
  apply BitVec.eq_of_getLsbD_eq
  intro i hi
  simp only [BitVec.getLsbD_and, BitVec.getLsbD_or, BitVec.getLsbD_not, cmask_bit hk, hi]
  by_cases h : i = k
  · subst h
    have : c.pos.getLsbD i = false := by
      cases hc : c.pos.getLsbD i
      · rfl
      · exact absurd (.inl hc) hb
    simp [this]
  · simp [h]

theorem bit_pos {c : Cond} {k i : Nat} (hk : k < 32) : (⟨c.pos ||| cmask k, c.neg⟩ : Cond).bit i ↔ c.bit i ∨ i = k := by
  unfold Cond.bit
  simp only [BitVec.getLsbD_or, cmask_bit hk, Bool.or_eq_true, decide_eq_true_eq]
  tauto

theorem bit_neg {c : Cond} {k i : Nat} (hk : k < 32) : (⟨c.pos, c.neg ||| cmask k⟩ : Cond).bit i ↔ c.bit i ∨ i = k := by
  unfold Cond.bit
  simp only [BitVec.getLsbD_or, cmask_bit hk, Bool.or_eq_true, decide_eq_true_eq]
  tauto

theorem sub_pos (c : Cond) (k : Nat) : c.sub ⟨c.pos ||| cmask k, c.neg⟩ :=
  fun i => ⟨fun h => by simp [BitVec.getLsbD_or, h], id⟩

theorem sub_neg (c : Cond) (k : Nat) : c.sub ⟨c.pos, c.neg ||| cmask k⟩ :=
  fun i => ⟨id, fun h => by simp [BitVec.getLsbD_or, h]⟩

/-- branch outcomes by index and by node agree on the collected conditionals -/
def Agree (σ τ : Nat → Bool) (rules : List (Nat × Nat)) : Prop := ∀ p ∈ rules, σ p.1 = τ p.2

/-- What the stored conditions `cs` must satisfy relative to the reached nodes `rs`, starting from condition `c`. -/
def Exact (σ : Nat → Bool) (c : Cond) (rs : List Nat) (cs : List (Nat × Cond)) : Prop :=
  (Sat σ c → ∀ id, id ∈ rs ↔ ∃ c', (id, c') ∈ cs ∧ Sat σ c') ∧ ∀ p ∈ cs, c.sub p.2

theorem Exact.none {σ c rs cs} (h : Exact σ c rs cs) (hc : ¬ Sat σ c) : ∀ id c', (id, c') ∈ cs → ¬ Sat σ c' :=
  fun _ _ hm hs => hc (hs.mono (h.2 _ hm))

theorem Exact.single (σ : Nat → Bool) (c : Cond) (id : Nat) : Exact σ c [id] [(id, c)] := by
  refine ⟨fun hs x => ?_, by simp [Cond.sub_refl]⟩
  simp only [List.mem_singleton, Prod.mk.injEq]
  constructor
  · rintro rfl; exact ⟨c, ⟨rfl, rfl⟩, hs⟩
  · rintro ⟨_, ⟨h, _⟩, _⟩; exact h

theorem Exact.append {σ c r1 r2 c1 c2} (h1 : Exact σ c r1 c1) (h2 : Exact σ c r2 c2) : Exact σ c (r1 ++ r2) (c1 ++ c2) := by
  refine ⟨fun hs x => ?_, ?_⟩
  · rw [List.mem_append, h1.1 hs x, h2.1 hs x]
    simp only [List.mem_append]
    constructor
    · rintro (⟨c', h, hs⟩ | ⟨c', h, hs⟩)
      · exact ⟨c', .inl h, hs⟩
      · exact ⟨c', .inr h, hs⟩
    · rintro ⟨c', h | h, hs⟩
      · exact .inl ⟨c', h, hs⟩
      · exact .inr ⟨c', h, hs⟩
  · intro p hp
    rcases List.mem_append.1 hp with hp | hp
    · exact h1.2 p hp
    · exact h2.2 p hp

theorem Exact.cons {σ c r cs} (id : Nat) (h : Exact σ c r cs) : Exact σ c (id :: r) ((id, c) :: cs) :=
  (Exact.single σ c id).append h

/-- under a stronger condition, taken exactly when `b` -/
theorem Exact.under {σ c c' r cs} (b : Bool) (hsat : Sat σ c' ↔ Sat σ c ∧ b = true) (hsub : c.sub c') (h : Exact σ c' r cs) :
    Exact σ c (if b then r else []) cs := by
  refine ⟨fun hs x => ?_, fun p hp => Cond.sub_trans hsub (h.2 p hp)⟩
  cases b with
  | true =>
    simp only [if_true]
    exact h.1 (hsat.2 ⟨hs, rfl⟩) x
  | false =>
    simp only [Bool.false_eq_true, if_false, List.not_mem_nil, false_iff, not_exists, not_and]
    intro c'' hm
    exact h.none (fun hc => by have := (hsat.1 hc).2; cases this) x c'' hm

theorem Agree.left {σ τ a b} (h : Agree σ τ (a ++ b)) : Agree σ τ a := fun p hp => h p (List.mem_append_left _ hp)
theorem Agree.right {σ τ a b} (h : Agree σ τ (a ++ b)) : Agree σ τ b := fun p hp => h p (List.mem_append_right _ hp)

mutual
theorem condsD_exact {σ τ : Nat → Bool} : ∀ (d : Dcl) (k : Nat) (c : Cond), noForD d → (∀ i, c.bit i → i < k) →
    (countD d k).2 ≤ 32 → Agree σ τ (rulesD (countD d k).1) → Exact σ c (reachD τ d) (condsD c (countD d k).1)
  | .plain id, k, c, _, _, _, _ => Exact.single σ c id
  | .modul id _, k, c, _, _, _, _ => Exact.single σ c id
  | .group id body, k, c, h, hc, hk, ha => (condsB_exact body k c h hc hk ha).cons id
  | .ifS id ix t f, k, c, h, hc, hk, ha => by
    have h1 := countB_le t (k + 1)
    have h2 := countB_le f (countB t (k + 1)).2
    simp only [countD] at hk ha ⊢
    simp only [rulesD] at ha
    have hk32 : k < 32 := by omega
    have hid : σ k = τ id := ha (k, id) (by simp)
    have ha' : Agree σ τ (rulesB (countB t (k + 1)).1 ++ rulesB (countB f (countB t (k + 1)).2).1) :=
      fun p hp => ha p (List.mem_cons_of_mem _ hp)
    have et := condsB_exact t (k + 1) ⟨c.pos ||| cmask k, c.neg⟩ h.1
      (fun i hi => by rcases (bit_pos hk32).1 hi with hi | rfl <;> [(have := hc i hi; omega); omega]) (by omega) ha'.left
    have ef := condsB_exact f (countB t (k + 1)).2 ⟨c.pos, c.neg ||| cmask k⟩ h.2
      (fun i hi => by rcases (bit_neg hk32).1 hi with hi | rfl <;> [(have := hc i hi; omega); omega]) (by omega) ha'.right
    have et' := et.under (c := c) (τ id) (by rw [sat_pos hk32, hid]) (sub_pos c k)
    have ef' := ef.under (c := c) (!τ id) (by rw [sat_neg hk32, hid]; simp) (sub_neg c k)
    have := (et'.append ef').cons id
    simp only [condsD, reachD]
    have hr : (if τ id = true then reachB τ t else []) ++ (if (!τ id) = true then reachB τ f else []) =
        if τ id = true then reachB τ t else reachB τ f := by
      cases τ id <;> simp
    rw [hr] at this
    exact this
  | .caseS id ms d, k, c, h, hc, hk, ha => by
    have h0 := numMats_count ms k
    have h1 := countM_le ms (numMats ms k).2
    have h2 := countB_le d (countM ms (numMats ms k).2).2
    simp only [countD] at hk ha ⊢
    simp only [rulesD, rulesM_num] at ha
    obtain ⟨q1, q2, q3, q4⟩ := condsCase_exact ms (numMats ms k).2 k c h.1 (by omega)
      (fun i hi => by have := hc i hi; omega) (by omega) ha.left ha.right.left
    have ed := condsB_exact d (countM ms (numMats ms k).2).2 (condsCase c (numMats (countM ms (numMats ms k).2).1 k).1).2 h.2
      (fun i hi => by have := q4 i hi; omega) (by omega) ha.right.right
    have ed' := ed.under (c := c) (reachCase τ ms).2 q2 q3
    exact (q1.append ed').cons id
  | .forS _ _, k, c, h, _, _, _ => h.elim
theorem condsB_exact {σ τ : Nat → Bool} : ∀ (b : Blk) (k : Nat) (c : Cond), noForB b → (∀ i, c.bit i → i < k) →
    (countB b k).2 ≤ 32 → Agree σ τ (rulesB (countB b k).1) → Exact σ c (reachB τ b) (condsB c (countB b k).1)
  | .nil, k, c, _, _, _, _ => ⟨fun _ x => by simp [reachB, countB, condsB], by simp [countB, condsB]⟩
  | .cons d rest, k, c, h, hc, hk, ha => by
    have h1 := countD_le d k
    have h2 := countB_le rest (countD d k).2
    simp only [countB] at hk ha ⊢
    simp only [rulesB] at ha
    exact (condsD_exact d k c h.1 hc (by omega) ha.left).append
      (condsB_exact rest (countD d k).2 c h.2 (fun i hi => by have := hc i hi; omega) (by omega) ha.right)
/-- the matches, numbered from `j`, with their bodies numbered from `k` on -/
theorem condsCase_exact {σ τ : Nat → Bool} : ∀ (ms : Mats) (k j : Nat) (c : Cond), noForM ms → j + matLen ms ≤ k →
    (∀ i, c.bit i → i < j) → (countM ms k).2 ≤ 32 →
    Agree σ τ (ruleMats (numMats (countM ms k).1 j).1) → Agree σ τ (rulesM (countM ms k).1) →
    Exact σ c (reachCase τ ms).1 (condsCase c (numMats (countM ms k).1 j).1).1 ∧
    (Sat σ (condsCase c (numMats (countM ms k).1 j).1).2 ↔ Sat σ c ∧ (reachCase τ ms).2 = true) ∧
    c.sub (condsCase c (numMats (countM ms k).1 j).1).2 ∧
    (∀ i, (condsCase c (numMats (countM ms k).1 j).1).2.bit i → i < j + matLen ms)
  | .nil, k, j, c, _, _, hc, _, _, _ => by
    simp only [countM, numMats, condsCase, reachCase, matLen]
    exact ⟨⟨fun _ x => by simp, by simp⟩, by simp, Cond.sub_refl c, by simpa using hc⟩
  | .cons id ix body rest, k, j, c, h, hj, hc, hk, ha1, ha2 => by
    have h1 := countB_le body k
    have h2 := countM_le rest (countB body k).2
    simp only [matLen] at hj
    simp only [countM] at hk ha1 ha2 ⊢
    simp only [numMats, ruleMats] at ha1
    simp only [rulesM] at ha2
    simp only [numMats, condsCase]
    have hj32 : j < 32 := by omega
    have hid : σ j = τ id := ha1 (j, id) (by simp)
    have hnb : ¬ c.bit j := fun hb => by have := hc j hb; omega
    rw [clear_pos hj32 hnb]
    have eb := condsB_exact body k ⟨c.pos ||| cmask j, c.neg⟩ h.1
      (fun i hi => by rcases (bit_pos hj32).1 hi with hi | rfl <;> [(have := hc i hi; omega); omega]) (by omega) ha2.left
    obtain ⟨q1, q2, q3, q4⟩ := condsCase_exact rest (countB body k).2 (j + 1) ⟨c.pos, c.neg ||| cmask j⟩ h.2 (by omega)
      (fun i hi => by rcases (bit_neg hj32).1 hi with hi | rfl <;> [(have := hc i hi; omega); omega]) (by omega)
      (fun p hp => ha1 p (List.mem_cons_of_mem _ hp)) ha2.right
    have eb' := eb.under (c := c) (τ id) (by rw [sat_pos hj32, hid]) (sub_pos c j)
    have er' := q1.under (c := c) (!τ id) (by rw [sat_neg hj32, hid]; simp) (sub_neg c j)
    refine ⟨?_, ?_, Cond.sub_trans (sub_neg c j) q3, ?_⟩
    · have := (eb'.append er').cons id
      simp only [reachCase]
      have hr : id :: ((if τ id = true then reachB τ body else []) ++ (if (!τ id) = true then (reachCase τ rest).1 else [])) =
          (if τ id = true then (id :: reachB τ body, false) else (id :: (reachCase τ rest).1, (reachCase τ rest).2)).1 := by
        cases τ id <;> simp
      rw [hr] at this
      exact this
    · rw [q2, sat_neg hj32, hid]
      simp only [reachCase]
      cases τ id <;> simp
    · intro i hi
      have := q4 i hi
      simp only [matLen]; omega
end

/-! ## nesting -/

/-- every conditional mentioned in a stored condition beyond `c` is a collected one whose own stored condition is a part of
it that does not mention it -/
def Nested (c : Cond) (rules : List (Nat × Nat)) (cs : List (Nat × Cond)) : Prop :=
  ∀ p ∈ cs, ∀ k, p.2.bit k → c.bit k ∨ ∃ r, (k, r) ∈ rules ∧ ∃ c', (r, c') ∈ cs ∧ c'.sub p.2 ∧ ¬ c'.bit k

theorem Nested.append {c r1 r2 c1 c2} (h1 : Nested c r1 c1) (h2 : Nested c r2 c2) : Nested c (r1 ++ r2) (c1 ++ c2) := by
  intro p hp k hk
  rcases List.mem_append.1 hp with hp | hp
  · rcases h1 p hp k hk with h | ⟨r, a, c', b, d⟩
    · exact .inl h
    · exact .inr ⟨r, List.mem_append_left _ a, c', List.mem_append_left _ b, d⟩
  · rcases h2 p hp k hk with h | ⟨r, a, c', b, d⟩
    · exact .inl h
    · exact .inr ⟨r, List.mem_append_right _ a, c', List.mem_append_right _ b, d⟩

theorem Nested.cons {c r cs} (id : Nat) (h : Nested c r cs) : Nested c r ((id, c) :: cs) := by
  intro p hp k hk
  rcases List.mem_cons.1 hp with rfl | hp
  · exact .inl hk
  · rcases h p hp k hk with h | ⟨r, a, c', b, d⟩
    · exact .inl h
    · exact .inr ⟨r, a, c', List.mem_cons_of_mem _ b, d⟩

/-- the conditions below a conditional `j` whose own condition is `c` -/
theorem Nested.under {c c' : Cond} {rules cs} {id j : Nat} (hb : ∀ i, c'.bit i ↔ c.bit i ∨ i = j) (hj : ¬ c.bit j)
    (hs : ∀ p ∈ cs, c.sub p.2) (h : Nested c' rules cs) : Nested c ((j, id) :: rules) ((id, c) :: cs) := by
  intro p hp k hk
  rcases List.mem_cons.1 hp with rfl | hp
  · exact .inl hk
  · rcases h p hp k hk with h | ⟨r, a, c'', b, d⟩
    · rcases (hb k).1 h with h | rfl
      · exact .inl h
      · exact .inr ⟨id, by simp, c, by simp, hs p hp, hj⟩
    · exact .inr ⟨r, List.mem_cons_of_mem _ a, c'', List.mem_cons_of_mem _ b, d⟩

theorem Nested.weaken {c rules rules' cs cs'} (h : Nested c rules cs) (hr : ∀ p ∈ rules, p ∈ rules') (hc : ∀ p, p ∈ cs ↔ p ∈ cs') :
    Nested c rules' cs' := by
  intro p hp k hk
  rcases h p ((hc p).2 hp) k hk with h | ⟨r, a, c', b, d⟩
  · exact .inl h
  · exact .inr ⟨r, hr _ a, c', (hc _).1 b, d⟩

mutual
theorem condsD_nested : ∀ (d : Dcl) (k : Nat) (c : Cond), noForD d → (∀ i, c.bit i → i < k) →
    (countD d k).2 ≤ 32 → Nested c (rulesD (countD d k).1) (condsD c (countD d k).1) ∧ ∀ p ∈ condsD c (countD d k).1, c.sub p.2
  | .plain id, k, c, _, _, _ => by
    simp only [countD, condsD, rulesD]
    exact ⟨by rintro p hp k hk; simp at hp; subst hp; exact .inl hk, by simp [Cond.sub_refl]⟩
  | .modul id _, k, c, _, _, _ => by
    simp only [countD, condsD, rulesD]
    exact ⟨by rintro p hp k hk; simp at hp; subst hp; exact .inl hk, by simp [Cond.sub_refl]⟩
  | .group id body, k, c, h, hc, hk => by
    obtain ⟨a, b⟩ := condsB_nested body k c h hc hk
    simp only [countD, condsD, rulesD]
    refine ⟨a.cons id, ?_⟩
    intro p hp
    rcases List.mem_cons.1 hp with rfl | hp
    · exact Cond.sub_refl c
    · exact b p hp
  | .ifS id ix t f, k, c, h, hc, hk => by
    have h1 := countB_le t (k + 1)
    have h2 := countB_le f (countB t (k + 1)).2
    simp only [countD] at hk ⊢
    simp only [rulesD, condsD]
    have hk32 : k < 32 := by omega
    have hnb : ¬ c.bit k := fun hb => by have := hc k hb; omega
    obtain ⟨a1, b1⟩ := condsB_nested t (k + 1) ⟨c.pos ||| cmask k, c.neg⟩ h.1
      (fun i hi => by rcases (bit_pos hk32).1 hi with hi | rfl <;> [(have := hc i hi; omega); omega]) (by omega)
    obtain ⟨a2, b2⟩ := condsB_nested f (countB t (k + 1)).2 ⟨c.pos, c.neg ||| cmask k⟩ h.2
      (fun i hi => by rcases (bit_neg hk32).1 hi with hi | rfl <;> [(have := hc i hi; omega); omega]) (by omega)
    have s1 : ∀ p ∈ condsB ⟨c.pos ||| cmask k, c.neg⟩ (countB t (k + 1)).1, c.sub p.2 :=
      fun p hp => Cond.sub_trans (sub_pos c k) (b1 p hp)
    have s2 : ∀ p ∈ condsB ⟨c.pos, c.neg ||| cmask k⟩ (countB f (countB t (k + 1)).2).1, c.sub p.2 :=
      fun p hp => Cond.sub_trans (sub_neg c k) (b2 p hp)
    have n1 := Nested.under (id := id) (fun i => bit_pos hk32) hnb s1 a1
    have n2 := Nested.under (id := id) (fun i => bit_neg hk32) hnb s2 a2
    refine ⟨(n1.append n2).weaken ?_ ?_, ?_⟩
    · intro p; simp only [List.mem_append, List.mem_cons]; tauto
    · intro p; simp only [List.mem_append, List.mem_cons]; tauto
    · intro p hp
      rcases List.mem_cons.1 hp with rfl | hp
      · exact Cond.sub_refl c
      · rcases List.mem_append.1 hp with hp | hp
        · exact s1 p hp
        · exact s2 p hp
  | .caseS id ms d, k, c, h, hc, hk => by
    have h0 := numMats_count ms k
    have h1 := countM_le ms (numMats ms k).2
    have h2 := countB_le d (countM ms (numMats ms k).2).2
    simp only [countD] at hk ⊢
    simp only [rulesD, condsD, rulesM_num]
    obtain ⟨q1, q2, q3, q4, q5⟩ := condsCase_nested ms (numMats ms k).2 k c h.1 (by omega)
      (fun i hi => by have := hc i hi; omega) (by omega)
    obtain ⟨a2, b2⟩ := condsB_nested d (countM ms (numMats ms k).2).2 (condsCase c (numMats (countM ms (numMats ms k).2).1 k).1).2 h.2
      (fun i hi => by have := q4 i hi; omega) (by omega)
    constructor
    · have hd : Nested c (ruleMats (numMats (countM ms (numMats ms k).2).1 k).1 ++
          (rulesM (countM ms (numMats ms k).2).1 ++ rulesB (countB d (countM ms (numMats ms k).2).2).1))
          ((condsCase c (numMats (countM ms (numMats ms k).2).1 k).1).1 ++
            condsB (condsCase c (numMats (countM ms (numMats ms k).2).1 k).1).2 (countB d (countM ms (numMats ms k).2).2).1) := by
        intro p hp x hx
        rcases List.mem_append.1 hp with hp | hp
        · rcases q1 p hp x hx with h | ⟨r, a, c', b, e⟩
          · exact .inl h
          · refine .inr ⟨r, ?_, c', List.mem_append_left _ b, e⟩
            rcases List.mem_append.1 a with a | a
            · exact List.mem_append_left _ a
            · exact List.mem_append_right _ (List.mem_append_left _ a)
        · rcases a2 p hp x hx with h | ⟨r, a, c', b, e⟩
          · rcases q5 x h with h | ⟨r, a, c', b, e, e2⟩
            · exact .inl h
            · exact .inr ⟨r, List.mem_append_left _ a, c', List.mem_append_left _ b, Cond.sub_trans e (b2 p hp), e2⟩
          · exact .inr ⟨r, List.mem_append_right _ (List.mem_append_right _ a), c', List.mem_append_right _ b, e⟩
      exact hd.cons id
    · intro p hp
      rcases List.mem_cons.1 hp with rfl | hp
      · exact Cond.sub_refl c
      · rcases List.mem_append.1 hp with hp | hp
        · exact q2 p hp
        · exact Cond.sub_trans q3 (b2 p hp)
  | .forS _ _, k, c, h, _, _ => h.elim
theorem condsB_nested : ∀ (b : Blk) (k : Nat) (c : Cond), noForB b → (∀ i, c.bit i → i < k) →
    (countB b k).2 ≤ 32 → Nested c (rulesB (countB b k).1) (condsB c (countB b k).1) ∧ ∀ p ∈ condsB c (countB b k).1, c.sub p.2
  | .nil, k, c, _, _, _ => by simp [countB, condsB, rulesB, Nested]
  | .cons d rest, k, c, h, hc, hk => by
    have h1 := countD_le d k
    have h2 := countB_le rest (countD d k).2
    simp only [countB] at hk ⊢
    simp only [rulesB, condsB]
    obtain ⟨a1, b1⟩ := condsD_nested d k c h.1 hc (by omega)
    obtain ⟨a2, b2⟩ := condsB_nested rest (countD d k).2 c h.2 (fun i hi => by have := hc i hi; omega) (by omega)
    refine ⟨a1.append a2, fun p hp => ?_⟩
    rcases List.mem_append.1 hp with hp | hp
    · exact b1 p hp
    · exact b2 p hp
theorem condsCase_nested : ∀ (ms : Mats) (k j : Nat) (c : Cond), noForM ms → j + matLen ms ≤ k →
    (∀ i, c.bit i → i < j) → (countM ms k).2 ≤ 32 →
    Nested c (ruleMats (numMats (countM ms k).1 j).1 ++ rulesM (countM ms k).1) (condsCase c (numMats (countM ms k).1 j).1).1 ∧
    (∀ p ∈ (condsCase c (numMats (countM ms k).1 j).1).1, c.sub p.2) ∧
    c.sub (condsCase c (numMats (countM ms k).1 j).1).2 ∧
    (∀ i, (condsCase c (numMats (countM ms k).1 j).1).2.bit i → i < j + matLen ms) ∧
    (∀ i, (condsCase c (numMats (countM ms k).1 j).1).2.bit i → c.bit i ∨
      ∃ r, (i, r) ∈ ruleMats (numMats (countM ms k).1 j).1 ∧ ∃ c', (r, c') ∈ (condsCase c (numMats (countM ms k).1 j).1).1 ∧
        c'.sub (condsCase c (numMats (countM ms k).1 j).1).2 ∧ ¬ c'.bit i)
  | .nil, k, j, c, _, _, hc, _ => by
    simp only [countM, numMats, condsCase, ruleMats, rulesM, matLen]
    exact ⟨by simp [Nested], by simp, Cond.sub_refl c, by simpa using hc, fun i hi => .inl hi⟩
  | .cons id ix body rest, k, j, c, h, hj, hc, hk => by
    have h1 := countB_le body k
    have h2 := countM_le rest (countB body k).2
    simp only [matLen] at hj
    simp only [countM] at hk ⊢
    simp only [numMats, condsCase, ruleMats, rulesM]
    have hj32 : j < 32 := by omega
    have hnb : ¬ c.bit j := fun hb => by have := hc j hb; omega
    rw [clear_pos hj32 hnb]
    obtain ⟨a1, b1⟩ := condsB_nested body k ⟨c.pos ||| cmask j, c.neg⟩ h.1
      (fun i hi => by rcases (bit_pos hj32).1 hi with hi | rfl <;> [(have := hc i hi; omega); omega]) (by omega)
    obtain ⟨q1, q2, q3, q4, q5⟩ := condsCase_nested rest (countB body k).2 (j + 1) ⟨c.pos, c.neg ||| cmask j⟩ h.2 (by omega)
      (fun i hi => by rcases (bit_neg hj32).1 hi with hi | rfl <;> [(have := hc i hi; omega); omega]) (by omega)
    have s1 : ∀ p ∈ condsB ⟨c.pos ||| cmask j, c.neg⟩ (countB body k).1, c.sub p.2 :=
      fun p hp => Cond.sub_trans (sub_pos c j) (b1 p hp)
    have s2 : ∀ p ∈ (condsCase ⟨c.pos, c.neg ||| cmask j⟩ (numMats (countM rest (countB body k).2).1 (j + 1)).1).1, c.sub p.2 :=
      fun p hp => Cond.sub_trans (sub_neg c j) (q2 p hp)
    have n1 := Nested.under (id := id) (fun i => bit_pos hj32) hnb s1 a1
    have n2 := Nested.under (id := id) (fun i => bit_neg hj32) hnb s2 q1
    refine ⟨(n1.append n2).weaken ?_ ?_, ?_, Cond.sub_trans (sub_neg c j) q3, ?_, ?_⟩
    · intro p; simp only [List.mem_append, List.mem_cons]; tauto
    · intro p; simp only [List.mem_append, List.mem_cons]; tauto
    · intro p hp
      rcases List.mem_cons.1 hp with rfl | hp
      · exact Cond.sub_refl c
      · rcases List.mem_append.1 hp with hp | hp
        · exact s1 p hp
        · exact s2 p hp
    · intro i hi
      have := q4 i hi
      simp only [matLen]; omega
    · intro i hi
      rcases q5 i hi with h | ⟨r, a, c', b, e, e2⟩
      · rcases (bit_neg hj32).1 h with h | rfl
        · exact .inl h
        · exact .inr ⟨id, by simp, c, by simp, Cond.sub_trans (sub_neg c i) q3, hnb⟩
      · exact .inr ⟨r, List.mem_cons_of_mem _ a, c', List.mem_cons_of_mem _ (List.mem_append_right _ b), e, e2⟩
end

end Aps.IfCond
