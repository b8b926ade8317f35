import Verif.Proofs.CycleList
/-! The UP/DOWN pass on summary graphs. -/
set_option linter.unusedVariables false
namespace Aps.Cycle
open Aps.Dnc

theorem orDep_bit {inC : Nat → Bool} {f : Nat → Dep} {ls : List Nat} {t : Nat} :
    (orDep inC f ls).getLsbD t = true ↔ ∃ l ∈ ls, inC l = true ∧ (f l).getLsbD t = true := by
  have : ∀ (ls : List Nat) (a : Dep), (ls.foldl (fun a l => if inC l then join a (f l) else a) a).getLsbD t = true ↔
      a.getLsbD t = true ∨ ∃ l ∈ ls, inC l = true ∧ (f l).getLsbD t = true := by
    intro ls
    induction ls with
    | nil => simp
    | cons l ls ih =>
      intro a
      rw [List.foldl_cons, ih]
      cases h : inC l <;> simp [h, join_bit, or_assoc]
  unfold orDep
  rw [this]; simp

theorem dep_eq_iff {a b : Dep} : a = b ↔ ∀ t, a.getLsbD t = true ↔ b.getLsbD t = true := by
  constructor
  · rintro rfl t; exact Iff.rfl
  · intro h; exact Le.antisymm (fun t => (h t).1) (fun t => (h t).2)

theorem setRow_spec {n k : Nat} {inC : Nat → Bool} {v : Nat → Dep} (hk : k < n) (ls : List Nat) (hls : ∀ l ∈ ls, l < n)
    {m : List Dep} (hl : m.length = n * n) :
    (setCells inC (fun l => k * n + l) v ls m).length = n * n ∧ ∀ a b, a < n → b < n →
      mget n (setCells inC (fun l => k * n + l) v ls m) a b = if a = k ∧ b ∈ ls ∧ inC b = true then v b else mget n m a b := by
  induction ls generalizing m with
  | nil => exact ⟨hl, fun a b _ _ => by simp [setCells]⟩
  | cons l ls ih =>
    have hln := hls l (by simp)
    have hl' : (if inC l = true then m.set (k * n + l) (v l) else m).length = n * n := by split <;> simp [hl]
    obtain ⟨i1, i2⟩ := ih (fun x hx => hls x (by simp [hx])) hl'
    refine ⟨i1, fun a b ha hb => ?_⟩
    rw [setCells, i2 a b ha hb]
    by_cases h1 : a = k ∧ b ∈ ls ∧ inC b = true
    · rw [if_pos h1, if_pos ⟨h1.1, by simp [h1.2.1], h1.2.2⟩]
    · rw [if_neg h1]
      cases hc : inC l with
      | true =>
        rw [if_pos rfl, mget_set hl hk hln hb]
        by_cases h2 : a = k ∧ b = l
        · obtain ⟨rfl, rfl⟩ := h2
          simp [hc]
        · rw [if_neg h2, if_neg]
          rintro ⟨h3, h4, h5⟩
          rcases List.mem_cons.1 h4 with rfl | h4
          · exact h2 ⟨h3, rfl⟩
          · exact h1 ⟨h3, h4, h5⟩
      | false =>
        rw [if_neg (by simp), if_neg]
        rintro ⟨h3, h4, h5⟩
        rcases List.mem_cons.1 h4 with rfl | h4
        · rw [hc] at h5; cases h5
        · exact h1 ⟨h3, h4, h5⟩

theorem setCol_spec {n k : Nat} {inC : Nat → Bool} {v : Nat → Dep} (hk : k < n) (ls : List Nat) (hls : ∀ l ∈ ls, l < n)
    {m : List Dep} (hl : m.length = n * n) :
    (setCells inC (fun l => l * n + k) v ls m).length = n * n ∧ ∀ a b, a < n → b < n →
      mget n (setCells inC (fun l => l * n + k) v ls m) a b = if b = k ∧ a ∈ ls ∧ inC a = true then v a else mget n m a b := by
  induction ls generalizing m with
  | nil => exact ⟨hl, fun a b _ _ => by simp [setCells]⟩
  | cons l ls ih =>
    have hln := hls l (by simp)
    have hl' : (if inC l = true then m.set (l * n + k) (v l) else m).length = n * n := by split <;> simp [hl]
    obtain ⟨i1, i2⟩ := ih (fun x hx => hls x (by simp [hx])) hl'
    refine ⟨i1, fun a b ha hb => ?_⟩
    rw [setCells, i2 a b ha hb]
    by_cases h1 : b = k ∧ a ∈ ls ∧ inC a = true
    · rw [if_pos h1, if_pos ⟨h1.1, by simp [h1.2.1], h1.2.2⟩]
    · rw [if_neg h1]
      cases hc : inC l with
      | true =>
        rw [if_pos rfl, mget_set hl hln hk hb]
        by_cases h2 : a = l ∧ b = k
        · obtain ⟨rfl, rfl⟩ := h2
          simp [hc]
        · rw [if_neg h2, if_neg]
          rintro ⟨h3, h4, h5⟩
          rcases List.mem_cons.1 h4 with rfl | h4
          · exact h2 ⟨rfl, h3⟩
          · exact h1 ⟨h3, h4, h5⟩
      | false =>
        rw [if_neg (by simp), if_neg]
        rintro ⟨h3, h4, h5⟩
        rcases List.mem_cons.1 h4 with rfl | h4
        · rw [hc] at h5; cases h5
        · exact h1 ⟨h3, h4, h5⟩

/-- the cell after the pass for one class -/
def passNew (keep : Nat → Nat → Prop) [DecidableRel keep] (inC : Nat → Bool) (n : Nat) (M : Nat → Nat → Dep) (a b : Nat) : Dep :=
  if inC a = true then
    if inC b = true then
      if keep a b then orDep inC (fun l => M a l) (List.range n) else 0
    else orDep inC (fun l => M l b) (List.range n)
  else if inC b = true then orDep inC (fun l => M a l) (List.range n) else M a b

/-- which edges the pass leaves inside a class of a summary graph -/
def phyKeep (dir : Bool) (up : Nat → Bool) (a b : Nat) : Prop := dir = true ∧ up a = true ∧ up b = false

instance (dir : Bool) (up : Nat → Bool) : DecidableRel (phyKeep dir up) := fun a b => by unfold phyKeep; infer_instance

/-- which row step settles a cell -/
def owner (inC : Nat → Bool) (a b : Nat) : Nat := if inC a = true ∧ inC b = false then b else a

theorem orDep_congr {inC : Nat → Bool} {f g : Nat → Dep} {n : Nat} (h : ∀ l, l < n → inC l = true → f l = g l) :
    orDep inC f (List.range n) = orDep inC g (List.range n) := by
  rw [dep_eq_iff]
  intro t
  rw [orDep_bit, orDep_bit]
  constructor
  · rintro ⟨l, hl, hc, hb⟩; exact ⟨l, hl, hc, by rw [← h l (List.mem_range.1 hl) hc]; exact hb⟩
  · rintro ⟨l, hl, hc, hb⟩; exact ⟨l, hl, hc, by rw [h l (List.mem_range.1 hl) hc]; exact hb⟩

theorem orDep_zero {inC : Nat → Bool} {f : Nat → Dep} {n : Nat} (h : orDep inC f (List.range n) = 0) :
    ∀ l, l < n → inC l = true → f l = 0 := by
  intro l hl hc
  by_contra h0
  obtain ⟨t, ht⟩ := dep_ne_zero.1 h0
  have := orDep_bit.2 ⟨l, List.mem_range.2 hl, hc, ht⟩
  rw [h] at this; simp at this

theorem phyBreakRow_spec {dir : Bool} {inC up : Nat → Bool} {n k : Nat} (hk : k < n) {m : List Dep} (hl : m.length = n * n) :
    (phyBreakRow dir inC up n m k).length = n * n ∧ ∀ a b, a < n → b < n →
      mget n (phyBreakRow dir inC up n m k) a b =
        if owner inC a b = k then passNew (phyKeep dir up) inC n (mget n m) a b else mget n m a b := by
  have hr : ∀ l ∈ List.range n, l < n := fun l hl => List.mem_range.1 hl
  unfold phyBreakRow
  cases hck : inC k with
  | false =>
    simp only [if_true]
    have row : ∀ m' : List Dep, m' = (if orDep inC (fun l => mget n m k l) (List.range n) ≠ 0 then
        setCells inC (fun l => k * n + l) (fun _ => orDep inC (fun l => mget n m k l) (List.range n)) (List.range n) m else m) →
        m'.length = n * n ∧ ∀ a b, a < n → b < n → mget n m' a b =
          if a = k ∧ inC b = true then orDep inC (fun l => mget n m k l) (List.range n) else mget n m a b := by
      rintro m' rfl
      split
      · obtain ⟨s1, s2⟩ := setRow_spec (inC := inC) (v := fun _ => orDep inC (fun l => mget n m k l) (List.range n)) hk _ hr hl
        refine ⟨s1, fun a b ha hb => ?_⟩
        rw [s2 a b ha hb]; simp [hb]
      · rename_i h0
        rw [not_not] at h0
        refine ⟨hl, fun a b ha hb => ?_⟩
        split
        · rename_i h; obtain ⟨rfl, hc⟩ := h
          rw [h0]; exact orDep_zero h0 b hb hc
        · rfl
    obtain ⟨r1, r2⟩ := row _ rfl
    generalize (if orDep inC (fun l => mget n m k l) (List.range n) ≠ 0 then
        setCells inC (fun l => k * n + l) (fun _ => orDep inC (fun l => mget n m k l) (List.range n)) (List.range n) m else m) = m' at r1 r2 ⊢
    have hacc : orDep inC (fun l => mget n m' l k) (List.range n) = orDep inC (fun l => mget n m l k) (List.range n) := by
      apply orDep_congr
      intro l hln hc
      rw [r2 l k hln hk, if_neg]
      rintro ⟨rfl, h⟩; rw [hck] at h; cases h
    rw [hacc]
    have col : ∀ m'' : List Dep, m'' = (if orDep inC (fun l => mget n m l k) (List.range n) ≠ 0 then
        setCells inC (fun l => l * n + k) (fun _ => orDep inC (fun l => mget n m l k) (List.range n)) (List.range n) m' else m') →
        m''.length = n * n ∧ ∀ a b, a < n → b < n → mget n m'' a b =
          if b = k ∧ inC a = true then orDep inC (fun l => mget n m l k) (List.range n) else mget n m' a b := by
      rintro m'' rfl
      split
      · obtain ⟨s1, s2⟩ := setCol_spec (inC := inC) (v := fun _ => orDep inC (fun l => mget n m l k) (List.range n)) hk _ hr r1
        refine ⟨s1, fun a b ha hb => ?_⟩
        rw [s2 a b ha hb]; simp [ha]
      · rename_i h0
        rw [not_not] at h0
        refine ⟨r1, fun a b ha hb => ?_⟩
        split
        · rename_i h; obtain ⟨rfl, hc⟩ := h
          rw [h0, r2 a b ha hb, if_neg]
          · exact orDep_zero h0 a ha hc
          · rintro ⟨rfl, h⟩; rw [hck] at h; cases h
        · rfl
    obtain ⟨c1, c2⟩ := col _ rfl
    refine ⟨c1, fun a b ha hb => ?_⟩
    rw [c2 a b ha hb, r2 a b ha hb]
    by_cases h1 : b = k ∧ inC a = true
    · obtain ⟨rfl, hca⟩ := h1
      rw [if_pos ⟨rfl, hca⟩, if_pos (by simp [owner, hca, hck])]
      simp [passNew, phyKeep, hca, hck]
    · rw [if_neg h1]
      by_cases h2 : a = k ∧ inC b = true
      · obtain ⟨rfl, hcb⟩ := h2
        rw [if_pos ⟨rfl, hcb⟩, if_pos (by simp [owner, hck])]
        simp [passNew, phyKeep, hcb, hck]
      · rw [if_neg h2]
        split
        · rename_i h3
          unfold owner at h3
          split at h3
          · rename_i h4; exact absurd ⟨h3, h4.1⟩ h1
          · subst h3
            have : inC b = false := by
              cases hb' : inC b with
              | false => rfl
              | true => exact absurd ⟨rfl, hb'⟩ h2
            simp [passNew, phyKeep, hck, this]
        · rfl
  | true =>
    rw [if_neg (by simp)]
    have fin : ∀ v : Nat → Dep, (∀ b, inC b = true → v b = passNew (phyKeep dir up) inC n (mget n m) k b) →
        (setCells inC (fun l => k * n + l) v (List.range n) m).length = n * n ∧ ∀ a b, a < n → b < n →
          mget n (setCells inC (fun l => k * n + l) v (List.range n) m) a b =
            if owner inC a b = k then passNew (phyKeep dir up) inC n (mget n m) a b else mget n m a b := by
      intro v hv
      obtain ⟨s1, s2⟩ := setRow_spec (inC := inC) (v := v) hk _ hr hl
      refine ⟨s1, fun a b ha hb => ?_⟩
      rw [s2 a b ha hb]
      by_cases h1 : a = k ∧ inC b = true
      · obtain ⟨rfl, hcb⟩ := h1
        rw [if_pos ⟨rfl, List.mem_range.2 hb, hcb⟩, if_pos (by simp [owner, hcb]), hv b hcb]
      · rw [if_neg (fun h => h1 ⟨h.1, h.2.2⟩)]
        split
        · rename_i h3
          unfold owner at h3
          split at h3
          · rename_i h4; subst h3; rw [hck] at h4; exact absurd h4.2 (by simp)
          · rename_i h4; subst h3
            have : inC b = false := by
              cases hb' : inC b with
              | false => rfl
              | true => exact absurd ⟨rfl, hb'⟩ h1
            exact absurd ⟨hck, this⟩ h4
        · rfl
    cases dir with
    | false =>
      simp only [Bool.false_and, Bool.false_eq_true, if_false]
      apply fin
      intro b hcb
      simp [passNew, phyKeep, hck, hcb]
    | true =>
      simp only [Bool.true_and, if_true]
      cases hu : up k with
      | true =>
        simp only [if_true]
        apply fin
        intro b hcb
        simp only [passNew, phyKeep, hck, hcb, hu, if_true]
        cases hub : up b with
        | true => simp
        | false => simp; exact Eq.symm
      | false =>
        simp only [Bool.false_eq_true, if_false]
        apply fin
        intro b hcb
        simp [passNew, phyKeep, hck, hcb, hu]

theorem phyBreakRows_spec {dir : Bool} {inC up : Nat → Bool} {n : Nat} (ks : List Nat) (hks : ∀ k ∈ ks, k < n) (hnd : ks.Nodup) {m0 : List Dep} {m : List Dep}
    (hl : m.length = n * n) (done : Nat → Prop) (hdis : ∀ k ∈ ks, ¬ done k)
    (h : ∀ a b, a < n → b < n → (done (owner inC a b) → mget n m a b = passNew (phyKeep dir up) inC n (mget n m0) a b) ∧
      (¬ done (owner inC a b) → mget n m a b = mget n m0 a b)) :
    (ks.foldl (phyBreakRow dir inC up n) m).length = n * n ∧ ∀ a b, a < n → b < n →
      (done (owner inC a b) ∨ owner inC a b ∈ ks → mget n (ks.foldl (phyBreakRow dir inC up n) m) a b = passNew (phyKeep dir up) inC n (mget n m0) a b) := by
  induction ks generalizing m done with
  | nil => exact ⟨hl, fun a b ha hb hd => (h a b ha hb).1 (by simpa using hd)⟩
  | cons k ks ih =>
    have hk := hks k (by simp)
    obtain ⟨r1, r2⟩ := phyBreakRow_spec (dir := dir) (inC := inC) (up := up) hk hl
    rw [List.nodup_cons] at hnd
    have same : ∀ a b, a < n → b < n → owner inC a b = k → passNew (phyKeep dir up) inC n (mget n m) a b = passNew (phyKeep dir up) inC n (mget n m0) a b := by
      intro a b ha hb ho
      have unread : ∀ x y, x < n → y < n → owner inC x y = k → mget n m x y = mget n m0 x y :=
        fun x y hx hy hxy => (h x y hx hy).2 (by rw [hxy]; exact hdis k (by simp))
      unfold passNew
      cases hca : inC a with
      | true =>
        cases hcb : inC b with
        | true =>
          have hak : a = k := by simpa [owner, hcb] using ho
          subst hak
          simp only [if_true]
          rw [orDep_congr (g := fun l => mget n m0 a l)]
          intro l hln hcl
          exact unread a l ha hln (by simp [owner, hcl])
        | false =>
          have hbk : b = k := by simpa [owner, hca, hcb] using ho
          subst hbk
          simp only [if_true, Bool.false_eq_true, if_false]
          apply orDep_congr
          intro l hln hcl
          exact unread l b hln hb (by simp [owner, hcl, hcb])
      | false =>
        have hak : a = k := by simpa [owner, hca] using ho
        subst hak
        cases hcb : inC b with
        | true =>
          simp only [if_true, Bool.false_eq_true, if_false]
          apply orDep_congr
          intro l hln hcl
          exact unread a l ha hln (by simp [owner, hca])
        | false =>
          simp only [Bool.false_eq_true, if_false]
          exact unread a b ha hb ho
    obtain ⟨i1, i2⟩ := ih (fun x hx => hks x (by simp [hx])) hnd.2 r1 (fun x => done x ∨ x = k)
      (by
        rintro x hx (hd | rfl)
        · exact hdis x (by simp [hx]) hd
        · exact hnd.1 hx)
      (by
        intro a b ha hb
        rw [r2 a b ha hb]
        by_cases ho : owner inC a b = k
        · rw [if_pos ho, same a b ha hb ho]
          exact ⟨fun _ => rfl, fun hn => absurd (.inr ho) hn⟩
        · rw [if_neg ho]
          refine ⟨fun hd => (h a b ha hb).1 (hd.resolve_right ho), fun hn => (h a b ha hb).2 (fun hd => hn (.inl hd))⟩)
    refine ⟨i1, fun a b ha hb hd => i2 a b ha hb ?_⟩
    rcases hd with hd | hd
    · exact .inl (.inl hd)
    · rcases List.mem_cons.1 hd with hd | hd
      · exact .inl (.inr hd)
      · exact .inr hd

/-- `UP` of the instances of a phylum -/
def upOf (attrs : List Nat) (up : Nat → Bool) (k : Nat) : Bool := (attrs[k]?.map up).getD false

/-- the pass for one class, cell by cell -/
theorem phyBreak_spec (dir : Bool) (inC up : Nat → Bool) (p : Phy) (hp : PWf p) :
    (phyBreak dir inC up p).n = p.n ∧ (phyBreak dir inC up p).attrs = p.attrs ∧ (phyBreak dir inC up p).isFunc = p.isFunc ∧
    PWf (phyBreak dir inC up p) ∧ ∀ a b, a < p.n → b < p.n →
      mget p.n (phyBreak dir inC up p).m a b = passNew (phyKeep dir (upOf p.attrs up)) inC p.n (mget p.n p.m) a b := by
  obtain ⟨h1, h2⟩ := phyBreakRows_spec (dir := dir) (inC := inC) (up := upOf p.attrs up) (List.range p.n) (fun k hk => List.mem_range.1 hk)
    List.nodup_range (m0 := p.m) hp (fun _ => False) (by simp) (fun a b _ _ => ⟨fun h => h.elim, fun _ => rfl⟩)
  refine ⟨rfl, rfl, rfl, h1, fun a b ha hb => h2 a b ha hb (.inr (List.mem_range.2 ?_))⟩
  unfold owner; split <;> assumption

/-- instances that one of the classes puts together -/
def SameC (cs : List (Nat → Bool)) (a b : Nat) : Prop := a = b ∨ ∃ c ∈ cs, c a = true ∧ c b = true

/-- the matrix after the passes for some classes, in terms of the original -/
def Passed (keep : Nat → Nat → Prop) (n : Nat) (M : Nat → Nat → Dep) (done : List (Nat → Bool)) (M' : Nat → Nat → Dep) : Prop :=
  ∀ a b, a < n → b < n → ∀ t, (M' a b).getLsbD t = true ↔
      (∃ c ∈ done, c a = true ∧ c b = true ∧ keep a b ∧ ∃ l, l < n ∧ c l = true ∧ (M a l).getLsbD t = true) ∨
      ((∀ c ∈ done, ¬ (c a = true ∧ c b = true)) ∧ ∃ a' b', a' < n ∧ b' < n ∧ SameC done a a' ∧ SameC done b b' ∧
        (M a' b').getLsbD t = true)

theorem Passed.init (keep : Nat → Nat → Prop) (n : Nat) (M : Nat → Nat → Dep) : Passed keep n M [] M := by
  intro a b ha hb t
  constructor
  · intro h; exact .inr ⟨by simp, a, b, ha, hb, .inl rfl, .inl rfl, h⟩
  · rintro (⟨c, hc, _⟩ | ⟨_, a', b', _, _, h1 | ⟨c, hc, _⟩, h2 | ⟨c', hc', _⟩, h⟩)
    · cases hc
    · subst h1 h2; exact h
    · cases hc'
    · cases hc
    · cases hc

theorem Passed.step {keep : Nat → Nat → Prop} [DecidableRel keep] {n : Nat} {M M' M'' : Nat → Nat → Dep} {done : List (Nat → Bool)} {c : Nat → Bool}
    (h : Passed keep n M done M') (hdis2 : ∀ d ∈ done, ∀ x, ¬ (d x = true ∧ c x = true))
    (hM : ∀ a b, a < n → b < n → M'' a b = passNew keep c n M' a b) : Passed keep n M (done ++ [c]) M'' := by
    intro a b han hbn t
    rw [hM a b han hbn]
    -- members of the new class belong to no class treated before
    have nd : ∀ x, c x = true → ∀ d ∈ done, d x = false := by
      intro x hx d hd
      cases hdx : d x with
      | false => rfl
      | true => exact absurd ⟨hdx, hx⟩ (hdis2 d hd x)
    have sameNew : ∀ x y, SameC (done ++ [c]) x y ↔ SameC done x y ∨ (c x = true ∧ c y = true) := by
      intro x y
      simp only [SameC, List.mem_append, List.mem_singleton]
      constructor
      · rintro (e | ⟨d, hd | rfl, h1⟩)
        · exact .inl (.inl e)
        · exact .inl (.inr ⟨d, hd, h1⟩)
        · exact .inr h1
      · rintro ((e | ⟨d, hd, h1⟩) | h1)
        · exact .inl e
        · exact .inr ⟨d, .inl hd, h1⟩
        · exact .inr ⟨c, .inr rfl, h1⟩
    have sameIn : ∀ x y, c x = true → (SameC done x y ↔ y = x) := by
      intro x y hx
      constructor
      · rintro (e | ⟨d, hd, h1, _⟩)
        · exact e.symm
        · rw [nd x hx d hd] at h1; cases h1
      · rintro rfl; exact .inl rfl
    have notDoneL : ∀ x y, c x = true → ∀ d ∈ done, ¬ (d x = true ∧ d y = true) := by
      rintro x y hx d hd ⟨h1, _⟩; rw [nd x hx d hd] at h1; cases h1
    have notDoneR : ∀ x y, c x = true → ∀ d ∈ done, ¬ (d y = true ∧ d x = true) := by
      rintro x y hx d hd ⟨_, h1⟩; rw [nd x hx d hd] at h1; cases h1
    unfold passNew
    cases hca : c a with
    | true =>
      simp only [if_true]
      cases hcb : c b with
      | true =>
        simp only [if_true]
        constructor
        · intro ht
          left
          split at ht
          · rename_i hdu
            rw [orDep_bit] at ht
            obtain ⟨l, hl, hcl, hb⟩ := ht
            have hl := List.mem_range.1 hl
            rw [h a l han hl] at hb
            rcases hb with ⟨d, hd, h1, _⟩ | ⟨_, a', b', ha', hb', s1, s2, hb⟩
            · rw [nd a hca d hd] at h1; cases h1
            · rw [sameIn _ _ hca] at s1; rw [sameIn _ _ hcl] at s2
              subst s1 s2
              exact ⟨c, by simp, hca, hcb, hdu, _, hl, hcl, hb⟩
          · simp at ht
        · rintro (⟨d, hd, h1, h2, h3, l, hl, hdl, hb⟩ | ⟨h1, _⟩)
          · have hdc : d = c := by
              rcases List.mem_append.1 hd with hd | hd
              · rw [nd a hca d hd] at h1; cases h1
              · simpa using hd
            subst hdc
            rw [if_pos h3, orDep_bit]
            refine ⟨l, List.mem_range.2 hl, hdl, (h a l han hl t).2 (.inr ⟨notDoneL a l hca, a, l, han, hl, .inl rfl, .inl rfl, hb⟩)⟩
          · exact absurd ⟨hca, hcb⟩ (h1 c (by simp))
      | false =>
        simp only [Bool.false_eq_true, if_false]
        rw [orDep_bit]
        constructor
        · rintro ⟨l, hl, hcl, hb⟩
          have hl := List.mem_range.1 hl
          rw [h l b hl hbn] at hb
          rcases hb with ⟨d, hd, h1, _⟩ | ⟨_, a', b', ha', hb', s1, s2, hb⟩
          · rw [nd l hcl d hd] at h1; cases h1
          · rw [sameIn _ _ hcl] at s1; subst s1
            refine .inr ⟨?_, _, b', hl, hb', (sameNew _ _).2 (.inr ⟨hca, hcl⟩), (sameNew _ _).2 (.inl s2), hb⟩
            rintro d hd ⟨h1, h2⟩
            rcases List.mem_append.1 hd with hd | hd
            · rw [nd a hca d hd] at h1; cases h1
            · simp only [List.mem_singleton] at hd; subst hd; rw [hcb] at h2; cases h2
        · rintro (⟨d, hd, h1, h2, _⟩ | ⟨_, a', b', ha', hb', s1, s2, hb⟩)
          · exfalso
            rcases List.mem_append.1 hd with hd | hd
            · rw [nd a hca d hd] at h1; cases h1
            · simp only [List.mem_singleton] at hd; subst hd; rw [hcb] at h2; cases h2
          · have hca' : c a' = true := by
              rcases (sameNew _ _).1 s1 with s | ⟨_, s⟩
              · rw [sameIn _ _ hca] at s; subst s; exact hca
              · exact s
            have hsb : SameC done b b' := by
              rcases (sameNew _ _).1 s2 with s | ⟨s, _⟩
              · exact s
              · rw [hcb] at s; cases s
            exact ⟨a', List.mem_range.2 ha', hca', (h a' b ha' hbn t).2 (.inr ⟨notDoneL a' b hca', a', b', ha', hb', .inl rfl, hsb, hb⟩)⟩
    | false =>
      simp only [Bool.false_eq_true, if_false]
      cases hcb : c b with
      | true =>
        simp only [if_true]
        rw [orDep_bit]
        constructor
        · rintro ⟨l, hl, hcl, hb⟩
          have hl := List.mem_range.1 hl
          rw [h a l han hl] at hb
          rcases hb with ⟨d, hd, _, h1, _⟩ | ⟨_, a', b', ha', hb', s1, s2, hb⟩
          · rw [nd l hcl d hd] at h1; cases h1
          · rw [sameIn _ _ hcl] at s2; subst s2
            refine .inr ⟨?_, a', _, ha', hl, (sameNew _ _).2 (.inl s1), (sameNew _ _).2 (.inr ⟨hcb, hcl⟩), hb⟩
            rintro d hd ⟨h1, h2⟩
            rcases List.mem_append.1 hd with hd | hd
            · rw [nd b hcb d hd] at h2; cases h2
            · simp only [List.mem_singleton] at hd; subst hd; rw [hca] at h1; cases h1
        · rintro (⟨d, hd, h1, h2, _⟩ | ⟨_, a', b', ha', hb', s1, s2, hb⟩)
          · exfalso
            rcases List.mem_append.1 hd with hd | hd
            · rw [nd b hcb d hd] at h2; cases h2
            · simp only [List.mem_singleton] at hd; subst hd; rw [hca] at h1; cases h1
          · have hcb' : c b' = true := by
              rcases (sameNew _ _).1 s2 with s | ⟨_, s⟩
              · rw [sameIn _ _ hcb] at s; subst s; exact hcb
              · exact s
            have hsa : SameC done a a' := by
              rcases (sameNew _ _).1 s1 with s | ⟨s, _⟩
              · exact s
              · rw [hca] at s; cases s
            exact ⟨b', List.mem_range.2 hb', hcb', (h a b' han hb' t).2 (.inr ⟨notDoneR b' a hcb', a', b', ha', hb', hsa, .inl rfl, hb⟩)⟩
      | false =>
        simp only [Bool.false_eq_true, if_false]
        rw [h a b han hbn]
        have sa : ∀ x, SameC (done ++ [c]) a x ↔ SameC done a x := by
          intro x; rw [sameNew]
          constructor
          · rintro (s | ⟨s, _⟩)
            · exact s
            · rw [hca] at s; cases s
          · exact .inl
        have sb : ∀ x, SameC (done ++ [c]) b x ↔ SameC done b x := by
          intro x; rw [sameNew]
          constructor
          · rintro (s | ⟨s, _⟩)
            · exact s
            · rw [hcb] at s; cases s
          · exact .inl
        simp only [sa, sb, List.mem_append, List.mem_singleton]
        constructor
        · rintro (⟨d, hd, r⟩ | ⟨h1, r⟩)
          · exact .inl ⟨d, .inl hd, r⟩
          · refine .inr ⟨?_, r⟩
            rintro d (hd | rfl) hx
            · exact h1 d hd hx
            · rw [hca] at hx; cases hx.1
        · rintro (⟨d, hd | rfl, r⟩ | ⟨h1, r⟩)
          · exact .inl ⟨d, hd, r⟩
          · rw [hca] at r; cases r.1
          · exact .inr ⟨fun d hd => h1 d (.inl hd), r⟩

end Aps.Cycle
