import Verif.Proofs.SEvalLink
import Mathlib.Data.List.Perm.Subperm
import Mathlib.Data.List.Nodup
set_option linter.unusedVariables false
/-! The Scala runtime terminates. -/
namespace Aps.ScalaEval
variable {V : Type}

/-- Enough fuel always gives the same outcome. -/
def Halts {α : Type} (g : Nat → Nat → Out V α) : Prop :=
  ∃ o, o ≠ .nofuel ∧ ∃ F, ∀ f n, F ≤ f → F ≤ n → g f n = o

theorem Halts.const {α : Type} {o : Out V α} (h : o ≠ .nofuel) : Halts fun _ _ => o :=
  ⟨o, h, 0, fun _ _ _ _ => rfl⟩

theorem Halts.ok {α : Type} (a : α) (s : St V) : Halts fun _ _ => Out.ok a s :=
  .const (by simp)

theorem Halts.exc {α : Type} (x : Exc) (s : St V) : Halts fun _ _ => (Out.exc x s : Out V α) :=
  .const (by simp)

theorem Halts.bind {α β : Type} {g : Nat → Nat → Out V α} {k : Nat → Nat → α → St V → Out V β}
    {Q : α → St V → Prop} {E : Exc → Prop} (h : Halts g) (hs : ∀ f n, Sat (g f n) Q E)
    (hk : ∀ a s, Q a s → Halts fun f n => k f n a s) : Halts fun f n => (g f n).bind (k f n) := by
  obtain ⟨o, ho, F, hF⟩ := h
  cases o with
  | nofuel => exact absurd rfl ho
  | exc x s => exact ⟨.exc x s, by simp, F, fun f n h1 h2 => by simp only [hF f n h1 h2]; rfl⟩
  | ok a s =>
    have q : Q a s := by
      have := hs F F
      rw [hF F F (Nat.le_refl _) (Nat.le_refl _)] at this
      exact this
    obtain ⟨o', ho', F', hF'⟩ := hk a s q
    refine ⟨o', ho', max F F', fun f n h1 h2 => ?_⟩
    simp only [hF f n (by omega) (by omega)]
    exact hF' f n (by omega) (by omega)

theorem Halts.congr {α : Type} {g g' : Nat → Nat → Out V α} (h : Halts g) (e : ∀ f n, g' f n = g f n) : Halts g' := by
  have : g' = g := by funext f n; exact e f n
  rw [this]; exact h

theorem Halts.succ1 {α : Type} {g : Nat → Nat → Out V α} (h : Halts fun f n => g (f + 1) n) : Halts g := by
  obtain ⟨o, ho, F, hF⟩ := h
  refine ⟨o, ho, F + 1, fun f n h1 h2 => ?_⟩
  obtain ⟨f', rfl⟩ : ∃ f', f = f' + 1 := ⟨f - 1, by omega⟩
  exact hF f' n (by omega) (by omega)

theorem Halts.succ2 {α : Type} {g : Nat → Nat → Out V α} (h : Halts fun f n => g f (n + 1)) : Halts g := by
  obtain ⟨o, ho, F, hF⟩ := h
  refine ⟨o, ho, F + 1, fun f n h1 h2 => ?_⟩
  obtain ⟨n', rfl⟩ : ∃ n', n = n' + 1 := ⟨n - 1, by omega⟩
  exact hF f n' (by omega) (by omega)

theorem Halts.diag {α : Type} {g : Nat → Nat → Out V α} (h : Halts g) : Halts fun f _ => g f f := by
  obtain ⟨o, ho, F, hF⟩ := h
  exact ⟨o, ho, F, fun f n h1 h2 => hF f f h1 h1⟩

theorem Halts.ite {α : Type} {p : Prop} [Decidable p] {g g' : Nat → Nat → Out V α} (h : p → Halts g)
    (h' : ¬ p → Halts g') : Halts fun f n => if p then g f n else g' f n := by
  by_cases hp : p
  · simp only [if_pos hp]; exact h hp
  · simp only [if_neg hp]; exact h' hp

/-! ### Sums -/

def total (l : List Nat) (w : Nat → Nat) : Nat := (l.map w).sum

theorem total_le {l : List Nat} {w w' : Nat → Nat} (h : ∀ j ∈ l, w j ≤ w' j) : total l w ≤ total l w' := by
  induction l with
  | nil => exact Nat.le_refl _
  | cons a l ih =>
    have := ih fun j hj => h j (by simp [hj])
    have := h a (by simp)
    simp only [total, List.map_cons, List.sum_cons] at *
    omega

theorem total_lt {l : List Nat} {w w' : Nat → Nat} (h : ∀ j ∈ l, w j ≤ w' j) {i : Nat} (hi : i ∈ l)
    (hlt : w i < w' i) : total l w < total l w' := by
  induction l with
  | nil => cases hi
  | cons a l ih =>
    have h1 := h a (by simp)
    have h2 : total l w ≤ total l w' := total_le fun j hj => h j (by simp [hj])
    rcases List.mem_cons.1 hi with rfl | hi
    · simp only [total, List.map_cons, List.sum_cons] at *; omega
    · have := ih (fun j hj => h j (by simp [hj])) hi
      simp only [total, List.map_cons, List.sum_cons] at *; omega

theorem total_bound {l : List Nat} {w : Nat → Nat} {N : Nat} (h : ∀ j, w j ≤ N) : total l w ≤ l.length * N := by
  induction l with
  | nil => simp [total]
  | cons a l ih =>
    have := h a
    simp only [total, List.map_cons, List.sum_cons, List.length_cons, Nat.succ_mul] at *
    omega

/-! ### Measures -/

/-- Evaluations that have not started. -/
def todo (l : List Nat) (s : St V) : Nat := total l fun j => if s.status j = .uninit then 1 else 0

/-- How far an instance is from having started. -/
def sweight (s : St V) (j : Nat) : Nat := if s.status j = .uninit then 1 else 0

/-- How far an instance is from being under another. -/
def pweight (s : St V) (j : Nat) : Nat :=
  match s.parent j with
  | none => 2
  | some p => if p = j then 1 else 0

def weight (s : St V) (j : Nat) : Nat := sweight s j + pweight s j

variable {S : Sys V} {D : Nat → Prop} {rank : Nat → V → Nat} {s : St V} {l : List Nat}

theorem sweight_le {s' : St V} (h : Prog S D rank s s') (j : Nat) : sweight s' j ≤ sweight s j := by
  unfold sweight
  by_cases e : s'.status j = .uninit
  · simp [e, h.uninit j e]
  · simp [e]

theorem Prog.todo {s' : St V} (h : Prog S D rank s s') : todo l s' ≤ todo l s :=
  total_le fun j _ => sweight_le h j

theorem pweight_le {s' : St V} (h : Prog S D rank s s') (j : Nat) : pweight s' j ≤ pweight s j := by
  unfold pweight
  cases e' : s'.parent j with
  | none => rw [h.none j e']; exact Nat.le_refl _
  | some p =>
    cases e : s.parent j with
    | none => simp only; split <;> omega
    | some q =>
      simp only
      by_cases hp : p = j
      · subst hp
        have := h.root p (by rw [e]; simp) e'
        rw [this] at e; cases e; simp
      · simp [hp]

theorem weight_le {s' : St V} (h : Prog S D rank s s') (j : Nat) : weight s' j ≤ weight s j :=
  Nat.add_le_add (sweight_le h j) (pweight_le h j)

theorem quiet_of {s' : St V} (h : Prog S D rank s s') (hl : ∀ j, D j → j ∈ l)
    (e : total l (weight s) ≤ total l (weight s')) : Quiet D s s' := by
  have b : ∀ j, D j → sweight s' j = sweight s j ∧ pweight s' j = pweight s j := by
    intro j hj
    have h1 := sweight_le h j
    have h2 := pweight_le h j
    by_contra hne
    have : weight s' j < weight s j := by
      unfold weight
      by_contra hc
      exact hne (by constructor <;> omega)
    have := total_lt (fun j _ => weight_le h j) (hl j hj) this
    omega
  refine ⟨fun j d e => ?_, fun j d e => ?_, fun r d e => ?_⟩
  · have := (b j d).1
    unfold sweight at this
    rw [if_pos e] at this
    by_contra hn
    rw [if_neg hn] at this; cases this
  · have := (b j d).2
    unfold pweight at this
    rw [e] at this
    cases e' : s'.parent j with
    | none => rfl
    | some p => rw [e'] at this; simp only at this; split at this <;> cases this
  · have := (b r d).2
    unfold pweight at this
    rw [e] at this
    cases e' : s'.parent r with
    | none => rw [e'] at this; simp at this
    | some p =>
      rw [e'] at this
      by_cases hp : p = r
      · rw [hp]
      · simp [hp] at this

/-! ### Halting -/

theorem inCycle_halts (i : Nat) (h : Link S D s) : Halts fun f _ => inCycle S f i s := by
  by_cases hc : S.circular i = true
  · by_cases hp : s.parent i = none
    · refine Halts.succ1 (Halts.congr (Halts.ok none s) fun f n => ?_)
      simp only [inCycle, if_pos hc, hp]
    · obtain ⟨r, hr⟩ := h.chain i hp
      have : ∀ j r, Root s.parent j r → Halts fun f _ => inCycle S f j s := by
        intro j r hr
        induction hr with
        | @self r e =>
          refine Halts.succ1 (Halts.congr (Halts.ok (some r) s) fun f n => ?_)
          simp [inCycle, (h.circ r (by rw [e]; simp)).1, e, Out.bind]
        | @step j p r e n _ ih =>
          have := Halts.bind (k := fun _ _ q s => if q ≠ s.parent j then Out.ok q { s with parent := upd s.parent j q } else Out.ok q s)
            ih (fun f _ => inCycle_link f p s h) (fun a t _ => Halts.ite (fun _ => .ok _ _) (fun _ => .ok _ _))
          refine Halts.succ1 (Halts.congr this fun f m => ?_)
          simp only [inCycle, if_pos (h.circ j (by rw [e]; simp)).1, e, if_pos n]
      exact this i r hr
  · refine Halts.succ1 (Halts.congr (Halts.ok none s) fun f n => ?_)
    simp only [inCycle, if_neg hc]

theorem out_halts {α : Type} {o : Out V α} (h : Sat o (fun _ _ => True) (fun _ => True)) (hn : o ≠ .nofuel) : Halts fun _ _ => o :=
  .const hn

theorem setInCycle_halts (e ce : Nat) (h : Link S D s) : Halts fun f _ => setInCycle S f e ce s := by
  simp only [setInCycle]
  refine Halts.ite (fun hc => ?_) (fun _ => .exc _ _)
  cases hp : s.parent e with
  | none =>
    refine .const ?_
    simp only [helperAdd]
    intro hn
    split at hn
    · cases hn
    · split at hn
      · cases hn
      · split at hn <;> cases hn
  | some p =>
    refine Halts.bind (inCycle_halts e h) (fun f _ => inCycle_link f e s h) fun q t _ => ?_
    cases q with
    | none => exact .exc _ _
    | some p =>
      refine .const ?_
      simp only [helperAddAll]
      intro hn
      split at hn
      · cases hn
      · split at hn
        · cases hn
        · split at hn
          · cases hn
          · split at hn
            · split at hn <;> cases hn
            · cases hn

theorem markLoop_halts (ce : Nat) : ∀ es s, Link S D s → (∀ j ∈ es, D j) → s.parent ce = some ce →
    Halts fun f _ => markLoop S f ce es s := by
  intro es
  induction es with
  | nil => intro s h _ _; exact .ok _ _
  | cons e es ih =>
    intro s h hD hce
    simp only [markLoop]
    refine Halts.bind (inCycle_halts e h) (fun f _ => inCycle_link f e s h) ?_
    rintro q s1 ⟨⟨par', rfl, hc⟩, hq1, hq2⟩
    have k : Link S D { s with parent := par' } := h.congr rfl hc rfl (fun _ => rfl) h.pend
    refine Halts.ite (fun _ => .ok _ _) (fun hn => ?_)
    refine Halts.bind (setInCycle_halts e ce k) (fun f _ => setInCycle_link (rank := fun _ _ => 0) f e ce k
      (hD e (by simp)) (hc.self.2 hce) (fun hr => hn ((hq2 ce).2 (hc.root.1 hr)))) ?_
    rintro _ s2 ⟨a1, a2, a3, a4⟩
    exact ih s2 a1 (fun j hj => hD j (by simp [hj])) a4

theorem guardMark_halts (ce : Nat) : ∀ es out (s : St V), Link S D s → Halts fun f _ => guardMark S f ce out es s := by
  intro es
  induction es with
  | nil => intro out s h; exact .ok _ _
  | cons e es ih =>
    intro out s h
    simp only [guardMark]
    obtain ⟨o, ho, F, hF⟩ := inCycle_halts (S := S) e h
    cases o with
    | nofuel => exact absurd rfl ho
    | exc x t =>
      refine ⟨.exc x t, by simp, F, fun f n h1 h2 => ?_⟩
      have := hF f n h1 h2
      simp only at this ⊢
      rw [this]
    | ok q t =>
      have key : Halts fun f (_ : Nat) => (if q = some ce then
          if out then .exc .skipped s else guardMark S f ce out es s
        else guardMark S f ce true es s : Out V Unit) :=
        Halts.ite (fun _ => Halts.ite (fun _ => .exc _ _) (fun _ => ih _ _ h)) (fun _ => ih _ _ h)
      obtain ⟨o', ho', F', hF'⟩ := key
      refine ⟨o', ho', max F F', fun f n h1 h2 => ?_⟩
      have e1 := hF f n (by omega) (by omega)
      have e2 := hF' f n (by omega) (by omega)
      simp only at e1 e2 ⊢
      rw [e1, ← e2]

theorem markPending_halts (i : Nat) (h : Link S D s) (hi : s.parent i ≠ none) :
    Halts fun f _ => markPending S f i s := by
  simp only [markPending]
  refine Halts.bind (inCycle_halts i h) (fun f _ => inCycle_link f i s h) ?_
  rintro q s1 ⟨⟨par', rfl, hc⟩, hq1, hq2⟩
  have k : Link S D { s with parent := par' } := h.congr rfl hc rfl (fun _ => rfl) h.pend
  cases q with
  | none => exact .exc _ _
  | some c =>
    simp only
    have hcr := hc.self.2 ((hq2 c).1 rfl).root
    refine Halts.bind (markLoop_halts c _ _ k h.pend hcr) (fun f _ => markLoop_link (rank := fun _ _ => 0) f c _ _ k h.pend hcr) ?_
    rintro _ s2 ⟨a1, a2, a3⟩
    exact Halts.ite (fun _ => guardMark_halts c _ _ s2 a1) (fun _ => .ok _ _)

theorem detectedCycle_halts (i : Nat) (h : Link S D s) (hDi : D i) : Halts fun f _ => detectedCycle S f i s := by
  simp only [detectedCycle]
  refine Halts.ite (fun hc => ?_) (fun _ => .exc _ _)
  cases hp : s.parent i with
  | some p =>
    simp only
    exact Halts.bind (markPending_halts i h (by rw [hp]; simp))
      (fun f _ => markPending_link (rank := fun _ _ => 0) f i h (by rw [hp]; simp)) fun _ t _ => .ok _ _
  | none =>
    simp only
    obtain ⟨k1, k2⟩ := newRoot_link (rank := fun _ _ => 0) (va := upd s.value i (S.bottom i)) h hDi hc hp
    exact Halts.bind (markPending_halts i k1 (by simp))
      (fun f _ => markPending_link (rank := fun _ _ => 0) f i k1 (by simp)) fun _ t _ => .ok _ _

/-- Demands halt in states in which fewer than `n` evaluations have not started. -/
def RHalts (S : Sys V) (D : Nat → Prop) (l : List Nat) (n : Nat) : Prop :=
  ∀ i s, D i → Link S D s → todo l s < n → Halts fun f _ => get S f i s

theorem runComp_halts (hD : Closed S D) (R : Ranked S rank) {n : Nat} (hr : RHalts S D l n) :
    ∀ c s, ReadsIn D c → Link S D s → todo l s < n → Halts fun f _ => runComp (get S f) c s := by
  intro c
  induction c with
  | ret v => intro s _ h _; exact .ok _ _
  | undef => intro s _ h _; exact .exc _ _
  | read i k ih =>
    intro s hDc h hn
    cases hDc with
    | read hDi hDk =>
    simp only [runComp]
    refine Halts.bind (hr i s hDi h hn) (fun f _ => get_link (rank := rank) hD f i s hDi h) ?_
    rintro v s1 ⟨a1, a2, a3⟩
    exact ih v s1 (hDk v) a1 (Nat.lt_of_le_of_lt a2.todo hn)

theorem check_halts (i : Nat) (v : V) (h : Link S D s) : Halts fun f _ => check S f i v s := by
  simp only [check]
  refine Halts.ite (fun _ => .ok _ _) (fun _ => ?_)
  refine Halts.bind (inCycle_halts i h) (fun f _ => inCycle_link f i s h) fun q t _ => ?_
  cases q with
  | none => exact .exc _ _
  | some r =>
    simp only
    cases t.helper r with
    | none => exact .exc _ _
    | some x => exact Halts.ite (fun _ => .ok _ _) (fun _ => .exc _ _)

theorem sat_true {α : Type} (o : Out V α) : Sat o (fun _ _ => True) (fun _ => True) := by
  cases o <;> trivial

theorem recompute_halts (hD : Closed S D) (R : Ranked S rank) {n : Nat} (hr : RHalts S D l n) (c : Nat)
    (h : Link S D s) (hc : s.parent c ≠ none) (hn : todo l s < n) :
    Halts fun f _ => recompute S (get S f) f c s := by
  simp only [recompute]
  have hDc := (h.circ c hc).2
  refine Halts.bind (runComp_halts hD R hr _ s (hD c hDc) h hn)
    (fun f _ => runComp_link (get_link (rank := rank) hD f) _ s (hD c hDc) h) ?_
  rintro v s1 ⟨a1, a2, a3⟩
  exact Halts.bind (check_halts c v a1) (fun f _ => sat_true _) fun _ t _ => .ok _ _

theorem Path.nodup {next : Nat → Option Nat} : ∀ {ls a}, Path next a ls → ls.Nodup := by
  intro ls
  induction ls with
  | nil => intro a h; exact List.nodup_nil
  | cons x ls ih =>
    intro a h
    cases h with
    | last e => simp
    | @cons _ a' _ e h =>
      refine List.nodup_cons.2 ⟨fun hm => ?_, ih h⟩
      obtain ⟨p, q, rfl⟩ := List.append_of_mem hm
      -- the list from the second occurrence
      have suf : ∀ {pre a}, Path next a (pre ++ x :: q) → Path next x (x :: q) := by
        intro pre
        induction pre with
        | nil => intro a h; cases h with
          | last e => exact .last e
          | cons e h => exact .cons e h
        | cons y pre ih =>
          intro a h
          generalize hq : y :: pre ++ x :: q = z at h
          cases h with
          | last e => simp at hq
          | cons e h =>
            simp at hq
            obtain ⟨rfl, rfl⟩ := hq
            exact ih h
      have h1 : Path next x (x :: q) := suf h
      have h2 : Path next x (x :: (p ++ x :: q)) := .cons e h
      have := h1.unique h2
      have := congrArg List.length this
      simp at this
      omega

theorem pass_halts (hD : Closed S D) (hl : ∀ j, D j → j ∈ l) (R : Ranked S rank) {n : Nat} (hr : RHalts S D l n) (L : Nat) :
    ∀ m c s pre post, l.length ≤ pre.length + m → Link S D s → s.parent L = some L →
      Path s.next L (pre ++ c :: post) → todo l s < n →
      Halts fun f k => pass S (get S f) f L k c s := by
  intro m
  induction m with
  | zero =>
    intro c s pre post hm h hL hp hn
    exfalso
    have h1 : (pre ++ c :: post) ⊆ l := by
      intro j hj
      obtain ⟨_, ls, _, g2, _, g4⟩ := h.list L hL
      rw [hp.unique g2] at hj
      exact hl j (h.circ j ((g4 j).1 hj).ne_none).2
    have := (List.subperm_of_subset hp.nodup h1).length_le
    simp at this
    omega
  | succ m ih =>
    intro c s pre post hm h hL hp hn
    have hc : Root s.parent c L := by
      obtain ⟨_, ls, _, g2, _, g4⟩ := h.list L hL
      exact (g4 c).1 (by rw [← hp.unique g2]; simp)
    have hDc := (h.circ c hc.ne_none).2
    have k : Link S D { s with pending := c :: s.pending } := by
      refine h.congr rfl (.refl _) rfl (fun _ => rfl) ?_
      intro j hj
      rcases List.mem_cons.1 hj with rfl | hj
      · exact hDc
      · exact h.pend j hj
    refine Halts.succ2 ?_
    simp only [pass]
    refine Halts.bind (recompute_halts hD R hr c k hc.ne_none hn)
      (fun f _ => recompute_link hD (get_link (rank := rank) hD f) f c k hc.ne_none) ?_
    rintro _ s1 ⟨a1, a2, a3⟩
    replace a3 : s1.pending = c :: s.pending := a3
    simp only [pop, a3, Out.bind]
    have k1 : Link S D { s1 with pending := s.pending } := a1.congr rfl (.refl _) rfl (fun _ => rfl) h.pend
    refine Halts.ite (fun _ => .ok _ _) (fun hL1 => ?_)
    replace hL1 : s1.parent L = some L := by simpa using hL1
    cases hx : s1.next c with
    | none => exact .ok _ _
    | some c' =>
      simp only
      obtain ⟨ext, hp1⟩ := a2.path L hL hL1 _ hp
      have hp1 : Path s1.next L (pre ++ c :: (post ++ ext)) := by simpa using hp1
      obtain ⟨post', e⟩ := hp1.split.2 c' hx
      rw [e] at hp1
      refine ih c' _ (pre ++ [c]) post' (by simp; omega) k1 hL1 (by simpa using hp1) ?_
      exact Nat.lt_of_le_of_lt a2.todo hn

theorem freeze_halts : ∀ ls c (s : St V), Path s.next c ls → Halts fun _ n => freeze n c s := by
  intro ls
  induction ls with
  | nil => intro c s h; cases h
  | cons x ls ih =>
    intro c s h
    refine Halts.succ2 ?_
    simp only [freeze]
    cases h with
    | last e => simp only [e]; exact .ok _ _
    | cons e h => simp only [e]; exact ih _ { s with status := upd s.status x .evaluated } h

theorem cycleLoop_halts (hD : Closed S D) (hl : ∀ j, D j → j ∈ l) (R : Ranked S rank) {N : Nat}
    (hN : ∀ i v, rank i v ≤ N) {n : Nat} (hr : RHalts S D l n) (L : Nat) :
    ∀ a d s, total l (weight s) = a → l.length * N - total l (fun j => rank j (s.value j)) = d →
      Link S D s → s.parent L = some L → todo l s < n →
      Halts fun f k => cycleLoop S (get S f) f L k s := by
  intro a
  induction a using Nat.strongRecOn with
  | _ a iha =>
  intro d
  induction d using Nat.strongRecOn with
  | _ d ihd =>
    intro s ha hd h hL hn
    refine Halts.succ2 ?_
    simp only [cycleLoop]
    cases hh : s.helper L with
    | none => exact .exc _ _
    | some x =>
      simp only
      obtain ⟨k1, k2⟩ := clear_link (rank := rank) h hh
      obtain ⟨la, ls, g1, g2, g3, g4⟩ := k1.list L hL
      obtain ⟨post, rfl⟩ : ∃ post, ls = L :: post := by
        cases g2 with
        | last => exact ⟨_, rfl⟩
        | cons => exact ⟨_, rfl⟩
      have hp := pass_halts hD hl R hr L l.length L _ [] post (by simp) k1 hL g2 (Nat.lt_of_le_of_lt (k2.todo) hn)
      refine Halts.bind hp.diag (fun f _ => pass_link hD (get_link (rank := rank) hD f) f L f L _ k1 hL (.self hL)) ?_
      rintro res s1 ⟨a1, a2, a3, a4⟩
      refine Halts.ite (fun hres => ?_) (fun _ => .ok _ _)
      cases hh1 : s1.helper L with
      | none => exact .exc _ _
      | some y =>
        simp only
        refine Halts.ite (fun hm => ?_) (fun _ => ?_)
        · have hn1 : todo l s1 < n := Nat.lt_of_le_of_lt (k2.trans a2).todo hn
          by_cases hq : total l (weight s) ≤ total l (weight s1)
          · have e1 : total l (weight s1) = a := by
              have := total_le (l := l) (fun j _ => weight_le (k2.trans a2) j); omega
            have q := quiet_of (k2.trans a2) hl hq
            have q2 := (k2.split a2 q).2
            obtain ⟨u1, u2⟩ := a2.quiet R q2
            obtain ⟨j, dj, hj⟩ : ∃ j, D j ∧ rank j (s.value j) < rank j (s1.value j) := by
              rcases u2 L ((h.circ L (by rw [hL]; simp)).2) hL ⟨y, hh1, hm⟩ with ⟨z, ez, mz⟩ | h
              · replace ez : upd s.helper L _ L = some z := ez
                rw [upd_self] at ez; cases ez; cases mz
              · exact h
            have lt := total_lt (l := l) (w := fun j => rank j (s.value j)) (w' := fun j => rank j (s1.value j))
              (fun j _ => u1 j) (hl j dj) hj
            have bd := total_bound (l := l) (w := fun j => rank j (s1.value j)) (N := N) (fun j => hN j _)
            exact ihd _ (by omega) s1 e1 rfl a1 (a4 hres) hn1
          · exact iha _ (by omega) _ s1 rfl rfl a1 (a4 hres) hn1
        · obtain ⟨la, ls, g1, g2, g3, g4⟩ := a1.list L (a4 hres)
          exact (freeze_halts ls L s1 g2).diag

theorem get_halts (hD : Closed S D) (hl : ∀ j, D j → j ∈ l) (R : Ranked S rank) {N : Nat}
    (hN : ∀ i v, rank i v ≤ N) : ∀ n, RHalts S D l n := by
  intro n
  induction n with
  | zero => intro i s _ _ h; omega
  | succ n ih =>
    intro i s hDi h hn
    refine Halts.succ1 ?_
    simp only [get]
    by_cases hi : s.status i = .uninit
    · obtain ⟨st, va, e, h1, h2⟩ := initValue_uninit (S := S) i hi
      rw [e]
      obtain ⟨k1, k2⟩ := start_link (rank := rank) (va := va) h hDi hi h2
      have lt : todo l { s with status := upd st i .cycle, value := va, pending := i :: s.pending } < n := by
        refine Nat.lt_of_lt_of_le (total_lt (w' := fun j => if s.status j = .uninit then 1 else 0) (fun j _ => ?_) (hl i hDi) ?_) (Nat.le_of_lt_succ hn)
        · show (if upd st i .cycle j = .uninit then 1 else 0) ≤ _
          by_cases e : j = i
          · subst e; simp
          · rw [upd_ne _ _ e, h2 j e]; exact Nat.le_refl _
        · show (if upd st i .cycle i = .uninit then 1 else 0) < _
          simp [hi]
      have key : Halts fun f _ => ((runComp (get S f) (S.compute i)
            { s with status := upd st i .cycle, value := va, pending := i :: s.pending }).bind fun v s =>
          (pop { s with value := upd s.value i v }).bind fun _ s =>
          (inCycle S f i s).bind fun q s =>
          if q ≠ none then
            (evaluateCycle S (get S f) f i s).bind fun _ s => .ok (s.value i) s
          else
            let s := { s with status := upd s.status i .evaluated }
            .ok (s.value i) s) := by
        refine Halts.bind (runComp_halts hD R ih _ _ (hD i hDi) k1 lt)
          (fun f _ => runComp_link (get_link (rank := rank) hD f) _ _ (hD i hDi) k1) ?_
        rintro v s1 ⟨a1, a2, a3⟩
        replace a3 : s1.pending = i :: s.pending := a3
        simp only [pop, a3, Out.bind]
        have k3 : Link S D { s1 with value := upd s1.value i v, pending := s.pending } :=
          a1.congr rfl (.refl _) rfl (fun _ => rfl) h.pend
        refine Halts.bind (inCycle_halts i k3) (fun f _ => inCycle_link f i _ k3) ?_
        rintro q t ⟨⟨par', rfl, hc⟩, q1, q2⟩
        have k4 : Link S D { s1 with value := upd s1.value i v, pending := s.pending, parent := par' } :=
          k3.congr rfl hc rfl (fun _ => rfl) h.pend
        refine Halts.ite (fun _ => ?_) (fun _ => .ok _ _)
        refine Halts.bind (Q := fun _ _ => True) (E := fun _ => True) ?_ (fun f _ => sat_true _) (fun _ t _ => .ok _ _)
        simp only [evaluateCycle]
        refine Halts.ite (fun hlead => ?_) (fun _ => .ok _ _)
        exact (cycleLoop_halts hD hl R hN ih i _ _ _ rfl rfl k4 hlead (Nat.lt_of_le_of_lt a2.todo lt)).diag
      rcases h1 with h1 | h1 <;> (simp only [h1]; exact key)
    · rw [initValue_other i hi]
      cases hst : s.status i with
      | uninit => exact absurd hst hi
      | uneval => exact absurd hst (h.noUneval i)
      | evaluated => exact .ok _ _
      | assigned => exact .ok _ _
      | cycle => exact detectedCycle_halts i h hDi

end Aps.ScalaEval
