import Verif.Props.OagMain
set_option linter.unusedVariables false
/-! An inherited attribute that depends on nothing stays first through the ordered attribute grammar loop. -/
namespace Aps.Oag
open Aps.Dnc Aps.Props

theorem sumStep_keep {n : Nat} {dirs : List Dir} {want : Dir} {val : Int} {st : SumSt} {i j : Nat} (h : sget st.sched j ≠ 0) :
    sget (sumStep n dirs want val st i).sched j = sget st.sched j := by
  unfold sumStep
  split
  · rename_i h1
    split
    · simp only
      unfold sget at *
      rw [List.getElem?_set]
      split
      · rename_i hij; subst hij; exact absurd h1.2 h
      · rfl
    · rfl
  · rfl

theorem sumPass_keep {n : Nat} {dirs : List Dir} {want : Dir} {val : Int} : ∀ (is : List Nat) {st : SumSt} {j : Nat}, sget st.sched j ≠ 0 →
    sget (is.foldl (sumStep n dirs want val) st).sched j = sget st.sched j
  | [], _, _, _ => rfl
  | i :: is, st, j, h => by
    rw [List.foldl_cons, sumPass_keep is (by rw [sumStep_keep h]; exact h), sumStep_keep h]

theorem sumPhase_keep {n : Nat} {dirs : List Dir} {phase : Nat} {st : SumSt} {j : Nat} (h : sget st.sched j ≠ 0) :
    sget (sumPhase n dirs phase st).sched j = sget st.sched j := by
  unfold sumPhase
  simp only
  have e1 := sumPass_keep (n := n) (dirs := dirs) (want := .inward) (val := -(phase : Int)) (List.range n) (st := { st with localDone := 0 }) (j := j) h
  rw [sumPass_keep _ (by rw [e1]; exact h), e1]

theorem sumLoop_keep {n : Nat} {dirs : List Dir} : ∀ (fuel phase : Nat) {st st' : SumSt} {j : Nat}, sget st.sched j ≠ 0 →
    sumLoop n dirs fuel phase st = .ok st' → sget st'.sched j = sget st.sched j
  | 0, _, _, _, _, _, h => by simp [sumLoop] at h
  | fuel + 1, phase, st, st', j, hne, h => by
    rw [sumLoop] at h
    split at h
    · simp only at h
      split at h
      · cases h
      · rw [sumLoop_keep fuel (phase + 1) (by rw [sumPhase_keep hne]; exact hne) h, sumPhase_keep hne]
    · cases h; rfl

/-- before anything is in phase 1 or later -/
structure Early (n si : Nat) (st : SumSt) : Prop where
  ml : st.m.length = n * n
  sl : st.sched.length = n
  low : ∀ j, sget st.sched j = 0 ∨ sget st.sched j = -1
  col : ∀ j, j < n → mget n st.m j si = 0

theorem sumStep_early {n : Nat} {dirs : List Dir} {si i : Nat} {st : SumSt} (h : Early n si st) (hsi : si < n) (hi : i < n) :
    Early n si (sumStep n dirs .inward (-((1 : Nat) : Int)) st i) := by
  unfold sumStep
  split
  · split
    · have hl : ∀ j, sget (st.sched.set i (-((1 : Nat) : Int))) j = 0 ∨ sget (st.sched.set i (-((1 : Nat) : Int))) j = -1 := by
        intro j
        rw [sget_set h.sl hi]
        split
        · right; rfl
        · exact h.low j
      obtain ⟨f1, f2⟩ := forceDeps_spec hi (-((1 : Nat) : Int)) (st.sched.set i (-((1 : Nat) : Int))) st.m h.ml
      refine ⟨f1, by simpa using h.sl, hl, fun j hj => ?_⟩
      simp only
      rw [f2 j si hj hsi, if_neg]
      · exact h.col j hj
      · rintro ⟨_, h1, h2⟩
        rcases hl j with h3 | h3
        · exact h1 h3
        · exact h2 (by rw [h3]; rfl)
    · exact h
  · exact h

theorem sumPass_early {n : Nat} {dirs : List Dir} {si : Nat} (hsi : si < n) (hd : dirs[si]? = some .inward) : ∀ (is : List Nat), (∀ i ∈ is, i < n) →
    ∀ {st : SumSt}, Early n si st → (si ∈ is ∨ sget st.sched si = -1) →
      sget (is.foldl (sumStep n dirs .inward (-((1 : Nat) : Int))) st).sched si = -1
  | [], _, st, h, hm => by simpa using hm
  | i :: is, his, st, h, hm => by
    rw [List.foldl_cons]
    have hi := his i (by simp)
    refine sumPass_early hsi hd is (fun x hx => his x (by simp [hx])) (sumStep_early h hsi hi) ?_
    by_cases h1 : sget st.sched si = -1
    · right
      rw [sumStep_keep (by rw [h1]; decide), h1]
    · have h0 : sget st.sched si = 0 := (h.low si).resolve_right h1
      rcases hm with hm | hm
      · rcases List.mem_cons.1 hm with rfl | hm
        · right
          unfold sumStep
          rw [if_pos ⟨hd, h0⟩, if_pos]
          · simp only
            rw [sget_set h.sl hsi, if_pos rfl]; rfl
          · rw [sumReady_iff]
            intro j hj hne
            exact absurd (h.col j hj) hne
        · exact .inl hm
      · exact absurd hm h1

theorem scheduleSummary_first {fuel n : Nat} {dirs : List Dir} {m m' : List Dep} {sched : List Int} (hm : m.length = n * n)
    {si : Nat} (hsi : si < n) (hd : dirs[si]? = some .inward) (hcol : ∀ j, j < n → mget n m j si = 0)
    (h : scheduleSummary fuel n dirs m = .ok (m', sched)) : sget sched si = -1 := by
  unfold scheduleSummary at h
  obtain ⟨st, h1, h2⟩ := Res.bind_eq_ok.1 h
  simp at h2
  obtain ⟨rfl, rfl⟩ := h2
  cases fuel with
  | zero => simp [sumLoop] at h1
  | succ fuel =>
    rw [sumLoop, if_pos (by simp only; omega)] at h1
    simp only at h1
    have he : Early n si ⟨m, List.replicate n 0, 0, 0⟩ := by
      refine ⟨hm, by simp, fun j => .inl ?_, hcol⟩
      simp only [sget, List.getElem?_replicate]
      split <;> rfl
    have hf : sget (sumPhase n dirs (0 + 1) ⟨m, List.replicate n 0, 0, 0⟩).sched si = -1 := by
      unfold sumPhase
      simp only
      have e1 := sumPass_early hsi hd (List.range n) (by simp) he (.inl (by simpa using hsi))
      have e1' : sget (List.foldl (sumStep n dirs Dir.inward (-((0 + 1 : Nat) : Int)))
          { m := m, sched := List.replicate n 0, done := 0, localDone := 0 } (List.range n)).sched si = -1 := e1
      rw [sumPass_keep _ (by rw [e1']; decide), e1']
    split at h1
    · cases h1
    · rw [sumLoop_keep _ _ (by rw [hf]; decide) h1, hf]

/-- a summary in which one attribute of each phylum depends on nothing -/
structure InfoBound (M : Nat → (Nat → Bool) → Nat → Nat → Dep) (N : Nat → Nat → Nat → Dep) (info : Nat → Nat) (dirs : List (List Dir)) (s : State) : Prop where
  bound : SBound M N s
  dir : ∀ (y : Nat) p, s.phys[y]? = some p → info y < p.n ∧ (∃ d, dirs[y]? = some d ∧ d[info y]? = some .inward)
  zero : ∀ y a, N y a (info y) = 0
  ones : ∀ y a b, b ≠ info y → N y a b = BitVec.allOnes 32

theorem InfoBound.mono {M N info dirs} {s s' : State} (h : InfoBound M N info dirs s) (hr : OR s s') : InfoBound M N info dirs s' := by
  refine ⟨SBound.nz h.bound hr.augs hr.phys, ?_, h.zero, h.ones⟩
  intro y p' e'
  obtain ⟨p, e, x1, _⟩ := hr.phys.back e'
  have := h.dir y p e
  rw [x1]; exact this

theorem le_zero {a : Dep} (h : Le a 0) : a = 0 := by
  by_contra hne
  exact le_ne_zero h hne rfl

theorem place_first {s : Int} (h : s ≠ 0) : ¬ place s < place (-1) := by
  unfold place
  split <;> simp <;> omega

theorem oagPhyla_info {dirs : List (List Dir)} {M N} {info : Nat → Nat} : ∀ (js : List Nat) (s : State) (acc : List (Nat × List Int)) (f : Nat)
    (s' : State) (acc' : List (Nat × List Int)), SFix0 s → InfoBound M N info dirs s → SBelow M N s → (∀ p ∈ s.phys, p.n < f) →
    oagPhyla f dirs js s acc = .ok (s', acc') → SBelow M N s'
  | [], s, acc, f, s', acc', _, _, hw, _, h => by
    simp [oagPhyla] at h
    rw [← h.1]; exact hw
  | j :: js, s, acc, f, s', acc', hx, hi, hw, hf, h => by
    rw [oagPhyla] at h
    cases hp : s.phys[j]? with
    | none => rw [hp] at h; cases dirs[j]? <;> cases h
    | some p =>
      rw [hp] at h
      obtain ⟨hin, d, ed, hdir⟩ := hi.dir j p hp
      rw [ed] at h
      simp only at h
      obtain ⟨⟨m', sched⟩, h1, h2⟩ := Res.bind_eq_ok.1 h
      have hpm := List.mem_of_getElem? hp
      have hpw : p.m.length = p.n * p.n := hx.inv.phys p hpm
      obtain ⟨c1, c2, c3, _, c5, c6⟩ := C25_schedule hpw (hf p hpm) h1
      have hnz : ∀ a b, a < p.n → b < p.n → mget p.n p.m a b ≠ 0 → mget p.n m' a b ≠ 0 :=
        fun a b ha hb h => (c6 b a hb ha).2 (.inl h)
      have hcol : ∀ a, a < p.n → mget p.n p.m a (info j) = 0 := by
        intro a ha
        have := hw.phys j p hp a (info j) ha hin
        rw [hi.zero] at this
        exact le_zero this
      have hfirst := scheduleSummary_first hpw hin hdir hcol h1
      have hcol' : ∀ a, a < p.n → mget p.n m' a (info j) = 0 := by
        intro a ha
        by_contra hne
        rcases (c6 (info j) a hin ha).1 hne with h' | h'
        · exact h' (hcol a ha)
        · rw [hfirst] at h'
          refine place_first ?_ h'
          rcases c2 a ha with ⟨_, _, h3⟩ | ⟨_, h3, _⟩ <;> omega
      have hw1 : SBelow M N (withSummary s j p m') := by
        refine ⟨hw.augs, fun y q hq a b ha hb => ?_⟩
        by_cases hyj : j = y
        · subst hyj
          have : q = { p with m := m' } := by
            rw [withSummary_get hp] at hq; exact (Option.some.inj hq).symm
          subst this
          by_cases hb' : b = info j
          · subst hb'
            simp only at ha ⊢
            rw [hcol' a ha]; exact Le.zero _
          · rw [hi.ones j a b hb']; exact le_allOnes _
        · have e' : s.phys[y]? = some q := by
            have : (withSummary s j p m').phys[y]? = s.phys[y]? := by simp [withSummary, List.getElem?_set_ne hyj]
            rw [← this]; exact hq
          exact hw.phys y q e' a b ha hb
      have or1 := withSummary_or hp hnz
      obtain ⟨f1, s1, e1, fx1, sr1⟩ := dncClose_total0 _ (withSummary_inv hx hp c5 hnz)
      have hi1 := hi.mono or1
      have hw2 := sr1.bound M N hi1.bound hw1
      have or2 := or1.trans' (OR.of_sr sr1)
      obtain ⟨s1', h3, h4⟩ := Res.bind_eq_ok.1 h2
      have h3' : dncClose f (withSummary s j p m') = .ok s1' := h3
      have : s1' = s1 := by
        have a1 := dncClose_mono h3' (max f f1) (Nat.le_max_left _ _)
        rw [dncClose_mono e1 (max f f1) (Nat.le_max_right _ _)] at a1
        exact (Res.ok.inj a1).symm
      subst this
      simp only at h4
      split at h4
      · cases h4; exact hw2
      · refine oagPhyla_info js s1' _ f s' acc' fx1 (hi.mono or2) hw2 ?_ h4
        intro q hq
        obtain ⟨y, hy⟩ := List.getElem?_of_mem hq
        obtain ⟨q0, e0, x1, _⟩ := or2.phys.back hy
        rw [x1]; exact hf q0 (List.mem_of_getElem? e0)

end Aps.Oag
