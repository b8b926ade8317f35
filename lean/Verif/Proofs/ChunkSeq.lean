import Verif.Proofs.ChunkTree
/-! The parts of a schedule without conditionals, phase by phase. -/
set_option linter.unusedVariables false
namespace Aps.Chunk
open Aps.Dnc Aps.Oag

/-- the parts of a phase, from what is between its ends -/
def phaseParts (q : Nat) (mid : List Part) : List Part := .left q :: (mid ++ [.right q])

/-- the parts from phase `q` on -/
def allParts (q : Nat) : List (List Part) → List Part
  | [] => []
  | mid :: L => phaseParts q mid ++ allParts (q + 1) L

/-- the order of a sequence of parts, after `cd` -/
structure OrderF (I : Input) (cd S : List Part) : Prop where
  nodup : S.Nodup
  has : ∀ y ∈ S, I.Has y ∧ y ∉ cd
  order : ∀ pre y post, S = pre ++ y :: post → ∀ a, Must I a y → a ∈ cd ∨ a ∈ pre

theorem OrderF.nil {I : Input} {cd : List Part} : OrderF I cd [] :=
  ⟨List.nodup_nil, by simp, by intro pre y post h; simp at h⟩

theorem OrderF.cons {I : Input} {cd S : List Part} {y : Part} (hh : I.Has y) (hn : y ∉ cd) (hm : ∀ a, Must I a y → a ∈ cd)
    (h : OrderF I (y :: cd) S) : OrderF I cd (y :: S) := by
  refine ⟨List.nodup_cons.2 ⟨fun h' => (h.has y h').2 (by simp), h.nodup⟩, ?_, ?_⟩
  · intro z hz
    rcases List.mem_cons.1 hz with rfl | hz
    · exact ⟨hh, hn⟩
    · exact ⟨(h.has z hz).1, fun h' => (h.has z hz).2 (List.mem_cons_of_mem _ h')⟩
  · intro pre z post he a ha
    cases pre with
    | nil =>
      simp only [List.nil_append, List.cons.injEq] at he
      rw [← he.1] at ha
      exact .inl (hm a ha)
    | cons w pre =>
      simp only [List.cons_append, List.cons.injEq] at he
      rcases h.order pre z post he.2 a ha with h1 | h1
      · rcases List.mem_cons.1 h1 with rfl | h1
        · exact .inr (by simp [he.1])
        · exact .inl h1
      · exact .inr (List.mem_cons_of_mem _ h1)

/-- At the end of a circular phase everything in its cycle is done: what uses its results directly in the cycle is in a
direct cycle with them. -/
def Settles (I : Input) (q : Nat) : Prop :=
  (∀ z, Same I (.right q) z → ¬ Prevented I q z) ∧
  ∀ y, Direct I (.right q) y → Reach I y (.right q) → Relation.TransGen (Direct I) y (.right q)

/-- at the end of a phase that settles, its cycle is done -/
def CloseF (I : Input) (cd S : List Part) : Prop :=
  ∀ pre q post, S = pre ++ .right q :: post → Settles I q → ∀ a, Same I (.right q) a → a = .right q ∨ a ∈ cd ∨ a ∈ pre

theorem CloseF.nil {I : Input} {cd : List Part} : CloseF I cd [] := by intro pre q post h; simp at h

theorem CloseF.cons {I : Input} {cd S : List Part} {y : Part} (h : CloseF I (y :: cd) S)
    (hy : ∀ q, y = .right q → Settles I q → ∀ a, Same I (.right q) a → a = .right q ∨ a ∈ cd) : CloseF I cd (y :: S) := by
  intro pre q post he hs a ha
  cases pre with
  | nil =>
    simp only [List.nil_append, List.cons.injEq] at he
    rcases hy q he.1 hs a ha with h1 | h1
    · exact .inl h1
    · exact .inr (.inl h1)
  | cons w pre =>
    simp only [List.cons_append, List.cons.injEq] at he
    rcases h pre q post he.2 hs a ha with h1 | h1 | h1
    · exact .inl h1
    · rcases List.mem_cons.1 h1 with rfl | h1
      · exact .inr (.inr (by simp [he.1]))
      · exact .inr (.inl h1)
    · exact .inr (.inr (List.mem_cons_of_mem _ h1))

/-- what is in between is neither end, and allowed in the phase -/
def MidF (I : Input) (ph : Nat) (L : List (List Part)) : Prop :=
  ∀ (k : Nat) (mid : List Part), L[k]? = some mid → ∀ y ∈ mid, (∀ p, y ≠ .left p) ∧ (∀ p, y ≠ .right p) ∧ ¬ Prevented I (ph + k) y

theorem MidF.nil {I : Input} {ph : Nat} : MidF I ph [] := by intro k mid h; simp at h

theorem MidF.next {I : Input} {ph : Nat} {L : List (List Part)} (h : MidF I (ph + 1) L) : MidF I ph ([] :: L) := by
  intro k mid hk y hy
  cases k with
  | zero => simp only [List.getElem?_cons_zero, Option.some.injEq] at hk; subst hk; simp at hy
  | succ k =>
    simp only [List.getElem?_cons_succ] at hk
    have := h k mid hk y hy
    rwa [show ph + 1 + k = ph + (k + 1) by omega] at this

theorem MidF.add {I : Input} {ph : Nat} {mid : List Part} {L : List (List Part)} (h : MidF I ph (mid :: L)) {y : Part}
    (h1 : ∀ p, y ≠ .left p) (h2 : ∀ p, y ≠ .right p) (h3 : ¬ Prevented I ph y) : MidF I ph ((y :: mid) :: L) := by
  intro k m hk z hz
  cases k with
  | zero =>
    simp only [List.getElem?_cons_zero, Option.some.injEq] at hk
    subst hk
    rcases List.mem_cons.1 hz with rfl | hz
    · exact ⟨h1, h2, h3⟩
    · exact h 0 mid rfl z hz
  | succ k => exact h (k + 1) m hk z hz

/-- The sequence of parts behind a run. -/
structure Seqd (I : Input) (cd : List Part) (ph : Nat) (S : List Part) (L : List (List Part)) (es : List Ev) : Prop where
  evs : es = S.flatMap (evsOf I ⟨0, 0⟩)
  len : L.length = I.parent.maxPhase + 1 - ph
  ord : OrderF I cd S
  close : CloseF I cd S
  mids : MidF I ph L
  all : ∀ a, I.Has a → Early I a (I.parent.maxPhase + 1) → a ∈ cd ∨ a ∈ S

theorem upd_plain {I : Input} (hp : Plain I) (σ : Nat → Bool) (c : Cond) (y : Part) : upd I σ c y = c := by
  cases y with
  | loc i => simp only [upd, (hp i).2]; split <;> rfl
  | _ => rfl

section
variable {I : Input} (hw : Wf I) (ho : Ordered I) (he : Entry I) (hp : Plain I)
include hw ho

/-- the cycle of a phase that settles is done when its end is chosen -/
theorem closes {x : Part} {cd : List Part} {q : Nat} (h : InvC I x cd q) (hs : Same I x (.right q))
    (hor : ∀ z, Same I x z → Avail I q cd z → ∃ p, z = .right p) (hset : Settles I q) :
    ∀ a, Same I (.right q) a → a = .right q ∨ a ∈ cd := by
  intro a ha
  by_contra hc
  push Not at hc
  obtain ⟨m, ⟨g1, g2, g3⟩, g5⟩ := exists_minimal (parts I) (Relation.TransGen (Direct I)) (fun a b c h h' => h.trans h')
    (fun z => Same I x z ∧ z ∉ cd ∧ z ≠ .right q)
    (fun z hz => mem_parts.2 (hz.1.has hw h.hasx)) (a := a) ⟨hs.trans ha, hc.2, hc.1⟩
  have hav : Avail I q cd m := by
    refine ⟨g1.has hw h.hasx, g2, hset.1 m (hs.symm.trans g1), ?_⟩
    intro z hz hbl
    by_contra hn
    by_cases hzr : z = .right q
    · subst hzr
      refine hbl.2 (hset.2 m hbl.1 ?_)
      rcases hz with rfl | ⟨h1, h2⟩
      · exact absurd rfl g3
      · exact h1
    · exact hbl.2 (g5 z ⟨g1.trans hz, hn, hzr⟩ (.single hbl.1))
  obtain ⟨p, rfl⟩ := hor m g1 hav
  exact g3 (by rw [h.right_eq hw ho g1 hav])

include he hp

theorem run_seq {σ : Nat → Bool} {m : Mode} {c : Cond} {cd : List Part} {ph : Nat} {es : List Ev} (hrun : Run I σ m c cd ph es) :
    c = ⟨0, 0⟩ → Sat σ c → InvM I m cd ph →
    match m with
    | .start => ∃ L, Seqd I cd ph (allParts ph L) L es
    | .comp x => ∃ mid L, Seqd I cd ph (mid ++ .right ph :: allParts (ph + 1) L) (mid :: L) es := by
  induction hrun with
  | finish h =>
    rename_i c cd ph
    intro hc hs hi
    have hi := hi.1
    refine ⟨[], rfl, by simp; omega, .nil, .nil, .nil, ?_⟩
    intro a ha hea
    left
    obtain ⟨q, hq1, hq2, h'⟩ := hea
    rcases h' with rfl | rfl | h' | ⟨h1, h2, h3, h4⟩ | ⟨h1, h2, h3⟩
    · exact hi.left q hq1 (by omega)
    · exact hi.right q hq1 (by omega)
    · exact hi.down _ (hi.right q hq1 (by omega)) a h'
    · exact hi.cyc q hq1 (by omega) a (.inr ⟨h1, h2⟩) (not_prevented hw h4) h3
    · exact hi.greedy q hq1 (by omega) h1 h2 a ha h3
  | start h hr ih =>
    rename_i c cd ph es
    intro hc hs hi
    have hi' := hi.1.begin hw ho h hi.2 (he _ hi.1.pos h)
    have hd : ∀ a, Must I a (.left ph) → a ∈ cd := by
      intro a ha
      rcases List.mem_cons.1 (hi'.down _ (by simp) a ha) with rfl | h'
      · exfalso
        rcases ha with ⟨h1, h2⟩ | ⟨h1, h2⟩
        · exact h2 h1
        · exact h2 (.single h1)
      · exact h'
    obtain ⟨mid, L, g⟩ := ih hc hs hi'
    show ∃ L, Seqd I cd ph (allParts ph L) L ((if .left ph ∈ cd then [] else evsOf I c (.left ph)) ++ es)
    rw [if_neg hi.2]
    have e : allParts ph (mid :: L) = .left ph :: (mid ++ .right ph :: allParts (ph + 1) L) := by
      simp [allParts, phaseParts]
    refine ⟨mid :: L, ?_, g.len, ?_, ?_, g.mids, ?_⟩
    · rw [e, List.flatMap_cons, ← g.evs, hc]
    · rw [e]; exact .cons ⟨hi.1.pos, h⟩ hi.2 hd g.ord
    · rw [e]; exact g.close.cons (by intro q h; cases h)
    · intro a ha hea
      rw [e]
      rcases g.all a ha hea with h1 | h1
      · rcases List.mem_cons.1 h1 with rfl | h1
        · exact .inr (by simp)
        · exact .inl h1
      · exact .inr (List.mem_cons_of_mem _ h1)
  | pick hsm hav hnr hr ih =>
    rename_i x y c cd ph es
    intro hc hs hi
    have hi' : InvC I x cd ph := hi
    have hpk := hi'.pick hw ho hsm hav hnr
    have hnl : ∀ p, y ≠ .left p := by
      rintro p rfl
      obtain ⟨h1, h2⟩ : 1 ≤ p ∧ p ≤ I.parent.maxPhase := hav.1
      rcases Nat.lt_trichotomy p ph with h3 | rfl | h3
      · exact hav.2.1 (hi'.left p h1 h3)
      · exact hav.2.1 hi'.now
      · exact hpk.lateLeft p h3 (by simp)
    obtain ⟨mid, L, g⟩ := ih ((upd_plain hp σ c y).trans hc) (sat_upd hw hs _) hpk
    refine ⟨y :: mid, L, ?_, g.len, ?_, ?_, g.mids.add hnl hnr hav.2.2.1, ?_⟩
    · rw [List.cons_append, List.flatMap_cons, ← g.evs, hc]
    · exact .cons hav.1 hav.2.1 (fun a ha => hav.down hw ho hi' hsm ha) g.ord
    · exact g.close.cons (fun q h => absurd h (hnr q))
    · intro a ha hea
      rcases g.all a ha hea with h1 | h1
      · rcases List.mem_cons.1 h1 with rfl | h1
        · exact .inr (by simp)
        · exact .inl h1
      · exact .inr (List.mem_cons_of_mem _ h1)
  | pickRight hsm hav hor hr ih =>
    rename_i x c cd ph p es
    intro hc hs hi
    have hi' : InvC I x cd ph := hi
    obtain rfl := hi'.right_eq hw ho hsm hav
    obtain ⟨L, g⟩ := ih hc hs (hi'.pickRight hw ho hsm hav hor)
    refine ⟨[], L, ?_, ?_, ?_, ?_, g.mids.next, ?_⟩
    · rw [List.nil_append, List.flatMap_cons, ← g.evs, hc]
    · simp only [List.length_cons, g.len]
      have := hi'.max
      omega
    · exact .cons hav.1 hav.2.1 (fun a ha => hav.down hw ho hi' hsm ha) g.ord
    · refine g.close.cons ?_
      intro q hq hset a ha
      cases hq
      exact closes hw ho hi' hsm hor hset a ha
    · intro a ha hea
      rcases g.all a ha hea with h1 | h1
      · rcases List.mem_cons.1 h1 with rfl | h1
        · exact .inr (by simp)
        · exact .inl h1
      · exact .inr (List.mem_cons_of_mem _ h1)
  | switch hno hns hcr hmax hr ih =>
    intro hc hs hi
    have hi' : InvC I _ _ _ := hi
    exact ih hc hs (hi'.switch hw ho hno hcr hmax)

end

end Aps.Chunk
