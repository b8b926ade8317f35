import Verif.Proofs.ChunkExtract
import Mathlib.Data.Finset.Card
/-! Invariants of runs. -/
set_option linter.unusedVariables false
namespace Aps.Chunk
open Aps.Dnc Aps.Oag

/-- a finite set of parts has a minimal element, up to cycles -/
theorem exists_minimal (l : List Part) (r : Part → Part → Prop) (htr : ∀ a b c, r a b → r b c → r a c) (P : Part → Prop)
    (hP : ∀ a, P a → a ∈ l) {a : Part} (ha : P a) : ∃ m, P m ∧ ∀ z, P z → r z m → r m z := by
  classical
  let f : Part → Nat := fun a => (l.toFinset.filter fun z => P z ∧ (r z a ∨ z = a)).card
  have key : ∀ (k : Nat) (a : Part), P a → f a = k → ∃ m, P m ∧ ∀ z, P z → r z m → r m z := by
    intro k
    induction k using Nat.strong_induction_on with
    | _ k ih =>
      intro a ha hk
      by_cases h : ∀ z, P z → r z a → r a z
      · exact ⟨a, ha, h⟩
      · push Not at h
        obtain ⟨z, hz, hza, haz⟩ := h
        refine ih (f z) ?_ z hz rfl
        rw [← hk]
        refine Finset.card_lt_card ?_
        rw [Finset.ssubset_iff_of_subset]
        · refine ⟨a, by simp [hP a ha, ha], ?_⟩
          simp only [Finset.mem_filter, not_and, not_or]
          rintro _ _
          exact ⟨haz, fun e => haz (e ▸ hza)⟩
        · intro w hw
          simp only [Finset.mem_filter, List.mem_toFinset] at hw ⊢
          refine ⟨hw.1, hw.2.1, .inl ?_⟩
          rcases hw.2.2 with h | rfl
          · exact htr _ _ _ h hza
          · exact hza
  exact key _ a ha rfl

/-- alone in its cycle -/
def Alone (I : Input) (q : Nat) : Prop := ∀ b, Reach I (.right q) b → Reach I b (.right q) → b = .right q

theorem Same.has {I : Input} (hw : Wf I) {x y : Part} (h : Same I x y) (hx : I.Has x) : I.Has y := by
  rcases h with rfl | ⟨h, _⟩
  · exact hx
  · exact (reach_has hw h).2

theorem Open.same {I : Input} {cd : List Part} {x y : Part} (h : Open I cd x) (hs : Same I x y) : Open I cd y := by
  rcases hs with rfl | ⟨h1, h2⟩
  · exact h
  · intro z hz hn
    exact h z (hz.trans h2) (fun h' => hn (h2.trans h'))

theorem must_of_open {I : Input} {cd : List Part} {a y : Part} (ho : Open I cd y)
    (hb : ∀ z, Same I y z → Blocks I z y → z ∈ cd) (hm : Must I a y) : a ∈ cd := by
  rcases hm with ⟨h1, h2⟩ | ⟨h1, h2⟩
  · exact ho a h1 h2
  · have hr : Reach I a y := .single (direct_step h1)
    by_cases h : Reach I y a
    · exact hb a (.inr ⟨h, hr⟩) ⟨h1, h2⟩
    · exact ho a hr h

/-- something is available in an open component with something to do, unless prevented -/
theorem exists_avail {I : Input} (hw : Wf I) {ph : Nat} {cd : List Part} {x a : Part} (hx : I.Has x) (hs : Same I x a)
    (ha : a ∉ cd) (hp : ∀ z, Same I x z → ¬ Prevented I ph z) : ∃ z, Same I x z ∧ Avail I ph cd z := by
  obtain ⟨m, ⟨h1, h2⟩, h3⟩ := exists_minimal (parts I) (Relation.TransGen (Direct I)) (fun a b c h h' => h.trans h')
    (fun z => Same I x z ∧ z ∉ cd) (fun z hz => mem_parts.2 (hz.1.has hw hx)) (a := a) ⟨hs, ha⟩
  refine ⟨m, h1, h1.has hw hx, h2, hp m h1, ?_⟩
  intro z hz hbl
  by_contra hn
  exact hbl.2 (h3 z ⟨h1.trans hz, hn⟩ (.single hbl.1))

/-- what holds between two parts -/
structure Inv (I : Input) (cd : List Part) (ph : Nat) : Prop where
  pos : 1 ≤ ph
  has : ∀ k ∈ cd, I.Has k
  down : ∀ k ∈ cd, ∀ a, Must I a k → a ∈ cd
  left : ∀ q, 1 ≤ q → q < ph → .left q ∈ cd
  right : ∀ q, 1 ≤ q → q < ph → .right q ∈ cd
  greedy : ∀ q, 1 ≤ q → q < ph → I.parent.circ q = false → Alone I q → ∀ a, I.Has a → ¬ Reach I (.right q) a → a ∈ cd
  cyc : ∀ q, 1 ≤ q → q < ph → ∀ a, Same I (.right q) a → (∀ z, Same I (.right q) z → ¬ Prevented I q z) →
    ¬ Relation.TransGen (Direct I) (.right q) a → a ∈ cd
  lateLeft : ∀ q, ph < q → .left q ∉ cd
  lateRight : ∀ q, ph ≤ q → .right q ∉ cd

/-- what holds in a component -/
structure InvC (I : Input) (x : Part) (cd : List Part) (ph : Nat) : Prop extends Inv I cd ph where
  max : ph ≤ I.parent.maxPhase
  hasx : I.Has x
  now : .left ph ∈ cd
  op : Open I cd x
  last : x = .right ph → Alone I ph → I.parent.circ ph = false → ∀ a, I.Has a → ¬ Reach I (.right ph) a → a = .right ph ∨ a ∈ cd

/-- what holds in each mode -/
def InvM (I : Input) : Mode → List Part → Nat → Prop
  | .start, cd, ph => Inv I cd ph ∧ .left ph ∉ cd
  | .comp x, cd, ph => InvC I x cd ph

theorem not_prevented {I : Input} (hw : Wf I) {q : Nat} (h : I.parent.circ q = false ∨ ∀ ch r info, Reach I (.right q) (.visit ch r) →
    Reach I (.visit ch r) (.right q) → I.children[ch]? = some (some info) → info.circ r = true) :
    ∀ z, Same I (.right q) z → ¬ Prevented I q z := by
  intro z hz hp
  cases z with
  | visit ch r =>
    rcases h with h | h
    · have := hp.2; rw [h] at this; cases this
    · obtain ⟨h1, h2⟩ := hz.resolve_left (by simp)
      obtain ⟨info, h3, _⟩ := (reach_has hw h1).2
      have := h ch r info h1 h2 h3
      rw [hp.1 info h3] at this
      cases this
  | _ => exact hp

section
variable {I : Input} (hw : Wf I) (ho : Ordered I)
include hw ho

omit hw ho in
theorem guide_lr {p : Nat} (h : 1 ≤ p) (h' : p ≤ I.parent.maxPhase) : Reach I (.left p) (.right p) :=
  .single (.inr ⟨⟨h, h'⟩, ⟨h, h'⟩, rfl⟩)

omit hw ho in
theorem guide_rl {p : Nat} (h : 1 ≤ p) (h' : p + 1 ≤ I.parent.maxPhase) : Reach I (.right p) (.left (p + 1)) :=
  .single (.inr ⟨⟨h, by omega⟩, ⟨by omega, h'⟩, rfl⟩)

omit hw ho in
theorem guide_rr {p : Nat} (h : 1 ≤ p) (k : Nat) : p + 1 + k ≤ I.parent.maxPhase → Reach I (.right p) (.left (p + 1 + k)) := by
  induction k with
  | zero => intro h'; exact guide_rl h h'
  | succ k ih =>
    intro h'
    exact ((ih (by omega)).trans (guide_lr (by omega) (by omega))).trans (guide_rl (by omega) h')

omit hw in
/-- the end of a phase has to come before a later phase -/
theorem must_rl {p q : Nat} (hp : 1 ≤ p) (hpq : p < q) (hq : q ≤ I.parent.maxPhase) : Must I (.right p) (.left q) := by
  obtain ⟨k, rfl⟩ := Nat.exists_eq_add_of_lt hpq
  refine .inl ⟨?_, ho p _ hp hpq hq⟩
  have := guide_rr (I := I) hp k (by omega)
  rwa [show p + k + 1 = p + 1 + k by omega]

omit hw in
theorem must_rr {p q : Nat} (hp : 1 ≤ p) (hpq : p < q) (hq : q ≤ I.parent.maxPhase) : Must I (.right p) (.right q) := by
  rcases must_rl ho hp hpq hq with ⟨h1, h2⟩ | ⟨h1, h2⟩
  · exact .inl ⟨h1.trans (guide_lr (by omega) hq), fun h => h2 ((guide_lr (by omega) hq).trans h)⟩
  · have h1' : Reach I (.right p) (.left q) := .single (direct_step h1)
    exact .inl ⟨h1'.trans (guide_lr (by omega) hq), fun h => ho p q hp hpq hq ((guide_lr (by omega) hq).trans h)⟩

theorem Inv.begin {cd : List Part} {ph : Nat} (h : Inv I cd ph) (hm : ph ≤ I.parent.maxPhase) (hn : .left ph ∉ cd)
    (hent : ∀ a, I.Has a → Must I a (.left ph) → Early I a ph) : InvC I (.left ph) (.left ph :: cd) ph := by
  have hnow : ∀ a, Must I a (.left ph) → a ∈ cd := by
    intro a hma
    have hha : I.Has a := by
      rcases hma with ⟨h1, _⟩ | ⟨h1, _⟩
      · exact (reach_has hw h1).1
      · exact (reach_has hw (.single (direct_step h1))).1
    obtain ⟨q, hq1, hq2, h'⟩ := hent a hha hma
    rcases h' with rfl | rfl | h' | ⟨h1, h2, h3, h4⟩ | ⟨h1, h2, h3⟩
    · exact h.left q hq1 hq2
    · exact h.right q hq1 hq2
    · exact h.down _ (h.right q hq1 hq2) a h'
    · exact h.cyc q hq1 hq2 a (.inr ⟨h1, h2⟩) (not_prevented hw h4) h3
    · exact h.greedy q hq1 hq2 h1 h2 a hha h3
  refine ⟨⟨h.pos, ?_, ?_, ?_, ?_, ?_, ?_, ?_, ?_⟩, hm, ⟨h.pos, hm⟩, by simp, ?_, ?_⟩
  · intro k hk
    rcases List.mem_cons.1 hk with rfl | hk
    · exact ⟨h.pos, hm⟩
    · exact h.has k hk
  · intro k hk a hma
    rcases List.mem_cons.1 hk with rfl | hk
    · exact List.mem_cons_of_mem _ (hnow a hma)
    · exact List.mem_cons_of_mem _ (h.down k hk a hma)
  · exact fun q h1 h2 => List.mem_cons_of_mem _ (h.left q h1 h2)
  · exact fun q h1 h2 => List.mem_cons_of_mem _ (h.right q h1 h2)
  · exact fun q h1 h2 h3 h4 a h5 h6 => List.mem_cons_of_mem _ (h.greedy q h1 h2 h3 h4 a h5 h6)
  · exact fun q h1 h2 a h3 h4 h5 => List.mem_cons_of_mem _ (h.cyc q h1 h2 a h3 h4 h5)
  · intro q hq hk
    rcases List.mem_cons.1 hk with hk | hk
    · have := Part.left.inj hk; omega
    · exact h.lateLeft q hq hk
  · intro q hq hk
    rcases List.mem_cons.1 hk with hk | hk
    · cases hk
    · exact h.lateRight q hq hk
  · exact fun z h1 h2 => List.mem_cons_of_mem _ (hnow z (.inl ⟨h1, h2⟩))
  · intro e; cases e

theorem Avail.down {cd : List Part} {ph : Nat} {x y : Part} (h : InvC I x cd ph) (hs : Same I x y) (ha : Avail I ph cd y)
    {a : Part} (hm : Must I a y) : a ∈ cd := must_of_open (h.op.same hs) ha.2.2.2 hm

theorem InvC.pick {cd : List Part} {ph : Nat} {x y : Part} (h : InvC I x cd ph) (hs : Same I x y) (ha : Avail I ph cd y)
    (hnr : ∀ p, y ≠ .right p) : InvC I x (y :: cd) ph := by
  have hyl : ∀ p, y ≠ .left p := by
    rintro p rfl
    obtain ⟨h1, h2⟩ : 1 ≤ p ∧ p ≤ I.parent.maxPhase := ha.1
    rcases Nat.lt_trichotomy p ph with h3 | rfl | h3
    · exact ha.2.1 (h.left p h1 h3)
    · exact ha.2.1 h.now
    · exact h.lateRight ph (Nat.le_refl _) (ha.down hw ho h hs (must_rl ho h.pos h3 h2))
  refine ⟨⟨h.pos, ?_, ?_, ?_, ?_, ?_, ?_, ?_, ?_⟩, h.max, h.hasx, List.mem_cons_of_mem _ h.now, ?_, ?_⟩
  · intro k hk
    rcases List.mem_cons.1 hk with rfl | hk
    · exact ha.1
    · exact h.has k hk
  · intro k hk a hma
    rcases List.mem_cons.1 hk with rfl | hk
    · exact List.mem_cons_of_mem _ (ha.down hw ho h hs hma)
    · exact List.mem_cons_of_mem _ (h.down k hk a hma)
  · exact fun q h1 h2 => List.mem_cons_of_mem _ (h.left q h1 h2)
  · exact fun q h1 h2 => List.mem_cons_of_mem _ (h.right q h1 h2)
  · exact fun q h1 h2 h3 h4 a h5 h6 => List.mem_cons_of_mem _ (h.greedy q h1 h2 h3 h4 a h5 h6)
  · exact fun q h1 h2 a h3 h4 h5 => List.mem_cons_of_mem _ (h.cyc q h1 h2 a h3 h4 h5)
  · intro q hq hk
    rcases List.mem_cons.1 hk with hk | hk
    · exact hyl q hk.symm
    · exact h.lateLeft q hq hk
  · intro q hq hk
    rcases List.mem_cons.1 hk with hk | hk
    · exact hnr q hk.symm
    · exact h.lateRight q hq hk
  · exact fun z h1 h2 => List.mem_cons_of_mem _ (h.op z h1 h2)
  · intro e h1 h2 a h3 h4
    exact (h.last e h1 h2 a h3 h4).imp_right (List.mem_cons_of_mem _)

/-- the end of a phase is that of the current phase -/
theorem InvC.right_eq {cd : List Part} {ph p : Nat} {x : Part} (h : InvC I x cd ph) (hs : Same I x (.right p))
    (ha : Avail I ph cd (.right p)) : p = ph := by
  obtain ⟨h1, h2⟩ : 1 ≤ p ∧ p ≤ I.parent.maxPhase := ha.1
  rcases Nat.lt_trichotomy p ph with h3 | h3 | h3
  · exact absurd (h.right p h1 h3) ha.2.1
  · exact h3
  · exact absurd (ha.down hw ho h hs (must_rr ho h.pos h3 h2)) (h.lateRight ph (Nat.le_refl _))

theorem InvC.pickRight {cd : List Part} {ph : Nat} {x : Part} (h : InvC I x cd ph) (hs : Same I x (.right ph))
    (ha : Avail I ph cd (.right ph)) (hor : ∀ z, Same I x z → Avail I ph cd z → ∃ q, z = .right q) :
    Inv I (.right ph :: cd) (ph + 1) ∧ .left (ph + 1) ∉ Part.right ph :: cd := by
  refine ⟨⟨by omega, ?_, ?_, ?_, ?_, ?_, ?_, ?_, ?_⟩, ?_⟩
  · intro k hk
    rcases List.mem_cons.1 hk with rfl | hk
    · exact ha.1
    · exact h.has k hk
  · intro k hk a hma
    rcases List.mem_cons.1 hk with rfl | hk
    · exact List.mem_cons_of_mem _ (ha.down hw ho h hs hma)
    · exact List.mem_cons_of_mem _ (h.down k hk a hma)
  · intro q h1 h2
    rcases Nat.lt_or_ge q ph with h3 | h3
    · exact List.mem_cons_of_mem _ (h.left q h1 h3)
    · obtain rfl : q = ph := by omega
      exact List.mem_cons_of_mem _ h.now
  · intro q h1 h2
    rcases Nat.lt_or_ge q ph with h3 | h3
    · exact List.mem_cons_of_mem _ (h.right q h1 h3)
    · obtain rfl : q = ph := by omega
      simp
  · intro q h1 h2 h3 h4 a h5 h6
    rcases Nat.lt_or_ge q ph with h7 | h7
    · exact List.mem_cons_of_mem _ (h.greedy q h1 h7 h3 h4 a h5 h6)
    · obtain rfl : q = ph := by omega
      have hx : x = .right q := by
        rcases hs with rfl | ⟨h8, h9⟩
        · rfl
        · exact h4 x h9 h8
      rcases h.last hx h4 h3 a h5 h6 with rfl | h8
      · simp
      · exact List.mem_cons_of_mem _ h8
  · intro q h1 h2 a h3 h4 h5
    rcases Nat.lt_or_ge q ph with h7 | h7
    · exact List.mem_cons_of_mem _ (h.cyc q h1 h7 a h3 h4 h5)
    · obtain rfl : q = ph := by omega
      by_contra hc
      simp only [List.mem_cons, not_or] at hc
      obtain ⟨m, ⟨g1, g2, g3, g4⟩, g5⟩ := exists_minimal (parts I) (Relation.TransGen (Direct I)) (fun a b c h h' => h.trans h')
        (fun z => Same I x z ∧ z ∉ cd ∧ ¬ Relation.TransGen (Direct I) (.right q) z ∧ z ≠ .right q)
        (fun z hz => mem_parts.2 (hz.1.has hw h.hasx)) (a := a) ⟨hs.trans h3, hc.2, h5, hc.1⟩
      have hav : Avail I q cd m := by
        refine ⟨g1.has hw h.hasx, g2, h4 m (hs.symm.trans g1), ?_⟩
        intro z hz hbl
        by_contra hn
        refine hbl.2 (g5 z ⟨g1.trans hz, hn, fun h' => g3 (h'.tail hbl.1), ?_⟩ (.single hbl.1))
        rintro rfl
        exact g3 (.single hbl.1)
      obtain ⟨p, rfl⟩ := hor m g1 hav
      exact g4 (by rw [h.right_eq hw ho g1 hav])
  · intro q hq hk
    rcases List.mem_cons.1 hk with hk | hk
    · cases hk
    · exact h.lateLeft q (by omega) hk
  · intro q hq hk
    rcases List.mem_cons.1 hk with hk | hk
    · have := Part.right.inj hk; omega
    · exact h.lateRight q (by omega) hk
  · intro hk
    rcases List.mem_cons.1 hk with hk | hk
    · cases hk
    · exact h.lateLeft _ (by omega) hk

theorem InvC.switch {cd : List Part} {ph : Nat} {x y : Part} (h : InvC I x cd ph) (hno : ∀ z, Same I x z → ¬ Avail I ph cd z)
    (hcr : CReady I cd y) (hmax : OnlyRight I y → ∀ w, ¬ Same I x w → CReady I cd w → OnlyRight I w) : InvC I y cd ph := by
  refine ⟨h.toInv, h.max, hcr.1, h.now, hcr.2.1, ?_⟩
  rintro rfl hal hcirc a ha hna
  by_contra hc
  push Not at hc
  have hor : OnlyRight I (.right ph) := by
    intro z hz
    rcases hz with rfl | ⟨h1, h2⟩
    · exact ⟨ph, rfl⟩
    · exact ⟨ph, hal z h1 h2⟩
  obtain ⟨m, ⟨h1, h2, h3, h4⟩, h5⟩ := exists_minimal (parts I) (Reach I) (fun a b c h h' => h.trans h')
    (fun z => I.Has z ∧ z ∉ cd ∧ ¬ Reach I (.right ph) z ∧ z ≠ .right ph) (fun z hz => mem_parts.2 hz.1) (a := a)
    ⟨ha, hc.2, hna, hc.1⟩
  have hop : Open I cd m := by
    intro z hz hn
    by_contra hnc
    refine hn (h5 z ⟨(reach_has hw hz).1, hnc, fun h' => h3 (h'.trans hz), ?_⟩ hz)
    rintro rfl
    exact h3 hz
  by_cases hsm : Same I x m
  · obtain ⟨z, hz, haz⟩ := exists_avail hw (ph := ph) h.hasx hsm h2 (by
      intro z hz
      cases z <;> simp [Prevented, hcirc])
    exact hno z hz haz
  · obtain ⟨p, rfl⟩ := hmax hor m hsm ⟨h1, hop, m, .inl rfl, h2⟩ m (.inl rfl)
    obtain ⟨h6, h7⟩ : 1 ≤ p ∧ p ≤ I.parent.maxPhase := h1
    rcases Nat.lt_trichotomy p ph with h8 | h8 | h8
    · exact h2 (h.right p h6 h8)
    · exact h4 (by rw [h8])
    · rcases must_rr ho h.pos h8 h7 with ⟨h9, _⟩ | ⟨h9, _⟩
      · exact h3 h9
      · exact h3 (.single (direct_step h9))

end

/-- the state at the beginning -/
theorem inv_begin (I : Input) : Inv I [] 1 ∧ .left 1 ∉ ([] : List Part) :=
  ⟨⟨Nat.le_refl _, by simp, by simp, by omega, by omega, by omega, by omega, by simp, by simp⟩, by simp⟩

end Aps.Chunk
