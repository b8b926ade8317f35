import Verif.Model.SccGen
import Mathlib.Tactic.Common
import Mathlib.Data.List.Forall2
/-!
# Flat programs: assignments and loops of assignments

What an evaluation of a tree amounts to. If everything read was assigned before, or is circular and assigned in the same
loop, the equations hold at the end.
-/
set_option linter.unusedVariables false
set_option linter.unusedSectionVars false
namespace Aps.SccGen
open Aps.Static

variable {V : Type} [DecidableEq V]

/-- an assignment: `slot := fn(reads)` -/
structure SEv (V : Type) where
  slot : Slot
  reads : List Slot
  fn : List V → V

inductive Item (V : Type)
  | set (e : SEv V)
  | loop (es : List (SEv V))

def readSlots (A : Attrs V) : List Slot → St V → Res (List V × St V)
  | [], st => .ok ([], st)
  | s :: ss, st => do
    let (v, st) ← readSlot A s st
    let (vs, st) ← readSlots A ss st
    return (v :: vs, st)

def runEv (A : Attrs V) (e : SEv V) (st : St V) : Res (St V) := do
  let (vs, st) ← readSlots A e.reads st
  setSlot A e.slot (e.fn vs) st

def runEvs (A : Attrs V) : List (SEv V) → St V → Res (St V)
  | [], st => .ok st
  | e :: es, st => do
    let st ← runEv A e st
    runEvs A es st

def runItem (A : Attrs V) (n : Nat) : Item V → St V → Res (St V)
  | .set e, st => runEv A e st
  | .loop es, st => do
    let st' ← runLoop (runEvs A es) n st
    return { st' with changed := st.changed }

def runItems (A : Attrs V) (n : Nat) : List (Item V) → St V → Res (St V)
  | [], st => .ok st
  | i :: is, st => do
    let st ← runItem A n i st
    runItems A n is st

/-- the value that would be read -/
def view (A : Attrs V) (st : St V) (s : Slot) : Option V :=
  match st.val s with
  | some v => some v
  | none => if A.circ s.2 then some (A.bot s.2) else none

/-- `D` and the slots of a list -/
def ext (D : Slot → Prop) (l : List Slot) : Slot → Prop := fun s => D s ∨ s ∈ l

/-- In order, everything read was assigned before or is one of `L`. -/
def WClosed (Q : SEv V → Prop) (L : Slot → Prop) : (Slot → Prop) → List (SEv V) → Prop
  | _, [] => True
  | D, e :: es => Q e ∧ (∀ r ∈ e.reads, D r ∨ L r) ∧ WClosed Q L (ext D [e.slot]) es

/-- the circular ones among the assigned -/
def inLoop (A : Attrs V) (es : List (SEv V)) : Slot → Prop := fun s => s ∈ es.map (·.slot) ∧ A.circ s.2 = true

def Item.slots : Item V → List Slot
  | .set e => [e.slot]
  | .loop es => es.map (·.slot)

/-- Everything read was assigned before or is circular and assigned in the same loop. -/
def Closed (A : Attrs V) (Q : SEv V → Prop) : (Slot → Prop) → List (Item V) → Prop
  | _, [] => True
  | D, .set e :: is => Q e ∧ (∀ r ∈ e.reads, D r) ∧ Closed A Q (ext D [e.slot]) is
  | D, .loop es :: is => WClosed Q (inLoop A es) D es ∧ Closed A Q (ext D (es.map (·.slot))) is

/-- one assignment for a slot -/
def Functional (Q : SEv V → Prop) : Prop := ∀ e e', Q e → Q e' → e.slot = e'.slot → e = e'

/-- The slots of `D` have values and their equations hold. -/
structure Inv (Q : SEv V → Prop) (D : Slot → Prop) (st : St V) : Prop where
  vals : ∀ s, D s → (st.val s).isSome
  eqn : ∀ e, Q e → D e.slot → (∀ r ∈ e.reads, D r) ∧ ∃ vs, e.reads.mapM st.val = some vs ∧ st.val e.slot = some (e.fn vs)

/-! ## Reading -/

theorem view_of_some {A : Attrs V} {st : St V} {s : Slot} {v : V} (h : st.val s = some v) : view A st s = some v := by
  simp [view, h]

theorem view_put {A : Attrs V} {st : St V} {s s' : Slot} {v : V} :
    view A (st.put s v) s' = if s' = s then some v else view A st s' := by
  unfold view St.put
  simp only
  split
  · rename_i h
    split at h
    · rename_i h'; rw [if_pos h', h]
    · rename_i h'; rw [if_neg h', h]
  · rename_i h
    split at h
    · cases h
    · rename_i h'; rw [if_neg h', h]

/-- Reading one slot. -/
theorem readSlot_view {A : Attrs V} {s : Slot} {st st' : St V} {v : V} (h : readSlot A s st = .ok (v, st')) :
    view A st s = some v ∧ (∀ s', view A st' s' = view A st s') ∧ st'.changed = st.changed ∧
    (∀ s' w, st.val s' = some w → st'.val s' = some w) ∧ (∀ s', s' ≠ s → st'.val s' = st.val s') := by
  unfold readSlot at h
  split at h
  · rename_i w hw
    cases h
    exact ⟨view_of_some hw, fun _ => rfl, rfl, fun _ _ h => h, fun _ _ => rfl⟩
  · rename_i hn
    split at h
    · rename_i hc
      cases h
      have hv : view A st s = some (A.bot s.2) := by simp [view, hn, hc]
      refine ⟨hv, ?_, rfl, ?_, ?_⟩
      · intro s'
        rw [view_put]
        split
        · rename_i h'; rw [h', hv]
        · rfl
      · intro s' w hw
        have : s' ≠ s := by rintro rfl; rw [hn] at hw; cases hw
        simp [St.put, this, hw]
      · intro s' hs'
        simp [St.put, hs']
    · cases h

theorem readSlots_view {A : Attrs V} {l : List Slot} : ∀ {st st' : St V} {vs : List V}, readSlots A l st = .ok (vs, st') →
    l.mapM (view A st) = some vs ∧ (∀ s', view A st' s' = view A st s') ∧ st'.changed = st.changed ∧
    (∀ s' w, st.val s' = some w → st'.val s' = some w) ∧ (∀ s', s' ∉ l → st'.val s' = st.val s') := by
  induction l with
  | nil =>
    intro st st' vs h
    cases h
    exact ⟨rfl, fun _ => rfl, rfl, fun _ _ h => h, fun _ _ => rfl⟩
  | cons s l ih =>
    intro st st' vs h
    simp only [readSlots] at h
    obtain ⟨⟨v, st₁⟩, h₁, h⟩ := Res.bind_eq_ok.1 h
    obtain ⟨⟨vs', st₂⟩, h₂, h⟩ := Res.bind_eq_ok.1 h
    cases h
    obtain ⟨a₁, a₂, a₃, a₄, a₅⟩ := readSlot_view h₁
    obtain ⟨b₁, b₂, b₃, b₄, b₅⟩ := ih h₂
    refine ⟨?_, fun s' => (b₂ s').trans (a₂ s'), b₃.trans a₃, fun s' w hw => b₄ _ _ (a₄ _ _ hw), ?_⟩
    · have : view A st₁ = view A st := funext a₂
      rw [this] at b₁
      simp [List.mapM_cons, a₁, b₁]
    · intro s' hs'
      simp only [List.mem_cons, not_or] at hs'
      rw [b₅ s' hs'.2, a₅ s' hs'.1]

/-- Reading succeeds if there are values to read. -/
theorem readSlots_ok {A : Attrs V} {l : List Slot} : ∀ {st : St V}, (∀ r ∈ l, (view A st r).isSome) →
    ∃ vs st', readSlots A l st = .ok (vs, st') := by
  induction l with
  | nil => intro st _; exact ⟨[], st, rfl⟩
  | cons s l ih =>
    intro st h
    have h₁ : ∃ v st₁, readSlot A s st = .ok (v, st₁) := by
      have := h s List.mem_cons_self
      unfold view at this
      unfold readSlot
      split
      · exact ⟨_, _, rfl⟩
      · rename_i hn
        rw [hn] at this
        simp only at this
        split at this
        · rename_i hc; rw [if_pos hc]; exact ⟨_, _, rfl⟩
        · cases this
    obtain ⟨v, st₁, h₁⟩ := h₁
    obtain ⟨vs, st₂, h₂⟩ := ih (st := st₁) (by
      intro r hr
      rw [(readSlot_view h₁).2.1]
      exact h r (List.mem_cons_of_mem _ hr))
    exact ⟨v :: vs, st₂, by simp [readSlots, h₁, h₂]⟩

theorem mapM_congr' {f g : Slot → Option V} {l : List Slot} (h : ∀ r ∈ l, f r = g r) : l.mapM f = l.mapM g := by
  induction l with
  | nil => rfl
  | cons s l ih =>
    rw [List.mapM_cons, List.mapM_cons, h s List.mem_cons_self, ih fun r hr => h r (List.mem_cons_of_mem _ hr)]

theorem mapM_isSome {f : Slot → Option V} {l : List Slot} (h : ∀ r ∈ l, (f r).isSome) : ∃ vs, l.mapM f = some vs := by
  induction l with
  | nil => exact ⟨[], rfl⟩
  | cons s l ih =>
    obtain ⟨v, hv⟩ := Option.isSome_iff_exists.1 (h s List.mem_cons_self)
    obtain ⟨vs, hvs⟩ := ih fun r hr => h r (List.mem_cons_of_mem _ hr)
    exact ⟨v :: vs, by simp [List.mapM_cons, hv, hvs]⟩

theorem isSome_of_mapM {f : Slot → Option V} {l : List Slot} {vs : List V} (h : l.mapM f = some vs) : ∀ r ∈ l, (f r).isSome := by
  induction l generalizing vs with
  | nil => intro r hr; cases hr
  | cons s l ih =>
    rw [List.mapM_cons] at h
    obtain ⟨v, hv, h⟩ := Option.bind_eq_some_iff.1 h
    obtain ⟨vs', hvs, h⟩ := Option.bind_eq_some_iff.1 h
    intro r hr
    rcases List.mem_cons.1 hr with rfl | hr
    · simp [hv]
    · exact ih hvs r hr

/-! ## Writing -/

/-- What writing does: the value is there; `changed` stays set, and is set if a circular value changes. -/
theorem setSlot_ok {A : Attrs V} {s : Slot} {v : V} {st st' : St V} (h : setSlot A s v st = .ok st') :
    st'.val = (st.put s v).val ∧ (st.changed = true → st'.changed = true) ∧
    (A.circ s.2 = true → st'.changed = false → st.val s = some v) ∧
    (A.circ s.2 = true → ∀ w, st.val s = some w → w = v ∨ A.le s.2 w v = true) := by
  unfold setSlot at h
  split at h
  · rename_i hc
    split at h
    · rename_i hn
      cases h
      exact ⟨rfl, fun _ => rfl, (fun _ h => by cases h), fun _ w hw => by rw [hn] at hw; cases hw⟩
    · rename_i w hw
      split at h
      · rename_i he
        cases h
        refine ⟨rfl, fun h => h, fun _ _ => by rw [hw, he], fun _ w' hw' => ?_⟩
        rw [hw] at hw'
        cases hw'
        exact .inl he
      · split at h
        · rename_i hle
          cases h
          refine ⟨rfl, fun _ => rfl, (fun _ h => by cases h), fun _ w' hw' => ?_⟩
          rw [hw] at hw'
          cases hw'
          exact .inr hle
        · cases h
  · rename_i hc
    cases h
    exact ⟨rfl, fun h => h, fun h => by simp [h] at hc, fun h => by simp [h] at hc⟩

theorem runEv_changed {A : Attrs V} {e : SEv V} {st st' : St V} (h : runEv A e st = .ok st') (hc : st.changed = true) :
    st'.changed = true := by
  unfold runEv at h
  obtain ⟨⟨vs, st₁⟩, h₁, h⟩ := Res.bind_eq_ok.1 h
  exact (setSlot_ok h).2.1 (by rw [(readSlots_view h₁).2.2.1]; exact hc)

theorem runEvs_changed {A : Attrs V} {es : List (SEv V)} : ∀ {st st' : St V}, runEvs A es st = .ok st' → st.changed = true →
    st'.changed = true := by
  induction es with
  | nil => intro st st' h hc; cases h; exact hc
  | cons e es ih =>
    intro st st' h hc
    simp only [runEvs] at h
    obtain ⟨st₁, h₁, h⟩ := Res.bind_eq_ok.1 h
    exact ih h (runEv_changed h₁ hc)

/-- the invariant is about the values of `D` only -/
theorem Inv.congr {Q : SEv V → Prop} {D : Slot → Prop} {st st' : St V} (h : Inv Q D st) (he : ∀ s, D s → st'.val s = st.val s) :
    Inv Q D st' := by
  refine ⟨fun s hs => by rw [he s hs]; exact h.vals s hs, fun e hQ hD => ?_⟩
  obtain ⟨hr, vs, hvs, hv⟩ := h.eqn e hQ hD
  refine ⟨hr, vs, ?_, by rw [he _ hD, hv]⟩
  rw [← hvs]
  exact mapM_congr' fun r hr' => he r (hr r hr')

/-- Assigning does not change what is done. -/
theorem runEv_keeps {A : Attrs V} {Q : SEv V → Prop} {D : Slot → Prop} {e : SEv V} {st st' : St V} (hI : Inv Q D st)
    (hQ : Q e) (h : runEv A e st = .ok st') : ∀ s, D s → st'.val s = st.val s := by
  intro s hs
  unfold runEv at h
  obtain ⟨⟨vs, st₁⟩, h₁, h⟩ := Res.bind_eq_ok.1 h
  obtain ⟨r₁, r₂, r₃, r₄, r₅⟩ := readSlots_view h₁
  obtain ⟨v, hv⟩ := Option.isSome_iff_exists.1 (hI.vals s hs)
  rw [hv, (setSlot_ok h).1]
  by_cases hse : s = e.slot
  · subst hse
    obtain ⟨hr, ws, hws, hw⟩ := hI.eqn e hQ hs
    have : e.reads.mapM (view A st) = some ws := by
      rw [← hws]
      apply mapM_congr'
      intro r hr'
      obtain ⟨x, hx⟩ := Option.isSome_iff_exists.1 (hI.vals r (hr r hr'))
      rw [view_of_some hx, hx]
    rw [r₁] at this
    cases this
    rw [hw] at hv
    simp only [St.put, if_true]
    exact hv
  · simp only [St.put, if_neg hse]
    exact r₄ _ _ hv

theorem runEvs_keeps {A : Attrs V} {Q : SEv V → Prop} {D : Slot → Prop} {es : List (SEv V)} : ∀ {st st' : St V}, Inv Q D st →
    (∀ e ∈ es, Q e) → runEvs A es st = .ok st' → ∀ s, D s → st'.val s = st.val s := by
  induction es with
  | nil => intro st st' _ _ h s _; cases h; rfl
  | cons e es ih =>
    intro st st' hI hQ h s hs
    simp only [runEvs] at h
    obtain ⟨st₁, h₁, h⟩ := Res.bind_eq_ok.1 h
    have h₂ := runEv_keeps hI (hQ e List.mem_cons_self) h₁
    rw [ih (hI.congr h₂) (fun e' he' => hQ e' (List.mem_cons_of_mem _ he')) h s hs, h₂ s hs]

theorem WClosed.all {Q : SEv V → Prop} {L D : Slot → Prop} {es : List (SEv V)} (h : WClosed Q L D es) : ∀ e ∈ es, Q e := by
  induction es generalizing D with
  | nil => intro e he; cases he
  | cons e es ih =>
    intro e' he'
    rcases List.mem_cons.1 he' with rfl | he'
    · exact h.1
    · exact ih h.2.2 e' he'

theorem WClosed.mono {Q : SEv V → Prop} {L L' D D' : Slot → Prop} (hL : ∀ s, L s → L' s) {es : List (SEv V)}
    (hD : ∀ s, D s → D' s ∨ L' s) (h : WClosed Q L D es) : WClosed Q L' D' es := by
  induction es generalizing D D' with
  | nil => trivial
  | cons e es ih =>
    refine ⟨h.1, fun r hr => ?_, ih ?_ h.2.2⟩
    · rcases h.2.1 r hr with h | h
      · exact hD r h
      · exact .inr (hL r h)
    · rintro s (hs | hs)
      · rcases hD s hs with h | h
        · exact .inl (.inl h)
        · exact .inr h
      · exact .inl (.inr hs)

/-- What holds during the last round of a loop: the assignments made in it are right, if one reads what would be read. -/
structure Mid (A : Attrs V) (Q : SEv V → Prop) (L D : Slot → Prop) (st : St V) : Prop where
  vals : ∀ s, D s → (st.val s).isSome
  eqn : ∀ e, Q e → D e.slot → (∀ r ∈ e.reads, D r ∨ L r) ∧
    ∃ vs, e.reads.mapM (view A st) = some vs ∧ st.val e.slot = some (e.fn vs)

theorem last_round {A : Attrs V} {Q : SEv V → Prop} {L : Slot → Prop} (hf : Functional Q) (hL : ∀ s, L s → A.circ s.2 = true)
    {es : List (SEv V)} : ∀ {D : Slot → Prop} {st st' : St V}, Mid A Q L D st → WClosed Q L D es → runEvs A es st = .ok st' →
    st'.changed = false → Mid A Q L (ext D (es.map (·.slot))) st' := by
  induction es with
  | nil =>
    intro D st st' hM _ h _
    cases h
    refine ⟨fun s hs => ?_, fun e hQ hs => ?_⟩
    · rcases hs with hs | hs
      · exact hM.vals s hs
      · cases hs
    · rcases hs with hs | hs
      · refine ⟨fun r hr => ?_, (hM.eqn e hQ hs).2⟩
        rcases (hM.eqn e hQ hs).1 r hr with h | h
        · exact .inl (.inl h)
        · exact .inr h
      · cases hs
  | cons e es ih =>
    intro D st st' hM hW h hc
    simp only [runEvs] at h
    obtain ⟨st₁, h₁, h⟩ := Res.bind_eq_ok.1 h
    have hc₁ : st₁.changed = false := by
      cases hst : st₁.changed with
      | false => rfl
      | true => rw [runEvs_changed h hst] at hc; cases hc
    have : Mid A Q L (ext D [e.slot]) st₁ := by
      unfold runEv at h₁
      obtain ⟨⟨vs, st₀⟩, h₀, h₁⟩ := Res.bind_eq_ok.1 h₁
      obtain ⟨r₁, r₂, r₃, r₄, r₅⟩ := readSlots_view h₀
      obtain ⟨s₁, s₂, s₃, s₄⟩ := setSlot_ok h₁
      have hvw : ∀ s, view A st₁ s = if s = e.slot then some (e.fn vs) else view A st s := by
        intro s
        have : view A st₁ s = view A (st₀.put e.slot (e.fn vs)) s := by unfold view; rw [s₁]
        rw [this, view_put, r₂]
      -- nothing that was right is changed
      have hsame : (D e.slot ∨ L e.slot) → view A st e.slot = some (e.fn vs) := by
        intro hDL
        by_cases hcirc : A.circ e.slot.2 = true
        · have := s₃ hcirc hc₁
          rw [← r₂, view_of_some this]
        · rcases hDL with hD | hL'
          · obtain ⟨_, ws, hws, hw⟩ := hM.eqn e hW.1 hD
            rw [r₁] at hws
            cases hws
            exact view_of_some hw
          · exact absurd (hL _ hL') hcirc
      have hview : ∀ s, D s ∨ L s → view A st₁ s = view A st s := by
        intro s hs
        rw [hvw]
        split
        · rename_i he
          subst he
          rw [hsame hs]
        · rfl
      refine ⟨fun s hs => ?_, fun e' hQ hs => ?_⟩
      · rw [s₁]
        simp only [St.put]
        split
        · rfl
        · rename_i hne
          rcases hs with hs | hs
          · obtain ⟨v, hv⟩ := Option.isSome_iff_exists.1 (hM.vals s hs)
            rw [r₄ _ _ hv]
            rfl
          · simp at hs
            exact absurd hs hne
      · have hself : st₁.val e.slot = some (e.fn vs) := by rw [s₁]; simp [St.put]
        have heq : e'.slot = e.slot → (∀ r ∈ e'.reads, ext D [e.slot] r ∨ L r) ∧
            ∃ vs, e'.reads.mapM (view A st₁) = some vs ∧ st₁.val e'.slot = some (e'.fn vs) := by
          intro he
          have := hf e' e hQ hW.1 he
          subst this
          refine ⟨fun r hr => (hW.2.1 r hr).elim (fun h => .inl (.inl h)) .inr, vs, ?_, hself⟩
          rw [← r₁]
          exact mapM_congr' fun r hr => hview r (hW.2.1 r hr)
        rcases hs with hs | hs
        · by_cases he : e'.slot = e.slot
          · exact heq he
          · obtain ⟨hr, ws, hws, hw⟩ := hM.eqn e' hQ hs
            refine ⟨fun r hr' => (hr r hr').elim (fun h => .inl (.inl h)) .inr, ws, ?_, ?_⟩
            · rw [← hws]
              exact mapM_congr' fun r hr' => hview r (hr r hr')
            · rw [s₁]
              simp only [St.put, if_neg he]
              exact r₄ _ _ hw
        · simp at hs
          exact heq hs
    have := ih this hW.2.2 h hc
    have hext : ext (ext D [e.slot]) (es.map (·.slot)) = ext D ((e :: es).map (·.slot)) := by
      funext s
      simp [ext, or_assoc]
    rw [hext] at this
    exact this

/-- A loop that ends: nothing done before is changed, its equations hold. -/
theorem runLoop_inv {A : Attrs V} {Q : SEv V → Prop} {D : Slot → Prop} (hf : Functional Q) {es : List (SEv V)}
    (hW : WClosed Q (inLoop A es) D es) : ∀ (n : Nat) {st st' : St V}, Inv Q D st → runLoop (runEvs A es) n st = .ok st' →
    Inv Q (ext D (es.map (·.slot))) st' := by
  intro n
  induction n with
  | zero => intro st st' _ h; cases h
  | succ n ih =>
    intro st st' hI h
    simp only [runLoop] at h
    obtain ⟨st₁, h₁, h⟩ := Res.bind_eq_ok.1 h
    have hI' : Inv Q D { st with changed := false } := hI.congr fun _ _ => rfl
    have hk := runEvs_keeps hI' hW.all h₁
    split at h
    · exact ih (hI'.congr hk) h
    · rename_i hc
      cases h
      have hM : Mid A Q (inLoop A es) D { st with changed := false } := by
        refine ⟨hI'.vals, fun e hQ hD => ?_⟩
        obtain ⟨hr, vs, hvs, hv⟩ := hI'.eqn e hQ hD
        refine ⟨fun r hr' => .inl (hr r hr'), vs, ?_, hv⟩
        rw [← hvs]
        apply mapM_congr'
        intro r hr'
        obtain ⟨x, hx⟩ := Option.isSome_iff_exists.1 (hI'.vals r (hr r hr'))
        rw [view_of_some hx, hx]
      have := last_round hf (fun s hs => hs.2) hM hW h₁ (by simpa using hc)
      have hall : ∀ r, ext D (es.map (·.slot)) r ∨ inLoop A es r → ext D (es.map (·.slot)) r := by
        rintro r (h | h)
        · exact h
        · exact .inr h.1
      refine ⟨this.vals, fun e hQ hD => ?_⟩
      obtain ⟨hr, vs, hvs, hv⟩ := this.eqn e hQ hD
      refine ⟨fun r hr' => hall r (hr r hr'), vs, ?_, hv⟩
      rw [← hvs]
      apply mapM_congr'
      intro r hr'
      obtain ⟨x, hx⟩ := Option.isSome_iff_exists.1 (this.vals r (hall r (hr r hr')))
      rw [view_of_some hx, hx]

/-- An assignment whose reads are done. -/
theorem runEv_inv {A : Attrs V} {Q : SEv V → Prop} {D : Slot → Prop} (hf : Functional Q) {e : SEv V} {st st' : St V}
    (hI : Inv Q D st) (hQ : Q e) (hr : ∀ r ∈ e.reads, D r) (h : runEv A e st = .ok st') : Inv Q (ext D [e.slot]) st' := by
  have hk := runEv_keeps hI hQ h
  unfold runEv at h
  obtain ⟨⟨vs, st₁⟩, h₁, h⟩ := Res.bind_eq_ok.1 h
  obtain ⟨r₁, r₂, r₃, r₄, r₅⟩ := readSlots_view h₁
  have hs := (setSlot_ok h).1
  have hval : st'.val e.slot = some (e.fn vs) := by rw [hs]; simp [St.put]
  have hvs : e.reads.mapM st'.val = some vs := by
    rw [← r₁]
    apply mapM_congr'
    intro r hr'
    obtain ⟨x, hx⟩ := Option.isSome_iff_exists.1 (hI.vals r (hr r hr'))
    rw [hk r (hr r hr'), view_of_some hx, hx]
  refine ⟨fun s hD => ?_, fun e' hQ' hD => ?_⟩
  · rcases hD with hD | hD
    · rw [hk s hD]; exact hI.vals s hD
    · simp at hD
      rw [hD, hval]
      rfl
  · rcases hD with hD | hD
    · obtain ⟨h₁, h₂⟩ := (hI.congr hk).eqn e' hQ' hD
      exact ⟨fun r hr' => .inl (h₁ r hr'), h₂⟩
    · simp at hD
      have := hf e' e hQ' hQ hD
      subst this
      exact ⟨fun r hr' => .inl (hr r hr'), vs, hvs, hval⟩

theorem runItems_inv {A : Attrs V} {Q : SEv V → Prop} (hf : Functional Q) (n : Nat) {is : List (Item V)} :
    ∀ {D : Slot → Prop} {st st' : St V}, Inv Q D st → Closed A Q D is → runItems A n is st = .ok st' →
      Inv Q (ext D (is.flatMap Item.slots)) st' ∧ ∀ s, D s → st'.val s = st.val s := by
  induction is with
  | nil =>
    intro D st st' hI _ h
    cases h
    have : ext D ([].flatMap (Item.slots (V := V))) = D := by funext s; simp [ext]
    rw [this]
    exact ⟨hI, fun _ _ => rfl⟩
  | cons i is ih =>
    intro D st st' hI hC h
    simp only [runItems] at h
    obtain ⟨st₁, h₁, h'⟩ := Res.bind_eq_ok.1 h
    clear h
    cases i with
    | set e =>
      have h₂ := runEv_inv hf hI hC.1 hC.2.1 h₁
      have hk := runEv_keeps hI hC.1 h₁
      obtain ⟨h₃, h₄⟩ := ih h₂ hC.2.2 h'
      have hext : ext (ext D [e.slot]) (is.flatMap Item.slots) = ext D ((Item.set e :: is).flatMap Item.slots) := by
        funext s
        simp [ext, Item.slots, or_assoc]
      rw [hext] at h₃
      exact ⟨h₃, fun s hs => (h₄ s (.inl hs)).trans (hk s hs)⟩
    | loop es =>
      simp only [runItem] at h₁
      obtain ⟨st₂, hl, h₁⟩ := Res.bind_eq_ok.1 h₁
      cases h₁
      have h₂ := runLoop_inv hf hC.1 n hI hl
      have hk : ∀ s, D s → st₂.val s = st.val s := by
        have : ∀ (n : Nat) {st st₂ : St V}, Inv Q D st → runLoop (runEvs A es) n st = .ok st₂ → ∀ s, D s → st₂.val s = st.val s := by
          intro n
          induction n with
          | zero => intro st st₂ _ h; cases h
          | succ n ihn =>
            intro st st₂ hI h s hs
            simp only [runLoop] at h
            obtain ⟨st₁, h₁, h⟩ := Res.bind_eq_ok.1 h
            have hI' : Inv Q D { st with changed := false } := hI.congr fun _ _ => rfl
            have hk := runEvs_keeps hI' hC.1.all h₁
            split at h
            · rw [ihn (hI'.congr hk) h s hs, hk s hs]
            · cases h; exact hk s hs
        exact this n hI hl
      have h₂' : Inv Q (ext D (es.map (·.slot))) { st₂ with changed := st.changed } := h₂.congr fun _ _ => rfl
      obtain ⟨h₃, h₄⟩ := ih h₂' hC.2 h'
      have hext : ext (ext D (es.map (·.slot))) (is.flatMap Item.slots) = ext D ((Item.loop es :: is).flatMap Item.slots) := by
        funext s
        simp [ext, Item.slots, or_assoc]
      rw [hext] at h₃
      exact ⟨h₃, fun s hs => (h₄ s (.inl hs)).trans (hk s hs)⟩

end Aps.SccGen
