import Verif.Proofs.SccFlat
/-!
# Flat programs: least values, and termination
-/
set_option linter.unusedVariables false
set_option linter.unusedSectionVars false
namespace Aps.SccGen
open Aps.Static

variable {V : Type} [DecidableEq V]

/-- pointwise, for the values of some slots -/
def LeAll (R : Key → V → V → Prop) : List Slot → List V → List V → Prop
  | [], [], [] => True
  | s :: l, v :: vs, w :: ws => R s.2 v w ∧ LeAll R l vs ws
  | _, _, _ => False

/-- orders in which the assignments are monotone, bottom is least for what is circular -/
structure Mono (A : Attrs V) (R : Key → V → V → Prop) (Q : SEv V → Prop) : Prop where
  refl : ∀ k v, R k v v
  trans : ∀ k u v w, R k u v → R k v w → R k u w
  bot : ∀ k, A.circ k = true → ∀ v, R k (A.bot k) v
  mono : ∀ e, Q e → ∀ vs ws, LeAll R e.reads vs ws → R e.slot.2 (e.fn vs) (e.fn ws)

theorem leAll_of {R : Key → V → V → Prop} {f g : Slot → Option V} {l : List Slot} : ∀ {vs ws : List V}, l.mapM f = some vs →
    l.mapM g = some ws → (∀ r ∈ l, ∀ v w, f r = some v → g r = some w → R r.2 v w) → LeAll R l vs ws := by
  induction l with
  | nil =>
    intro vs ws h₁ h₂ _
    cases h₁
    cases h₂
    trivial
  | cons s l ih =>
    intro vs ws h₁ h₂ h
    rw [List.mapM_cons] at h₁ h₂
    obtain ⟨v, hv, h₁⟩ := Option.bind_eq_some_iff.1 h₁
    obtain ⟨vs', hvs, h₁⟩ := Option.bind_eq_some_iff.1 h₁
    obtain ⟨w, hw, h₂⟩ := Option.bind_eq_some_iff.1 h₂
    obtain ⟨ws', hws, h₂⟩ := Option.bind_eq_some_iff.1 h₂
    cases h₁
    cases h₂
    exact ⟨h s List.mem_cons_self v w hv hw, ih hvs hws fun r hr => h r (List.mem_cons_of_mem _ hr)⟩

/-! ## Least -/

/-- everything is below `val` -/
def Below (R : Key → V → V → Prop) (val : Slot → Option V) (st : St V) : Prop :=
  ∀ s v, st.val s = some v → ∃ w, val s = some w ∧ R s.2 v w

/-- `val` solves the equations -/
def Sol (Q : SEv V → Prop) (val : Slot → Option V) : Prop :=
  ∀ e, Q e → ∃ vs, e.reads.mapM val = some vs ∧ val e.slot = some (e.fn vs)

theorem below_readSlots {A : Attrs V} {R : Key → V → V → Prop} {Q : SEv V → Prop} (hm : Mono A R Q) {val : Slot → Option V}
    {l : List Slot} : ∀ {st st' : St V} {vs : List V}, (∀ r ∈ l, (val r).isSome) → Below R val st →
    readSlots A l st = .ok (vs, st') → Below R val st' := by
  induction l with
  | nil => intro st st' vs _ h h'; cases h'; exact h
  | cons s l ih =>
    intro st st' vs hs h h'
    simp only [readSlots] at h'
    obtain ⟨⟨v, st₁⟩, h₁, h'⟩ := Res.bind_eq_ok.1 h'
    obtain ⟨⟨vs', st₂⟩, h₂, h'⟩ := Res.bind_eq_ok.1 h'
    cases h'
    refine ih (fun r hr => hs r (List.mem_cons_of_mem _ hr)) ?_ h₂
    unfold readSlot at h₁
    split at h₁
    · cases h₁; exact h
    · split at h₁
      · rename_i hc
        cases h₁
        intro s' v' hv'
        simp only [St.put] at hv'
        split at hv'
        · rename_i he
          subst he
          cases hv'
          obtain ⟨w, hw⟩ := Option.isSome_iff_exists.1 (hs s' List.mem_cons_self)
          exact ⟨w, hw, hm.bot _ hc w⟩
        · exact h s' v' hv'
      · cases h₁

theorem below_view {A : Attrs V} {R : Key → V → V → Prop} {Q : SEv V → Prop} (hm : Mono A R Q) {val : Slot → Option V}
    {st : St V} (h : Below R val st) {s : Slot} {v w : V} (hv : view A st s = some v) (hw : val s = some w) : R s.2 v w := by
  unfold view at hv
  split at hv
  · rename_i v' hv'
    cases hv
    obtain ⟨w', hw', h'⟩ := h s _ hv'
    rw [hw] at hw'
    cases hw'
    exact h'
  · split at hv
    · rename_i hc
      cases hv
      exact hm.bot _ hc w
    · cases hv

theorem below_runEv {A : Attrs V} {R : Key → V → V → Prop} {Q : SEv V → Prop} (hm : Mono A R Q) {val : Slot → Option V}
    (hs : Sol Q val) {e : SEv V} (hQ : Q e) {st st' : St V} (h : Below R val st) (h' : runEv A e st = .ok st') :
    Below R val st' := by
  unfold runEv at h'
  obtain ⟨⟨vs, st₁⟩, h₁, h'⟩ := Res.bind_eq_ok.1 h'
  obtain ⟨ws, hws, hw⟩ := hs e hQ
  have hb := below_readSlots hm (isSome_of_mapM hws) h h₁
  intro s v hv
  rw [(setSlot_ok h').1] at hv
  simp only [St.put] at hv
  split at hv
  · rename_i he
    subst he
    cases hv
    refine ⟨_, hw, hm.mono e hQ vs ws ?_⟩
    exact leAll_of (readSlots_view h₁).1 hws fun r _ v w hv hw => below_view hm h hv hw
  · exact hb s v hv

theorem below_runEvs {A : Attrs V} {R : Key → V → V → Prop} {Q : SEv V → Prop} (hm : Mono A R Q) {val : Slot → Option V}
    (hs : Sol Q val) {es : List (SEv V)} : ∀ {st st' : St V}, (∀ e ∈ es, Q e) → Below R val st → runEvs A es st = .ok st' →
    Below R val st' := by
  induction es with
  | nil => intro st st' _ h h'; cases h'; exact h
  | cons e es ih =>
    intro st st' hQ h h'
    simp only [runEvs] at h'
    obtain ⟨st₁, h₁, h'⟩ := Res.bind_eq_ok.1 h'
    exact ih (fun e' he' => hQ e' (List.mem_cons_of_mem _ he')) (below_runEv hm hs (hQ e List.mem_cons_self) h h₁) h'

theorem below_runLoop {R : Key → V → V → Prop} {val : Slot → Option V} {f : St V → Res (St V)}
    (hf : ∀ st st', Below R val st → f st = .ok st' → Below R val st') : ∀ (n : Nat) {st st' : St V}, Below R val st →
    runLoop f n st = .ok st' → Below R val st' := by
  intro n
  induction n with
  | zero => intro st st' _ h; cases h
  | succ n ih =>
    intro st st' h h'
    simp only [runLoop] at h'
    obtain ⟨st₁, h₁, h'⟩ := Res.bind_eq_ok.1 h'
    have := hf _ _ (show Below R val { st with changed := false } from h) h₁
    split at h'
    · exact ih this h'
    · cases h'; exact this

/-- the assignments of a program -/
def Item.evs : Item V → List (SEv V)
  | .set e => [e]
  | .loop es => es

theorem below_runItems {A : Attrs V} {R : Key → V → V → Prop} {Q : SEv V → Prop} (hm : Mono A R Q) {val : Slot → Option V}
    (hs : Sol Q val) (n : Nat) {is : List (Item V)} : ∀ {st st' : St V}, (∀ e ∈ is.flatMap Item.evs, Q e) → Below R val st →
    runItems A n is st = .ok st' → Below R val st' := by
  induction is with
  | nil => intro st st' _ h h'; cases h'; exact h
  | cons i is ih =>
    intro st st' hQ h h'
    simp only [runItems] at h'
    obtain ⟨st₁, h₁, h''⟩ := Res.bind_eq_ok.1 h'
    clear h'
    refine ih (fun e he => hQ e (by simp only [List.flatMap_cons, List.mem_append]; exact .inr he)) ?_ h''
    cases i with
    | set e => exact below_runEv hm hs (hQ e (by simp [Item.evs])) h h₁
    | loop es =>
      simp only [runItem] at h₁
      obtain ⟨st₂, hl, h₁⟩ := Res.bind_eq_ok.1 h₁
      cases h₁
      have hQ' : ∀ e ∈ es, Q e := fun e he => hQ e (by simp only [List.flatMap_cons, List.mem_append]; exact .inl he)
      have : Below R val st₂ := below_runLoop (fun a b ha hb => below_runEvs hm hs hQ' ha hb) n h hl
      exact this

theorem Closed.all {A : Attrs V} {Q : SEv V → Prop} {is : List (Item V)} : ∀ {D : Slot → Prop}, Closed A Q D is →
    ∀ e ∈ is.flatMap Item.evs, Q e := by
  induction is with
  | nil => intro D _ e he; cases he
  | cons i is ih =>
    intro D h e he
    simp only [List.flatMap_cons, List.mem_append] at he
    cases i with
    | set e' =>
      rcases he with he | he
      · simp only [Item.evs, List.mem_singleton] at he
        rw [he]
        exact h.1
      · exact ih h.2.2 e he
    | loop es =>
      rcases he with he | he
      · exact h.1.all e he
      · exact ih h.2 e he

/-! ## Termination -/

/-- Chains of values of circular attributes are short, and the comparison used at run time agrees. -/
structure Finite (A : Attrs V) (R : Key → V → V → Prop) (rank : Key → V → Nat) (H : Nat) : Prop where
  le : ∀ k, A.circ k = true → ∀ v w, R k v w → A.le k v w = true
  strict : ∀ k, A.circ k = true → ∀ v w, R k v w → v ≠ w → rank k v < rank k w
  bound : ∀ k, A.circ k = true → ∀ v, rank k v ≤ H

/-- values only get larger -/
structure Asc (A : Attrs V) (R : Key → V → V → Prop) (Q : SEv V → Prop) (st : St V) : Prop where
  asc : ∀ e, Q e → ∀ w, st.val e.slot = some w → (A.circ e.slot.2 = true ∧ w = A.bot e.slot.2) ∨
    ∃ vs, e.reads.mapM (view A st) = some vs ∧ R e.slot.2 w (e.fn vs)

/-- how far a slot is -/
def height (A : Attrs V) (rank : Key → V → Nat) (st : St V) (s : Slot) : Nat :=
  if A.circ s.2 then match st.val s with | none => 0 | some v => 1 + rank s.2 v else 0

/-- one state is above another -/
structure Up (A : Attrs V) (R : Key → V → V → Prop) (rank : Key → V → Nat) (st st' : St V) : Prop where
  up : ∀ s v, view A st s = some v → ∃ v', view A st' s = some v' ∧ R s.2 v v'
  height : ∀ s, height A rank st s ≤ height A rank st' s

theorem Up.refl {A : Attrs V} {R : Key → V → V → Prop} {Q : SEv V → Prop} (hm : Mono A R Q) {rank : Key → V → Nat} (st : St V) :
    Up A R rank st st := ⟨fun s v h => ⟨v, h, hm.refl _ _⟩, fun _ => Nat.le_refl _⟩

theorem Up.trans {A : Attrs V} {R : Key → V → V → Prop} {Q : SEv V → Prop} (hm : Mono A R Q) {rank : Key → V → Nat}
    {st₁ st₂ st₃ : St V} (h₁ : Up A R rank st₁ st₂) (h₂ : Up A R rank st₂ st₃) : Up A R rank st₁ st₃ := by
  refine ⟨fun s v h => ?_, fun s => Nat.le_trans (h₁.height s) (h₂.height s)⟩
  obtain ⟨v', hv', hr⟩ := h₁.up s v h
  obtain ⟨v'', hv'', hr'⟩ := h₂.up s v' hv'
  exact ⟨v'', hv'', hm.trans _ _ _ _ hr hr'⟩

theorem Up.isSome {A : Attrs V} {R : Key → V → V → Prop} {rank : Key → V → Nat} {st st' : St V} (h : Up A R rank st st') {s : Slot}
    (hs : (view A st s).isSome) : (view A st' s).isSome := by
  obtain ⟨v, hv⟩ := Option.isSome_iff_exists.1 hs
  obtain ⟨v', hv', _⟩ := h.up s v hv
  simp [hv']

theorem mapM_up {A : Attrs V} {R : Key → V → V → Prop} {rank : Key → V → Nat} {st st' : St V} (h : Up A R rank st st')
    {l : List Slot} {vs : List V} (hvs : l.mapM (view A st) = some vs) :
    ∃ ws, l.mapM (view A st') = some ws ∧ LeAll R l vs ws := by
  obtain ⟨ws, hws⟩ := mapM_isSome (f := view A st') (l := l) fun r hr => h.isSome (isSome_of_mapM hvs r hr)
  refine ⟨ws, hws, leAll_of hvs hws fun r hr v w hv hw => ?_⟩
  obtain ⟨w', hw', hr'⟩ := h.up r v hv
  rw [hw] at hw'
  cases hw'
  exact hr'

/-- reading: nothing changes but bottoms -/
theorem readSlots_up {A : Attrs V} {R : Key → V → V → Prop} {Q : SEv V → Prop} (hm : Mono A R Q) {rank : Key → V → Nat}
    {l : List Slot} {st st' : St V} {vs : List V} (ha : Asc A R Q st) (h : readSlots A l st = .ok (vs, st')) :
    Asc A R Q st' ∧ Up A R rank st st' := by
  obtain ⟨r₁, r₂, r₃, r₄, r₅⟩ := readSlots_view h
  have hview : view A st' = view A st := funext r₂
  refine ⟨⟨fun e hQ w hw => ?_⟩, ⟨fun s v hv => ⟨v, by rw [r₂]; exact hv, hm.refl _ _⟩, fun s => ?_⟩⟩
  · rw [hview]
    cases hs : st.val e.slot with
    | some w' =>
      have := r₄ _ _ hs
      rw [hw] at this
      cases this
      exact ha.asc e hQ w hs
    | none =>
      have h₁ := view_of_some (A := A) hw
      rw [r₂] at h₁
      unfold view at h₁
      rw [hs] at h₁
      simp only at h₁
      split at h₁
      · rename_i hc
        cases h₁
        exact .inl ⟨hc, rfl⟩
      · cases h₁
  · unfold height
    split
    · cases hs : st.val s with
      | none => exact Nat.zero_le _
      | some v => rw [r₄ _ _ hs]; exact Nat.le_refl _
    · exact Nat.le_refl _

theorem runEv_ok {A : Attrs V} {R : Key → V → V → Prop} {Q : SEv V → Prop} (hm : Mono A R Q) (hfun : Functional Q) {rank : Key → V → Nat} {H : Nat}
    (hfin : Finite A R rank H) {e : SEv V} (hQ : Q e) {st : St V} (ha : Asc A R Q st) (hr : ∀ r ∈ e.reads, (view A st r).isSome) :
    ∃ st', runEv A e st = .ok st' ∧ Asc A R Q st' ∧ Up A R rank st st' ∧ (view A st' e.slot).isSome ∧
      (st'.changed = true → st.changed = true ∨ height A rank st e.slot < height A rank st' e.slot) := by
  obtain ⟨vs, st₁, h₁⟩ := readSlots_ok hr
  obtain ⟨r₁, r₂, r₃, r₄, r₅⟩ := readSlots_view h₁
  obtain ⟨ha₁, hu₁⟩ := readSlots_up hm (rank := rank) ha h₁
  have hv₁ : e.reads.mapM (view A st₁) = some vs := by rw [show view A st₁ = view A st from funext r₂]; exact r₁
  -- what was there is below
  have hbelow : ∀ w, view A st₁ e.slot = some w → R e.slot.2 w (e.fn vs) := by
    intro w hw
    unfold view at hw
    split at hw
    · rename_i w' hw'
      cases hw
      rcases ha₁.asc e hQ w hw' with ⟨hc, rfl⟩ | ⟨vs', hvs', h⟩
      · exact hm.bot _ hc _
      · rw [hv₁] at hvs'
        cases hvs'
        exact h
    · split at hw
      · rename_i hc
        cases hw
        exact hm.bot _ hc _
      · cases hw
  -- the assignment succeeds
  have hset : ∃ st', setSlot A e.slot (e.fn vs) st₁ = .ok st' := by
    unfold setSlot
    split
    · rename_i hc
      split
      · exact ⟨_, rfl⟩
      · rename_i w hw
        split
        · exact ⟨_, rfl⟩
        · rw [if_pos (hfin.le _ hc _ _ (hbelow w (view_of_some hw)))]
          exact ⟨_, rfl⟩
    · exact ⟨_, rfl⟩
  obtain ⟨st', h'⟩ := hset
  obtain ⟨s₁, s₂, s₃, s₄⟩ := setSlot_ok h'
  have hvw : ∀ s, view A st' s = if s = e.slot then some (e.fn vs) else view A st₁ s := by
    intro s
    have : view A st' s = view A (st₁.put e.slot (e.fn vs)) s := by unfold view; rw [s₁]
    rw [this, view_put]
  have hup : Up A R rank st₁ st' := by
    refine ⟨fun s v hv => ?_, fun s => ?_⟩
    · rw [hvw]
      split
      · rename_i he
        subst he
        exact ⟨_, rfl, hbelow v hv⟩
      · exact ⟨v, hv, hm.refl _ _⟩
    · unfold height
      split
      · rename_i hc
        rw [s₁]
        simp only [St.put]
        split
        · exact Nat.zero_le _
        · rename_i v hv
          by_cases he : s = e.slot
          · subst he
            simp only [if_true]
            by_cases hne : v = e.fn vs
            · rw [hne]; exact Nat.le_refl _
            · have := hfin.strict _ hc _ _ (hbelow v (view_of_some hv)) hne
              omega
          · rw [if_neg he, hv]; exact Nat.le_refl _
      · exact Nat.le_refl _
  refine ⟨st', by simp [runEv, h₁, h'], ⟨fun e' hQ' w hw => ?_⟩, hu₁.trans hm hup, ?_, ?_⟩
  · by_cases he : e'.slot = e.slot
    · have hee := hfun e' e hQ' hQ he
      subst hee
      obtain ⟨ws, hws, hle⟩ := mapM_up hup hv₁
      have : w = e'.fn vs := by
        rw [s₁] at hw
        simpa [St.put] using hw.symm
      subst this
      exact .inr ⟨ws, hws, hm.mono e' hQ' _ _ hle⟩
    · rw [s₁] at hw
      simp only [St.put, if_neg he] at hw
      rcases ha₁.asc e' hQ' w hw with h | ⟨us, hus, h⟩
      · exact .inl h
      · obtain ⟨ws, hws, hle⟩ := mapM_up hup hus
        exact .inr ⟨ws, hws, hm.trans _ _ _ _ h (hm.mono e' hQ' _ _ hle)⟩
  · rw [hvw, if_pos rfl]
    rfl
  · intro hch
    by_cases hst : st.changed = true
    · exact .inl hst
    · refine .inr (Nat.lt_of_le_of_lt (hu₁.height e.slot) ?_)
      rw [← r₃] at hst
      unfold setSlot at h'
      unfold height
      split at h'
      · rename_i hc
        rw [if_pos hc, if_pos hc]
        split at h'
        · rename_i hn
          cases h'
          rw [hn]
          simp only [St.put, if_true]
          omega
        · rename_i w hw
          split at h'
          · cases h'
            exact absurd hch hst
          · rename_i hne
            split at h'
            · cases h'
              rw [hw]
              simp only [St.put, if_true]
              have := hfin.strict _ hc _ _ (hbelow w (view_of_some hw)) hne
              omega
            · cases h'
      · cases h'
        exact absurd hch hst

theorem runEvs_ok {A : Attrs V} {R : Key → V → V → Prop} {Q : SEv V → Prop} (hm : Mono A R Q) (hfun : Functional Q) {rank : Key → V → Nat} {H : Nat}
    (hfin : Finite A R rank H) {L : Slot → Prop} (hL : ∀ s, L s → A.circ s.2 = true) {es : List (SEv V)} :
    ∀ {D : Slot → Prop} {st : St V}, WClosed Q L D es → Asc A R Q st → (∀ s, D s → (view A st s).isSome) →
    ∃ st', runEvs A es st = .ok st' ∧ Asc A R Q st' ∧ Up A R rank st st' ∧
      (∀ s, ext D (es.map (·.slot)) s → (view A st' s).isSome) ∧
      (st'.changed = true → st.changed = true ∨ ∃ s ∈ es.map (·.slot), height A rank st s < height A rank st' s) := by
  induction es with
  | nil =>
    intro D st _ ha hD
    refine ⟨st, rfl, ha, .refl hm st, ?_, .inl⟩
    rintro s (hs | hs)
    · exact hD s hs
    · cases hs
  | cons e es ih =>
    intro D st hW ha hD
    obtain ⟨st₁, h₁, ha₁, hu₁, hs₁, hc₁⟩ := runEv_ok hm hfun hfin hW.1 ha (fun r hr => by
      rcases hW.2.1 r hr with h | h
      · exact hD r h
      · unfold view
        split
        · rfl
        · rw [if_pos (hL r h)]; rfl)
    obtain ⟨st₂, h₂, ha₂, hu₂, hs₂, hc₂⟩ := ih hW.2.2 ha₁ (by
      rintro s (hs | hs)
      · exact hu₁.isSome (hD s hs)
      · simp at hs
        rw [hs]
        exact hs₁)
    refine ⟨st₂, by simp [runEvs, h₁, h₂], ha₂, hu₁.trans hm hu₂, ?_, ?_⟩
    · intro s hs
      apply hs₂
      rcases hs with hs | hs
      · exact .inl (.inl hs)
      · rcases List.mem_cons.1 hs with hs | hs
        · exact .inl (.inr (by simp [hs]))
        · exact .inr hs
    · intro hch
      rcases hc₂ hch with h | ⟨s, hs, h⟩
      · rcases hc₁ h with h | h
        · exact .inl h
        · exact .inr ⟨e.slot, by simp, Nat.lt_of_lt_of_le h (hu₂.height _)⟩
      · exact .inr ⟨s, List.mem_cons_of_mem _ hs, Nat.lt_of_le_of_lt (hu₁.height s) h⟩

theorem sum_map_le {f g : Slot → Nat} {l : List Slot} (h : ∀ s, f s ≤ g s) : (l.map f).sum ≤ (l.map g).sum := by
  induction l with
  | nil => exact Nat.le_refl _
  | cons s l ih =>
    simp only [List.map_cons, List.sum_cons]
    have := h s
    omega

theorem sum_map_lt {f g : Slot → Nat} {l : List Slot} (h : ∀ s, f s ≤ g s) (hs : ∃ s ∈ l, f s < g s) :
    (l.map f).sum < (l.map g).sum := by
  induction l with
  | nil => obtain ⟨s, hs, _⟩ := hs; cases hs
  | cons s l ih =>
    simp only [List.map_cons, List.sum_cons]
    obtain ⟨s', hs', hlt⟩ := hs
    rcases List.mem_cons.1 hs' with rfl | hs'
    · have := sum_map_le (l := l) h
      omega
    · have := ih ⟨s', hs', hlt⟩
      have := h s
      omega

theorem sum_map_bound {f : Slot → Nat} {B : Nat} {l : List Slot} (h : ∀ s, f s ≤ B) : (l.map f).sum ≤ l.length * B := by
  induction l with
  | nil => simp
  | cons s l ih =>
    simp only [List.map_cons, List.sum_cons, List.length_cons, Nat.add_mul, Nat.one_mul]
    have := h s
    omega

theorem runLoop_ok {A : Attrs V} {R : Key → V → V → Prop} {Q : SEv V → Prop} (hm : Mono A R Q) (hfun : Functional Q) {rank : Key → V → Nat} {H : Nat}
    (hfin : Finite A R rank H) {es : List (SEv V)} {D : Slot → Prop} (hW : WClosed Q (inLoop A es) D es) :
    ∀ (n : Nat) {st : St V}, es.length * (H + 1) < n + ((es.map (·.slot)).map (height A rank st)).sum → Asc A R Q st →
    (∀ s, D s → (view A st s).isSome) →
    ∃ st', runLoop (runEvs A es) n st = .ok st' ∧ Asc A R Q st' ∧ Up A R rank st st' ∧
      (∀ s, ext D (es.map (·.slot)) s → (view A st' s).isSome) := by
  intro n
  induction n with
  | zero =>
    intro st hn _ _
    exfalso
    have := sum_map_bound (f := height A rank st) (B := H + 1) (l := es.map (·.slot)) (by
      intro s
      unfold height
      split
      · rename_i hc
        split
        · exact Nat.zero_le _
        · rename_i v _
          have := hfin.bound s.2 hc v
          omega
      · exact Nat.zero_le _)
    rw [List.length_map] at this
    omega
  | succ n ih =>
    intro st hn ha hD
    obtain ⟨st₁, h₁, ha₁, hu₁, hs₁, hc₁⟩ := runEvs_ok hm hfun hfin (fun s hs => hs.2) hW
      (show Asc A R Q { st with changed := false } from ⟨ha.asc⟩) hD
    have hu : Up A R rank st st₁ := ⟨hu₁.up, hu₁.height⟩
    cases hch : st₁.changed with
    | false => exact ⟨st₁, by simp [runLoop, h₁, hch], ha₁, hu, hs₁⟩
    | true =>
      rcases hc₁ hch with h | h
      · cases h
      · have hlt := sum_map_lt (l := es.map (·.slot)) hu.height h
        obtain ⟨st₂, h₂, ha₂, hu₂, hs₂⟩ := ih (st := st₁) (by omega) ha₁ (fun s hs => hs₁ s (.inl hs))
        exact ⟨st₂, by simp [runLoop, h₁, hch, h₂], ha₂, hu.trans hm hu₂, hs₂⟩

theorem runItems_ok {A : Attrs V} {R : Key → V → V → Prop} {Q : SEv V → Prop} (hm : Mono A R Q) (hfun : Functional Q) {rank : Key → V → Nat} {H : Nat}
    (hfin : Finite A R rank H) (n : Nat) {is : List (Item V)} :
    ∀ {D : Slot → Prop} {st : St V}, (is.flatMap Item.slots).length * (H + 1) < n → Closed A Q D is → Asc A R Q st →
    (∀ s, D s → (view A st s).isSome) → ∃ st', runItems A n is st = .ok st' := by
  induction is with
  | nil => intro D st _ _ _ _; exact ⟨st, rfl⟩
  | cons i is ih =>
    intro D st hn hC ha hD
    simp only [List.flatMap_cons, List.length_append, Nat.add_mul] at hn
    cases i with
    | set e =>
      obtain ⟨st₁, h₁, ha₁, hu₁, hs₁, _⟩ := runEv_ok hm hfun hfin hC.1 ha (fun r hr => hD r (hC.2.1 r hr))
      obtain ⟨st₂, h₂⟩ := ih (by omega) hC.2.2 ha₁ (by
        rintro s (hs | hs)
        · exact hu₁.isSome (hD s hs)
        · simp at hs
          rw [hs]
          exact hs₁)
      exact ⟨st₂, by simp [runItems, runItem, h₁, h₂]⟩
    | loop es =>
      simp only [Item.slots, List.length_map] at hn
      obtain ⟨st₁, h₁, ha₁, hu₁, hs₁⟩ := runLoop_ok hm hfun hfin hC.1 n (by omega) ha hD
      obtain ⟨st₂, h₂⟩ := ih (st := { st₁ with changed := st.changed }) (by omega) hC.2 ⟨ha₁.asc⟩ hs₁
      exact ⟨st₂, by simp [runItems, runItem, h₁, h₂]⟩

end Aps.SccGen
