import Verif.Proofs.SccClosed
/-!
# Evaluating a tree of a planned grammar: solution, least, termination
-/
set_option linter.unusedVariables false
set_option linter.unusedSectionVars false
namespace Aps.SccGen
open Aps.Static

variable {V : Type} [DecidableEq V]

theorem at_unique {t : Static.Tree} {a : Addr} {s : Static.Tree} (h : At t a s) : ∀ {s' : Static.Tree}, At t a s' → s = s' := by
  induction h with
  | root => intro s' h'; cases h'; rfl
  | @kid a p c kids s hp hk ih =>
    intro s' h'
    cases h' with
    | kid hp' hk' =>
      have := ih hp'
      cases this
      rw [hk] at hk'
      cases hk'
      rfl

theorem at_ty {prods : List (SProd V)} {t : Static.Tree} {sp : Nat} (ht : HasTy (bases prods) t (some sp)) {a : Addr} {s : Static.Tree}
    (h : At t a s) : ∃ o, HasTy (bases prods) s o := by
  induction h with
  | root => exact ⟨_, ht⟩
  | @kid a p c kids s hp hk ih =>
    obtain ⟨o, ho⟩ := ih
    cases ho with
    | @node _ _ P hP hlen hkids =>
      have hlt : c < P.kidPhy.length := by
        rw [← hlen]
        exact (List.getElem?_eq_some_iff.1 hk).1
      exact ⟨_, hkids c s _ hk (List.getElem?_eq_getElem hlt)⟩

theorem hasTy_lhs {prods : List (SProd V)} {p : Nat} {kids : List Static.Tree} {o : Option Nat} {P : SProd V}
    (h : HasTy (bases prods) (.node p kids) o) (hP : prods[p]? = some P) : o = some P.base.lhsPhy := by
  cases h with
  | @node _ _ P' hP' _ _ =>
    rw [List.getElem?_map, hP] at hP'
    cases hP'
    rfl

theorem hasTy_kid {prods : List (SProd V)} {p : Nat} {kids : List Static.Tree} {o : Option Nat} {P : SProd V}
    (h : HasTy (bases prods) (.node p kids) o) (hP : prods[p]? = some P) {c k : Nat} {kid : Static.Tree} (hk : kids[c]? = some kid)
    (hc : P.base.kidPhy[c]? = some (some k)) : HasTy (bases prods) kid (some k) := by
  cases h with
  | @node _ _ P' hP' _ hkids =>
    rw [List.getElem?_map, hP] at hP'
    cases hP'
    exact hkids c kid _ hk hc

section
variable {ph : Phyla} {cyc : Nat → Nat → Bool} {A : Attrs V} {prods : List (SProd V)} {plans : Nat → List Visit}

theorem emits_inward {inst : Inst V} {o : Option (Expr V)} {e : Expr V} (h : emits inst o = some e) : inst.inward = false := by
  unfold emits at h
  split at h
  · cases h
  · rename_i hw
    simpa using hw

/-- A slot is assigned in one place. -/
theorem qOf_functional (hg : Grammar ph cyc A prods plans) {t : Static.Tree} {sp : Nat} (ht : HasTy (bases prods) t (some sp)) :
    Functional (QOf prods t) := by
  -- an attribute of a node and one of a child are not both outward
  have hclash : ∀ {a₁ a₂ : Addr} {p₁ p₂ : Nat} {kids₁ kids₂ : List Static.Tree} {P₁ P₂ : SProd V} {i₁ i₂ : Nat} {x₁ x₂ : Inst V}
      {e₁ e₂ : Expr V} {c : Nat}, At t a₁ (.node p₁ kids₁) → At t a₂ (.node p₂ kids₂) → prods[p₁]? = some P₁ → prods[p₂]? = some P₂ →
      P₁.base.insts[i₁]? = some x₁ → P₂.base.insts[i₂]? = some x₂ → x₁.ch = some c → x₂.ch = none → emits x₁ (P₁.rhs i₁) = some e₁ →
      emits x₂ (P₂.rhs i₂) = some e₂ → x₁.slot a₁ = x₂.slot a₂ → False := by
    intro a₁ a₂ p₁ p₂ kids₁ kids₂ P₁ P₂ i₁ i₂ x₁ x₂ e₁ e₂ c at₁ at₂ hP₁ hP₂ hi₁ hi₂ hc hn he₁ he₂ hs
    cases hl : x₂.lhs with
    | false => simp [Inst.slot, hc, hn, hl] at hs
    | true =>
      simp [Inst.slot, hc, hn, hl] at hs
      obtain ⟨rfl, hx⟩ := hs
      obtain ⟨d₁, d₂, d₃, d₄⟩ := (hg.described p₂ P₂ hP₂).lhs i₂ x₂ hi₂ hl
      obtain ⟨k, hk, f₁, f₂, f₃⟩ := (hg.described p₁ P₁ hP₁).ch i₁ x₁ c hi₁ hc
      obtain ⟨o, ho⟩ := at_ty ht at₁
      cases at₂ with
      | kid hp' hk' =>
        have := at_unique at₁ hp'
        cases this
        have hty := hasTy_lhs (hasTy_kid ho hP₁ hk' hk) hP₂
        cases hty
        rw [hx, d₂] at f₁
        have hph : x₂.ph = x₁.ph := Option.some.inj f₁
        have h₁ := emits_inward he₁
        have h₂ := emits_inward he₂
        rw [h₁] at f₃
        rw [h₂] at d₄
        have hne := (hg.phased.range _ _ _ d₂).1
        have : ¬ x₂.ph < 0 := fun h => by simpa using d₄.2 h
        have : ¬ 0 < x₁.ph := fun h => by simpa using f₃.2 h
        omega
  rintro e e' ⟨a₁, p₁, kids₁, P₁, i₁, x₁, e₁, at₁, hP₁, hi₁, he₁, rfl⟩ ⟨a₂, p₂, kids₂, P₂, i₂, x₂, e₂, at₂, hP₂, hi₂, he₂, rfl⟩ hs
  have hs' : x₁.slot a₁ = x₂.slot a₂ := by
    simpa [evOf, slotAt, hi₁, hi₂] using hs
  -- same node
  have hsame : a₁ = a₂ ∧ x₁.lhs = x₂.lhs ∧ x₁.ch = x₂.ch ∧ x₁.attr = x₂.attr := by
    cases hc₁ : x₁.ch with
    | some c₁ =>
      cases hc₂ : x₂.ch with
      | none => exact (hclash at₁ at₂ hP₁ hP₂ hi₁ hi₂ hc₁ hc₂ he₁ he₂ hs').elim
      | some c₂ =>
        simp [Inst.slot, hc₁, hc₂] at hs'
        obtain ⟨⟨rfl, rfl⟩, hx⟩ := hs'
        refine ⟨rfl, ?_, rfl, hx⟩
        have h₁ : x₁.lhs = false := by
          cases hl : x₁.lhs with
          | false => rfl
          | true => have := ((hg.described p₁ P₁ hP₁).lhs i₁ x₁ hi₁ hl).1; rw [hc₁] at this; cases this
        have h₂ : x₂.lhs = false := by
          cases hl : x₂.lhs with
          | false => rfl
          | true => have := ((hg.described p₂ P₂ hP₂).lhs i₂ x₂ hi₂ hl).1; rw [hc₂] at this; cases this
        rw [h₁, h₂]
    | none =>
      cases hc₂ : x₂.ch with
      | some c₂ => exact (hclash at₂ at₁ hP₂ hP₁ hi₂ hi₁ hc₂ hc₁ he₂ he₁ hs'.symm).elim
      | none =>
        cases hl₁ : x₁.lhs <;> cases hl₂ : x₂.lhs <;> simp [Inst.slot, hc₁, hc₂, hl₁, hl₂] at hs'
        · exact ⟨hs'.1, rfl, rfl, hs'.2⟩
        · exact ⟨hs'.1, rfl, rfl, hs'.2⟩
  obtain ⟨rfl, hl, hc, hx⟩ := hsame
  have := at_unique at₁ at₂
  cases this
  rw [hP₁] at hP₂
  cases hP₂
  have hp := hg.planned p₁ P₁ hP₁
  have := (hg.described p₁ P₁ hP₁).inj i₁ i₂ x₁ x₂ hi₁ hi₂ (hp.rules _ _ hi₁) (hp.rules _ _ hi₂) hl hc hx
  subst this
  rw [hi₁] at hi₂
  cases hi₂
  rw [he₁] at he₂
  cases he₂
  rfl

/-! ## The whole evaluation -/

/-- what the evaluation of a tree does -/
def rootItems (cyc : Nat → Nat → Bool) (prods : List (SProd V)) (plans : Nat → List Visit) (h sp : Nat) (t : Static.Tree) (phs : List Nat) :
    List (Item V) :=
  phs.flatMap fun q => if cyc sp q then [.loop ((tr prods plans h t [] q).flatMap Item.evs)] else tr prods plans h t [] q

theorem slots_root (h sp : Nat) (t : Static.Tree) (phs : List Nat) :
    slots (rootItems cyc prods plans h sp t phs) = phs.flatMap fun q => slots (tr prods plans h t [] q) := by
  induction phs with
  | nil => rfl
  | cons q phs ih =>
    simp only [rootItems, List.flatMap_cons] at ih ⊢
    rw [slots_append, ih]
    congr 1
    split
    · rw [← map_evs (tr prods plans h t [] q)]
      simp [slots, Item.slots]
    · rfl

theorem visitAll_eq_items (hg : Grammar ph cyc A prods plans) {codes : List (List (Code V))}
    (hcodes : ∀ (p : Nat) (P : SProd V), prods[p]? = some P → ∃ cs, codes[p]? = some cs ∧ Printed P cs) (n : Nat)
    {t : Static.Tree} {sp : Nat} (hsp : ∀ P ∈ bases prods, some sp ∉ P.kidPhy) (ht : HasTy (bases prods) t (some sp))
    {h : Nat} (hh : t.height ≤ h) : ∀ (phs : List Nat), (∀ q ∈ phs, 1 ≤ q ∧ q ≤ ph.visits sp) → ∀ st,
    visitAll A n h prods codes (cyc sp) sp t phs st = runItems A n (rootItems cyc prods plans h sp t phs) st := by
  intro phs
  induction phs with
  | nil => intro _ st; rfl
  | cons q phs ih =>
    intro hq st
    have ih' := ih fun q' hq' => hq q' (List.mem_cons_of_mem _ hq')
    obtain ⟨h₁, h₂⟩ := hq q List.mem_cons_self
    have hnodes := nodesOf_root hsp ht []
    have hvis := visitNode_eq hg hcodes n h (a := []) ht hh h₁ h₂
    have hbody : ∀ st, visitEach A n prods codes h q (nodesOf (prods.map (·.base)) sp t []) st = runItems A n (tr prods plans h t [] q) st := by
      intro st
      rw [hnodes]
      simp only [visitEach, hvis]
      cases runItems A n (tr prods plans h t [] q) st <;> rfl
    simp only [visitAll, rootItems, List.flatMap_cons]
    rw [runItems_append]
    unfold visitPhase
    by_cases hc : cyc sp q = true
    · rw [if_pos hc, if_pos hc]
      have hsets := tr_sets hg h (a := []) ht hh h₁ h₂ hc
      rw [runLoop_congr (fun st => (hbody st).trans (runItems_sets hsets (n := n)))]
      simp only [runItems, runItem]
      cases hr : runLoop (runEvs A ((tr prods plans h t [] q).flatMap Item.evs)) n st with
      | ok st₁ =>
        simp only [Res.ok_bind, Res.pure_eq]
        exact ih' _
      | ub => rfl
      | stop => rfl
      | nofuel => rfl
    · rw [if_neg hc, if_neg hc, hbody]
      cases hr : runItems A n (tr prods plans h t [] q) st with
      | ok st₁ => exact ih' _
      | ub => rfl
      | stop => rfl
      | nofuel => rfl

theorem root_closed (hg : Grammar ph cyc A prods plans) {t : Static.Tree} {sp : Nat} (ht : HasTy (bases prods) t (some sp))
    (hroot : ∀ (x : Nat) (s : Int), ph.sched sp x = some s → s < 0 → ph.implicit sp x = true) {h : Nat} (hh : t.height ≤ h) :
    ∀ (m q0 : Nat), 1 ≤ q0 → q0 + m ≤ ph.visits sp + 1 → ∀ {D : Slot → Prop},
    (∀ q', 1 ≤ q' → q' < q0 → ∀ s ∈ slots (tr prods plans h t [] q'), D s) →
    Closed A (QOf prods t) D (rootItems cyc prods plans h sp t (List.range' q0 m)) := by
  intro m
  induction m with
  | zero => intro q0 _ _ D _; trivial
  | succ m ih =>
    intro q0 h₁ h₂ D hD
    rw [List.range'_succ]
    simp only [rootItems, List.flatMap_cons]
    have hrest : ∀ is : List (Item V), slots is = slots (tr prods plans h t [] q0) →
        Closed A (QOf prods t) (ext D (slots is)) (rootItems cyc prods plans h sp t (List.range' (q0 + 1) m)) := by
      intro is his
      refine ih (q0 + 1) (by omega) (by omega) fun q' hq₁ hq₂ s hs => ?_
      by_cases hq : q' = q0
      · subst hq
        exact .inr (by rw [his]; exact hs)
      · exact .inl (hD q' hq₁ (by omega) s hs)
    by_cases hc : cyc sp q0 = true
    · rw [if_pos hc]
      have hes := map_evs (tr prods plans h t [] q0)
      have := tr_closed hg h (a := []) ht hh h₁ (by omega) .root
        (L := inLoop A ((tr prods plans h t [] q0).flatMap Item.evs)) (D := D)
        (fun x s hx hn _ hi => by rw [hroot x s hx hn] at hi; cases hi) hD
        (fun _ s hs hck => ⟨by rw [hes]; exact hs, hck⟩)
      refine closed_append (xs := [Item.loop _]) ⟨closedL_wclosed (tr_sets hg h (a := []) ht hh h₁ (by omega) hc) this, trivial⟩ (hrest _ ?_)
      rw [show ∀ es : List (SEv V), slots [Item.loop es] = es.map (·.slot) from fun es => by simp [slots, Item.slots], hes]
    · rw [if_neg hc]
      have := tr_closed hg h (a := []) ht hh h₁ (by omega) .root (L := fun _ => False) (D := D)
        (fun x s hx hn _ hi => by rw [hroot x s hx hn] at hi; cases hi) hD (fun h => absurd h hc)
      exact closed_append (closedL_closed (fun _ h => h) this) (hrest _ rfl)

/-- All nodes are visited. -/
theorem covered (hg : Grammar ph cyc A prods plans) {t : Static.Tree} {sp : Nat} (ht : HasTy (bases prods) t (some sp)) {h : Nat}
    (hh : t.height ≤ h) {b : Addr} {s : Static.Tree} (hat : At t b s) : ∀ {k : Nat}, HasTy (bases prods) s (some k) →
    ∃ h', s.height ≤ h' ∧ ∀ q, 1 ≤ q → q ≤ ph.visits k → ∃ q₀, 1 ≤ q₀ ∧ q₀ ≤ ph.visits sp ∧
      ∀ sl ∈ slots (tr prods plans h' s b q), sl ∈ slots (tr prods plans h t [] q₀) := by
  induction hat with
  | root =>
    intro k hk
    obtain ⟨p, kids, P, rfl, hP, rfl, _⟩ := hasTy_node hk
    cases hasTy_lhs ht hP
    exact ⟨h, hh, fun q h₁ h₂ => ⟨q, h₁, h₂, fun sl hsl => hsl⟩⟩
  | @kid a p c kids s hat hk ih =>
    intro k hks
    obtain ⟨o, ho⟩ := at_ty ht hat
    cases ho with
    | @node _ _ P₀ hP₀ hlen hkids =>
      rw [List.getElem?_map] at hP₀
      obtain ⟨P, hP, rfl⟩ := Option.map_eq_some_iff.1 hP₀
      have hpty : HasTy (bases prods) (.node p kids) (some P.base.lhsPhy) :=
        .node (by rw [List.getElem?_map, hP]; rfl) hlen hkids
      obtain ⟨h', hh', hall⟩ := ih hpty
      cases h' with
      | zero => unfold Static.Tree.height at hh'; omega
      | succ h' =>
        have hp := hg.planned p P hP
        refine ⟨h', by have := height_kid (p := p) hk; omega, fun q h₁ h₂ => ?_⟩
        have hlt : c < P.base.kidPhy.length := by rw [← hlen]; exact (List.getElem?_eq_some_iff.1 hk).1
        have hkid : P.base.kidPhy[c]? = some (some k) := by
          have hty := hkids c s _ hk (List.getElem?_eq_getElem hlt)
          obtain ⟨p', kids', P', rfl, hP', rfl, _⟩ := hasTy_node hks
          have := hasTy_lhs hty hP'
          rw [List.getElem?_eq_getElem hlt, this]
        obtain ⟨v, hv, hvis⟩ := hp.all c k q hkid h₁ h₂
        obtain ⟨j, hj, hget⟩ := List.mem_iff_getElem.1 hv
        have hget' : (plans p)[j + 1 - 1]? = some v := by
          rw [Nat.add_sub_cancel, List.getElem?_eq_getElem hj, hget]
        obtain ⟨q₀, g₁, g₂, g₃⟩ := hall (j + 1) (by omega) (by rw [← hp.visits.1]; omega)
        refine ⟨q₀, g₁, g₂, fun sl hsl => g₃ sl ?_⟩
        rw [slots_tr_node hP hget']
        refine mem_slots_steps.2 ⟨_, hvis, ?_⟩
        simp only [trStep, callOf_kid hk]
        exact hsl

theorem slots_phases {h sp : Nat} {t : Static.Tree} {q m : Nat} (h₁ : 1 ≤ q) (h₂ : q ≤ m) {sl : Slot}
    (hs : sl ∈ slots (tr prods plans h t [] q)) : sl ∈ slots (rootItems cyc prods plans h sp t (List.range' 1 m)) := by
  rw [slots_root]
  exact List.mem_flatMap.2 ⟨q, by simp [List.mem_range']; exact ⟨q - 1, by omega, by omega⟩, hs⟩

/-! ## Equations -/

theorem reads_known {P : SProd V} {plan : List Visit} (hp : Planned ph cyc A P plan) {i : Nat} {inst : Inst V}
    (hi : P.base.insts[i]? = some inst) (hw : inst.inward = false) {e : Expr V} (he : P.rhs i = some e) {j : Nat} (hj : j ∈ e.reads) :
    (P.base.insts[j]?).isSome := by
  obtain ⟨v, hv, hm⟩ := hp.outputs i inst hi hw
  obtain ⟨k, hk, hget⟩ := List.mem_iff_getElem.1 hv
  obtain ⟨r, hr, hm⟩ := List.mem_flatMap.1 hm
  obtain ⟨rpre, rpost, hr⟩ := List.append_of_mem hr
  obtain ⟨spre, spost, hs⟩ := List.append_of_mem hm
  obtain ⟨_, _, _, _, ho⟩ := occurs_of (q := k + 1) (by omega) (by rw [Nat.add_sub_cancel, List.getElem?_eq_getElem hk, hget]) hr hs
  obtain ⟨x, hx, _⟩ := (hp.reads _ _ _ _ _ _ _ ho he j hj).1
  rw [hx]
  rfl

theorem value_slotAt {P : SProd V} {val : Slot → Option V} {a : Addr} {j : Nat} (h : (P.base.insts[j]?).isSome) :
    P.base.value val a j = val (slotAt P a j) := by
  obtain ⟨x, hx⟩ := Option.isSome_iff_exists.1 h
  simp [Prod.value, slotAt, hx]

theorem mapM_value {P : SProd V} {val : Slot → Option V} {a : Addr} {js : List Nat} (h : ∀ j ∈ js, (P.base.insts[j]?).isSome) :
    (js.map (slotAt P a)).mapM val = js.mapM (P.base.value val a) := by
  induction js with
  | nil => rfl
  | cons j js ih =>
    rw [List.map_cons, List.mapM_cons, List.mapM_cons, value_slotAt (h j List.mem_cons_self),
      ih fun j hj => h j (List.mem_cons_of_mem _ hj)]

theorem no_has {P : SProd V} {plan : List Visit} (hd : Described ph P.base) (hp : Planned ph cyc A P plan) :
    ∀ r t f, ¬ P.base.body.Has r t f := by
  intro r t f h
  obtain ⟨inst, rule, hi, hr, _⟩ := hd.body r t f h
  rw [hp.rules r inst hi] at hr
  cases hr

theorem tested_nil {σ : Nat → Bool} {b : Block V} (h : ∀ r t f, ¬ b.Has r t f) : b.tested σ = [] := by
  induction b with
  | nil => rfl
  | decl i rest ih => exact ih fun r t f hh => h r t f (.decl hh)
  | assign i e rest ih => exact ih fun r t f hh => h r t f (.assign hh)
  | cond r t f rest iht ihf ih => exact absurd .here (h r t f)

theorem rhs_eq {P : SProd V} {plan : List Visit} (hd : Described ph P.base) (hp : Planned ph cyc A P plan) (σ : Nat → Bool) (i : Nat) :
    P.base.rhs σ i = P.rhs i := by
  have hb := no_has hd hp
  unfold SProd.rhs Prod.rhs
  rw [active_own hb, active_own hb]

theorem output_of {P : SProd V} {plan : List Visit} (hf : Phased ph) (hd : Described ph P.base) (hp : Planned ph cyc A P plan) {i : Nat}
    {inst : Inst V} (hi : P.base.insts[i]? = some inst) {e : Expr V} (he : emits inst (P.rhs i) = some e) (σ : Nat → Bool) :
    P.base.Output σ i := by
  have hw := emits_inward he
  refine ⟨inst, hi, ?_⟩
  cases hl : inst.lhs with
  | true =>
    obtain ⟨d₁, d₂, d₃, d₄⟩ := hd.lhs i inst hi hl
    refine .inl ⟨rfl, ?_, ?_⟩
    · have := (hf.range _ _ _ d₂).1
      have : ¬ inst.ph < 0 := fun h => by rw [d₄.2 h] at hw; cases hw
      omega
    · cases him : ph.implicit P.base.lhsPhy inst.attr with
      | false => rw [d₃, him]
      | true => unfold emits at he; rw [d₃, him] at he; simp [hw] at he
  | false =>
    cases hc : inst.ch with
    | some c =>
      obtain ⟨k, hk, d₂, d₃, d₄⟩ := hd.ch i inst c hi hc
      refine .inr (.inl ⟨by simp, ?_, ?_⟩)
      · have := (hf.range _ _ _ d₂).1
        have : ¬ 0 < inst.ph := fun h => by rw [d₄.2 h] at hw; cases hw
        omega
      · cases him : ph.implicit k inst.attr with
        | false => rw [d₃, him]
        | true => unfold emits at he; rw [d₃, him] at he; simp [hw] at he
    | none =>
      have hr := hp.rules i inst hi
      obtain ⟨hk, _⟩ := hd.loc i inst hi hr hl hc
      exact .inr (.inr ⟨hk, hr, hp.locals σ i inst hi hk⟩)

theorem stored_of_output {P : SProd V} {plan : List Visit} (hd : Described ph P.base) (hp : Planned ph cyc A P plan) {σ : Nat → Bool} {i : Nat}
    (h : P.base.Output σ i) : ∃ inst, P.base.insts[i]? = some inst ∧ inst.inward = false ∧ P.base.Stored i := by
  obtain ⟨inst, hi, h⟩ := h
  refine ⟨inst, hi, ?_, ⟨inst, hi, hp.rules i inst hi, ?_⟩⟩
  · cases hb : inst.inward with
    | false => rfl
    | true =>
      exfalso
      rcases h with ⟨hl, hph, _⟩ | ⟨hc, hph, _⟩ | ⟨hk, hr, _⟩
      · have := ((hd.lhs i inst hi hl).2.2.2).1 hb
        omega
      · obtain ⟨c, hc⟩ := Option.ne_none_iff_exists'.1 hc
        obtain ⟨_, _, _, _, d⟩ := hd.ch i inst c hi hc
        have := d.1 hb
        omega
      · cases hl : inst.lhs with
        | true => have := (hd.lhs i inst hi hl).2.2.1; rw [hk] at this; cases this
        | false =>
          cases hc : inst.ch with
          | some c => obtain ⟨_, _, _, d, _⟩ := hd.ch i inst c hi hc; rw [hk] at d; cases d
          | none => have := (hd.loc i inst hi hr hl hc).2; rw [hb] at this; cases this
  · rcases h with ⟨_, _, h⟩ | ⟨_, _, h⟩ | ⟨h, _⟩
    · exact .inl h
    · exact .inl h
    · exact .inr h

/-- If the evaluation ends, the equations hold. -/
theorem eval_solves (hg : Grammar ph cyc A prods plans) {codes : List (List (Code V))}
    (hcodes : ∀ (p : Nat) (P : SProd V), prods[p]? = some P → ∃ cs, codes[p]? = some cs ∧ Printed P cs)
    {t : Static.Tree} {sp : Nat} (hsp : ∀ P ∈ bases prods, some sp ∉ P.kidPhy) (ht : HasTy (bases prods) t (some sp))
    (hroot : ∀ (x : Nat) (s : Int), ph.sched sp x = some s → s < 0 → ph.implicit sp x = true) {n h : Nat} (hh : t.height ≤ h)
    {st' : St V} (hrun : visitAll A n h prods codes (cyc sp) sp t (List.range' 1 (ph.visits sp)) ⟨fun _ => none, false⟩ = .ok st') :
    Solves (bases prods) t st'.val := by
  rw [visitAll_eq_items hg hcodes n hsp ht hh _ (fun q hq => by simp [List.mem_range'] at hq; obtain ⟨i, h, rfl⟩ := hq; omega)] at hrun
  have hcl := root_closed hg ht hroot hh (ph.visits sp) 1 (Nat.le_refl _) (by omega) (D := fun _ => False)
    (fun q' h₁ h₂ => by omega)
  have hinv := (runItems_inv (qOf_functional hg ht) n ⟨fun _ h => h.elim, fun _ _ h => h.elim⟩ hcl hrun).1
  intro a p kids hat
  obtain ⟨o, ho⟩ := at_ty ht hat
  cases ho with
  | @node _ _ P₀ hP₀ hlen hkids =>
    have hP₀' := hP₀
    rw [List.getElem?_map] at hP₀
    obtain ⟨P, hP, rfl⟩ := Option.map_eq_some_iff.1 hP₀
    have hp := hg.planned p P hP
    have hd := hg.described p P hP
    refine ⟨P.base, hP₀', fun _ => false, (by rw [tested_nil (no_has hd hp)]; intro r hr; cases hr), fun i hout => ?_⟩
    obtain ⟨inst, hi, hw, hst⟩ := stored_of_output hd hp hout
    obtain ⟨e, he⟩ := Option.ne_none_iff_exists'.1 (hp.defined i inst hi hw hst)
    have hem : emits inst (P.rhs i) = some e := by rw [emits_stored hi hw hst, he]
    have hpty : HasTy (bases prods) (.node p kids) (some P.base.lhsPhy) := .node hP₀' hlen hkids
    obtain ⟨h', hh', hall⟩ := covered hg ht hh hat hpty
    have hslot : slotAt P a i ∈ slots (rootItems cyc prods plans h sp t (List.range' 1 (ph.visits sp))) := by
      obtain ⟨v, hv, hm⟩ := hp.outputs i inst hi hw
      obtain ⟨j, hj, hget⟩ := List.mem_iff_getElem.1 hv
      have hget' : (plans p)[j + 1 - 1]? = some v := by
        rw [Nat.add_sub_cancel, List.getElem?_eq_getElem hj, hget]
      obtain ⟨q₀, g₁, g₂, g₃⟩ := hall (j + 1) (by omega) (by rw [← hp.visits.1]; omega)
      refine slots_phases g₁ g₂ (g₃ _ ?_)
      cases h' with
      | zero => unfold Static.Tree.height at hh'; omega
      | succ h' =>
        rw [slots_tr_node hP hget']
        exact mem_slots_steps.2 ⟨_, hm, slot_inst hp hi hw hst⟩
    obtain ⟨_, vs, hvs, hv⟩ := hinv.eqn (evOf P a i e) ⟨a, p, kids, P, i, inst, e, hat, hP, hi, hem, rfl⟩ (.inr hslot)
    refine ⟨e, e.fn vs, by rw [rhs_eq hd hp]; exact he, ?_, ?_⟩
    · unfold Prod.eval
      rw [← mapM_value fun j hj => reads_known hp hi hw he hj]
      rw [show (e.reads.map (slotAt P a)).mapM st'.val = some vs from hvs]
      rfl
    · rw [value_slotAt (by rw [hi]; rfl)]
      exact hv

/-! ## Order -/

theorem slotAt_key (P : SProd V) (a : Addr) (j : Nat) : (slotAt P a j).2 = P.key j := by
  unfold slotAt SProd.key keyOf
  cases hj : P.base.insts[j]? with
  | none => rfl
  | some x =>
    simp only [Option.map_some, Option.getD_some]
    unfold Inst.slot
    cases x.ch with
    | some c => rfl
    | none => simp only; split <;> rfl

theorem leAll_pointwise {R : Key → V → V → Prop} {P : SProd V} {a : Addr} : ∀ {js : List Nat} {vs ws : List V},
    LeAll R (js.map (slotAt P a)) vs ws → Pointwise R (js.map P.key) vs ws := by
  intro js
  induction js with
  | nil =>
    intro vs ws h
    cases vs <;> cases ws
    · exact .nil
    all_goals exact h.elim
  | cons j js ih =>
    intro vs ws h
    cases vs <;> cases ws
    · exact h.elim
    · exact h.elim
    · exact h.elim
    · obtain ⟨h₁, h₂⟩ := h
      rw [slotAt_key] at h₁
      exact .cons h₁ (ih h₂)

theorem mono_of {R : Key → V → V → Prop} (ho : Ordered A R prods) (t : Static.Tree) : Mono A R (QOf prods t) := by
  refine ⟨ho.refl, ho.trans, ho.bot, ?_⟩
  rintro e ⟨a, p, kids, P, i, inst, ex, hat, hP, hi, he, rfl⟩ vs ws h
  show R (slotAt P a i).2 _ _
  rw [slotAt_key]
  exact ho.mono P (List.mem_of_getElem? hP) i ex (emits_some he) vs ws (leAll_pointwise h)

theorem sol_of (hg : Grammar ph cyc A prods plans) {t : Static.Tree} {val : Slot → Option V} (hs : Solves (bases prods) t val) :
    Sol (QOf prods t) val := by
  rintro e ⟨a, p, kids, P, i, inst, ex, hat, hP, hi, he, rfl⟩
  have hp := hg.planned p P hP
  have hd := hg.described p P hP
  obtain ⟨P', hP', σ, _, hall⟩ := hs a p kids hat
  rw [List.getElem?_map, hP] at hP'
  cases hP'
  obtain ⟨e', v, h₁, h₂, h₃⟩ := hall i (output_of hg.phased hd hp hi he σ)
  rw [rhs_eq hd hp, emits_some he] at h₁
  cases h₁
  unfold Prod.eval at h₂
  rw [← mapM_value fun j hj => reads_known hp hi (emits_inward he) (emits_some he) hj] at h₂
  obtain ⟨vs, hvs, rfl⟩ := Option.map_eq_some_iff.1 h₂
  rw [value_slotAt (by rw [hi]; rfl)] at h₃
  exact ⟨vs, hvs, h₃⟩

/-- What is computed is below every solution. -/
theorem eval_least (hg : Grammar ph cyc A prods plans) {codes : List (List (Code V))}
    (hcodes : ∀ (p : Nat) (P : SProd V), prods[p]? = some P → ∃ cs, codes[p]? = some cs ∧ Printed P cs)
    {t : Static.Tree} {sp : Nat} (hsp : ∀ P ∈ bases prods, some sp ∉ P.kidPhy) (ht : HasTy (bases prods) t (some sp))
    (hroot : ∀ (x : Nat) (s : Int), ph.sched sp x = some s → s < 0 → ph.implicit sp x = true) {n h : Nat} (hh : t.height ≤ h)
    {R : Key → V → V → Prop} (ho : Ordered A R prods)
    {st' : St V} (hrun : visitAll A n h prods codes (cyc sp) sp t (List.range' 1 (ph.visits sp)) ⟨fun _ => none, false⟩ = .ok st')
    {val : Slot → Option V} (hs : Solves (bases prods) t val) :
    ∀ s v, st'.val s = some v → ∃ w, val s = some w ∧ R s.2 v w := by
  rw [visitAll_eq_items hg hcodes n hsp ht hh _ (fun q hq => by simp [List.mem_range'] at hq; obtain ⟨i, h, rfl⟩ := hq; omega)] at hrun
  have hcl := root_closed hg ht hroot hh (ph.visits sp) 1 (Nat.le_refl _) (by omega) (D := fun _ => False)
    (fun q' h₁ h₂ => by omega)
  exact below_runItems (mono_of ho t) (sol_of hg hs) n hcl.all (fun s v h => by cases h) hrun

/-- The evaluation ends. -/
theorem eval_ends (hg : Grammar ph cyc A prods plans) {codes : List (List (Code V))}
    (hcodes : ∀ (p : Nat) (P : SProd V), prods[p]? = some P → ∃ cs, codes[p]? = some cs ∧ Printed P cs)
    {t : Static.Tree} {sp : Nat} (hsp : ∀ P ∈ bases prods, some sp ∉ P.kidPhy) (ht : HasTy (bases prods) t (some sp))
    (hroot : ∀ (x : Nat) (s : Int), ph.sched sp x = some s → s < 0 → ph.implicit sp x = true) {h : Nat} (hh : t.height ≤ h)
    {R : Key → V → V → Prop} (ho : Ordered A R prods) (hb : Bounded A R) :
    ∃ N, ∀ n, N ≤ n → ∃ st', visitAll A n h prods codes (cyc sp) sp t (List.range' 1 (ph.visits sp)) ⟨fun _ => none, false⟩ = .ok st' := by
  obtain ⟨rank, H, hr⟩ := hb.rank
  have hfin : Finite A R rank H := ⟨hb.le, fun k hk => (hr k hk).1, fun k hk => (hr k hk).2⟩
  have hcl := root_closed hg ht hroot hh (ph.visits sp) 1 (Nat.le_refl _) (by omega) (D := fun _ => False)
    (fun q' h₁ h₂ => by omega)
  refine ⟨(slots (rootItems cyc prods plans h sp t (List.range' 1 (ph.visits sp)))).length * (H + 1) + 1, fun n hn => ?_⟩
  rw [visitAll_eq_items hg hcodes n hsp ht hh _ (fun q hq => by simp [List.mem_range'] at hq; obtain ⟨i, h, rfl⟩ := hq; omega)]
  exact runItems_ok (mono_of ho t) (qOf_functional hg ht) hfin n (by simp only [slots] at hn; omega) hcl
    ⟨fun e _ w hw => by cases hw⟩ (fun s h => h.elim)

end

end Aps.SccGen
