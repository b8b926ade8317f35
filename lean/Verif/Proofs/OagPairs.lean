import Verif.Proofs.OagMain
import Mathlib.Logic.Relation
set_option linter.unusedVariables false
/-! Which pairs of instances depend on each other after the iterations: paths of the first dependencies and those of the
summaries. -/
namespace Aps.Oag
open Aps.Dnc Aps.Props

/-- different links of a graph are about different instances -/
def LinksApart (g : Aug) (ps : List Phy) : Prop :=
  ∀ l ∈ g.links, ∀ l' ∈ g.links, ∀ p p', ps[l.2]? = some p → ps[l'.2]? = some p' → ∀ a a', a < p.n → a' < p'.n →
    l.1 + a = l'.1 + a' → l = l'

theorem LinksApart.mono {g g' : Aug} {ps ps' : List Phy} (h : LinksApart g ps) (m : Mono g g') (hp : NzLe ps ps') : LinksApart g' ps' := by
  intro l hl l' hl' p p' e e' a a' ha ha' heq
  rw [m.links] at hl hl'
  obtain ⟨q, eq, x, _⟩ := hp.back e
  obtain ⟨q', eq', x', _⟩ := hp.back e'
  exact h l hl l' hl' q q' eq eq' a a' (by omega) (by omega) heq

/-- the summary says that instance `i` of the graph comes before instance `j` -/
def InSummary (g : Aug) (ps : List Phy) (i j : Nat) : Prop :=
  ∃ l ∈ g.links, ∃ p, ps[l.2]? = some p ∧ ∃ a b, a < p.n ∧ b < p.n ∧ i = l.1 + a ∧ j = l.1 + b ∧ mget p.n p.m a b ≠ 0

/-- one step: a dependency of the graph or of a summary -/
def StepDep (g : Aug) (ps : List Phy) (σ : Nat → Bool) (i j : Nat) : Prop :=
  i < g.n ∧ j < g.n ∧ (DepUnder g σ i j ∨ InSummary g ps i j)

/-- a path of such steps -/
def PathDep (g : Aug) (ps : List Phy) (σ : Nat → Bool) : Nat → Nat → Prop := Relation.TransGen (StepDep g ps σ)

theorem PathDep.lt {g ps σ i j} (h : PathDep g ps σ i j) : i < g.n ∧ j < g.n := by
  induction h with
  | single h => exact ⟨h.1, h.2.1⟩
  | tail _ h ih => exact ⟨ih.1, h.2.1⟩

open Classical in
/-- the bound for the kinds -/
noncomputable def boundM (g : Aug) (ps : List Phy) (σ : Nat → Bool) (i j : Nat) : Dep :=
  if InSummary g ps i j ∨ indirect (kindAt σ (g.cell i j)) ≠ 0 ∨ ∃ k, PathDep g ps σ i k ∧ PathDep g ps σ k j then BitVec.allOnes 32
  else kindAt σ (g.cell i j)

/-- the bound for the kinds of the summaries -/
def boundN (ps : List Phy) (k a b : Nat) : Dep :=
  match ps[k]? with
  | some p => if mget p.n p.m a b ≠ 0 then BitVec.allOnes 32 else 0
  | none => 0

theorem ones_ne : (BitVec.allOnes 32 : Dep) ≠ 0 := by decide

theorem boundN_ne {ps : List Phy} {k a b : Nat} (h : boundN ps k a b ≠ 0) : ∃ p, ps[k]? = some p ∧ mget p.n p.m a b ≠ 0 := by
  unfold boundN at h
  split at h
  · rename_i p e
    refine ⟨p, e, fun h0 => h ?_⟩
    rw [if_neg (by simpa using h0)]
  · exact absurd rfl h

theorem boundN_ones {ps : List Phy} {k a b : Nat} {p : Phy} (e : ps[k]? = some p) (h : mget p.n p.m a b ≠ 0) :
    boundN ps k a b = BitVec.allOnes 32 := by
  unfold boundN
  rw [e]
  simp only
  rw [if_pos h]

/-- the final graph: closed, in agreement with the summaries -/
structure Final (g : Aug) (ps : List Phy) : Prop where
  wf : GWf g
  winv : WInv g
  done : g.wl.list = []
  links : LinksOk g ps
  up : ∀ l ∈ g.links, UpOk g ps l
  down : ∀ l ∈ g.links, DownOk0 g ps l

theorem Final.pathDep {g gF : Aug} {ps : List Phy} (hF : Final gF ps) (m : Mono g gF) {σ : Nat → Bool} {i j : Nat}
    (h : PathDep g ps σ i j) : DepUnder gF σ i j := by
  have hst : ∀ i j, StepDep g ps σ i j → DepUnder gF σ i j := by
    rintro i j ⟨hi, hj, h | h⟩
    · obtain ⟨e, he, hs⟩ := h
      obtain ⟨e', he', hc, _⟩ := m.mono i j hi hj e.cond e.kind ⟨e, he, Cond.sub_refl _, Le.refl _⟩
      exact ⟨e', he', sat_sub hc hs⟩
    · obtain ⟨l, hl, p, ep, a, b, ha, hb, rfl, rfl, hne⟩ := h
      have := hF.down l (by rw [m.links]; exact hl) p ep a b ha hb hne
      obtain ⟨t, ht⟩ := dep_ne_zero.1 this
      obtain ⟨ed, he, hc, _⟩ := lowerbound_bit.1 ht
      exact ⟨ed, he, by rw [hc]; exact sat_nil σ⟩
  induction h with
  | single h => exact hst _ _ h
  | tail h1 h2 ih =>
    have l1 := PathDep.lt h1
    rw [← m.n] at l1
    exact depUnder_trans hF.wf hF.winv hF.done l1.1 l1.2 (by rw [m.n]; exact h2.2.1) ih (hst _ _ h2)

theorem boundM_path {g : Aug} {ps : List Phy} {σ : Nat → Bool} {i j : Nat} (hi : i < g.n) (hj : j < g.n)
    (h : boundM g ps σ i j ≠ 0) : PathDep g ps σ i j := by
  have hk : kindAt σ (g.cell i j) ≠ 0 → PathDep g ps σ i j := by
    intro h
    obtain ⟨t, ht⟩ := dep_ne_zero.1 h
    obtain ⟨e, he, hs, _⟩ := kindAt_bit.1 ht
    exact .single ⟨hi, hj, .inl ⟨e, he, hs⟩⟩
  unfold boundM at h
  split at h
  · rename_i hc
    rcases hc with hc | hc | ⟨k, h1, h2⟩
    · exact .single ⟨hi, hj, .inr hc⟩
    · refine hk fun h0 => hc ?_
      rw [h0]; decide
    · exact h1.trans h2
  · exact hk h

theorem boundM_below (g : Aug) (ps : List Phy) : Below (boundM g ps) g := by
  intro σ i j hi hj
  unfold boundM
  split
  · exact le_allOnes _
  · exact Le.refl _

theorem boundM_closed (g : Aug) (ps : List Phy) : Closed g.n (boundM g ps) := by
  intro σ i k j hi hk hj
  by_cases h0 : trans (boundM g ps σ i k) (boundM g ps σ k j) = 0
  · rw [h0]; exact Le.zero _
  · rw [trans_zero_iff, not_or] at h0
    have h1 := boundM_path hi hk h0.1
    have h2 := boundM_path hk hj h0.2
    have : boundM g ps σ i j = BitVec.allOnes 32 := by
      unfold boundM
      rw [if_pos (.inr (.inr ⟨k, h1, h2⟩))]
    rw [this]; exact le_allOnes _

theorem boundN_closed {ps : List Phy} (hc : ∀ p ∈ ps, MClosed p.n (mget p.n p.m)) {k : Nat} {p : Phy} (e : ps[k]? = some p) :
    MClosed p.n (boundN ps k) := by
  intro a b c ha hb hc'
  by_cases h0 : trans (boundN ps k a b) (boundN ps k b c) = 0
  · rw [h0]; exact Le.zero _
  · rw [trans_zero_iff, not_or] at h0
    obtain ⟨p1, e1, n1⟩ := boundN_ne h0.1
    obtain ⟨p2, e2, n2⟩ := boundN_ne h0.2
    rw [e] at e1 e2; cases e1; cases e2
    rw [boundN_ones e (le_ne_zero (hc p (List.mem_of_getElem? e) a b c ha hb hc') (trans_ne_zero n1 n2))]
    exact le_allOnes _

theorem indirect_zero : indirect (0 : Dep) = 0 := by decide

theorem bound_links {g gF : Aug} {ps psF : List Phy} (hF : Final gF psF) (m : Mono g gF) (hp : NzLe ps psF)
    (hap : LinksApart gF psF) : ∀ l ∈ g.links, LinkBound (boundM g psF) (boundN psF) ps l := by
  intro l hl p ep a b ha hb
  obtain ⟨pF, epF, hn, _, hfn, _⟩ := hp.le _ _ ep
  have haF : a < pF.n := by omega
  have hbF : b < pF.n := by omega
  have hlF : l ∈ gF.links := by rw [m.links]; exact hl
  have hin : mget pF.n pF.m a b ≠ 0 → InSummary g psF (l.1 + a) (l.1 + b) := fun h => ⟨l, hl, pF, epF, a, b, haF, hbF, rfl, rfl, h⟩
  have hones : boundN psF l.2 a b ≠ 0 → ∀ σ, boundM g psF σ (l.1 + a) (l.1 + b) = BitVec.allOnes 32 := by
    intro h σ
    obtain ⟨q, eq, hq⟩ := boundN_ne h
    rw [epF] at eq; cases eq
    unfold boundM
    rw [if_pos (.inl (hin hq))]
  refine ⟨fun σ => ?_, fun h σ σ' => ?_, fun hf σ => ?_⟩
  · by_cases h : boundN psF l.2 a b = 0
    · rw [h]; exact Le.zero _
    · rw [hones h σ]; exact le_allOnes _
  · rw [hones h σ']; exact le_allOnes _
  · by_cases hm : mget pF.n pF.m a b ≠ 0
    · rw [boundN_ones epF hm]; exact le_allOnes _
    · have hm0 : mget pF.n pF.m a b = 0 := by simpa using hm
      obtain ⟨q, eq, hle, _⟩ := hF.links l hlF
      rw [epF] at eq; cases eq
      have hi : l.1 + a < gF.n := by omega
      have hj : l.1 + b < gF.n := by omega
      have hind : ∀ τ, indirect (kindAt τ (gF.cell (l.1 + a) (l.1 + b))) = 0 := by
        intro τ
        by_contra h
        refine hm (le_ne_zero (hF.up l hlF pF epF (by rw [hfn]; exact hf) a b haF hbF) ?_)
        refine le_ne_zero ?_ h
        apply indirect_mono
        intro t ht
        obtain ⟨e, he, _, hk⟩ := kindAt_bit.1 ht
        exact edgesetKind_bit.2 ⟨e, he, hk⟩
      have hno : ¬ (InSummary g psF (l.1 + a) (l.1 + b) ∨ indirect (kindAt σ (g.cell (l.1 + a) (l.1 + b))) ≠ 0 ∨
          ∃ k, PathDep g psF σ (l.1 + a) k ∧ PathDep g psF σ k (l.1 + b)) := by
        rintro (h | h | ⟨k, h1, h2⟩)
        · obtain ⟨l', hl', p', ep', a', b', ha', hb', e1, e2, hne⟩ := h
          have := hap l hlF l' (by rw [m.links]; exact hl') pF p' epF ep' a a' haF ha' e1
          subst this
          rw [epF] at ep'; cases ep'
          have : a' = a := by omega
          have : b' = b := by omega
          subst a' b'
          exact hm hne
        · refine le_ne_zero (indirect_mono (m.kind (by rw [← m.n]; exact hi) (by rw [← m.n]; exact hj) σ)) h (hind σ)
        · have hk := (PathDep.lt h1).2
          rw [← m.n] at hk
          have d1 := (depUnder_iff hF.wf hi hk).1 (hF.pathDep m h1)
          have d2 := (depUnder_iff hF.wf hk hj).1 (hF.pathDep m h2)
          have hc := closed_of_winv hF.wf hF.winv hF.done σ _ k _ hi hk hj
          have := indirect_mono hc
          rw [indirect_trans] at this
          exact le_ne_zero this (trans_ne_zero d1 d2) (hind σ)
      unfold boundM
      rw [if_neg hno]
      have : indirect (kindAt σ (g.cell (l.1 + a) (l.1 + b))) = 0 := by
        by_contra h
        exact hno (.inr (.inl h))
      rw [this]; exact Le.zero _

/-- the pairs of a graph that stays below the bound -/
theorem pairs_of_below {g g' : Aug} {ps : List Phy} (hb : Below (boundM g ps) g') (w : GWf g') (hn : g'.n = g.n) {σ : Nat → Bool} {i j : Nat}
    (hi : i < g.n) (hj : j < g.n) (h : DepUnder g' σ i j) : PathDep g ps σ i j := by
  rw [depUnder_iff w (by omega) (by omega)] at h
  exact boundM_path hi hj (le_ne_zero (hb σ i j (by omega) (by omega)) h)

/-- In the state at the end the dependencies of each graph are exactly the paths of the first dependencies and the
summaries. -/
theorem final_pairs {s s' : State} (hx : SFix0 s') (hr : OR s s') (hap : ∀ g ∈ s.augs, LinksApart g s.phys) {x : Nat} {g g' : Aug}
    (hg : s.augs[x]? = some g) (hg' : s'.augs[x]? = some g') (m : Mono g g') {σ : Nat → Bool} {i j : Nat} (hi : i < g.n) (hj : j < g.n) :
    DepUnder g' σ i j ↔ PathDep g s'.phys σ i j := by
  have fin : ∀ g ∈ s'.augs, Final g s'.phys := fun g hg =>
    ⟨(hx.inv.augs g hg).wf, (hx.inv.augs g hg).winv, hx.done g hg, (hx.inv.augs g hg).links, hx.up g hg, hx.down g hg⟩
  have hfin := fin g' (List.mem_of_getElem? hg')
  refine ⟨fun h => ?_, fun h => hfin.pathDep m h⟩
  have hb : SBound (fun x σ i j => match s.augs[x]? with | some g => boundM g s'.phys σ i j | none => 0) (boundN s'.phys) s := by
    constructor
    · intro y q hq
      rw [hq]
      obtain ⟨q', e', mq⟩ := forall2_get' hr.augs hq
      refine ⟨boundM_closed _ _, bound_links (fin q' (List.mem_of_getElem? e')) mq hr.phys ?_⟩
      exact (hap q (List.mem_of_getElem? hq)).mono mq hr.phys
    · intro y p hp
      obtain ⟨p', e', hn, _⟩ := hr.phys.le y p hp
      have := boundN_closed hx.closed e'
      rw [hn] at this; exact this
  have hw : SBelow (fun x σ i j => match s.augs[x]? with | some g => boundM g s'.phys σ i j | none => 0) (boundN s'.phys) s := by
    constructor
    · intro y q hq
      rw [hq]
      exact boundM_below _ _
    · intro y p hp a b ha hb
      obtain ⟨p', e', hn, _, _, hz⟩ := hr.phys.le y p hp
      by_cases h0 : mget p.n p.m a b = 0
      · rw [h0]; exact Le.zero _
      · have := hz a b ha hb h0
        rw [← hn] at this
        rw [boundN_ones e' this]; exact le_allOnes _
  have := (hr.bound _ _ hb hw (fun y p hp a b ha hb h => boundN_ones hp h)).augs x g' hg'
  rw [hg] at this
  exact pairs_of_below this hfin.wf m.n hi hj h

end Aps.Oag
