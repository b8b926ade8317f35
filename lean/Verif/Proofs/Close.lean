import Verif.Proofs.Edges
import Verif.Proofs.SccClose
import Mathlib.Order.Interval.Set.Basic
import Mathlib.Order.Interval.Finset.Nat
import Mathlib.Data.Set.Finite.Range
import Mathlib.Order.Interval.Set.Infinite
import Mathlib.Order.Interval.Finset.Basic
import Mathlib.Data.Fintype.Prod
/-! The closure of augmented dependency graphs. -/
namespace Aps.Dnc

/-- well-formed augmented graphs: what every operation keeps -/
structure GWf (g : Aug) : Prop where
  len : g.cells.length = g.n * g.n
  ok : ∀ i j, i < g.n → j < g.n → ∀ e ∈ g.cell i j, EdgeOk i j e
  id : ∀ i j, i < g.n → j < g.n → ∀ e ∈ g.cell i j, e.id < g.wl.next
  nd : ∀ i j, i < g.n → j < g.n → ((g.cell i j).map (·.id)).Nodup
  uniq : ∀ i j i' j', i < g.n → j < g.n → i' < g.n → j' < g.n → ∀ e ∈ g.cell i j, ∀ e' ∈ g.cell i' j',
    e.id = e'.id → e = e'
  wl : ∀ e ∈ g.wl.list, e.src < g.n ∧ e.snk < g.n ∧ e ∈ g.cell e.src e.snk
  
theorem GWf.wlid {g : Aug} (h : GWf g) : ∀ e ∈ g.wl.list, e.id < g.wl.next := by
  intro e he
  obtain ⟨h1, h2, h3⟩ := h.wl e he
  exact h.id _ _ h1 h2 e h3

/-- the set of facts single edges of a graph say -/
def Dset (g : Aug) : Set (Nat × Nat × Cond × Dep) :=
  {x | x.1 < g.n ∧ x.2.1 < g.n ∧ Ent (g.cell x.1 x.2.1) x.2.2.1 x.2.2.2}

/-- how operations on a graph relate the graphs before and after -/
structure Step (g g' : Aug) : Prop where
  n : g'.n = g.n
  attrs : g'.attrs = g.attrs
  links : g'.links = g.links
  mono : ∀ i j, i < g.n → j < g.n → ∀ c k, Ent (g.cell i j) c k → Ent (g'.cell i j) c k
  new : ∀ i j, i < g.n → j < g.n → ∀ e ∈ g'.cell i j, e ∈ g.cell i j ∨ e ∈ g'.wl.list
  keep : ∀ e ∈ g.wl.list, e ∈ g'.cell e.src e.snk → e ∈ g'.wl.list
  grow : (g'.wl.next = g.wl.next ∧ g'.wl.list.length ≤ g.wl.list.length ∧ ∀ e ∈ g'.wl.list, e ∈ g.wl.list) ∨ Dset g ⊂ Dset g'

theorem Step.refl (g : Aug) : Step g g :=
  ⟨rfl, rfl, rfl, fun _ _ _ _ _ _ h => h, fun _ _ _ _ _ h => .inl h, fun _ h _ => h, .inl ⟨rfl, le_refl _, fun _ h => h⟩⟩

theorem Step.dset {g g' : Aug} (h : Step g g') : Dset g ⊆ Dset g' := by
  rintro ⟨i, j, c, k⟩ ⟨h1, h2, h3⟩
  refine ⟨?_, ?_, h.mono i j h1 h2 c k h3⟩
  · rw [h.n]; exact h1
  · rw [h.n]; exact h2

theorem Step.trans' {g g' g'' : Aug} (w : ∀ e ∈ g.wl.list, e.src < g.n ∧ e.snk < g.n)
    (h1 : Step g g') (h2 : Step g' g'') (w' : GWf g') : Step g g'' := by
  constructor
  · rw [h2.n, h1.n]
  · rw [h2.attrs, h1.attrs]
  · rw [h2.links, h1.links]
  · intro i j hi hj c k h
    exact h2.mono i j (by rw [h1.n]; exact hi) (by rw [h1.n]; exact hj) c k (h1.mono i j hi hj c k h)
  · intro i j hi hj e he
    have hi' : i < g'.n := by rw [h1.n]; exact hi
    have hj' : j < g'.n := by rw [h1.n]; exact hj
    rcases h2.new i j hi' hj' e he with h | h
    · rcases h1.new i j hi hj e h with h' | h'
      · exact .inl h'
      · have eo := w'.ok i j hi' hj' e h
        refine .inr (h2.keep e h' ?_)
        rw [eo.1, eo.2.1]; exact he
    · exact .inr h
  · intro e he hc
    obtain ⟨a, b⟩ := w e he
    rcases h2.new e.src e.snk (by rw [h1.n]; exact a) (by rw [h1.n]; exact b) e hc with h | h
    · exact h2.keep e (h1.keep e he h) hc
    · exact h
  · rcases h1.grow with ⟨a1, a2, a3⟩ | a
    · rcases h2.grow with ⟨b1, b2, b3⟩ | b
      · exact .inl ⟨b1.trans a1, b2.trans a2, fun e he => a3 e (b3 e he)⟩
      · exact .inr (lt_of_le_of_lt h1.dset b)
    · exact .inr (lt_of_lt_of_le a h2.dset)

theorem cell_set {g : Aug} {i j a b : Nat} {es : List Edge} {w : Wl} (hl : g.cells.length = g.n * g.n)
    (hi : i < g.n) (hj : j < g.n) (hb : b < g.n) :
    ({ g with cells := g.cells.set (i * g.n + j) es, wl := w } : Aug).cell a b =
      if a = i ∧ b = j then es else g.cell a b := by
  unfold Aug.cell
  simp only
  by_cases h : a = i ∧ b = j
  · obtain ⟨rfl, rfl⟩ := h
    have := Scc.cell_lt hi hj
    rw [List.getElem?_set_self (by omega)]; simp
  · rw [if_neg h, List.getElem?_set_ne]
    intro he
    exact h ⟨(Scc.cell_inj hj hb he).1.symm, (Scc.cell_inj hj hb he).2.symm⟩

theorem addEdgeToGraph_spec {g : Aug} (w : GWf g) {i j : Nat} (hi : i < g.n) (hj : j < g.n) {c : Cond} (hc : c.ok)
    {k : Dep} (hk : k ≠ 0) :
    ∃ g', addEdgeToGraph i j c k g = .ok g' ∧ GWf g' ∧ Step g g' ∧ Ent (g'.cell i j) c k ∧
      (∀ σ a b, a < g.n → b < g.n → ∀ t, (kindAt σ (g'.cell a b)).getLsbD t = true ↔
        (kindAt σ (g.cell a b)).getLsbD t = true ∨ (a = i ∧ b = j ∧ Sat σ c ∧ k.getLsbD t = true)) ∧
      (¬ Ent (g.cell i j) c k → g'.wl.list ≠ []) := by
  obtain ⟨es', w', e1, p⟩ := addEdge_spec i j k hk (g.cell i j) g.wl c hc (w.ok i j hi hj) (w.id i j hi hj)
    (w.nd i j hi hj) w.wlid
  have cs := fun a b (hb : b < g.n) => cell_set (a := a) (es := es') (w := w') w.len hi hj hb
  refine ⟨{ g with cells := g.cells.set (i * g.n + j) es', wl := w' }, ?_, ?_, ?_, ?_, ?_, ?_⟩
  · unfold addEdgeToGraph; rw [e1]; rfl
  · have nextle : g.wl.next ≤ w'.next := by rcases p.next with h | h <;> omega
    have idlt : ∀ e ∈ es', e.id < w'.next := by
      intro e he
      rcases p.new e he with h | ⟨h1, _, h3, _⟩
      · have := w.id i j hi hj e h; omega
      · omega
    constructor
    · simp [w.len]
    · intro a b ha hb e he
      simp only at ha hb
      rw [cs a b hb] at he
      split at he
      · rename_i h; obtain ⟨rfl, rfl⟩ := h; exact p.ok e he
      · exact w.ok a b ha hb e he
    · intro a b ha hb e he
      simp only at ha hb ⊢
      rw [cs a b hb] at he
      split at he
      · exact idlt e he
      · have := w.id a b ha hb e he; omega
    · intro a b ha hb
      simp only at ha hb
      rw [cs a b hb]
      split
      · exact p.nodup
      · exact w.nd a b ha hb
    · intro a b a' b' ha hb ha' hb' e he e' he' hee
      simp only at ha hb ha' hb'
      rw [cs a b hb] at he
      rw [cs a' b' hb'] at he'
      have key : ∀ x ∈ es', x ∈ g.cell i j ∨ x.id = g.wl.next := fun x hx => (p.new x hx).imp id (fun h => h.1)
      have inj : ∀ x ∈ es', ∀ y ∈ es', x.id = y.id → x = y := by
        intro x hx y hy hxy
        exact List.inj_on_of_nodup_map p.nodup hx hy hxy
      split at he <;> split at he'
      · exact inj e he e' he' hee
      · rcases key e he with h | h
        · exact w.uniq _ _ _ _ hi hj ha' hb' e h e' he' hee
        · have := w.id a' b' ha' hb' e' he'; omega
      · rcases key e' he' with h | h
        · exact w.uniq _ _ _ _ ha hb hi hj e he e' h hee
        · have := w.id a b ha hb e he; omega
      · exact w.uniq _ _ _ _ ha hb ha' hb' e he e' he' hee
    · intro e he
      simp only at he ⊢
      rcases p.wl e he with h | ⟨h1, h2, h3⟩
      · obtain ⟨b1, b2, b3⟩ := w.wl e h
        refine ⟨b1, b2, ?_⟩
        rw [cs _ _ b2]
        split
        · rename_i hcell
          rw [hcell.1, hcell.2] at b3
          obtain ⟨e', he', hid⟩ := p.gone e he e b3 rfl
          rcases p.new e' he' with h' | ⟨h', _⟩
          · have := w.uniq _ _ _ _ hi hj hi hj e' h' e b3 hid
            rw [← this]; exact he'
          · have := w.wlid e h; omega
        · exact b3
      · have := p.ok e h3
        rw [this.1, this.2.1]
        refine ⟨hi, hj, ?_⟩
        rw [cs _ _ hj]; simp [h3]
  · constructor
    · rfl
    · rfl
    · rfl
    · intro a b ha hb c' k' h
      rw [cs a b hb]
      split
      · rename_i h'; obtain ⟨rfl, rfl⟩ := h'; exact p.mono c' k' h
      · exact h
    · intro a b ha hb e he
      rw [cs a b hb] at he
      split at he
      · rename_i h'; obtain ⟨rfl, rfl⟩ := h'
        exact (p.new e he).imp id (fun h => h.2.1)
      · exact .inl he
    · intro e he hcell
      simp only
      rcases p.keep e he with h | ⟨old, h1, h2, h3⟩
      · exact h
      · obtain ⟨b1, b2, b3⟩ := w.wl e he
        have := w.uniq _ _ _ _ hi hj b1 b2 old h1 e b3 h2
        subst this
        have eo := w.ok i j hi hj old h1
        rw [eo.1, eo.2.1, cs _ _ hj] at hcell
        simp only [and_self, if_true] at hcell
        exact absurd rfl (h3 old hcell)
    · rcases p.next with ⟨h1, h2⟩ | ⟨h1, e, he, hid⟩
      · left; refine ⟨h1, h2, fun e he => ?_⟩
        rcases p.wl e he with h | ⟨_, h, _⟩
        · exact h
        · omega
      · right
        have hmono : Dset g ⊆ Dset { g with cells := g.cells.set (i * g.n + j) es', wl := w' } := by
          rintro ⟨a, b, c', k'⟩ ⟨ha, hb, h⟩
          refine ⟨ha, hb, ?_⟩
          simp only at ha hb h ⊢
          rw [cs a b hb]
          split
          · rename_i h'; obtain ⟨rfl, rfl⟩ := h'; exact p.mono c' k' h
          · exact h
        refine ⟨hmono, fun hsub => ?_⟩
        rcases p.new e he with h | ⟨_, _, _, _, _, hne⟩
        · have := w.id i j hi hj e h; omega
        · apply hne
          have : (i, j, e.cond, e.kind) ∈ Dset g := hsub (by
            refine ⟨hi, hj, ?_⟩
            simp only
            rw [cs _ _ hj]
            simp only [and_self, if_true]
            exact ⟨e, he, Cond.sub_refl _, Le.refl _⟩)
          exact this.2.2
  · rw [cs _ _ hj]; simp only [and_self, if_true]; exact p.ent
  · intro σ a b ha hb t
    rw [cs a b hb]
    split
    · rename_i h; obtain ⟨rfl, rfl⟩ := h
      rw [p.kind σ t]; simp
    · rename_i h
      constructor
      · exact .inl
      · rintro (h' | ⟨rfl, rfl, _⟩)
        · exact h'
        · exact absurd ⟨rfl, rfl⟩ h
  · intro hne hwl
    simp only at hwl
    obtain ⟨e, he, h1, h2⟩ := p.ent
    rcases p.new e he with h | ⟨_, h, _⟩
    · exact hne ⟨e, h, h1, h2⟩
    · rw [hwl] at h; cases h

/-- both conditions -/
def both (c1 c2 : Cond) : Cond := ⟨c1.pos ||| c2.pos, c1.neg ||| c2.neg⟩

theorem sat_both {σ : Nat → Bool} {c1 c2 : Cond} : Sat σ (both c1 c2) ↔ Sat σ c1 ∧ Sat σ c2 := by
  unfold Sat both
  simp only [BitVec.getLsbD_or, Bool.or_eq_true]
  constructor
  · intro h
    exact ⟨fun i => ⟨fun h' => (h i).1 (.inl h'), fun h' => (h i).2 (.inl h')⟩,
      fun i => ⟨fun h' => (h i).1 (.inr h'), fun h' => (h i).2 (.inr h')⟩⟩
  · rintro ⟨h1, h2⟩ i
    exact ⟨fun h => h.elim (h1 i).1 (h2 i).1, fun h => h.elim (h1 i).2 (h2 i).2⟩

theorem ok_of_sat {σ : Nat → Bool} {c : Cond} (h : Sat σ c) : c.ok := by
  rw [Cond.ok_iff]
  rintro i ⟨a, b⟩
  have := (h i).1 a
  rw [(h i).2 b] at this; cases this

/-- the pair of edges has been taken into account -/
def PairOk (g : Aug) (a b : Edge) : Prop :=
  ¬ (both a.cond b.cond).ok ∨ Ent (g.cell a.src b.snk) (both a.cond b.cond) (trans a.kind b.kind)

theorem PairOk.step {g g' : Aug} (h : Step g g') {a b : Edge} (ha : a.src < g.n) (hb : b.snk < g.n)
    (hp : PairOk g a b) : PairOk g' a b := hp.imp id (h.mono _ _ ha hb _ _)

/-- An upper bound: under every assignment the dependencies of the graph and its worklist are below `M`. -/
def Below (M : (Nat → Bool) → Nat → Nat → Dep) (g : Aug) : Prop :=
  ∀ σ i j, i < g.n → j < g.n → Le (kindAt σ (g.cell i j)) (M σ i j)

/-- `M` is transitively closed on `n` instances -/
def Closed (n : Nat) (M : (Nat → Bool) → Nat → Nat → Dep) : Prop :=
  ∀ σ i k j, i < n → k < n → j < n → Le (trans (M σ i k) (M σ k j)) (M σ i j)

theorem le_kindAt {σ : Nat → Bool} {es : List Edge} {e : Edge} (he : e ∈ es) (hs : Sat σ e.cond) :
    Le e.kind (kindAt σ es) := fun _ hb => kindAt_bit.2 ⟨e, he, hs, hb⟩

/-- an edge is below `M` -/
def EBelow (M : (Nat → Bool) → Nat → Nat → Dep) (e : Edge) : Prop :=
  ∀ σ, Sat σ e.cond → Le e.kind (M σ e.src e.snk)

theorem Below.edge {M} {g : Aug} (w : GWf g) (h : Below M g) {i j : Nat} (hi : i < g.n) (hj : j < g.n) {e : Edge}
    (he : e ∈ g.cell i j) : EBelow M e := by
  intro σ hs
  have := w.ok i j hi hj e he
  rw [this.1, this.2.1]
  exact (le_kindAt he hs).trans' (h σ i j hi hj)

/-- result of processing: the graph stays well-formed, steps, and stays below closed bounds -/
structure Good (g g' : Aug) : Prop where
  wf : GWf g'
  step : Step g g'

theorem addTransitive_spec {g : Aug} (w : GWf g) {a b : Edge} (ha : a.src < g.n) (hb : b.snk < g.n)
    (hka : a.kind ≠ 0) (hkb : b.kind ≠ 0) :
    ∃ g', addTransitiveEdge a.src b.snk a.cond b.cond a.kind b.kind g = .ok g' ∧ GWf g' ∧ Step g g' ∧
      PairOk g' a b ∧ (∀ M, Closed g.n M → a.snk = b.src → b.src < g.n → Below M g → EBelow M a → EBelow M b → Below M g') := by
  unfold addTransitiveEdge
  simp only
  by_cases h : (a.cond.pos ||| b.cond.pos) &&& (a.cond.neg ||| b.cond.neg) ≠ 0
  · rw [if_pos h]
    exact ⟨g, rfl, w, Step.refl g, .inl h, fun _ _ _ _ h _ _ => h⟩
  · rw [if_neg h]
    have hok : (both a.cond b.cond).ok := by unfold Cond.ok both; simpa using h
    obtain ⟨g', e, w', s, ent, kd, _⟩ := addEdgeToGraph_spec w ha hb hok (trans_ne_zero hka hkb)
    refine ⟨g', e, w', s, .inr ent, fun M hM hab hbn hB hEa hEb => ?_⟩
    intro σ i j hi hj t ht
    rw [s.n] at hi hj
    rcases (kd σ i j hi hj t).1 ht with h' | ⟨rfl, rfl, hs, ht'⟩
    · exact hB σ i j hi hj t h'
    · rw [sat_both] at hs
      refine hM σ a.src b.src b.snk ha hbn hb t (trans_mono ?_ (hEb σ hs.2) t ht')
      rw [← hab]; exact hEa σ hs.1

theorem wl_lt {g : Aug} (w : GWf g) : ∀ e ∈ g.wl.list, e.src < g.n ∧ e.snk < g.n :=
  fun e he => ⟨(w.wl e he).1, (w.wl e he).2.1⟩

theorem addTransIn_spec (b : Edge) (hkb : b.kind ≠ 0) (as : List Edge) {g : Aug} (w : GWf g) (hb : b.snk < g.n) (hbs : b.src < g.n)
    (has : ∀ a ∈ as, a.src < g.n ∧ a.kind ≠ 0) :
    ∃ g', addTransIn b as g = .ok g' ∧ GWf g' ∧ Step g g' ∧ (∀ a ∈ as, PairOk g' a b) ∧
      (∀ M, Closed g.n M → (∀ a ∈ as, a.snk = b.src ∧ EBelow M a) → Below M g → EBelow M b → Below M g') := by
  induction as generalizing g with
  | nil => exact ⟨g, rfl, w, Step.refl g, by simp, fun _ _ _ h _ => h⟩
  | cons a as ih =>
    obtain ⟨ha, hka⟩ := has a (by simp)
    obtain ⟨g1, e1, w1, s1, p1, m1⟩ := addTransitive_spec w ha hb hka hkb
    obtain ⟨g2, e2, w2, s2, p2, m2⟩ := ih w1 (by rw [s1.n]; exact hb) (by rw [s1.n]; exact hbs)
      (fun x hx => by rw [s1.n]; exact has x (by simp [hx]))
    refine ⟨g2, ?_, w2, s1.trans' (wl_lt w) s2 w1, ?_, ?_⟩
    · rw [addTransIn, e1, Res.ok_bind, e2]
    · intro x hx
      rcases List.mem_cons.1 hx with rfl | hx
      · exact p1.step s2 (by rw [s1.n]; exact ha) (by rw [s1.n]; exact hb)
      · exact p2 x hx
    · intro M hM hA hB hE
      have := hA a (by simp)
      exact m2 M (by rw [s1.n]; exact hM) (fun x hx => hA x (by simp [hx])) (m1 M hM this.1 hbs hB this.2 hE) hE

theorem addTransOut_spec (a : Edge) (hka : a.kind ≠ 0) (bs : List Edge) {g : Aug} (w : GWf g) (ha : a.src < g.n) (has : a.snk < g.n)
    (hbs : ∀ b ∈ bs, b.snk < g.n ∧ b.kind ≠ 0) :
    ∃ g', addTransOut a bs g = .ok g' ∧ GWf g' ∧ Step g g' ∧ (∀ b ∈ bs, PairOk g' a b) ∧
      (∀ M, Closed g.n M → (∀ b ∈ bs, a.snk = b.src ∧ EBelow M b) → Below M g → EBelow M a → Below M g') := by
  induction bs generalizing g with
  | nil => exact ⟨g, rfl, w, Step.refl g, by simp, fun _ _ _ h _ => h⟩
  | cons b bs ih =>
    obtain ⟨hb, hkb⟩ := hbs b (by simp)
    obtain ⟨g1, e1, w1, s1, p1, m1⟩ := addTransitive_spec w ha hb hka hkb
    obtain ⟨g2, e2, w2, s2, p2, m2⟩ := ih w1 (by rw [s1.n]; exact ha) (by rw [s1.n]; exact has)
      (fun x hx => by rw [s1.n]; exact hbs x (by simp [hx]))
    refine ⟨g2, ?_, w2, s1.trans' (wl_lt w) s2 w1, ?_, ?_⟩
    · rw [addTransOut, e1, Res.ok_bind, e2]
    · intro x hx
      rcases List.mem_cons.1 hx with rfl | hx
      · exact p1.step s2 (by rw [s1.n]; exact ha) (by rw [s1.n]; exact hb)
      · exact p2 x hx
    · intro M hM hA hB hE
      have := hA b (by simp)
      exact m2 M (by rw [s1.n]; exact hM) (fun x hx => hA x (by simp [hx]))
        (m1 M hM this.1 (by rw [← this.1]; exact has) hB hE this.2) hE

theorem closeUsingLoop_spec (e : Edge) (hk : e.kind ≠ 0) (is : List Nat) {g : Aug} (w : GWf g) (h1 : e.src < g.n)
    (h2 : e.snk < g.n) (his : ∀ i ∈ is, i < g.n) :
    ∃ g', closeUsingLoop e is g = .ok g' ∧ GWf g' ∧ Step g g' ∧
      (∀ i ∈ is, (∀ a ∈ g'.cell i e.src, a ∈ g'.wl.list ∨ PairOk g' a e) ∧
        (∀ b ∈ g'.cell e.snk i, b ∈ g'.wl.list ∨ PairOk g' e b)) ∧
      (∀ M, Closed g.n M → Below M g → EBelow M e → Below M g') := by
  induction is generalizing g with
  | nil => exact ⟨g, rfl, w, Step.refl g, by simp, fun _ _ h _ => h⟩
  | cons i is ih =>
    have hi := his i (by simp)
    obtain ⟨g1, e1, w1, s1, p1, m1⟩ := addTransIn_spec e hk (g.cell i e.src) w h2 h1
      (fun a ha => by have := w.ok i e.src hi h1 a ha; exact ⟨by rw [this.1]; exact hi, this.2.2.2⟩)
    have hn1 := s1.n
    obtain ⟨g2, e2, w2, s2, p2, m2⟩ := addTransOut_spec e hk (g1.cell e.snk i) w1 (by omega) (by omega)
      (fun b hb => by
        have := w1.ok e.snk i (by omega) (by omega) b hb; exact ⟨by rw [this.2.1]; omega, this.2.2.2⟩)
    have hn2 := s2.n
    obtain ⟨g3, e3, w3, s3, p3, m3⟩ := ih w2 (by omega) (by omega) (fun x hx => by have := his x (by simp [hx]); omega)
    have s12 := s1.trans' (wl_lt w) s2 w1
    have s13 := s12.trans' (wl_lt w) s3 w2
    have s23 := s2.trans' (wl_lt w1) s3 w2
    have hn3 := s3.n
    refine ⟨g3, ?_, w3, s13, ?_, ?_⟩
    · rw [closeUsingLoop, e1, Res.ok_bind, e2, Res.ok_bind, e3]
    · intro x hx
      rcases List.mem_cons.1 hx with rfl | hx
      · constructor
        · intro a ha
          rcases s13.new x e.src hi h1 a ha with h | h
          · right
            have hp := p1 a h
            have eo := w.ok x e.src hi h1 a h
            exact hp.step s23 (by rw [eo.1]; omega) (by omega)
          · exact .inl h
        · intro b hb
          rcases s23.new e.snk x (by omega) (by omega) b hb with h | h
          · right
            have hp := p2 b h
            have eo := w1.ok e.snk x (by omega) (by omega) b h
            exact hp.step s3 (by omega) (by rw [eo.2.1]; omega)
          · exact .inl h
      · exact p3 x hx
    · intro M hM hB hE
      have b1 := m1 M hM (fun a ha => ⟨(w.ok i e.src hi h1 a ha).2.1, hB.edge w hi h1 ha⟩) hB hE
      have b2 := m2 M (by rw [hn1]; exact hM) (fun b hb =>
        ⟨(w1.ok e.snk i (by omega) (by omega) b hb).1.symm, b1.edge w1 (by omega) (by omega) hb⟩) b1 hE
      exact m3 M (by rw [hn2, hn1]; exact hM) b2 hE

/-- worklist invariant: a pair of adjacent edges is accounted for unless one of them is still waiting -/
def WInv (g : Aug) : Prop :=
  ∀ i k j, i < g.n → k < g.n → j < g.n → ∀ a ∈ g.cell i k, ∀ b ∈ g.cell k j,
    a ∈ g.wl.list ∨ b ∈ g.wl.list ∨ PairOk g a b

/-- steps keep the worklist invariant -/
theorem WInv.step {g g' : Aug} (w : GWf g) (w' : GWf g') (h : WInv g) (s : Step g g') : WInv g' := by
  intro i k j hi hk hj a ha b hb
  have hn := s.n
  rcases s.new i k (by omega) (by omega) a ha with h1 | h1
  · rcases s.new k j (by omega) (by omega) b hb with h2 | h2
    · rcases h i k j (by omega) (by omega) (by omega) a h1 b h2 with h3 | h3 | h3
      · have eo := w'.ok i k hi hk a ha
        exact .inl (s.keep a h3 (by rw [eo.1, eo.2.1]; exact ha))
      · have eo := w'.ok k j hk hj b hb
        exact .inr (.inl (s.keep b h3 (by rw [eo.1, eo.2.1]; exact hb)))
      · have ea := w'.ok i k hi hk a ha
        have eb := w'.ok k j hk hj b hb
        exact .inr (.inr (h3.step s (by rw [ea.1]; omega) (by rw [eb.2.1]; omega)))
    · exact .inr (.inl h2)
  · exact .inl h1

/-- one iteration of the worklist loop -/
theorem closeUsingEdge_spec {g : Aug} (w : GWf g) (h : WInv g) {e : Edge} {rest : List Edge} (hw : g.wl.list = e :: rest) :
    ∃ g', closeUsingEdge { g with wl := { g.wl with list := rest } } e = .ok g' ∧ GWf g' ∧ WInv g' ∧
      Step { g with wl := { g.wl with list := rest } } g' ∧ (∀ M, Closed g.n M → Below M g → Below M g') := by
  set g0 : Aug := { g with wl := { g.wl with list := rest } } with hg0
  have hn : g0.n = g.n := rfl
  have hcell : ∀ i j, g0.cell i j = g.cell i j := fun _ _ => rfl
  have he : e ∈ g.wl.list := by rw [hw]; simp
  obtain ⟨h1, h2, h3⟩ := w.wl e he
  have hk := (w.ok _ _ h1 h2 e h3).2.2.2
  have w0 : GWf g0 := ⟨w.len, w.ok, w.id, w.nd, w.uniq, fun x hx => w.wl x (by rw [hw]; simp [show x ∈ rest from hx])⟩
  obtain ⟨g', e1, w', s, p, m⟩ := closeUsingLoop_spec e hk (List.range g0.n) w0 h1 h2 (by simp)
  refine ⟨g', e1, w', ?_, s, fun M hM hB => m M hM hB (hB.edge w h1 h2 h3)⟩
  have hn' : g'.n = g.n := s.n
  intro i k j hi hkk hj a ha b hb
  have ea := w'.ok i k hi hkk a ha
  have eb := w'.ok k j hkk hj b hb
  rcases s.new i k (by omega) (by omega) a ha with ha1 | ha1
  swap
  · exact .inl ha1
  rcases s.new k j (by omega) (by omega) b hb with hb1 | hb1
  swap
  · exact .inr (.inl hb1)
  rw [hcell] at ha1 hb1
  have useA : a = e → b ∈ g'.wl.list ∨ PairOk g' a b := by
    rintro rfl
    have := (p j (by rw [List.mem_range]; omega)).2 b (by rw [ea.2.1]; exact hb)
    exact this
  have useB : b = e → a ∈ g'.wl.list ∨ PairOk g' a b := by
    rintro rfl
    have := (p i (by rw [List.mem_range]; omega)).1 a (by rw [eb.1]; exact ha)
    exact this
  by_cases hae : a = e
  · exact .inr (useA hae)
  by_cases hbe : b = e
  · rcases useB hbe with h | h
    · exact .inl h
    · exact .inr (.inr h)
  rcases h i k j (by omega) (by omega) (by omega) a ha1 b hb1 with h' | h' | h'
  · rw [hw] at h'
    have : a ∈ g0.wl.list := by
      rcases List.mem_cons.1 h' with h' | h'
      · exact absurd h' hae
      · exact h'
    exact .inl (s.keep a this (by rw [ea.1, ea.2.1]; exact ha))
  · rw [hw] at h'
    have : b ∈ g0.wl.list := by
      rcases List.mem_cons.1 h' with h' | h'
      · exact absurd h' hbe
      · exact h'
    exact .inr (.inl (s.keep b this (by rw [eb.1, eb.2.1]; exact hb)))
  · have : PairOk g0 a b := h'
    exact .inr (.inr (this.step s (by rw [ea.1]; omega) (by rw [eb.2.1]; omega)))

/-! ### Termination -/

instance : Finite (BitVec w) := Finite.of_injective BitVec.toFin (fun _ _ h => BitVec.eq_of_toFin_eq h)

instance : Finite Cond := Finite.of_injective (fun c : Cond => (c.pos, c.neg)) (by
  rintro ⟨a, b⟩ ⟨c, d⟩ h; simp only [Prod.mk.injEq] at h; rw [h.1, h.2])

/-- all facts about `n` instances -/
def Uni (n : Nat) : Set (Nat × Nat × Cond × Dep) := {x | x.1 < n ∧ x.2.1 < n}

theorem uni_finite (n : Nat) : (Uni n).Finite := by
  have : Uni n ⊆ (Set.Iio n) ×ˢ ((Set.Iio n) ×ˢ (Set.univ : Set (Cond × Dep))) := by
    rintro ⟨a, b, c⟩ ⟨h1, h2⟩
    exact ⟨h1, h2, trivial⟩
  exact ((Set.finite_Iio n).prod ((Set.finite_Iio n).prod Set.finite_univ)).subset this

theorem dset_sub (g : Aug) : Dset g ⊆ Uni g.n := fun _ h => ⟨h.1, h.2.1⟩

/-- facts still missing -/
noncomputable def missing (g : Aug) : Nat := (Uni g.n \ Dset g).ncard

theorem missing_lt {g g' : Aug} (hn : g'.n = g.n) (h : Dset g ⊂ Dset g') : missing g' < missing g := by
  unfold missing
  rw [hn]
  apply Set.ncard_lt_ncard
  · rw [ssubset_iff_subset_not_subset]
    refine ⟨fun x hx => ⟨hx.1, fun h' => hx.2 (h.1 h')⟩, fun hs => ?_⟩
    obtain ⟨x, hx1, hx2⟩ := Set.exists_of_ssubset h
    have := dset_sub g' hx1
    rw [hn] at this
    exact (hs ⟨this, hx2⟩).2 hx1
  · exact (uni_finite _).subset Set.sdiff_subset

theorem missing_le {g g' : Aug} (s : Step g g') : missing g' ≤ missing g := by
  unfold missing
  rw [s.n]
  exact Set.ncard_le_ncard (fun x hx => ⟨hx.1, fun h' => hx.2 (s.dset h')⟩) ((uni_finite _).subset Set.sdiff_subset)

theorem closeWorklist_mono {f : Nat} {g g' : Aug} (h : closeWorklist f g = .ok g') : ∀ f', f ≤ f' → closeWorklist f' g = .ok g' := by
  induction f generalizing g with
  | zero => simp [closeWorklist] at h
  | succ f ih =>
    intro f' hf'
    obtain ⟨f'', rfl⟩ := Nat.exists_eq_add_of_le' (show 1 ≤ f' by omega)
    rw [closeWorklist] at h ⊢
    rcases hw : g.wl.list with _ | ⟨e, rest⟩
    · rw [hw] at h; exact h
    · rw [hw] at h
      simp only at h ⊢
      rw [Res.bind_eq_ok] at h
      obtain ⟨g1, h1, h2⟩ := h
      rw [h1, Res.ok_bind]
      exact ih h2 f'' (by omega)

/-- the part of `Step` that survives taking edges off the worklist -/
structure Mono (g g' : Aug) : Prop where
  n : g'.n = g.n
  attrs : g'.attrs = g.attrs
  links : g'.links = g.links
  mono : ∀ i j, i < g.n → j < g.n → ∀ c k, Ent (g.cell i j) c k → Ent (g'.cell i j) c k

theorem Step.toMono {g g' : Aug} (s : Step g g') : Mono g g' := ⟨s.n, s.attrs, s.links, s.mono⟩

theorem Mono.refl (g : Aug) : Mono g g := ⟨rfl, rfl, rfl, fun _ _ _ _ _ _ h => h⟩

theorem Mono.trans' {g g' g'' : Aug} (h1 : Mono g g') (h2 : Mono g' g'') : Mono g g'' := by
  refine ⟨h2.n.trans h1.n, h2.attrs.trans h1.attrs, h2.links.trans h1.links, ?_⟩
  intro i j hi hj c k h
  exact h2.mono i j (by rw [h1.n]; exact hi) (by rw [h1.n]; exact hj) c k (h1.mono i j hi hj c k h)

theorem Mono.dset {g g' : Aug} (h : Mono g g') : Dset g ⊆ Dset g' := by
  rintro ⟨i, j, c, k⟩ ⟨h1, h2, h3⟩
  refine ⟨?_, ?_, h.mono i j h1 h2 c k h3⟩
  · rw [h.n]; exact h1
  · rw [h.n]; exact h2

theorem Mono.missing_le {g g' : Aug} (s : Mono g g') : missing g' ≤ missing g := by
  unfold missing
  rw [s.n]
  exact Set.ncard_le_ncard (fun x hx => ⟨hx.1, fun h' => hx.2 (s.dset h')⟩) ((uni_finite _).subset Set.sdiff_subset)

theorem closeWorklist_total (g : Aug) (w : GWf g) (h : WInv g) :
    ∃ f g', closeWorklist f g = .ok g' ∧ GWf g' ∧ WInv g' ∧ g'.wl.list = [] ∧ Mono g g' ∧
      (∀ M, Closed g.n M → Below M g → Below M g') := by
  generalize hm : missing g = m
  induction m using Nat.strong_induction_on generalizing g with
  | _ m ihm =>
  generalize hl : g.wl.list.length = l
  induction l using Nat.strong_induction_on generalizing g with
  | _ l ihl =>
  rcases hw : g.wl.list with _ | ⟨e, rest⟩
  · exact ⟨1, g, by rw [closeWorklist, hw], w, h, hw, Mono.refl g, fun _ _ h => h⟩
  · obtain ⟨g1, e1, w1, i1, s1, m1⟩ := closeUsingEdge_spec w h hw
    have hn : g1.n = g.n := s1.n
    have mo : Mono g g1 := ⟨s1.n, s1.attrs, s1.links, s1.mono⟩
    have finish : (∃ f g', closeWorklist f g1 = .ok g' ∧ GWf g' ∧ WInv g' ∧ g'.wl.list = [] ∧ Mono g1 g' ∧
        (∀ M, Closed g1.n M → Below M g1 → Below M g')) →
        ∃ f g', closeWorklist f g = .ok g' ∧ GWf g' ∧ WInv g' ∧ g'.wl.list = [] ∧ Mono g g' ∧
        (∀ M, Closed g.n M → Below M g → Below M g') := by
      rintro ⟨f, g', a1, a2, a3, a4, a5, a6⟩
      refine ⟨f + 1, g', ?_, a2, a3, a4, mo.trans' a5, fun M hM hB => a6 M (by rw [hn]; exact hM) (m1 M hM hB)⟩
      rw [closeWorklist, hw]
      simp only
      rw [e1, Res.ok_bind, a1]
    apply finish
    rcases s1.grow with ⟨_, h2, _⟩ | h2
    · rcases Nat.lt_or_ge (missing g1) m with hlt | hge
      · exact ihm _ hlt g1 w1 i1 rfl
      · have hle := mo.missing_le
        refine ihl g1.wl.list.length ?_ g1 w1 i1 (by omega) rfl
        rw [hw] at hl
        simp only [List.length_cons] at hl
        simp only at h2
        omega
    · have : missing g1 < missing g := missing_lt hn h2
      exact ihm _ (by omega) g1 w1 i1 rfl

/-- An empty worklist means: under every assignment the dependencies are transitively closed. -/
theorem closed_of_winv {g : Aug} (w : GWf g) (h : WInv g) (he : g.wl.list = []) :
    Closed g.n (fun σ i j => kindAt σ (g.cell i j)) := by
  intro σ i k j hi hk hj t ht
  have key : ∀ a ∈ g.cell i k, ∀ b ∈ g.cell k j, Sat σ a.cond → Sat σ b.cond →
      Le (trans a.kind b.kind) (kindAt σ (g.cell i j)) := by
    intro a ha b hb sa sb
    have ea := w.ok i k hi hk a ha
    have eb := w.ok k j hk hj b hb
    have hs : Sat σ (both a.cond b.cond) := sat_both.2 ⟨sa, sb⟩
    rcases h i k j hi hk hj a ha b hb with h' | h' | h'
    · rw [he] at h'; cases h'
    · rw [he] at h'; cases h'
    · rcases h' with h' | ⟨x, hx, h1, h2⟩
      · exact absurd (ok_of_sat hs) h'
      · rw [ea.1, eb.2.1] at hx
        exact h2.trans' (le_kindAt hx (hs.mono h1))
  rw [trans_bit] at ht
  obtain ⟨n1, n2, ht⟩ := ht
  obtain ⟨b1, hb1⟩ := dep_ne_zero.1 n1
  obtain ⟨b2, hb2⟩ := dep_ne_zero.1 n2
  obtain ⟨a, ha, sa, -⟩ := kindAt_bit.1 hb1
  obtain ⟨b, hb, sb, -⟩ := kindAt_bit.1 hb2
  have ka := (w.ok i k hi hk a ha).2.2.2
  have kb := (w.ok k j hk hj b hb).2.2.2
  rcases ht with rfl | ⟨rfl, h1 | h1⟩ | ⟨rfl, h1, h2⟩ | ⟨rfl, h1, h2⟩
  · exact key a ha b hb sa sb _ (trans_bit.2 ⟨ka, kb, .inl rfl⟩)
  · obtain ⟨a', ha', sa', hx⟩ := kindAt_bit.1 h1
    exact key a' ha' b hb sa' sb _ (trans_bit.2 ⟨(w.ok i k hi hk a' ha').2.2.2, kb, .inr (.inl ⟨rfl, .inl hx⟩)⟩)
  · obtain ⟨b', hb', sb', hx⟩ := kindAt_bit.1 h1
    exact key a ha b' hb' sa sb' _ (trans_bit.2 ⟨ka, (w.ok k j hk hj b' hb').2.2.2, .inr (.inl ⟨rfl, .inr hx⟩)⟩)
  · obtain ⟨a', ha', sa', hx⟩ := kindAt_bit.1 h1
    obtain ⟨b', hb', sb', hy⟩ := kindAt_bit.1 h2
    exact key a' ha' b' hb' sa' sb' _ (trans_bit.2 ⟨(w.ok i k hi hk a' ha').2.2.2, (w.ok k j hk hj b' hb').2.2.2,
      .inr (.inr (.inl ⟨rfl, hx, hy⟩))⟩)
  · obtain ⟨a', ha', sa', hx⟩ := kindAt_bit.1 h1
    obtain ⟨b', hb', sb', hy⟩ := kindAt_bit.1 h2
    exact key a' ha' b' hb' sa' sb' _ (trans_bit.2 ⟨(w.ok i k hi hk a' ha').2.2.2, (w.ok k j hk hj b' hb').2.2.2,
      .inr (.inr (.inr ⟨rfl, hx, hy⟩))⟩)

/-- kinds only grow -/
theorem Mono.kind {g g' : Aug} (m : Mono g g') {i j : Nat} (hi : i < g.n) (hj : j < g.n) (σ : Nat → Bool) :
    Le (kindAt σ (g.cell i j)) (kindAt σ (g'.cell i j)) := by
  intro t ht
  obtain ⟨e, he, hs, hb⟩ := kindAt_bit.1 ht
  obtain ⟨e', he', h1, h2⟩ := m.mono i j hi hj _ _ ⟨e, he, Cond.sub_refl _, Le.refl _⟩
  exact kindAt_bit.2 ⟨e', he', hs.mono h1, h2 _ hb⟩

end Aps.Dnc
