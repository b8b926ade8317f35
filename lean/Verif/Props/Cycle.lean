import Verif.Proofs.CycleList
import Verif.Props.Dnc
/-!
# C28: the classes of analyze/aps-cycle.c are exact
-/
set_option linter.unusedVariables false
namespace Aps.Props
open Aps.Dnc Aps.Cycle

/-! ## Union-find, any history -/

/-- an operation on the forest -/
inductive UfOp
  | find (i : Nat)
  | merge (ord : Bool) (i j : Nat)

/-- run a history of `get_set` and `merge_sets` calls -/
def ufRun : List UfOp → Par → Res Par
  | [], P => .ok P
  | .find i :: ops, P => do
    let r ← getSet (P.length + 1) P i
    ufRun ops r.2
  | .merge ord i j :: ops, P => do
    let P ← mergeSets ord P i j
    ufRun ops P

/-- the merges of a history -/
def UfMerged (ops : List UfOp) (i j : Nat) : Prop := ∃ ord, UfOp.merge ord i j ∈ ops

/-- the operations speak about instances below `num` -/
def UfOk (num : Nat) : List UfOp → Prop
  | [] => True
  | .find i :: ops => i < num ∧ UfOk num ops
  | .merge _ i j :: ops => i < num ∧ j < num ∧ UfOk num ops

theorem ufRun_inv {num : Nat} (ops : List UfOp) (hok : UfOk num ops) {E : Nat → Nat → Prop} {P : Par} (h : Inv num (fun _ => False) E P) :
    ∃ P', ufRun ops P = .ok P' ∧ Inv num (fun _ => False) (fun i j => E i j ∨ UfMerged ops i j) P' := by
  induction ops generalizing E P with
  | nil => exact ⟨P, rfl, h.congr (fun _ _ => Iff.rfl) (by simp [UfMerged])⟩
  | cons o ops ih =>
    cases o with
    | find i =>
      obtain ⟨r, hr⟩ := h.rep i hok.1 (by simp)
      obtain ⟨Q, e, sm, -⟩ := getSet_ok hr
      have hQ : Inv num (fun _ => False) E Q :=
        ⟨sm.len.trans h.len, fun i hi => (sm.dead i).trans (h.dead i hi),
          fun i hi hd => (h.rep i hi hd).imp (fun r hr => (sm.rep i r).2 hr),
          fun i j r s h1 h2 => h.same i j r s ((sm.rep _ _).1 h1) ((sm.rep _ _).1 h2), h.alive⟩
      obtain ⟨P', e', i'⟩ := ih hok.2 hQ
      refine ⟨P', by rw [ufRun, e]; exact e', i'.congr (fun _ _ => Iff.rfl) ?_⟩
      intro x y; simp [UfMerged]
    | merge ord i j =>
      obtain ⟨Q, e, hQ⟩ := h.merge ord hok.1 hok.2.1 (by simp) (by simp)
      obtain ⟨P', e', i'⟩ := ih hok.2.2 hQ
      refine ⟨P', by rw [ufRun, e]; exact e', i'.congr (fun _ _ => Iff.rfl) ?_⟩
      intro x y
      simp only [UfMerged, List.mem_cons]
      constructor
      · rintro (a | ⟨o, a | a⟩)
        · exact .inl (.inl a)
        · cases a; exact .inl (.inr ⟨rfl, rfl⟩)
        · exact .inr ⟨o, a⟩
      · rintro ((a | ⟨rfl, rfl⟩) | ⟨o, a⟩)
        · exact .inl a
        · exact .inr ⟨ord, .inl rfl⟩
        · exact .inr ⟨o, .inr a⟩

/-- C28: after any history of finds and merges (and whichever argument of `merge_sets` C evaluates first) `get_set`
gives the same representative for two instances iff the merges connect them; it never fails and never loops, and the
representative is itself in the class. -/
theorem C28_history (num : Nat) (ops : List UfOp) (hok : UfOk num ops) :
    ∃ P, ufRun ops (initPar num) = .ok P ∧ P.length = num ∧
      ∀ i, i < num → ∃ r Q, getSet (num + 1) P i = .ok (r, Q) ∧ r < num ∧ Relation.EqvGen (UfMerged ops) i r ∧
        ∀ j, j < num → ∀ r' Q', getSet (num + 1) P j = .ok (r', Q') → (r = r' ↔ Relation.EqvGen (UfMerged ops) i j) := by
  obtain ⟨P, e, h⟩ := ufRun_inv ops hok (Inv.init num)
  have hE : (fun i j => False ∨ UfMerged ops i j) = UfMerged ops := by funext i j; simp
  rw [hE] at h
  refine ⟨P, e, h.len, fun i hi => ?_⟩
  obtain ⟨r, hr⟩ := h.rep i hi (by simp)
  obtain ⟨Q, eq, sm, -⟩ := getSet_ok hr
  rw [h.len] at eq
  refine ⟨r, Q, eq, h.len ▸ hr.rlt, (h.same i r r r hr hr.self).1 rfl, ?_⟩
  intro j hj r' Q' ej
  obtain ⟨t, ht⟩ := h.rep j hj (by simp)
  obtain ⟨Q2, eq2, -⟩ := getSet_ok ht
  rw [h.len, ej] at eq2
  cases eq2
  exact h.same i j r r' hr ht

example : UfOk 4 [.merge true 0 1, .find 0, .merge false 2 1] := by simp [UfOk]
example : ufRun [.merge true 0 1, .merge false 1 2, .find 0] (initPar 4) = .ok [some 2, some 2, some 2, some 3] := by decide +kernel

/-! ## make_cycles -/

/-- an attribute instance: in a summary graph or in an augmented graph -/
inductive Inst
  | phy (i k : Nat)
  | aug (a k : Nat)

/-- the instance exists -/
def Inst.valid (s : State) : Inst → Prop
  | .phy i k => ∃ p, s.phys[i]? = some p ∧ k < p.n
  | .aug a k => ∃ g, s.augs[a]? = some g ∧ k < g.n

/-- the number of an instance: summary graphs first, then augmented graphs, in order -/
def Inst.num (s : State) : Inst → Nat
  | .phy i k => ((s.phys.take i).map (·.n)).sum + k
  | .aug a k => (s.phys.map (·.n)).sum + ((s.augs.take a).map (·.n)).sum + k

/-- the instance depends on itself (in an augmented graph: under some assignment of the conditions) -/
def Inst.selfDep (s : State) : Inst → Prop
  | .phy i k => ∃ p, s.phys[i]? = some p ∧ mget p.n p.m k k ≠ 0
  | .aug a k => ∃ g, s.augs[a]? = some g ∧ ∃ σ, kindAt σ (g.cell k k) ≠ 0

/-- Why two instances belong together: they depend on each other (under one assignment), or one is the
instance of the other in an augmented graph and in a cycle. -/
inductive Together (s : State) : Inst → Inst → Prop
  | phy {i j k p} : s.phys[i]? = some p → j < p.n → k < p.n → mget p.n p.m j k ≠ 0 → mget p.n p.m k j ≠ 0 →
      Together s (.phy i j) (.phy i k)
  | aug {a j k g} (σ : Nat → Bool) : s.augs[a]? = some g → j < g.n → k < g.n →
      kindAt σ (g.cell j k) ≠ 0 → kindAt σ (g.cell k j) ≠ 0 → Together s (.aug a j) (.aug a k)
  | link {a i st k g p} : s.augs[a]? = some g → (st, i) ∈ g.links → s.phys[i]? = some p → k < p.n →
      mget p.n p.m k k ≠ 0 → Together s (.aug a (st + k)) (.phy i k)

theorem Inst.num_lt {s : State} {x : Inst} (h : x.valid s) : x.num s < (layout s).num := by
  rw [layout_num]
  cases x with
  | phy i k =>
    obtain ⟨p, hp, hk⟩ := h
    have hi := (List.getElem?_eq_some_iff.1 hp).1
    have e := starts_get (ns := s.phys.map (·.n)) (i := i) (by simpa using hi) 0
    have := starts_end e (n := p.n) (by simp [hp])
    rw [starts_total] at this
    simp only [Inst.num, List.map_take]; omega
  | aug a k =>
    obtain ⟨g, hg, hk⟩ := h
    have hi := (List.getElem?_eq_some_iff.1 hg).1
    have e := starts_get (ns := s.augs.map (·.n)) (i := a) (by simpa using hi) 0
    have := starts_end e (n := g.n) (by simp [hg])
    rw [starts_total] at this
    simp only [Inst.num, List.map_take]; omega

theorem block_inj {ns : List Nat} {i j k l n m : Nat} (hi : ns[i]? = some n) (hj : ns[j]? = some m) (hk : k < n) (hl : l < m)
    (h : (ns.take i).sum + k = (ns.take j).sum + l) : i = j ∧ k = l := by
  have li := (List.getElem?_eq_some_iff.1 hi).1
  have lj := (List.getElem?_eq_some_iff.1 hj).1
  have e1 := starts_get li 0
  have e2 := starts_get lj 0
  rcases Nat.lt_trichotomy i j with hh | rfl | hh
  · have := starts_apart hh e1 hi e2; omega
  · exact ⟨rfl, by omega⟩
  · have := starts_apart hh e2 hj e1; omega

theorem block_lt {ns : List Nat} {i k n : Nat} (hi : ns[i]? = some n) (hk : k < n) : (ns.take i).sum + k < ns.sum := by
  have li := (List.getElem?_eq_some_iff.1 hi).1
  have := starts_end (starts_get li 0) hi
  rw [starts_total] at this; omega

/-- numbers are unique -/
theorem Inst.num_inj {s : State} {x y : Inst} (hx : x.valid s) (hy : y.valid s) (h : x.num s = y.num s) : x = y := by
  cases x with
  | phy i k =>
    obtain ⟨p, hp, hk⟩ := hx
    have hp' : (s.phys.map (·.n))[i]? = some p.n := by simp [hp]
    cases y with
    | phy j l =>
      obtain ⟨q, hq, hl⟩ := hy
      simp only [Inst.num, List.map_take] at h
      obtain ⟨rfl, rfl⟩ := block_inj hp' (by simp [hq] : (s.phys.map (·.n))[j]? = some q.n) hk hl h
      rfl
    | aug a l =>
      simp only [Inst.num, List.map_take] at h
      have := block_lt hp' hk
      omega
  | aug a k =>
    obtain ⟨p, hp, hk⟩ := hx
    have hp' : (s.augs.map (·.n))[a]? = some p.n := by simp [hp]
    cases y with
    | phy j l =>
      obtain ⟨q, hq, hl⟩ := hy
      have := block_lt (by simp [hq] : (s.phys.map (·.n))[j]? = some q.n) hl
      simp only [Inst.num, List.map_take] at h
      omega
    | aug b l =>
      obtain ⟨q, hq, hl⟩ := hy
      simp only [Inst.num, List.map_take] at h
      obtain ⟨rfl, rfl⟩ := block_inj hp' (by simp [hq] : (s.augs.map (·.n))[b]? = some q.n) hk hl (by omega)
      rfl

theorem canTrans_iff {es1 es2 : List Edge} : canTrans es1 es2 = true ↔
    ∃ σ, ∃ e1 ∈ es1, ∃ e2 ∈ es2, Sat σ e1.cond ∧ Sat σ e2.cond := by
  simp only [canTrans, List.any_eq_true, beq_iff_eq]
  constructor
  · rintro ⟨e1, h1, e2, h2, h⟩
    obtain ⟨σ, hs⟩ := exists_sat (c := both e1.cond e2.cond) h
    exact ⟨σ, e1, h1, e2, h2, sat_both.1 hs⟩
  · rintro ⟨σ, e1, h1, e2, h2, a, b⟩
    exact ⟨e1, h1, e2, h2, ok_of_sat (sat_both.2 ⟨a, b⟩)⟩

theorem augBoth_iff {g : Aug} (w : GWf g) {j k : Nat} (hj : j < g.n) (hk : k < g.n) : augBoth g j k = true ↔
    ∃ σ, kindAt σ (g.cell j k) ≠ 0 ∧ kindAt σ (g.cell k j) ≠ 0 := by
  simp only [augBoth, Bool.and_eq_true, canTrans_iff, bne_iff_ne]
  constructor
  · rintro ⟨_, σ, e1, h1, e2, h2, s1, s2⟩
    obtain ⟨b1, hb1⟩ := dep_ne_zero.1 (w.ok j k hj hk e1 h1).2.2.2
    obtain ⟨b2, hb2⟩ := dep_ne_zero.1 (w.ok k j hk hj e2 h2).2.2.2
    exact ⟨σ, dep_ne_zero.2 ⟨b1, kindAt_bit.2 ⟨e1, h1, s1, hb1⟩⟩, dep_ne_zero.2 ⟨b2, kindAt_bit.2 ⟨e2, h2, s2, hb2⟩⟩⟩
  · rintro ⟨σ, n1, n2⟩
    obtain ⟨b1, hb1⟩ := dep_ne_zero.1 n1
    obtain ⟨b2, hb2⟩ := dep_ne_zero.1 n2
    obtain ⟨e1, h1, s1, hb1⟩ := kindAt_bit.1 hb1
    obtain ⟨e2, h2, s2, hb2⟩ := kindAt_bit.1 hb2
    exact ⟨⟨dep_ne_zero.2 ⟨b1, edgesetKind_bit.2 ⟨e1, h1, hb1⟩⟩, dep_ne_zero.2 ⟨b2, edgesetKind_bit.2 ⟨e2, h2, hb2⟩⟩⟩,
      σ, e1, h1, e2, h2, s1, s2⟩

theorem augDep_iff {g : Aug} (w : GWf g) {j : Nat} (hj : j < g.n) : augDep g j = true ↔ ∃ σ, kindAt σ (g.cell j j) ≠ 0 := by
  simp only [augDep, bne_iff_ne]
  constructor
  · intro h
    obtain ⟨b, hb⟩ := dep_ne_zero.1 h
    obtain ⟨e, he, hb⟩ := edgesetKind_bit.1 hb
    obtain ⟨σ, hs⟩ := exists_sat (w.ok j j hj hj e he).2.2.1
    exact ⟨σ, dep_ne_zero.2 ⟨b, kindAt_bit.2 ⟨e, he, hs, hb⟩⟩⟩
  · rintro ⟨σ, h⟩
    obtain ⟨b, hb⟩ := dep_ne_zero.1 h
    obtain ⟨e, he, _, hb⟩ := kindAt_bit.1 hb
    exact dep_ne_zero.2 ⟨b, edgesetKind_bit.2 ⟨e, he, hb⟩⟩

/-- closed states make every merge legal -/
theorem cycOk_of_fix {s : State} (h : SFix s) : CycOk s := by
  refine ⟨?_, ?_, ?_⟩
  · intro p hp j k hj hk hb
    simp only [phyBoth, Bool.and_eq_true, bne_iff_ne] at hb
    simp only [phyDep, bne_iff_ne]
    intro h0
    obtain ⟨b, hb⟩ := dep_ne_zero.1 (trans_ne_zero hb.2 hb.1)
    have := h.closed p hp k j k hk hj hk b hb
    rw [h0] at this; simp at this
  · intro g hg j k hj hk hb
    have w := (h.inv.augs g hg).wf
    obtain ⟨σ, n1, n2⟩ := (augBoth_iff w hj hk).1 hb
    rw [augDep_iff w hk]
    refine ⟨σ, fun h0 => ?_⟩
    obtain ⟨b, hb⟩ := dep_ne_zero.1 (trans_ne_zero n2 n1)
    have := closed_of_winv w (h.inv.augs g hg).winv (h.done g hg) σ k j k hk hj hk b hb
    simp only at this
    rw [h0] at this; simp at this
  · intro g hg l hl
    obtain ⟨p, hp, h1, -⟩ := (h.inv.augs g hg).links l hl
    refine ⟨p, hp, h1, fun k hk hd => ?_⟩
    simp only [phyDep, bne_iff_ne] at hd
    simp only [augDep, bne_iff_ne]
    obtain ⟨b, hb⟩ := dep_ne_zero.1 hd
    obtain ⟨e, he, _, hb⟩ := lowerbound_bit.1 (h.down g hg l hl p hp k k hk hk b hb)
    exact dep_ne_zero.2 ⟨b, edgesetKind_bit.2 ⟨e, he, hb⟩⟩

theorem eqvGen_iff {α : Type} {E F : α → α → Prop} (h1 : ∀ x y, E x y → Relation.EqvGen F x y)
    (h2 : ∀ x y, F x y → Relation.EqvGen E x y) (x y : α) : Relation.EqvGen E x y ↔ Relation.EqvGen F x y := by
  have sub : ∀ {E F : α → α → Prop}, (∀ x y, E x y → Relation.EqvGen F x y) → ∀ {x y}, Relation.EqvGen E x y → Relation.EqvGen F x y := by
    intro E F h x y e
    induction e with
    | rel _ _ h' => exact h _ _ h'
    | refl => exact .refl _
    | symm _ _ _ ih => exact .symm _ _ ih
    | trans _ _ _ _ _ a b => exact .trans _ _ _ a b
  exact ⟨sub h1, sub h2⟩

theorem Together.valid {s : State} (hc : CycOk s) {x y : Inst} (h : Together s x y) : x.valid s ∧ y.valid s := by
  cases h with
  | phy hp hj hk => exact ⟨⟨_, hp, hj⟩, _, hp, hk⟩
  | aug σ hg hj hk => exact ⟨⟨_, hg, hj⟩, _, hg, hk⟩
  | @link a i st k g p hg hl hp hk hd =>
    obtain ⟨p', hp', h1, -⟩ := hc.link g (List.mem_of_getElem? hg) _ hl
    simp only at hp' h1
    rw [hp] at hp'; cases hp'
    exact ⟨⟨_, hg, by omega⟩, _, hp, hk⟩

theorem eqvGen_lift {s : State} (hc : CycOk s) {E : Nat → Nat → Prop}
    (toT : ∀ x y, E x y → ∃ a b, Together s a b ∧ a.num s = x ∧ b.num s = y) {m n : Nat} (h : Relation.EqvGen E m n) :
    ∀ a : Inst, a.valid s → a.num s = m → ∃ b : Inst, b.valid s ∧ b.num s = n ∧ Relation.EqvGen (Together s) a b := by
  refine (?_ : (∀ a : Inst, a.valid s → a.num s = m → ∃ b : Inst, b.valid s ∧ b.num s = n ∧ Relation.EqvGen (Together s) a b) ∧
    (∀ a : Inst, a.valid s → a.num s = n → ∃ b : Inst, b.valid s ∧ b.num s = m ∧ Relation.EqvGen (Together s) a b)).1
  induction h with
  | rel m n h =>
    obtain ⟨a', b', ht, rfl, rfl⟩ := toT m n h
    obtain ⟨va, vb⟩ := ht.valid hc
    exact ⟨fun a hv e => ⟨b', vb, rfl, by rw [Inst.num_inj hv va e]; exact .rel _ _ ht⟩,
      fun b hv e => ⟨a', va, rfl, by rw [Inst.num_inj hv vb e]; exact .symm _ _ (.rel _ _ ht)⟩⟩
  | refl m => exact ⟨fun a hv e => ⟨a, hv, e, .refl _⟩, fun a hv e => ⟨a, hv, e, .refl _⟩⟩
  | symm _ _ _ ih => exact ⟨ih.2, ih.1⟩
  | trans _ _ _ _ _ ih1 ih2 =>
    refine ⟨fun a hv e => ?_, fun a hv e => ?_⟩
    · obtain ⟨b, vb, eb, h1⟩ := ih1.1 a hv e
      obtain ⟨c, vc, ec, h2⟩ := ih2.1 b vb eb
      exact ⟨c, vc, ec, .trans _ _ _ h1 h2⟩
    · obtain ⟨b, vb, eb, h1⟩ := ih2.2 a hv e
      obtain ⟨c, vc, ec, h2⟩ := ih1.2 b vb eb
      exact ⟨c, vc, ec, .trans _ _ _ h1 h2⟩

/-- the invariant after `make_cycles`, in terms of instances -/
theorem makeCycles_inv (ord : Bool) {s : State} (hc : CycOk s) (hw : ∀ g ∈ s.augs, GWf g) :
    ∃ P E, makeCycles ord s = .ok P ∧ Inv (layout s).num (fun n => ∃ x : Inst, x.valid s ∧ ¬ x.selfDep s ∧ x.num s = n) E P ∧
      ∀ x y, x.valid s → y.valid s → (Relation.EqvGen E (x.num s) (y.num s) ↔ Relation.EqvGen (Together s) x y) := by
  have hphy : ∀ {i : Nat} {p : Phy}, s.phys[i]? = some p → (starts (s.phys.map (·.n)) 0).1[i]? = some ((s.phys.take i).map (·.n)).sum := by
    intro i p hp
    have hi := (List.getElem?_eq_some_iff.1 hp).1
    rw [starts_get (by simpa using hi) 0, List.map_take, Nat.zero_add]
  have haug : ∀ {i : Nat} {g : Aug}, s.augs[i]? = some g → (starts (s.augs.map (·.n)) (s.phys.map (·.n)).sum).1[i]? =
      some ((s.phys.map (·.n)).sum + ((s.augs.take i).map (·.n)).sum) := by
    intro i p hp
    have hi := (List.getElem?_eq_some_iff.1 hp).1
    rw [starts_get (by simpa using hi), List.map_take]
  obtain ⟨P1, e1, i1⟩ := phyCycles_spec ord (num := (layout s).num) s.phys 0 hc.phy
    (by rw [starts_total, layout_num]; omega) (Inv.init _) (fun _ h => h.elim) (fun _ _ h => h.elim)
  have tot : (starts (s.phys.map (·.n)) 0).2 = (s.phys.map (·.n)).sum := by rw [starts_total]; omega
  obtain ⟨P2, e2, i2⟩ := augCycles_spec ord (num := (layout s).num) (ps := s.phys) (pbs := (starts (s.phys.map (·.n)) 0).1)
    s.augs (s.phys.map (·.n)).sum hc.aug (by rw [starts_total, layout_num]) i1
    (by
      rintro x (h | ⟨i, p, st, hp, hs, j, hj, _, rfl⟩)
      · exact h.elim
      · rw [← tot]
        have := starts_end hs (n := p.n) (by simp [hp]); omega)
    (by
      rintro x y (h | ⟨i, p, st, hp, hs, j, hj, _, k, hk, _, _, rfl, rfl⟩)
      · exact h.elim
      · rw [← tot]
        have := starts_end hs (n := p.n) (by simp [hp]); omega)
    (by
      intro g hg l hl
      obtain ⟨p, hp, h1, h2⟩ := hc.link g hg l hl
      refine ⟨p, _, hp, hphy hp, h1, fun i hi hd => ⟨h2 i hi hd, ?_, ?_⟩⟩
      · have := block_lt (by simp [hp] : (s.phys.map (·.n))[l.2]? = some p.n) hi
        rw [List.map_take]; exact this
      · rintro (h | ⟨i', p', st, hp', hs, j, hj, hdj, e⟩)
        · exact h.elim
        · rw [hphy hp'] at hs; cases hs
          obtain ⟨e1, rfl⟩ := block_inj (by simp [hp] : (s.phys.map (·.n))[l.2]? = some p.n)
            (by simp [hp'] : (s.phys.map (·.n))[i']? = some p'.n) hi hj (by rw [← List.map_take, ← List.map_take]; exact e)
          rw [← e1, hp] at hp'; cases hp'
          rw [hd] at hdj; cases hdj)
  refine ⟨P2, _, ?_, i2.congr ?_ (fun _ _ => Iff.rfl), ?_⟩
  · simp only [makeCycles, layout]
    rw [show (starts (s.augs.map (·.n)) (starts (s.phys.map (·.n)) 0).2).2 = (layout s).num from rfl, e1]
    simp only [Res.ok_bind]
    rw [tot]; exact e2
  · intro n hn
    constructor
    · rintro ⟨x, hv, hs, rfl⟩
      cases x with
      | phy i k =>
        obtain ⟨p, hp, hk⟩ := hv
        refine .inl (.inr ⟨i, p, _, hp, hphy hp, k, hk, ?_, rfl⟩)
        simp only [phyDep, bne_eq_false_iff_eq]
        by_contra h0
        exact hs ⟨p, hp, h0⟩
      | aug a k =>
        obtain ⟨g, hg, hk⟩ := hv
        refine .inr ⟨a, g, _, hg, haug hg, k, hk, ?_, rfl⟩
        by_contra h0
        rw [Bool.not_eq_false, augDep_iff (hw g (List.mem_of_getElem? hg)) hk] at h0
        exact hs ⟨g, hg, h0⟩
    · rintro ((h | ⟨i, p, st, hp, hs, j, hj, hd, rfl⟩) | ⟨i, g, st, hg, hs, j, hj, hd, rfl⟩)
      · exact h.elim
      · rw [hphy hp] at hs; cases hs
        refine ⟨.phy i j, ⟨p, hp, hj⟩, ?_, rfl⟩
        rintro ⟨p', hp', h0⟩
        rw [hp] at hp'; cases hp'
        simp [phyDep] at hd; exact h0 hd
      · rw [haug hg] at hs; cases hs
        refine ⟨.aug i j, ⟨g, hg, hj⟩, ?_, rfl⟩
        rintro ⟨g', hg', h0⟩
        rw [hg] at hg'; cases hg'
        rw [← augDep_iff (hw g (List.mem_of_getElem? hg)) hj] at h0
        rw [h0] at hd; cases hd
  · -- every merge is a reason and conversely
    have toT : ∀ x y, ((False ∨ ∃ (i : Nat) (p : Phy) (st : Nat), s.phys[i]? = some p ∧ (starts (s.phys.map (·.n)) 0).1[i]? = some st ∧
          ∃ j, j < p.n ∧ phyDep p j = true ∧ ∃ k, k < p.n ∧ k ≠ j ∧ phyBoth p j k = true ∧ x = st + j ∧ y = st + k) ∨
        ∃ (i : Nat) (g : Aug) (st : Nat), s.augs[i]? = some g ∧ (starts (s.augs.map (·.n)) (s.phys.map (·.n)).sum).1[i]? = some st ∧
          ((∃ j, j < g.n ∧ augDep g j = true ∧ ∃ k, k < g.n ∧ k ≠ j ∧ augBoth g j k = true ∧ x = st + j ∧ y = st + k) ∨
           ∃ l ∈ g.links, ∃ p pb, s.phys[l.2]? = some p ∧ (starts (s.phys.map (·.n)) 0).1[l.2]? = some pb ∧
            ∃ i, i < p.n ∧ phyDep p i = true ∧ x = st + (l.1 + i) ∧ y = pb + i)) →
        ∃ a b, Together s a b ∧ a.num s = x ∧ b.num s = y := by
      rintro x y ((h | ⟨i, p, st, hp, hs, j, hj, hd, k, hk, hne, hb, rfl, rfl⟩) | ⟨i, g, st, hg, hs, h⟩)
      · exact h.elim
      · rw [hphy hp] at hs; cases hs
        simp only [phyBoth, Bool.and_eq_true, bne_iff_ne] at hb
        exact ⟨_, _, .phy hp hj hk hb.1 hb.2, rfl, rfl⟩
      · rw [haug hg] at hs; cases hs
        rcases h with ⟨j, hj, hd, k, hk, hne, hb, rfl, rfl⟩ | ⟨l, hl, p, pb, hp, hpb, k, hk, hd, rfl, rfl⟩
        · obtain ⟨σ, n1, n2⟩ := (augBoth_iff (hw g (List.mem_of_getElem? hg)) hj hk).1 hb
          exact ⟨_, _, .aug σ hg hj hk n1 n2, rfl, rfl⟩
        · rw [hphy hp] at hpb; cases hpb
          refine ⟨_, _, .link (st := l.1) (i := l.2) hg hl hp hk (by simpa [phyDep] using hd), ?_, rfl⟩
          simp [Inst.num]
    intro x y hx hy
    constructor
    · intro h
      obtain ⟨b, vb, eb, h'⟩ := eqvGen_lift hc toT h x hx rfl
      rw [Inst.num_inj vb hy eb] at h'
      exact h'
    · intro h
      clear hx hy
      induction h with
      | refl => exact .refl _
      | symm _ _ _ ih => exact .symm _ _ ih
      | trans _ _ _ _ _ a b => exact .trans _ _ _ a b
      | rel x y h =>
        cases h with
        | @phy i j k p hp hj hk n1 n2 =>
          by_cases hjk : k = j
          · subst hjk; exact .refl _
          · have hb : phyBoth p j k = true := by simp only [phyBoth, Bool.and_eq_true, bne_iff_ne]; exact ⟨n1, n2⟩
            have hb' : phyBoth p k j = true := by simp only [phyBoth, Bool.and_eq_true, bne_iff_ne]; exact ⟨n2, n1⟩
            exact .rel _ _ (.inl (.inr ⟨i, p, _, hp, hphy hp, j, hj, hc.phy p (List.mem_of_getElem? hp) k j hk hj hb', k, hk, hjk, hb, rfl, rfl⟩))
        | @aug a j k g σ hg hj hk n1 n2 =>
          by_cases hjk : k = j
          · subst hjk; exact .refl _
          · have w := hw g (List.mem_of_getElem? hg)
            have hb := (augBoth_iff w hj hk).2 ⟨σ, n1, n2⟩
            have hb' := (augBoth_iff w hk hj).2 ⟨σ, n2, n1⟩
            exact .rel _ _ (.inr ⟨a, g, _, hg, haug hg, .inl ⟨j, hj, hc.aug g (List.mem_of_getElem? hg) k j hk hj hb', k, hk, hjk, hb, rfl, rfl⟩⟩)
        | @link a i st k g p hg hl hp hk hd =>
          refine .rel _ _ (.inr ⟨a, g, _, hg, haug hg, .inr ⟨_, hl, p, _, hp, hphy hp, k, hk, ?_, ?_, rfl⟩⟩)
          · simpa [phyDep] using hd
          · simp [Inst.num]

/-- C28: on the result of the DNC closure `make_cycles` never fails; it takes out exactly the instances that do not
depend on themselves, and two of the others have the same representative iff a chain of mutual dependencies and of
occurrences of summary instances in augmented graphs connects them. -/
theorem C28_make_cycles (ord : Bool) (s0 s : State) (h0 : DncStart s0) (f : Nat) (hr : dncClose f s0 = .ok s) :
    ∃ P, makeCycles ord s = .ok P ∧
      (∀ x : Inst, x.valid s → (P[x.num s]? = some none ↔ ¬ x.selfDep s)) ∧
      (∀ x : Inst, x.valid s → x.selfDep s → ∃ r Q, getSet (P.length + 1) P (x.num s) = .ok (r, Q) ∧
        ∀ y : Inst, y.valid s → ∀ r' Q', getSet (P.length + 1) P (y.num s) = .ok (r', Q') →
          (r = r' ↔ Relation.EqvGen (Together s) x y)) := by
  obtain ⟨f2, s', e, fx, r⟩ := dncClose_total s0 h0.inv
  have e1 := dncClose_mono e (max f f2) (Nat.le_max_right _ _)
  rw [dncClose_mono hr (max f f2) (Nat.le_max_left _ _)] at e1
  cases e1
  obtain ⟨P, E, eP, hI, hE⟩ := makeCycles_inv ord (cycOk_of_fix fx) (fun g hg => (fx.inv.augs g hg).wf)
  have dead : ∀ x : Inst, x.valid s → (P[x.num s]? = some none ↔ ¬ x.selfDep s) := by
    intro x hx
    rw [hI.dead _ (Inst.num_lt hx)]
    constructor
    · rintro ⟨y, hy, hs, e⟩
      rw [← Inst.num_inj hy hx e]; exact hs
    · exact fun h => ⟨x, hx, h, rfl⟩
  refine ⟨P, eP, dead, fun x hx hs => ?_⟩
  have nd : ∀ x : Inst, x.valid s → x.selfDep s → ¬ ∃ y : Inst, y.valid s ∧ ¬ y.selfDep s ∧ y.num s = x.num s := by
    rintro x hx hs ⟨y, hy, hn, e⟩
    rw [Inst.num_inj hy hx e] at hn; exact hn hs
  obtain ⟨rx, hrx⟩ := hI.rep _ (Inst.num_lt hx) (nd x hx hs)
  obtain ⟨Q, eQ, -⟩ := getSet_ok hrx
  refine ⟨rx, Q, eQ, fun y hy r' Q' e' => ?_⟩
  by_cases hsy : y.selfDep s
  · obtain ⟨ry, hry⟩ := hI.rep _ (Inst.num_lt hy) (nd y hy hsy)
    obtain ⟨Q2, eQ2, -⟩ := getSet_ok hry
    rw [e'] at eQ2; cases eQ2
    rw [hI.same _ _ _ _ hrx hry, hE x y hx hy]
  · have := (dead y hy).2 hsy
    simp [getSet, this] at e'

/-- C28: `get_fiber_cycles` then never fails and lists every class once: the representative, all and only the members,
in order of their numbers, and the join of the dependencies of the members on themselves. -/
theorem C28_fiber_cycles (ord : Bool) (s0 s : State) (h0 : DncStart s0) (f : Nat) (hr : dncClose f s0 = .ok s) :
    ∃ P P' cs, makeCycles ord s = .ok P ∧ fiberCycles s P = .ok (P', cs) ∧ (cs.map (·.root)).Nodup ∧
      (∀ x : Inst, x.valid s → ¬ x.selfDep s → P'[x.num s]? = some none) ∧
      (∀ x : Inst, x.valid s → x.selfDep s → ∃ c ∈ cs, P'[x.num s]? = some (some c.root) ∧
        ∀ y : Inst, y.valid s → y.selfDep s → (P'[y.num s]? = some (some c.root) ↔ Relation.EqvGen (Together s) x y)) ∧
      (∀ c ∈ cs, c.insts.Nodup ∧ (∀ n, n ∈ c.insts ↔ n < (layout s).num ∧ P'[n]? = some (some c.root)) ∧ c.root ∈ c.insts ∧
        ∀ b, c.kind.getLsbD b = true ↔ ∃ x : Inst, x.valid s ∧ x.num s ∈ c.insts ∧
          (match x with
            | .phy i k => ∃ p, s.phys[i]? = some p ∧ (mget p.n p.m k k).getLsbD b = true
            | .aug a k => ∃ g, s.augs[a]? = some g ∧ ∃ σ, (kindAt σ (g.cell k k)).getLsbD b = true)) := by
  obtain ⟨f2, s', e, fx, r⟩ := dncClose_total s0 h0.inv
  have e1 := dncClose_mono e (max f f2) (Nat.le_max_right _ _)
  rw [dncClose_mono hr (max f f2) (Nat.le_max_left _ _)] at e1
  cases e1
  have hw : ∀ g ∈ s.augs, GWf g := fun g hg => (fx.inv.augs g hg).wf
  obtain ⟨P, E, eP, hI, hE⟩ := makeCycles_inv ord (cycOk_of_fix fx) hw
  have ht : Total P := by
    intro i hi
    rw [hI.len] at hi
    by_cases hd : ∃ x : Inst, x.valid s ∧ ¬ x.selfDep s ∧ x.num s = i
    · exact .inl ((hI.dead i hi).2 hd)
    · exact .inr (hI.rep i hi hd)
  obtain ⟨P', e', sm, fl⟩ := fiberCycles_spec s ht hI.len
  have nd : ∀ x : Inst, x.valid s → x.selfDep s → ¬ ∃ y : Inst, y.valid s ∧ ¬ y.selfDep s ∧ y.num s = x.num s := by
    rintro x hx hs ⟨y, hy, hn, e⟩
    rw [Inst.num_inj hy hx e] at hn; exact hn hs
  have hphy : ∀ {i : Nat} {p : Phy}, s.phys[i]? = some p → (starts (s.phys.map (·.n)) 0).1[i]? = some ((s.phys.take i).map (·.n)).sum := by
    intro i p hp
    have hi := (List.getElem?_eq_some_iff.1 hp).1
    rw [starts_get (by simpa using hi) 0, List.map_take, Nat.zero_add]
  have tot : (starts (s.phys.map (·.n)) 0).2 = (s.phys.map (·.n)).sum := by rw [starts_total]; omega
  have haug : ∀ {i : Nat} {g : Aug}, s.augs[i]? = some g → (starts (s.augs.map (·.n)) (s.phys.map (·.n)).sum).1[i]? =
      some ((s.phys.map (·.n)).sum + ((s.augs.take i).map (·.n)).sum) := by
    intro i p hp
    have hi := (List.getElem?_eq_some_iff.1 hp).1
    rw [starts_get (by simpa using hi), List.map_take]
  refine ⟨P, P', _, eP, e', ?_, ?_, ?_, ?_⟩
  · rw [List.map_map]
    have : (fun c : Cyc => c.root) ∘ cycOf s P' = id := by funext i; rfl
    rw [this, List.map_id]
    exact List.Nodup.filter _ List.nodup_range
  · intro x hx hs
    rw [sm.dead, hI.dead _ (Inst.num_lt hx)]
    exact ⟨x, hx, hs, rfl⟩
  · intro x hx hs
    obtain ⟨rx, hrx⟩ := hI.rep _ (Inst.num_lt hx) (nd x hx hs)
    have hx' := fl.rep.1 ((sm.rep _ _).2 hrx)
    refine ⟨cycOf s P' rx, ?_, hx', ?_⟩
    · refine List.mem_map.2 ⟨rx, List.mem_filter.2 ⟨?_, ?_⟩, rfl⟩
      · rw [List.mem_range, ← hI.len]; exact hrx.rlt
      · simpa using fl _ _ hx'
    · intro y hy hsy
      obtain ⟨ry, hry⟩ := hI.rep _ (Inst.num_lt hy) (nd y hy hsy)
      have hy' := fl.rep.1 ((sm.rep _ _).2 hry)
      rw [hy', ← hE x y hx hy, ← hI.same _ _ _ _ hrx hry]
      simp only [Option.some.injEq]
      exact eq_comm
  · intro c hc
    obtain ⟨i, hi, rfl⟩ := List.mem_map.1 hc
    rw [List.mem_filter, List.mem_range, decide_eq_true_eq] at hi
    have hin := cycOf_insts s P' i
    have mem : ∀ n, n ∈ (cycOf s P' i).insts ↔ n < (layout s).num ∧ P'[n]? = some (some i) := by
      intro n; rw [hin]; simp
    refine ⟨by rw [hin]; exact List.Nodup.filter _ List.nodup_range, mem, (mem i).2 hi, ?_⟩
    intro b
    have ek : (cycOf s P' i).kind = (collectAugs i P' s.augs (starts (s.augs.map (·.n)) (starts (s.phys.map (·.n)) 0).2).1
      (collectPhys i P' s.phys (starts (s.phys.map (·.n)) 0).1 ([], 0))).2 := rfl
    rw [ek, collectAugs_snd, collectPhys_snd, tot]
    constructor
    · rintro ((h | ⟨j, p, st, hp, hst, k, hk, h1, h2⟩) | ⟨j, g, st, hg, hst, k, hk, h1, h2⟩)
      · simp at h
      · rw [hphy hp] at hst; cases hst
        exact ⟨.phy j k, ⟨p, hp, hk⟩, (mem _).2 ⟨Inst.num_lt ⟨p, hp, hk⟩, h1⟩, p, hp, h2⟩
      · rw [haug hg] at hst; cases hst
        obtain ⟨e, he, hb⟩ := edgesetKind_bit.1 h2
        obtain ⟨σ, hs⟩ := exists_sat ((hw g (List.mem_of_getElem? hg)).ok k k hk hk e he).2.2.1
        exact ⟨.aug j k, ⟨g, hg, hk⟩, (mem _).2 ⟨Inst.num_lt ⟨g, hg, hk⟩, h1⟩, g, hg, σ, kindAt_bit.2 ⟨e, he, hs, hb⟩⟩
    · rintro ⟨x, hx, hm, hb⟩
      have hm := ((mem _).1 hm).2
      cases x with
      | phy j k =>
        obtain ⟨p, hp, hb⟩ := hb
        obtain ⟨p', hp', hk⟩ := hx
        rw [hp] at hp'; cases hp'
        exact .inl (.inr ⟨j, p, _, hp, hphy hp, k, hk, hm, hb⟩)
      | aug j k =>
        obtain ⟨g, hg, σ, hb⟩ := hb
        obtain ⟨g', hg', hk⟩ := hx
        rw [hg] at hg'; cases hg'
        obtain ⟨e, he, _, hb⟩ := kindAt_bit.1 hb
        exact .inr ⟨j, g, _, hg, haug hg, k, hk, hm, edgesetKind_bit.2 ⟨e, he, hb⟩⟩

/-! ### example states -/

/-- a graph from a list of edges -/
def buildEdges : List (Nat × Nat × Cond × Dep) → Aug → Res Aug
  | [], g => .ok g
  | (i, j, c, k) :: es, g => do
    let g ← addEdgeToGraph i j c k g
    buildEdges es g

theorem buildEdges_built {n : Nat} {attrs : List Nat} {links : List (Nat × Nat)} (es : List (Nat × Nat × Cond × Dep)) {g g' : Aug}
    (hg : Dnc.Built n attrs links g) (he : es.all (fun e => decide (e.1 < n ∧ e.2.1 < n ∧ e.2.2.1.pos &&& e.2.2.1.neg = 0 ∧ e.2.2.2 ≠ 0)) = true)
    (h : buildEdges es g = .ok g') : Dnc.Built n attrs links g' := by
  induction es generalizing g with
  | nil => simp only [buildEdges, Res.ok.injEq] at h; subst h; exact hg
  | cons e es ih =>
    obtain ⟨i, j, c, k⟩ := e
    simp only [List.all_cons, Bool.and_eq_true, decide_eq_true_eq] at he
    obtain ⟨⟨h1, h2, h3, h4⟩, he⟩ := he
    simp only [buildEdges, Res.bind_eq_ok] at h
    obtain ⟨g1, e1, h⟩ := h
    exact ih (.add i j c k hg h1 h2 (exists_sat h3) h4 e1) he h

/-- a start state from lists of edges and summary matrices -/
def buildState (as : List (Nat × List Nat × List (Nat × Nat) × List (Nat × Nat × Cond × Dep))) (ps : List Phy) : Res State :=
  match as with
  | [] => .ok ⟨[], ps⟩
  | (n, attrs, links, es) :: as => do
    let g ← buildEdges es (emptyAug n attrs links)
    let s ← buildState as ps
    return ⟨g :: s.augs, ps⟩

/-- checks that make it a legal start -/
def buildOk (as : List (Nat × List Nat × List (Nat × Nat) × List (Nat × Nat × Cond × Dep))) (ps : List Phy) : Bool :=
  ps.all (fun p => decide (p.m.length = p.n * p.n)) &&
  as.all (fun a =>
    a.2.2.2.all (fun e => decide (e.1 < a.1 ∧ e.2.1 < a.1 ∧ e.2.2.1.pos &&& e.2.2.1.neg = 0 ∧ e.2.2.2 ≠ 0)) &&
    a.2.2.1.all (fun l => match ps[l.2]? with
      | none => false
      | some p => decide (l.1 + p.n ≤ a.1) && (List.range p.n).all (fun i => decide (a.2.1[l.1 + i]? = p.attrs[i]?))))

theorem buildState_start {as : List (Nat × List Nat × List (Nat × Nat) × List (Nat × Nat × Cond × Dep))} {ps : List Phy} {s : State}
    (h : buildState as ps = .ok s) (hok : buildOk as ps = true) : DncStart s ∧ s.phys = ps := by
  simp only [buildOk, Bool.and_eq_true] at hok
  obtain ⟨hp, ha⟩ := hok
  induction as generalizing s with
  | nil =>
    simp only [buildState, Res.ok.injEq] at h
    subst h
    refine ⟨⟨by simp, ?_, by simp⟩, rfl⟩
    simpa using hp
  | cons a as ih =>
    obtain ⟨n, attrs, links, es⟩ := a
    simp only [List.all_cons, Bool.and_eq_true] at ha
    obtain ⟨⟨h1, h2⟩, h3⟩ := ha
    simp only [buildState, Res.bind_eq_ok, Res.pure_eq, Res.ok.injEq] at h
    obtain ⟨g, eg, s', es', rfl⟩ := h
    obtain ⟨i1, i2⟩ := ih es' h3
    have hb := buildEdges_built es (.empty) h1 eg
    obtain ⟨hn, hat, hl⟩ := built_n hb
    refine ⟨⟨?_, ?_, ?_⟩, rfl⟩
    · intro x hx
      simp only [List.mem_cons] at hx
      rcases hx with rfl | hx
      · rw [hn, hat, hl]; exact hb
      · exact i1.augs x hx
    · simpa using hp
    · intro x hx l hll
      simp only [List.mem_cons] at hx
      rcases hx with rfl | hx
      · rw [hl] at hll
        have := List.all_eq_true.1 h2 l hll
        cases hpl : ps[l.2]? with
        | none => simp [hpl] at this
        | some p =>
          simp only [hpl, Bool.and_eq_true, decide_eq_true_eq, List.all_eq_true, List.mem_range] at this
          exact ⟨p, rfl, by rw [hn]; exact this.1, fun i hi => by rw [hat]; exact this.2 i hi⟩
      · have := i1.links x hx l hll
        rw [i2] at this
        exact this

/-- A rule whose parent (instances 0, 1) has two attributes that depend on each other, with a child (2, 3) of the same
phylum: the summary, the parent and the child form one class of six instances. -/
def c28state : Res State :=
  buildState [(4, [10, 11, 10, 11], [(0, 0), (2, 0)], [(0, 1, ⟨0, 0⟩, 1), (1, 0, ⟨0, 0⟩, 1)])] [⟨2, [10, 11], false, [0, 0, 0, 0]⟩]

example : ∃ s0 s P, c28state = .ok s0 ∧ DncStart s0 ∧ dncClose 40 s0 = .ok s ∧ makeCycles true s = .ok P ∧
    fiberCycles s P = .ok (List.replicate 6 (some 1), [⟨1, [0, 1, 2, 3, 4, 5], 1⟩]) := by
  have key : c28state.bind (fun s => (dncClose 40 s).bind fun s => (makeCycles true s).bind fun P => fiberCycles s P) =
    .ok (List.replicate 6 (some 1), [⟨1, [0, 1, 2, 3, 4, 5], 1⟩]) := by decide +kernel
  cases h : c28state with
  | ok s0 =>
    rw [h] at key
    simp only [Res.bind] at key
    cases h1 : dncClose 40 s0 with
    | ok s =>
      rw [h1] at key
      simp only [Res.bind] at key
      cases h2 : makeCycles true s with
      | ok P =>
        rw [h2] at key
        exact ⟨s0, s, P, rfl, (buildState_start h (by decide +kernel)).1, h1, h2, key⟩
      | _ => rw [h2] at key; cases key
    | _ => rw [h1] at key; cases key
  | _ => rw [h] at key; cases key

end Aps.Props
